import Verif.Model.InPlace
import Verif.Model.RnsGadget
/-!
# Programs on RNS BGV ciphertexts

A program holds any number of plaintexts and `RnsBgvCiphertext` objects of one context, and relinearization and Galois
keys, and calls their members one after the other.  The operands of a call are objects of the program, and may be the
object that the call changes: that the members then compute with the values before the call is C77.
-/

namespace Shell.RnsCtStore
open Rns Rns.Res

/-- What a program is given: the context, ciphertexts that were encrypted with the secret and with the public key, and
the keys for every number of moduli (and power) (rns/rns_context.h:47, rns/rns_relinearization_key.h:52,
rns/rns_galois_key.h:58). -/
structure Given where
  c : Rns.Ctx
  x : ℕ → RCt
  y : ℕ → RCt
  relin : ℕ → RRelin
  galois : ℕ → ℕ → RGalois

/-- The objects of the program (rns/rns_polynomial.h:48, rns/rns_bgv_ciphertext.h:36). -/
structure Mem where
  pts : List RPoly
  cts : List RCt

/-- A member that changes a ciphertext; the numbers `b` and `i` select ciphertexts and plaintexts of the program
(rns/rns_ciphertext.h:101-259, rns/rns_bgv_ciphertext.h:146-157). -/
inductive Op where
  | negate
  | add (b : ℕ)
  | sub (b : ℕ)
  | addPlain (i : ℕ)
  | subPlain (i : ℕ)
  | absorb (i : ℕ)
  | scale (c : ℕ)
  | fused (b i : ℕ)
  | reduce

/-- A call.  `encode` is `EncodeBgv` for the first `lev` moduli followed by `ConvertToNttForm`; `opNew` works on a copy
(rns/coefficient_encoder.cc:47-72, rns/rns_bgv_ciphertext.h:55-174, rns/rns_relinearization_key.h:80-105,
rns/rns_galois_key.h:137-148). -/
inductive Call where
  | encode (m : List ℕ) (lev : ℕ)
  | input (i : ℕ)
  | received (i : ℕ)
  | copy (a : ℕ)
  | opNew (a : ℕ) (op : Op)
  | opIn (a : ℕ) (op : Op)
  | mul (a b : ℕ)
  | substitute (a : ℕ) (k : ℤ)
  | relin (a lev : ℕ)
  | galois (a lev p : ℕ)

/-- The ciphertext after the call and the returned status; `ModReduce` is given the plaintext modulus and the inverses
of the context for the level of the ciphertext (rns/rns_ciphertext.h:101-259, rns/rns_bgv_ciphertext.h:146-157). -/
def Op.run (v : Given) (m : Mem) (x : RCt) : Op → Res RCt
  | negate => x.negateIn
  | add b => withTemp x (rd m.cts b) fun y => x.addIn y
  | sub b => withTemp x (rd m.cts b) fun y => x.subIn y
  | addPlain i => withTemp x (rd m.pts i) fun p => x.addPlainIn p
  | subPlain i => withTemp x (rd m.pts i) fun p => x.subPlainIn p
  | absorb i => withTemp x (rd m.pts i) fun p => x.absorbIn p
  | scale c => x.absorbIntIn c
  | fused b i => withTemp x (rd m.cts b) fun y => withTemp x (rd m.pts i) fun p => x.fusedAbsorbAddIn y p
  | reduce => withTemp x (rd v.c.primeQInvs (x.ms.length - 1)) fun row =>
      x.modReduceBgvIn v.c.t (row.take (x.ms.length - 1))

/-- A call that returns a new ciphertext (for example `Substitute`, rns/rns_bgv_ciphertext.h:161-174). -/
def newCt (m : Mem) (o : Outcome RCt) : Res Mem :=
  withTemp m o fun x => ({ m with cts := m.cts ++ [x] }, .ok ())

/-- The objects after the call and the returned status (rns/coefficient_encoder.cc:47-72,
rns/rns_bgv_ciphertext.h:55-174, rns/rns_relinearization_key.h:80-105, rns/rns_galois_key.h:137-148). -/
def Call.run (v : Given) (m : Mem) : Call → Res Mem
  | encode u lev => withTemp m (do Rns.toNtt (v.c.qs.take lev) (← encodeBgv v.c u (v.c.qs.take lev))) fun p =>
      ({ m with pts := m.pts ++ [p] }, .ok ())
  | input i => newCt m (.ok (v.x i))
  | received i => newCt m (.ok (v.y i))
  | copy a => newCt m (rd m.cts a)
  | opNew a op => withTemp m (rd m.cts a) fun x => newCt m (op.run v m x).value
  | opIn a op => withTemp m (rd m.cts a) fun x =>
      ({ m with cts := m.cts.set a (op.run v m x).1 }, (op.run v m x).2)
  | mul a b => withTemp m (rd m.cts a) fun x => withTemp m (rd m.cts b) fun y => newCt m (x.mul y)
  | substitute a k => withTemp m (rd m.cts a) fun x => newCt m (x.substitute k)
  | relin a lev => withTemp m (rd m.cts a) fun x => newCt m ((v.relin lev).applyTo x)
  | galois a lev p => withTemp m (rd m.cts a) fun x => newCt m ((v.galois lev p).applyTo x)

/-- The statuses that the calls of a program return, and the objects at the end (rns/rns_bgv_ciphertext.h:55-174). -/
def runAll (v : Given) : Mem → List Call → List (Outcome Unit) × Mem
  | m, [] => ([], m)
  | m, c :: cs => ((c.run v m).2 :: (runAll v (c.run v m).1 cs).1, (runAll v (c.run v m).1 cs).2)

end Shell.RnsCtStore
