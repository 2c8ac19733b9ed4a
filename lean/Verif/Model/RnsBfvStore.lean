import Verif.Model.RnsCtStore
/-!
# Programs on RNS BFV ciphertexts

As `Model/RnsCtStore`, for `RnsBfvCiphertext`.  Plaintexts are encoded scaled (`Q/t` times the message) or unscaled.
-/

namespace Shell.RnsBfvStore
open Rns Rns.Res RnsCtStore

/-- A member that changes a ciphertext; the numbers `b` and `i` select ciphertexts and plaintexts of the program
(rns/rns_ciphertext.h:101-259, rns/rns_bfv_ciphertext.h:171-186, rns/rns_bfv_ciphertext.cc:33-97, 207-222). -/
inductive Op where
  | negate
  | add (b : ℕ)
  | sub (b : ℕ)
  | addPlain (i : ℕ)
  | subPlain (i : ℕ)
  | absorb (i : ℕ)
  | absorbSimple (i : ℕ)
  | scale (c : ℕ)
  | fused (b i : ℕ)
  | reduce

/-- A call; `encode` is `EncodeBfv` for the first `lev` moduli; `opNew` works on a copy
(rns/coefficient_encoder.cc:113-171, rns/rns_bfv_ciphertext.h:60-202, rns/rns_relinearization_key.h:80-105,
rns/rns_galois_key.h:137-161). -/
inductive Call where
  | encode (m : List ℕ) (lev : ℕ) (scaled : Bool)
  | input (i : ℕ)
  | received (i : ℕ)
  | copy (a : ℕ)
  | opNew (a : ℕ) (op : Op)
  | opIn (a : ℕ) (op : Op)
  | mul (a b : ℕ)
  | substitute (a : ℕ) (k : ℤ)
  | relin (a lev : ℕ)
  | galois (a lev p : ℕ)

/-- The ciphertext after the call and the returned status (rns/rns_ciphertext.h:101-259,
rns/rns_bfv_ciphertext.h:171-186, rns/rns_bfv_ciphertext.cc:33-97, 207-222). -/
def Op.run (est : Estimate) (v : Given) (m : Mem) (x : RCt) : Op → Res RCt
  | negate => x.negateIn
  | add b => withTemp x (rd m.cts b) fun y => x.addIn y
  | sub b => withTemp x (rd m.cts b) fun y => x.subIn y
  | addPlain i => withTemp x (rd m.pts i) fun p => x.addPlainIn p
  | subPlain i => withTemp x (rd m.pts i) fun p => x.subPlainIn p
  | absorb i => withTemp x (rd m.pts i) fun p => RCt.absorbBfvIn est v.c x p
  | absorbSimple i => withTemp x (rd m.pts i) fun p => x.absorbSimpleIn p
  | scale c => x.absorbIntIn c
  | fused b i => withTemp x (rd m.cts b) fun y => withTemp x (rd m.pts i) fun p => x.fusedAbsorbAddIn y p
  | reduce => RCt.modReduceBfvIn v.c x

/-- The objects after the call and the returned status (rns/coefficient_encoder.cc:113-171,
rns/rns_bfv_ciphertext.h:60-202, rns/rns_bfv_ciphertext.cc:99-205, rns/rns_relinearization_key.h:80-105,
rns/rns_galois_key.h:137-161). -/
def Call.run (est : Estimate) (v : Given) (m : Mem) : Call → Res Mem
  | encode u lev scaled => withTemp m (encodeBfv v.c u (v.c.qs.take lev) scaled) fun p =>
      ({ m with pts := m.pts ++ [p] }, .ok ())
  | input i => newCt m (.ok (v.x i))
  | received i => newCt m (.ok (v.y i))
  | copy a => newCt m (rd m.cts a)
  | opNew a op => withTemp m (rd m.cts a) fun x => newCt m (op.run est v m x).value
  | opIn a op => withTemp m (rd m.cts a) fun x =>
      ({ m with cts := m.cts.set a (op.run est v m x).1 }, (op.run est v m x).2)
  | mul a b => withTemp m (rd m.cts a) fun x => withTemp m (rd m.cts b) fun y => newCt m (RCt.mulBfv est v.c x y)
  | substitute a k => withTemp m (rd m.cts a) fun x => newCt m (x.substitute k)
  | relin a lev => withTemp m (rd m.cts a) fun x => newCt m ((v.relin lev).applyTo x)
  | galois a lev p => withTemp m (rd m.cts a) fun x => newCt m ((v.galois lev p).applyTo x)

/-- The statuses that the calls of a program return, and the objects at the end (rns/rns_bfv_ciphertext.h:60-202). -/
def runAll (est : Estimate) (v : Given) : Mem → List Call → List (Outcome Unit) × Mem
  | m, [] => ([], m)
  | m, c :: cs => ((c.run est v m).2 :: (runAll est v (c.run est v m).1 cs).1, (runAll est v (c.run est v m).1 cs).2)

end Shell.RnsBfvStore
