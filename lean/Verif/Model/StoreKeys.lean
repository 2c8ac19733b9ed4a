import Verif.Model.Store
/-!
# Programs that also hold relinearization and Galois keys
-/

namespace Shell.Store
open WordCt Rns Rns.Res
variable {E : Type} [Add E] [Mul E] [Div E] [NatCast E]

/-- A call of a member of `Polynomial` or `SymmetricRlweCiphertext`, or `ApplyTo` of the key number `r` on the
ciphertext number `a` (relinearization_key.cc:288-344, galois_key.h:66-75).  A `GaloisKey` is the relinearization key
that it holds (galois_key.h:105-110). -/
inductive KeyedCall (E : Type) where
  | plain (c : Call E)
  | relinearize (a r : ℕ)
  | galois (a r : ℕ)

/-- The objects after the call and the returned status (relinearization_key.cc:288-344, galois_key.h:66-75); `bR` is
`ErrorParams()->B_relinearize` of the ciphertext. -/
def KeyedCall.run (e : Env E) (bR : ℕ → ℕ → Outcome E) (keys : List Word.RKey) (m : Mem E) : KeyedCall E → Res (Mem E)
  | plain c => c.run e m
  | relinearize a r => withTemp m (rd m.cts a) fun x => withTemp m (rd keys r) fun k => newCt m (WordCt.relinearize k bR x)
  | galois a r => withTemp m (rd m.cts a) fun x => withTemp m (rd keys r) fun k => newCt m (WordCt.galoisApply k bR x)

/-- The statuses that the calls of a program return, and the objects at the end (polynomial.h:49-344,
symmetric_encryption.h:73-607, relinearization_key.cc:288-344, galois_key.h:66-75). -/
def runKeyed (e : Env E) (bR : ℕ → ℕ → Outcome E) (keys : List Word.RKey) :
    Mem E → List (KeyedCall E) → List (Outcome Unit) × Mem E
  | m, [] => ([], m)
  | m, c :: cs => ((c.run e bR keys m).2 :: (runKeyed e bR keys (c.run e bR keys m).1 cs).1,
      (runKeyed e bR keys (c.run e bR keys m).1 cs).2)

end Shell.Store
