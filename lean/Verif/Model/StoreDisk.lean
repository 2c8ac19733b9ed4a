import Verif.Model.StoreKeys
/-!
# Programs that save and load polynomials, symmetric-key ciphertexts and keys, and crash

A program as in `Model/StoreKeys.lean` that can also serialize its objects, keep the messages, and deserialize them later,
any number of times.  When it crashes, its objects and keys are lost and the messages are kept.  The encoding of the
messages as bytes by protocol buffers is not modelled, as in C29.
-/

namespace Shell
open Rns Rns.Res Word
variable {E ρ : Type} [Add E] [Mul E] [Div E] [NatCast E]

namespace WordCt

/-- `SerializedSymmetricRlweCiphertext` (serialization.proto:33-42). -/
structure SObj (E : Type) where
  c : List SPoly
  power : ℤ
  error : E

/-- `SymmetricRlweCiphertext::Serialize` (symmetric_encryption.h:534-544).  Products that `FusedAbsorbAddInPlaceLazily`
has collected are not written. -/
def Obj.serialize {E : Type} (p : MParams) (x : Obj E) : Outcome (SObj E) := do
  let c ← x.c.mapM (serPoly p)
  .ok ⟨c, x.power, x.error⟩

/-- `SymmetricRlweCiphertext::Deserialize` (symmetric_encryption.h:546-569). -/
def Obj.deserialize {E : Type} (p : MParams) (s : SObj E) : Outcome (Obj E) :=
  if s.c.length ≤ 0 then .err .invalidArgument
  else if s.c.length > Mont.kMaxNumCoeffs then .err .invalidArgument
  else do
    let c ← s.c.mapM (desPoly p)
    .ok ⟨c, s.power, s.error, []⟩

end WordCt

namespace Store
open WordCt

/-- The objects and keys of the program and the kept messages (serialization.proto:23-73). -/
structure Disk (E : Type) where
  mem : Mem E
  keys : List Word.RKey
  savedPolys : List SPoly
  savedCts : List (SObj E)
  savedKeys : List SRKey

/-- A call: one of the program without messages, `Serialize` of the polynomial `i`, the ciphertext `a` or the key `r`,
`Deserialize` of the message `j`, or the loss of all objects (polynomial.h:282-308, symmetric_encryption.h:534-569,
relinearization_key.cc:346-454, galois_key.h:77-103). -/
inductive DiskCall (E : Type) where
  | call (c : KeyedCall E)
  | savePoly (i : ℕ)
  | saveCt (a : ℕ)
  | saveKey (r : ℕ)
  | loadPoly (j : ℕ)
  | loadCt (j : ℕ)
  | loadKey (j : ℕ)
  | crash

/-- The state after the call and the returned status; the generator `R` and its `fuel` expand the seeds of loaded keys
(polynomial.h:282-308, symmetric_encryption.h:534-569, relinearization_key.cc:346-454, galois_key.h:77-103). -/
def DiskCall.run (R : Rng ρ) (fuel : ℕ) (e : Env E) (bR : ℕ → ℕ → Outcome E) (s : Disk E) : DiskCall E → Res (Disk E)
  | call c => ({ s with mem := (c.run e bR s.keys s.mem).1 }, (c.run e bR s.keys s.mem).2)
  | savePoly i => withTemp s (rd s.mem.polys i) fun v => withTemp s (serPoly e.p v) fun d =>
      ({ s with savedPolys := s.savedPolys ++ [d] }, .ok ())
  | saveCt a => withTemp s (rd s.mem.cts a) fun x => withTemp s (x.serialize e.p) fun d =>
      ({ s with savedCts := s.savedCts ++ [d] }, .ok ())
  | saveKey r => withTemp s (rd s.keys r) fun k => withTemp s k.serialize fun d =>
      ({ s with savedKeys := s.savedKeys ++ [d] }, .ok ())
  | loadPoly j => withTemp s (rd s.savedPolys j) fun d => withTemp s (desPoly e.p d) fun v =>
      ({ s with mem := { s.mem with polys := s.mem.polys ++ [v] } }, .ok ())
  | loadCt j => withTemp s (rd s.savedCts j) fun d => withTemp s (Obj.deserialize e.p d) fun x =>
      ({ s with mem := { s.mem with cts := s.mem.cts ++ [x] } }, .ok ())
  | loadKey j => withTemp s (rd s.savedKeys j) fun d => withTemp s (Word.RKey.deserialize R fuel d e.p e.q) fun k =>
      ({ s with keys := s.keys ++ [k] }, .ok ())
  | crash => ({ s with mem := ⟨[], []⟩, keys := [] }, .ok ())

/-- The statuses that the calls of a program return, and the state at the end (polynomial.h:49-344,
symmetric_encryption.h:73-607, relinearization_key.cc:288-454, galois_key.h:66-103). -/
def runDisk (R : Rng ρ) (fuel : ℕ) (e : Env E) (bR : ℕ → ℕ → Outcome E) :
    Disk E → List (DiskCall E) → List (Outcome Unit) × Disk E
  | s, [] => ([], s)
  | s, c :: cs => ((c.run R fuel e bR s).2 :: (runDisk R fuel e bR (c.run R fuel e bR s).1 cs).1,
      (runDisk R fuel e bR (c.run R fuel e bR s).1 cs).2)

end Store
end Shell
