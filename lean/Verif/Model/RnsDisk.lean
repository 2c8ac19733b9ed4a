import Verif.Model.RnsSlotStore
/-!
# Programs that save and load RNS plaintexts and ciphertexts, and crash

A program as in `Model/RnsCtStore.lean` and the files built on it, which can also serialize its objects, keep the messages,
and deserialize them later, any number of times.  When it crashes, its objects are lost and the messages are kept.  The
encoding of the messages as bytes by protocol buffers is not modelled, as in C60.
-/

namespace Shell.RnsDisk
open Rns Rns.Res
open RnsCtStore (Mem)
variable {β : Type}

/-- The objects of the program and the kept messages (rns/serialization.proto:24-45). -/
structure State where
  mem : Mem
  pts : List Serialized
  cts : List RCt.SCt

/-- A call: one of the program without messages, or `Serialize` of a plaintext with the first `lev` moduli or of a
ciphertext, `Deserialize` of a message with the first `lev` moduli, or the loss of all objects
(rns/rns_polynomial.h:93-134, rns/rns_ciphertext.h:70-98). -/
inductive Call (β : Type) where
  | call (c : β)
  | savePt (i lev : ℕ)
  | saveCt (a : ℕ)
  | loadPt (j lev : ℕ)
  | loadCt (j lev : ℕ)
  | crash

/-- The state after the call and the returned status; `base` runs the other calls and `qs` are the moduli
(rns/rns_polynomial.h:93-134, rns/rns_ciphertext.h:70-98). -/
def Call.run (base : Mem → β → Res Mem) (qs : List Modulus) (s : State) : Call β → Res State
  | call c => ({ s with mem := (base s.mem c).1 }, (base s.mem c).2)
  | savePt i lev => withTemp s (rd s.mem.pts i) fun p => withTemp s (Rns.serialize (qs.take lev) p) fun d =>
      ({ s with pts := s.pts ++ [d] }, .ok ())
  | saveCt a => withTemp s (rd s.mem.cts a) fun x => withTemp s x.serialize fun d =>
      ({ s with cts := s.cts ++ [d] }, .ok ())
  | loadPt j lev => withTemp s (rd s.pts j) fun d => withTemp s (Rns.deserialize (qs.take lev) d) fun p =>
      ({ s with mem := { s.mem with pts := s.mem.pts ++ [p] } }, .ok ())
  | loadCt j lev => withTemp s (rd s.cts j) fun d => withTemp s (RCt.deserialize d (qs.take lev)) fun x =>
      ({ s with mem := { s.mem with cts := s.mem.cts ++ [x] } }, .ok ())
  | crash => ({ s with mem := ⟨[], []⟩ }, .ok ())

/-- The statuses that the calls of a program return, and the state at the end (rns/rns_ciphertext.h:70-98). -/
def runAll (base : Mem → β → Res Mem) (qs : List Modulus) : State → List (Call β) → List (Outcome Unit) × State
  | s, [] => ([], s)
  | s, c :: cs => ((c.run base qs s).2 :: (runAll base qs (c.run base qs s).1 cs).1,
      (runAll base qs (c.run base qs s).1 cs).2)

end Shell.RnsDisk
