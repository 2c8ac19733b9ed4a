import Verif.Model.RnsBfvStore
import Verif.Model.RnsSlotStore
/-!
# Programs on RNS BFV ciphertexts with packed plaintexts

As `Model/RnsBfvStore.lean`, and the program also has a finite field encoder and may encode vectors of slots.
-/

namespace Shell.RnsBfvSlotStore
open Rns Rns.Res
open RnsCtStore (Mem)
open RnsSlotStore (Given)

/-- A call: `encodeSlots` is `FiniteFieldEncoder::EncodeBfv` for the first `lev` moduli; the others are those of programs
on polynomials, with the coefficient encoder among them (rns/finite_field_encoder.cc:147-182,
rns/rns_bfv_ciphertext.h:60-202). -/
inductive Call where
  | encodeSlots (m : List ℕ) (lev : ℕ) (scaled : Bool)
  | call (c : RnsBfvStore.Call)

/-- The objects after the call and the returned status (rns/finite_field_encoder.cc:147-182,
rns/rns_bfv_ciphertext.h:60-202). -/
def Call.run (est : Estimate) (v : Given) (m : Mem) : Call → Res Mem
  | encodeSlots u lev scaled => withTemp m (ffEncodeBfv v.e u (v.e.ctx.qs.take lev) scaled) fun p =>
      ({ m with pts := m.pts ++ [p] }, .ok ())
  | call c => c.run est v.base m

/-- The statuses that the calls of a program return, and the objects at the end (rns/rns_bfv_ciphertext.h:60-202). -/
def runAll (est : Estimate) (v : Given) : Mem → List Call → List (Outcome Unit) × Mem
  | m, [] => ([], m)
  | m, c :: cs => ((c.run est v m).2 :: (runAll est v (c.run est v m).1 cs).1, (runAll est v (c.run est v m).1 cs).2)

end Shell.RnsBfvSlotStore
