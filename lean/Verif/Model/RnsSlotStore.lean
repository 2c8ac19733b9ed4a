import Verif.Model.RnsCtStore
/-!
# Programs on RNS BGV ciphertexts with packed plaintexts

As `Model/RnsCtStore.lean`, and the program also has a finite field encoder and may encode vectors of slots.
-/

namespace Shell.RnsSlotStore
open Rns Rns.Res
open RnsCtStore (Mem)

/-- What a program is given: the encoder, which has the context, and otherwise what programs on polynomials are given
(rns/finite_field_encoder.h:44-131). -/
structure Given where
  e : FFEncoder
  x : ℕ → RCt
  y : ℕ → RCt
  relin : ℕ → RRelin
  galois : ℕ → ℕ → RGalois

/-- The same with the context of the encoder (rns/finite_field_encoder.h:115-131). -/
def Given.base (v : Given) : RnsCtStore.Given := ⟨v.e.ctx, v.x, v.y, v.relin, v.galois⟩

/-- A call: `encodeSlots` is `FiniteFieldEncoder::EncodeBgv` for the first `lev` moduli, whose result is in NTT form; the
others are those of programs on polynomials, with the coefficient encoder among them
(rns/finite_field_encoder.cc:80-111, rns/rns_bgv_ciphertext.h:55-174). -/
inductive Call where
  | encodeSlots (m : List ℕ) (lev : ℕ)
  | call (c : RnsCtStore.Call)

/-- The objects after the call and the returned status (rns/finite_field_encoder.cc:80-111,
rns/rns_bgv_ciphertext.h:55-174). -/
def Call.run (v : Given) (m : Mem) : Call → Res Mem
  | encodeSlots u lev => withTemp m (ffEncodeBgv v.e u (v.e.ctx.qs.take lev)) fun p =>
      ({ m with pts := m.pts ++ [p] }, .ok ())
  | call c => c.run v.base m

/-- The statuses that the calls of a program return, and the objects at the end (rns/rns_bgv_ciphertext.h:55-174). -/
def runAll (v : Given) : Mem → List Call → List (Outcome Unit) × Mem
  | m, [] => ([], m)
  | m, c :: cs => ((c.run v m).2 :: (runAll v (c.run v m).1 cs).1, (runAll v (c.run v m).1 cs).2)

end Shell.RnsSlotStore
