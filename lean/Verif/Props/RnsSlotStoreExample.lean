import Verif.Props.RnsSlotStore
import Verif.Props.RnsSessionExample
import Verif.Props.RnsCtStoreExample
/-!
# A run of a program on RNS BGV ciphertexts with packed plaintexts and calls that fail
-/

namespace Shell
open Spec Rns

instance {l t : ℕ} (P : LParams) (M : IdealBgvMem l t) (c : RnsSlotStore.Call) : Decidable (SlotProper P M c) := by
  cases c <;> unfold SlotProper <;> infer_instance

/-- Whether a program is proper can be computed. -/
def slotProgram {l t : ℕ} (P : LParams) (zeta : ZMod t) (f g : ℕ → Fin (2 ^ l) → ZMod t) :
    (M : IdealBgvMem l t) → (cs : List RnsSlotStore.Call) → Decidable (SlotProgram P zeta f g M cs)
  | _, [] => .isTrue trivial
  | M, c :: cs => by
    unfold SlotProgram
    cases idealSlotCall P zeta f g M c with
    | ok M' => have := slotProgram P zeta f g M' cs; infer_instance
    | error e => have := slotProgram P zeta f g M cs; infer_instance

instance {l t : ℕ} (P : LParams) (zeta : ZMod t) (f g : ℕ → Fin (2 ^ l) → ZMod t) (M : IdealBgvMem l t)
    (cs : List RnsSlotStore.Call) : Decidable (SlotProgram P zeta f g M cs) := slotProgram P zeta f g M cs

instance : NeZero exChoice.t := ⟨by decide⟩

/-- A product, relinearized and reduced in place, moved by a vector and by the constant polynomial 3, rotated by a
substitution and a Galois key; three calls fail: a Galois key applied to three components, a vector for other moduli, and
five messages for four slots. -/
def exSlotProgram : List RnsSlotStore.Call :=
  [.call (.input 0), .call (.received 0), .call (.mul 0 1), .call (.galois 2 1 5), .call (.relin 2 2),
    .call (.opIn 3 .reduce), .encodeSlots [1, 2] 1, .call (.opIn 0 (.addPlain 0)), .call (.opIn 3 (.addPlain 0)),
    .call (.encode [3] 1), .call (.opIn 3 (.subPlain 1)), .call (.substitute 3 5), .call (.galois 4 1 5),
    .encodeSlots [1, 2, 3, 4, 5] 1]

/-- The messages of the session as slots. -/
def exSlotMessage (m : List ℕ) : ℕ → Fin (2 ^ exChoice.l) → ZMod exChoice.t := fun _ j => (m.getD j 0 : ℕ)

/-- What the machine says, for every root. -/
theorem exSlotMachine : ∀ zeta : ZMod exChoice.t, zeta ^ 4 = -1 →
    SlotProgram exChoice.params zeta (exSlotMessage [1, 2, 3, 4]) (exSlotMessage [5, 6]) ⟨[], []⟩ exSlotProgram ∧
    (idealSlotRun exChoice.params zeta (exSlotMessage [1, 2, 3, 4]) (exSlotMessage [5, 6]) ⟨[], []⟩ exSlotProgram).1 =
      [.ok (), .ok (), .ok (), .err .invalidArgument, .ok (), .ok (), .ok (), .err .invalidArgument, .ok (), .ok (),
        .ok (), .ok (), .ok (), .err .invalidArgument] ∧
    (match (idealSlotRun exChoice.params zeta (exSlotMessage [1, 2, 3, 4]) (exSlotMessage [5, 6]) ⟨[], []⟩
      exSlotProgram).2.cts[5]? with
    | some X => X.level == 1 && X.power == 1 && decide (2 * lsbBound 17 [] X.noise < 12289) &&
        (List.ofFn fun i => (X.value i).val) == [11, 3, 14, 14]
    | none => false) = true := by decide +kernel

/-- The hypotheses of `c99_program` are met; the result is `(1·5 + 1 - 3, 2·6 + 2 - 3, -3, -3)` with its halves rotated. -/
example : ∃ c k pk v, BgvSession lcg lcg 100 exEstimate exChoice c k pk (slotEnv v) (fun _ => [1, 2, 3, 4])
      (fun _ => [5, 6]) ∧
    (RnsSlotStore.runAll v ⟨[], []⟩ exSlotProgram).1 =
      [.ok (), .ok (), .ok (), .err .invalidArgument, .ok (), .ok (), .ok (), .err .invalidArgument, .ok (), .ok (),
        .ok (), .ok (), .ok (), .err .invalidArgument] ∧
    ∃ r, (RnsSlotStore.runAll v ⟨[], []⟩ exSlotProgram).2.cts[5]? = some r ∧
      (k 1).decryptBgv (finiteFieldEncoder exEstimate v.e) r = .ok [11, 3, 14, 14] := by
  obtain ⟨c, k, pk, v, h⟩ := exSession_ok
  refine ⟨c, k, pk, ⟨v.e, v.x, v.y, v.relin, v.galois⟩, h, ?_⟩
  obtain ⟨zeta, hz, hprog⟩ := c99_program (v := ⟨v.e, v.x, v.y, v.relin, v.galois⟩) lcg_words exChoice_valid h
  obtain ⟨hp, hs, h5⟩ := exSlotMachine zeta hz
  obtain ⟨e1, -, e3, e4⟩ := hprog exSlotProgram hp
  refine ⟨e1.trans hs, ?_⟩
  cases hX : (idealSlotRun exChoice.params zeta (exSlotMessage [1, 2, 3, 4]) (exSlotMessage [5, 6]) ⟨[], []⟩
      exSlotProgram).2.cts[5]? with
  | none => rw [hX] at h5; cases h5
  | some X =>
    rw [hX] at h5
    simp only [Bool.and_eq_true, beq_iff_eq, decide_eq_true_eq] at h5
    obtain ⟨⟨⟨a1, a2⟩, a3⟩, a4⟩ := h5
    have hlt := (List.getElem?_eq_some_iff.mp hX).1
    have hr := List.getElem?_eq_getElem (l := (RnsSlotStore.runAll ⟨v.e, v.x, v.y, v.relin, v.galois⟩ ⟨[], []⟩
      exSlotProgram).2.cts) (i := 5) (by rw [e3]; exact hlt)
    obtain ⟨-, -, -, b1, -⟩ := e4 5 _ X hr hX
    refine ⟨_, hr, ?_⟩
    have := (b1 a2 (by
      intro q hq
      have hq : q = 12289 := by simpa [exChoice] using hq.symm
      subst hq
      rw [a1]
      exact a3)).1
    rw [a1, a4] at this
    exact this

/-- Rotations and the exchange of the halves are substitutions that the machine knows. -/
example : (slotSource 3 5 1 : ℕ) = 2 ∧ (slotSource 3 5 3 : ℕ) = 0 ∧ (slotSource 3 15 1 : ℕ) = 5 := by decide +kernel

end Shell
