import Verif.Props.RnsBfvSlotStore
import Verif.Props.RnsBfvSessionExample
import Verif.Props.RnsBfvStoreExample
/-!
# A run of a program on RNS BFV ciphertexts with packed plaintexts and calls that fail
-/

namespace Shell
open Spec Rns

instance {l t : ℕ} (P : VParams) (M : IdealBfvMem l t) (c : RnsBfvSlotStore.Call) : Decidable (BfvSlotProper P M c) := by
  cases c <;> unfold BfvSlotProper <;> infer_instance

/-- Whether a program is proper can be computed. -/
def bfvSlotProgram {l t : ℕ} (P : VParams) (zeta : ZMod t) (f g : ℕ → Fin (2 ^ l) → ZMod t) :
    (M : IdealBfvMem l t) → (cs : List RnsBfvSlotStore.Call) → Decidable (BfvSlotProgram P zeta f g M cs)
  | _, [] => .isTrue trivial
  | M, c :: cs => by
    unfold BfvSlotProgram
    cases idealBfvSlotCall P zeta f g M c with
    | ok M' => have := bfvSlotProgram P zeta f g M' cs; infer_instance
    | error e => have := bfvSlotProgram P zeta f g M cs; infer_instance

instance {l t : ℕ} (P : VParams) (zeta : ZMod t) (f g : ℕ → Fin (2 ^ l) → ZMod t) (M : IdealBfvMem l t)
    (cs : List RnsBfvSlotStore.Call) : Decidable (BfvSlotProgram P zeta f g M cs) := bfvSlotProgram P zeta f g M cs

instance : NeZero exBfvChoice.t := ⟨by decide⟩

/-- A product, moved by a scaled vector, relinearized, reduced in place, multiplied by an unscaled vector, rotated by a
substitution and a Galois key; five calls fail: a Galois key applied to three components, a vector of other moduli, a
scaled vector for one modulus, a product of a reduced ciphertext with a plaintext, and five messages for four slots. -/
def exBfvSlotProgram : List RnsBfvSlotStore.Call :=
  [.call (.input 0), .call (.received 0), .call (.mul 0 1), .call (.galois 2 1 5), .encodeSlots [1, 2, 3, 4] 2 true,
    .call (.opIn 2 (.addPlain 0)), .call (.relin 2 2), .call (.opIn 3 .reduce), .call (.opIn 3 (.addPlain 0)),
    .encodeSlots [2, 1] 1 true, .encodeSlots [2, 1, 1, 3] 1 false, .call (.opNew 3 (.absorb 1)),
    .call (.opIn 3 (.absorbSimple 1)), .call (.substitute 3 5), .call (.galois 4 1 5),
    .encodeSlots [1, 2, 3, 4, 5] 1 false]

/-- The messages of the session as slots. -/
def exBfvSlotMessage (m : List ℕ) : ℕ → Fin (2 ^ exBfvChoice.l) → ZMod exBfvChoice.t := fun _ j => (m.getD j 0 : ℕ)

/-- What the machine says, for every root. -/
theorem exBfvSlotMachine : ∀ zeta : ZMod exBfvChoice.t, zeta ^ 4 = -1 →
    BfvSlotProgram (exBfvChoice.bfvParams 0) zeta (exBfvSlotMessage [1, 2, 3, 4]) (exBfvSlotMessage [5, 6]) ⟨[], []⟩
      exBfvSlotProgram ∧
    (idealBfvSlotRun (exBfvChoice.bfvParams 0) zeta (exBfvSlotMessage [1, 2, 3, 4]) (exBfvSlotMessage [5, 6]) ⟨[], []⟩
      exBfvSlotProgram).1 =
      [.ok (), .ok (), .ok (), .err .invalidArgument, .ok (), .ok (), .ok (), .ok (), .err .invalidArgument,
        .err .invalidArgument, .ok (), .err .invalidArgument, .ok (), .ok (), .ok (), .err .invalidArgument] ∧
    (match (idealBfvSlotRun (exBfvChoice.bfvParams 0) zeta (exBfvSlotMessage [1, 2, 3, 4]) (exBfvSlotMessage [5, 6])
      ⟨[], []⟩ exBfvSlotProgram).2.cts[5]? with
    | some X => X.level == 1 && X.power == 1 && decide (X.noise < (1 / 2 - 0) * 65537) &&
        (List.ofFn fun i => (X.value i).val) == [14, 12, 12, 3]
    | none => false) = true := by decide +kernel

/-- The hypotheses of `c100_program_partial` are met; the result is `((1·5 + 1)·2, (2·6 + 2)·1, 3·1, 4·3)` with its halves
rotated. -/
example : ∃ c k pk v, BfvSession lcg lcg 100 exactEstimate exBfvChoice c k pk (slotEnv v) (fun _ => [1, 2, 3, 4])
      (fun _ => [5, 6]) ∧
    (RnsBfvSlotStore.runAll exactEstimate v ⟨[], []⟩ exBfvSlotProgram).1 =
      [.ok (), .ok (), .ok (), .err .invalidArgument, .ok (), .ok (), .ok (), .ok (), .err .invalidArgument,
        .err .invalidArgument, .ok (), .err .invalidArgument, .ok (), .ok (), .ok (), .err .invalidArgument] ∧
    ∃ r, (RnsBfvSlotStore.runAll exactEstimate v ⟨[], []⟩ exBfvSlotProgram).2.cts[5]? = some r ∧
      (k 1).decryptBfv (finiteFieldEncoder exactEstimate v.e) r = .ok [14, 12, 12, 3] := by
  obtain ⟨c, k, pk, v, h⟩ := exBfvSession_ok exactEstimate
  refine ⟨c, k, pk, ⟨v.e, v.x, v.y, v.relin, v.galois⟩, h, ?_⟩
  obtain ⟨zeta, hz, hprog⟩ := c100_program_partial (v := ⟨v.e, v.x, v.y, v.relin, v.galois⟩) lcg_words
    (exactEstimate_within _) le_rfl (by norm_num) exBfvChoice_valid (by decide) (by decide) (by decide) h
  obtain ⟨hp, hs, h5⟩ := exBfvSlotMachine zeta hz
  obtain ⟨e1, -, e3, e4⟩ := hprog exBfvSlotProgram hp
  refine ⟨e1.trans hs, ?_⟩
  cases hX : (idealBfvSlotRun (exBfvChoice.bfvParams 0) zeta (exBfvSlotMessage [1, 2, 3, 4]) (exBfvSlotMessage [5, 6])
      ⟨[], []⟩ exBfvSlotProgram).2.cts[5]? with
  | none => rw [hX] at h5; cases h5
  | some X =>
    rw [hX] at h5
    simp only [Bool.and_eq_true, beq_iff_eq, decide_eq_true_eq] at h5
    obtain ⟨⟨⟨a1, a2⟩, a3⟩, a4⟩ := h5
    have hlt := (List.getElem?_eq_some_iff.mp hX).1
    have hr := List.getElem?_eq_getElem (l := (RnsBfvSlotStore.runAll exactEstimate ⟨v.e, v.x, v.y, v.relin, v.galois⟩
      ⟨[], []⟩ exBfvSlotProgram).2.cts) (i := 5) (by rw [e3]; exact hlt)
    obtain ⟨-, -, -, b1, -⟩ := e4 5 _ X hr hX
    refine ⟨_, hr, ?_⟩
    have := (b1 a2 (by
      rw [a1]
      have : (([65537, 40961] : List ℕ).take 1).prod = 65537 := by decide
      show X.noise < (1 / 2 - 0) * ((([65537, 40961] : List ℕ).take 1).prod : ℕ)
      rw [this]
      exact a3)).1
    rw [a1, a4] at this
    exact this

end Shell
