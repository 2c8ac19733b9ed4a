import Verif.Props.RnsBfvStore
import Verif.Props.RnsBfvPolySessionExample
/-!
# A run of a program on RNS BFV ciphertexts with calls that fail
-/

namespace Shell
open Spec Rns

instance {α : Type} (xs : List α) (i : ℕ) (p : α → Prop) [DecidablePred p] : Decidable (∃ x, xs[i]? = some x ∧ p x) :=
  match h : xs[i]? with
  | none => .isFalse (by simp)
  | some x => decidable_of_iff (p x) (by simp)

instance {l t : ℕ} (P : VParams) (M : IdealBfvMem l t) (op : RnsBfvStore.Op) : Decidable (BfvOpProper P M op) := by
  cases op <;> unfold BfvOpProper <;> infer_instance

instance {α β : Type} (xs : List α) (ys : List β) (i j : ℕ) (p : α → β → Prop) [∀ x y, Decidable (p x y)] :
    Decidable (∀ x y, xs[i]? = some x → ys[j]? = some y → p x y) :=
  match h : xs[i]?, h' : ys[j]? with
  | none, _ => .isTrue (by simp)
  | some _, none => .isTrue (by simp)
  | some x, some y => decidable_of_iff (p x y) (by simp)

instance {l t : ℕ} (P : VParams) (M : IdealBfvMem l t) (a : ℕ) (op : RnsBfvStore.Op) :
    Decidable (BfvInPlaceProper P M a op) := by
  cases op <;> unfold BfvInPlaceProper <;> infer_instance

instance {l t : ℕ} (P : VParams) (M : IdealBfvMem l t) (c : RnsBfvStore.Call) : Decidable (BfvProper P M c) := by
  cases c <;> unfold BfvProper <;> infer_instance

/-- Whether a program is proper can be computed. -/
def properBfvProgram {l t : ℕ} (P : VParams) (f g : ℕ → Fin (2 ^ l) → ZMod t) :
    (M : IdealBfvMem l t) → (cs : List RnsBfvStore.Call) → Decidable (BfvProgram P f g M cs)
  | _, [] => .isTrue trivial
  | M, c :: cs => by
    unfold BfvProgram
    cases idealBfvCall P f g M c with
    | ok M' => have := properBfvProgram P f g M' cs; infer_instance
    | error e => have := properBfvProgram P f g M cs; infer_instance

instance {l t : ℕ} (P : VParams) (f g : ℕ → Fin (2 ^ l) → ZMod t) (M : IdealBfvMem l t) (cs : List RnsBfvStore.Call) :
    Decidable (BfvProgram P f g M cs) := properBfvProgram P f g M cs

/-- A product, moved by a scaled plaintext, relinearized, reduced in place, multiplied by an unscaled plaintext,
substituted, and brought back with a Galois key; eight calls fail: a Galois key applied to three components, a plaintext
of other moduli, a scaled plaintext for one modulus, a product of a reduced ciphertext with a plaintext, an even power, a
sum of different powers, a product of reduced ciphertexts, and the removal of the last modulus. -/
def exBfvStoreProgram : List RnsBfvStore.Call :=
  [.input 0, .received 0, .mul 0 1, .galois 2 1 5, .encode [1, 2] 2 true, .opIn 2 (.addPlain 0), .relin 2 2,
    .opIn 3 .reduce, .opIn 3 (.addPlain 0), .encode [2, 1] 1 true, .encode [2, 1] 1 false, .opNew 3 (.absorb 1),
    .opIn 3 (.absorbSimple 1), .substitute 3 4, .substitute 3 5, .opNew 4 (.add 3), .galois 4 1 5, .mul 3 3,
    .opIn 5 .reduce]

/-- The messages of the session as polynomials. -/
def exBfvStoreMessage (m : List ℕ) : ℕ → Fin (2 ^ exBfvPolyChoice.l) → ZMod exBfvPolyChoice.t :=
  fun _ j => (m.getD j 0 : ℕ)

/-- The hypotheses of `c98_program_partial` are met, with statuses of three kinds. -/
example : ∃ k pk v, BfvPolySession lcg lcg 100 exactEstimate exBfvPolyChoice k pk (givenEnv v) (fun _ => [1, 2, 3, 4])
      (fun _ => [5, 6]) ∧
    (RnsBfvStore.runAll exactEstimate v ⟨[], []⟩ exBfvStoreProgram).1 =
      [.ok (), .ok (), .ok (), .err .invalidArgument, .ok (), .ok (), .ok (), .ok (), .err .invalidArgument,
        .err .invalidArgument, .ok (), .err .invalidArgument, .ok (), .err .invalidArgument, .ok (),
        .err .invalidArgument, .ok (), .err .invalidArgument, .err .failedPrecondition] ∧
    ∃ r, (RnsBfvStore.runAll exactEstimate v ⟨[], []⟩ exBfvStoreProgram).2.cts[5]? = some r ∧
      (k 1).decryptBfv (coefficientEncoder exactEstimate v.c) r = .ok [1, 12, 12, 2] := by
  obtain ⟨k, pk, v, h⟩ := exBfvPolySession_ok exactEstimate
  refine ⟨k, pk, ⟨v.c, v.x, v.y, v.relin, v.galois⟩, h, ?_⟩
  have hp : BfvProgram (exBfvPolyChoice.bfvParams 0) (exBfvStoreMessage [1, 2, 3, 4]) (exBfvStoreMessage [5, 6]) ⟨[], []⟩
      exBfvStoreProgram := by decide +kernel
  obtain ⟨e1, -, e3, e4⟩ := c98_program_partial (v := ⟨v.c, v.x, v.y, v.relin, v.galois⟩) lcg_words
    (exactEstimate_within _) le_rfl (by norm_num) exBfvPolyChoice_valid (by decide) (by decide) (by decide) (by decide) h
    exBfvStoreProgram hp
  have h5 : (match (idealBfvRun (exBfvPolyChoice.bfvParams 0) (exBfvStoreMessage [1, 2, 3, 4]) (exBfvStoreMessage [5, 6])
      ⟨[], []⟩ exBfvStoreProgram).2.cts[5]? with
    | some X => X.level == 1 && X.power == 1 && decide (X.noise < (1 / 2 - 0) * 65537) &&
        (List.ofFn fun i => (X.value i).val) == [1, 12, 12, 2]
    | none => false) = true := by decide +kernel
  refine ⟨e1.trans (by decide +kernel), ?_⟩
  cases hX : (idealBfvRun (exBfvPolyChoice.bfvParams 0) (exBfvStoreMessage [1, 2, 3, 4]) (exBfvStoreMessage [5, 6])
      ⟨[], []⟩ exBfvStoreProgram).2.cts[5]? with
  | none => rw [hX] at h5; cases h5
  | some X =>
    rw [hX] at h5
    simp only [Bool.and_eq_true, beq_iff_eq, decide_eq_true_eq] at h5
    obtain ⟨⟨⟨a1, a2⟩, a3⟩, a4⟩ := h5
    have hlt := (List.getElem?_eq_some_iff.mp hX).1
    have hr := List.getElem?_eq_getElem (l := (RnsBfvStore.runAll exactEstimate ⟨v.c, v.x, v.y, v.relin, v.galois⟩
      ⟨[], []⟩ exBfvStoreProgram).2.cts) (i := 5) (by rw [e3]; exact hlt)
    obtain ⟨-, -, -, b1, -⟩ := e4 5 _ X hr hX
    refine ⟨_, hr, ?_⟩
    have := b1 a2 (by
      rw [a1]
      have : (([65537, 40961] : List ℕ).take 1).prod = 65537 := by decide
      show X.noise < (1 / 2 - 0) * ((([65537, 40961] : List ℕ).take 1).prod : ℕ)
      rw [this]
      exact a3)
    rw [a1, a4] at this
    exact this

end Shell
