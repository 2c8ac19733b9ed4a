import Verif.Props.RnsCtStore
import Verif.Props.RnsPolySessionExample
/-!
# A run of a program on RNS BGV ciphertexts with calls that fail
-/

namespace Shell
open Spec Rns

instance {l t : ℕ} (P : LParams) (M : IdealBgvMem l t) (op : RnsCtStore.Op) : Decidable (BgvOpProper P M op) := by
  cases op <;> unfold BgvOpProper <;> infer_instance

instance {l t : ℕ} (M : IdealBgvMem l t) (a : ℕ) (k : ℤ) :
    Decidable (∃ X, M.cts[a]? = some X ∧ (0 ≤ k → k < 2 * 2 ^ l → X.power * k < 2 ^ 31)) :=
  match h : M.cts[a]? with
  | none => .isFalse (by simp)
  | some X => decidable_of_iff (0 ≤ k → k < 2 * 2 ^ l → X.power * k < 2 ^ 31) (by simp)

instance {l t : ℕ} (P : LParams) (M : IdealBgvMem l t) (c : RnsCtStore.Call) : Decidable (BgvProper P M c) := by
  cases c <;> unfold BgvProper <;> infer_instance

/-- Whether a program is proper can be computed. -/
def properProgram {l t : ℕ} (P : LParams) (f g : ℕ → Fin (2 ^ l) → ZMod t) :
    (M : IdealBgvMem l t) → (cs : List RnsCtStore.Call) → Decidable (BgvProgram P f g M cs)
  | _, [] => .isTrue trivial
  | M, c :: cs => by
    unfold BgvProgram
    cases idealBgvCall P f g M c with
    | ok M' => have := properProgram P f g M' cs; infer_instance
    | error e => have := properProgram P f g M cs; infer_instance

instance {l t : ℕ} (P : LParams) (f g : ℕ → Fin (2 ^ l) → ZMod t) (M : IdealBgvMem l t) (cs : List RnsCtStore.Call) :
    Decidable (BgvProgram P f g M cs) := properProgram P f g M cs

/-- A product, relinearized and reduced in place, moved by a plaintext, substituted, brought back with a Galois key, and
added; five calls fail: a Galois key applied to three components, a plaintext of other moduli, an even power, a sum of
different powers, and the removal of the last modulus. -/
def exStoreProgram : List RnsCtStore.Call :=
  [.input 0, .received 0, .mul 0 1, .galois 2 1 5, .relin 2 2, .opIn 3 .reduce, .encode [1, 2] 1, .opIn 0 (.addPlain 0),
    .opIn 3 (.addPlain 0), .substitute 3 4, .substitute 3 5, .opNew 4 (.add 3), .galois 4 1 5, .opIn 5 (.add 3),
    .opIn 5 .reduce]

/-- The messages of the session as polynomials. -/
def exStoreMessage (m : List ℕ) : ℕ → Fin (2 ^ exPolyChoice.l) → ZMod exPolyChoice.t := fun _ j => (m.getD j 0 : ℕ)

/-- The hypotheses of `c97_program` are met, with statuses of three kinds. -/
example : ∃ k pk v, BgvPolySession lcg lcg 100 exEstimate exPolyChoice k pk (givenEnv v) (fun _ => [1, 2, 3, 4])
      (fun _ => [5, 6]) ∧
    (RnsCtStore.runAll v ⟨[], []⟩ exStoreProgram).1 =
      [.ok (), .ok (), .ok (), .err .invalidArgument, .ok (), .ok (), .ok (), .err .invalidArgument, .ok (),
        .err .invalidArgument, .ok (), .err .invalidArgument, .ok (), .ok (), .err .failedPrecondition] ∧
    ∃ r, (RnsCtStore.runAll v ⟨[], []⟩ exStoreProgram).2.cts[5]? = some r ∧
      (k 1).decryptBgv (coefficientEncoder exEstimate v.c) r = .ok [4, 0, 4, 0] := by
  obtain ⟨k, pk, v, h⟩ := exPolySession_ok
  refine ⟨k, pk, ⟨v.c, v.x, v.y, v.relin, v.galois⟩, h, ?_⟩
  have hp : BgvProgram exPolyChoice.params (exStoreMessage [1, 2, 3, 4]) (exStoreMessage [5, 6]) ⟨[], []⟩
      exStoreProgram := by decide +kernel
  obtain ⟨e1, -, e3, e4⟩ := c97_program (v := ⟨v.c, v.x, v.y, v.relin, v.galois⟩) lcg_words exPolyChoice_valid h
    exStoreProgram hp
  have h5 : (match (idealBgvRun exPolyChoice.params (exStoreMessage [1, 2, 3, 4]) (exStoreMessage [5, 6]) ⟨[], []⟩
      exStoreProgram).2.cts[5]? with
    | some X => X.level == 1 && X.power == 1 && decide (2 * lsbBound 10 [] X.noise < 12289) &&
        (List.ofFn fun i => (X.value i).val) == [4, 0, 4, 0]
    | none => false) = true := by decide +kernel
  refine ⟨e1.trans (by decide +kernel), ?_⟩
  cases hX : (idealBgvRun exPolyChoice.params (exStoreMessage [1, 2, 3, 4]) (exStoreMessage [5, 6]) ⟨[], []⟩
      exStoreProgram).2.cts[5]? with
  | none => rw [hX] at h5; cases h5
  | some X =>
    rw [hX] at h5
    simp only [Bool.and_eq_true, beq_iff_eq, decide_eq_true_eq] at h5
    obtain ⟨⟨⟨a1, a2⟩, a3⟩, a4⟩ := h5
    have hlt := (List.getElem?_eq_some_iff.mp hX).1
    have hr := List.getElem?_eq_getElem (l := (RnsCtStore.runAll ⟨v.c, v.x, v.y, v.relin, v.galois⟩ ⟨[], []⟩
      exStoreProgram).2.cts) (i := 5) (by rw [e3]; exact hlt)
    obtain ⟨-, -, -, b1, -⟩ := e4 5 _ X hr hX
    refine ⟨_, hr, ?_⟩
    have := b1 a2 (by
      intro q hq
      have hq : q = 12289 := by simpa [exPolyChoice, exChoice] using hq.symm
      subst hq
      rw [a1]
      exact a3)
    rw [a1, a4] at this
    exact this

end Shell
