import Verif.Spec.Word
import Verif.Lemmas.Word
/-!
Running the samplers on a spliced generator.
-/

namespace Shell.Word
open Shell.Spec Sampler
variable {σ τ : Type}

/-! ### The part answered by `P` -/

/-- `f` on the spliced generator behaves as `g` on `P`, for the right number of calls. -/
def Splices {α : Type} (f : ℕ × σ × τ → Outcome (α × ℕ × σ × τ)) (g : σ → Outcome (α × σ)) : Prop :=
  ∀ s r s', g s = .ok (r, s') → ∃ calls, ∀ j t, f (calls + j, s, t) = .ok (r, j, s', t)

theorem splices_generate (P : Gen σ) (Q : Gen τ) (w : ℕ) (fuel bits rand : ℕ) :
    Splices (generateLoop (splice P Q) w fuel bits rand) (generateLoop P w fuel bits rand) := by
  induction fuel generalizing bits rand with
  | zero =>
    intro s r s' h
    unfold generateLoop at h
    obtain ⟨h0, h⟩ | ⟨_, h⟩ := ite_eq_iff.mp h
    · cases h
      exact ⟨0, fun j t => by unfold generateLoop; rw [if_pos h0, Nat.zero_add]⟩
    · cases h
  | succ fuel ih =>
    intro s r s' h
    rw [generateLoop] at h
    obtain ⟨h0, h⟩ | ⟨h0, h⟩ := ite_eq_iff.mp h
    · cases h
      exact ⟨0, fun j t => by unfold generateLoop; rw [if_pos h0, Nat.zero_add]⟩
    obtain ⟨h1, h⟩ | ⟨h1, h⟩ := ite_eq_iff.mp h
    · obtain ⟨x, hx, h⟩ := Outcome.bind_eq_ok.mp h
      obtain ⟨m, hm, h⟩ := Outcome.bind_eq_ok.mp h
      obtain ⟨hi, hh, h⟩ := Outcome.bind_eq_ok.mp h
      cases h
      refine ⟨1, fun j t => ?_⟩
      rw [generateLoop, if_neg h0, if_pos h1, Nat.add_comm]
      simp only [splice, hx, Outcome.bind_ok, hm, hh]
    · obtain ⟨x, hx, h⟩ := Outcome.bind_eq_ok.mp h
      obtain ⟨m, hm, h⟩ := Outcome.bind_eq_ok.mp h
      obtain ⟨hi, hh, h⟩ := Outcome.bind_eq_ok.mp h
      obtain ⟨c, hc⟩ := ih _ _ _ _ _ h
      refine ⟨c + 1, fun j t => ?_⟩
      rw [generateLoop, if_neg h0, if_neg h1, show c + 1 + j = (c + j) + 1 by omega]
      simp only [splice, hx, Outcome.bind_ok, hm, hh]
      exact hc j t

theorem splices_import (P : Gen σ) (Q : Gen τ) (p : MParams) (fuel : ℕ) :
    Splices (importRandom (splice P Q) p fuel) (importRandom P p fuel) := by
  induction fuel with
  | zero => intro s r s' h; cases h
  | succ fuel ih =>
    intro s r s' h
    rw [importRandom] at h
    obtain ⟨x, hx, h⟩ := Outcome.bind_eq_ok.mp h
    obtain ⟨c, hc⟩ := splices_generate P Q _ _ _ _ _ _ _ hx
    obtain ⟨h1, h⟩ | ⟨h1, h⟩ := ite_eq_iff.mp h
    · obtain ⟨d, hd⟩ := ih _ _ _ h
      refine ⟨c + d, fun j t => ?_⟩
      rw [importRandom]
      unfold generateRandomInt
      rw [Nat.add_assoc, hc, Outcome.bind_ok]
      dsimp only
      rw [if_pos h1, hd]
    · cases h
      refine ⟨c, fun j t => ?_⟩
      rw [importRandom]
      unfold generateRandomInt
      rw [hc, Outcome.bind_ok]
      dsimp only
      rw [if_neg h1]

theorem splices_times {α : Type} {f : ℕ × σ × τ → Outcome (α × ℕ × σ × τ)}
    {g : σ → Outcome (α × σ)} (h : Splices f g) (n : ℕ) : Splices (times f n) (times g n) := by
  induction n with
  | zero => intro s r s' e; cases e; exact ⟨0, fun j t => by rw [Nat.zero_add]; rfl⟩
  | succ n ih =>
    intro s r s' e
    rw [times] at e
    obtain ⟨x, hx, e⟩ := Outcome.bind_eq_ok.mp e
    obtain ⟨y, hy, e⟩ := Outcome.bind_eq_ok.mp e
    cases e
    obtain ⟨c, hc⟩ := h _ _ _ hx
    obtain ⟨d, hd⟩ := ih _ _ _ hy
    refine ⟨c + d, fun j t => ?_⟩
    rw [times, Nat.add_assoc, hc, Outcome.bind_ok]
    dsimp only
    rw [hd]; rfl

theorem splices_sample (P : Gen σ) (Q : Gen τ) (p : MParams) (fuel : ℕ) (n : ℤ) :
    Splices (samplePolynomial (splice P Q) p fuel n) (samplePolynomial P p fuel n) := by
  by_cases hn : n < 1
  · intro s r s' h
    rw [(c40_polynomial P p fuel n s).1 hn] at h; cases h
  · intro s r s' h
    rw [(c40_polynomial P p fuel n s).2.1 (by omega)] at h
    obtain ⟨c, hc⟩ := splices_times (splices_import P Q p fuel) n.toNat s r s' h
    refine ⟨c, fun j t => ?_⟩
    rw [(c40_polynomial _ p fuel n _).2.1 (by omega), hc]

/-! ### The part answered by `Q` -/

/-- `f` behaves as `g` on the embedded states. -/
def Embeds {α : Type} (s : σ) (f : ℕ × σ × τ → Outcome (α × ℕ × σ × τ)) (g : τ → Outcome (α × τ)) :
    Prop :=
  ∀ t, f (0, s, t) = (do let (r, t) ← g t; .ok (r, 0, s, t))

theorem embeds8 (P : Gen σ) (Q : Gen τ) (s : σ) : Embeds s (splice P Q).rand8 Q.rand8 := fun _ => rfl

theorem embeds64 (P : Gen σ) (Q : Gen τ) (s : σ) : Embeds s (splice P Q).rand64 Q.rand64 :=
  fun _ => rfl

theorem embeds_error (P : Gen σ) (Q : Gen τ) (w fuel k c : ℕ) (s : σ) :
    Embeds s (errorLoop (splice P Q) w fuel k c) (errorLoop Q w fuel k c) := by
  induction fuel generalizing k c with
  | zero =>
    intro t
    unfold errorLoop
    split_ifs <;> rfl
  | succ fuel ih =>
    intro t
    rw [errorLoop, errorLoop]
    split_ifs with h1 h2 h3
    · rfl
    · rw [embeds64 P Q s t]
      cases Q.rand64 t with
      | err e => rfl
      | ub e => rfl
      | ok x =>
        simp only [Outcome.bind_ok]
        rw [embeds64 P Q s x.2]
        cases Q.rand64 x.2 with
        | err e => rfl
        | ub e => rfl
        | ok y =>
          simp only [Outcome.bind_ok]
          exact ih _ _ _
    · rw [embeds8 P Q s t]
      cases Q.rand8 t with
      | err e => rfl
      | ub e => rfl
      | ok x =>
        simp only [Outcome.bind_ok]
        rw [embeds8 P Q s x.2]
        cases Q.rand8 x.2 with
        | err e => rfl
        | ub e => rfl
        | ok y =>
          simp only [Outcome.bind_ok]
          exact ih _ _ _
    · rw [embeds8 P Q s t]
      cases Q.rand8 t with
      | err e => rfl
      | ub e => rfl
      | ok x =>
        simp only [Outcome.bind_ok]
        rw [embeds8 P Q s x.2]
        cases Q.rand8 x.2 with
        | err e => rfl
        | ub e => rfl
        | ok y => simp only [Outcome.bind_ok]

theorem embeds_loop {α : Type} (s : σ) (f : ℕ → α × ℕ × σ × τ → Outcome (α × ℕ × σ × τ))
    (g : ℕ → α × τ → Outcome (α × τ))
    (h : ∀ i a t, f i (a, 0, s, t) = (do let (r, t) ← g i (a, t); .ok (r, 0, s, t))) (n i : ℕ)
    (a : α) (t : τ) :
    loopFrom f n i (a, 0, s, t) = (do let (r, t) ← loopFrom g n i (a, t); .ok (r, 0, s, t)) := by
  induction n generalizing i a t with
  | zero => rfl
  | succ n ih =>
    rw [loopFrom, loopFrom, h]
    cases g i (a, t) with
    | err e => rfl
    | ub e => rfl
    | ok x =>
      simp only [Outcome.bind_ok]
      exact ih _ _ _

theorem embeds_sampleError (P : Gen σ) (Q : Gen τ) (p : MParams) (n variance : ℕ) (s : σ) :
    Embeds s (sampleError (splice P Q) p n variance) (sampleError Q p n variance) := by
  intro t
  unfold sampleError
  split_ifs with h
  · rfl
  · refine embeds_loop s _ _ ?_ _ _ _ _
    intro i a t
    dsimp only
    rw [embeds_error P Q _ _ _ _ s t]
    cases errorLoop Q p.w (variance <<< 1) (variance <<< 1) p.modulus t with
    | err e => rfl
    | ub e => rfl
    | ok x =>
      simp only [Outcome.bind_ok]
      cases wr a i (Mont.importInt p (errorReduce p x.1)) <;> rfl

theorem embeds_encryptWithPad (P : Gen σ) (Q : Gen τ) (k : Key) (m a : List ℕ) (s : σ) :
    Embeds s (encryptWithPad (splice P Q) k m a) (encryptWithPad Q k m a) := by
  intro t
  unfold encryptWithPad
  rw [embeds_sampleError P Q k.p _ _ s t]
  cases sampleError Q k.p k.key.length k.variance t with
  | err e => rfl
  | ub e => rfl
  | ok x =>
    simp only [Outcome.bind_ok]
    cases Poly.convertToNtt k.p k.q x.1 with
    | err e => rfl
    | ub e => rfl
    | ok c =>
      simp only [Outcome.bind_ok]
      cases Poly.copying (Poly.mulScalarInPlace k.p c k.tMod) with
      | err e => rfl
      | ub e => rfl
      | ok c =>
        simp only [Outcome.bind_ok]
        cases Poly.copying (Poly.addInPlace k.p c m) with
        | err e => rfl
        | ub e => rfl
        | ok c =>
          simp only [Outcome.bind_ok]
          cases Poly.copying (Poly.fusedMulAddInPlace k.p c a k.key) <;> rfl

/-- The result has the length of the key. -/
theorem encryptWithPad_length (Q : Gen τ) (k : Key) (m a c0 : List ℕ) (t t' : τ)
    (h : encryptWithPad Q k m a t = .ok (c0, t')) : c0.length = k.key.length := by
  unfold encryptWithPad at h
  obtain ⟨x, -, h⟩ := Outcome.bind_eq_ok.mp h
  obtain ⟨c1, -, h⟩ := Outcome.bind_eq_ok.mp h
  obtain ⟨c2, -, h⟩ := Outcome.bind_eq_ok.mp h
  obtain ⟨c3, -, h⟩ := Outcome.bind_eq_ok.mp h
  obtain ⟨c4, h4, h⟩ := Outcome.bind_eq_ok.mp h
  cases h
  unfold Poly.fusedMulAddInPlace at h4
  split_ifs at h4 with hl
  · cases h4
  · cases h4
    push Not at hl
    simp only [List.length_zipWith, List.length_zip]
    omega

end Shell.Word
