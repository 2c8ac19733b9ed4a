import Verif.Spec.Canonical
import Verif.Lemmas.NegRing
import Mathlib.RingTheory.RootsOfUnity.Complex
import Mathlib.Tactic.Positivity
/-!
# Sizes in the canonical embedding
-/

namespace Shell
open Finset Spec NttRing
variable {n : ℕ}

theorem valueAt_eq_ev (f : Fin n → ℤ) (z : ℂ) : evalAt f z = ev (fun i => (f i : ℂ)) z := rfl

theorem valueAt_add (f g : Fin n → ℤ) (z : ℂ) : evalAt (f + g) z = evalAt f z + evalAt g z := by
  simp [evalAt, add_mul, sum_add_distrib]

theorem valueAt_sub (f g : Fin n → ℤ) (z : ℂ) : evalAt (f - g) z = evalAt f z - evalAt g z := by
  simp [evalAt, sub_mul, sum_sub_distrib]

theorem valueAt_neg (f : Fin n → ℤ) (z : ℂ) : evalAt (-f) z = -evalAt f z := by
  simp [evalAt]

theorem valueAt_smul (a : ℤ) (f : Fin n → ℤ) (z : ℂ) : evalAt (fun i => a * f i) z = a * evalAt f z := by
  simp [evalAt, mul_sum, mul_assoc]

theorem valueAt_negMul (f g : Fin n → ℤ) {z : ℂ} (hz : z ^ n = -1) :
    evalAt (negMul f g) z = evalAt f z * evalAt g z := by
  rw [valueAt_eq_ev, valueAt_eq_ev, valueAt_eq_ev, ← ev_negMul _ _ _ hz]
  have := NR.map_negMul (Int.castRingHom ℂ) f g
  exact congrArg (fun h => ev h z) this

theorem valueAt_substPow (e : ℕ) (f : Fin n → ℤ) {z : ℂ} (hz : z ^ n = -1) :
    evalAt (substPow e f) z = evalAt f (z ^ e) := by
  rw [valueAt_eq_ev, valueAt_eq_ev, ← ev_substPow _ _ _ hz]
  congr 1
  funext k
  simp only [substPow]
  push_cast
  refine sum_congr rfl fun j _ => ?_
  split_ifs <;> simp

namespace Spec.SizeAtMost
variable {f g : Fin n → ℤ} {A B : ℝ}

theorem add (hf : SizeAtMost f A) (hg : SizeAtMost g B) : SizeAtMost (f + g) (A + B) := fun z hz => by
  rw [valueAt_add]
  exact (norm_add_le _ _).trans (add_le_add (hf z hz) (hg z hz))

theorem sub (hf : SizeAtMost f A) (hg : SizeAtMost g B) : SizeAtMost (f - g) (A + B) := fun z hz => by
  rw [valueAt_sub]
  exact (norm_sub_le _ _).trans (add_le_add (hf z hz) (hg z hz))

theorem neg (hf : SizeAtMost f A) : SizeAtMost (-f) A := fun z hz => by
  rw [valueAt_neg, norm_neg]
  exact hf z hz

theorem smul (hf : SizeAtMost f A) (a : ℤ) : SizeAtMost (fun i => a * f i) (|(a : ℝ)| * A) := fun z hz => by
  rw [valueAt_smul, norm_mul, Complex.norm_intCast]
  exact mul_le_mul_of_nonneg_left (hf z hz) (abs_nonneg _)

theorem mul (hf : SizeAtMost f A) (hg : SizeAtMost g B) : SizeAtMost (negMul f g) (A * B) := fun z hz => by
  rw [valueAt_negMul f g hz, norm_mul]
  exact mul_le_mul (hf z hz) (hg z hz) (norm_nonneg _) ((norm_nonneg _).trans (hf z hz))

theorem subst (hf : SizeAtMost f A) {e : ℕ} (he : e % 2 = 1) : SizeAtMost (substPow e f) A := fun z hz => by
  rw [valueAt_substPow e f hz]
  refine hf _ ?_
  rw [← pow_mul, mul_comm, pow_mul, hz]
  exact Odd.neg_one_pow (Nat.odd_iff.mpr he)

theorem mono (hf : SizeAtMost f A) (h : A ≤ B) : SizeAtMost f B := fun z hz => (hf z hz).trans h

end Spec.SizeAtMost

/-- The coefficient of a polynomial from its values at the roots of `X^n + 1`. -/
theorem coeff_from_values [NeZero n] (f : Fin n → ℤ) (k : Fin n) {psi : ℂ} (hpsi : IsPrimitiveRoot psi (2 * n)) :
    (n : ℂ) * f k = ∑ j ∈ range n, evalAt f (psi ^ (2 * j + 1)) * (psi⁻¹ ^ (2 * j + 1)) ^ (k : ℕ) := by
  have hn : 0 < n := Nat.pos_of_ne_zero (NeZero.ne n)
  have h0 : psi ≠ 0 := hpsi.ne_zero (by omega)
  have hw : IsPrimitiveRoot (psi ^ 2) n := hpsi.pow (by omega) rfl
  unfold evalAt
  simp only [sum_mul]
  rw [sum_comm, sum_eq_single k]
  · have : ∀ j ∈ range n, (f k : ℂ) * (psi ^ (2 * j + 1)) ^ (k : ℕ) * (psi⁻¹ ^ (2 * j + 1)) ^ (k : ℕ) = f k := by
      intro j _
      rw [mul_assoc, ← mul_pow, ← mul_pow, mul_inv_cancel₀ h0, one_pow, one_pow, mul_one]
    rw [sum_congr rfl this, sum_const, card_range, nsmul_eq_mul]
  · intro i _ hik
    -- one exponent is larger: a geometric sum of a nontrivial root of unity
    have key : ∀ a b : ℕ, a < n → b < a → ∀ c : ℂ, c ^ 2 = psi ^ 2 ∨ c ^ 2 = (psi ^ 2)⁻¹ →
        ∑ j ∈ range n, (c ^ 2) ^ (j * (a - b)) = 0 := by
      intro a b ha hb c hc
      have hcw : IsPrimitiveRoot (c ^ 2) n := by
        rcases hc with h | h
        · rw [h]; exact hw
        · rw [h]; exact hw.inv
      have hne : (c ^ 2) ^ (a - b) ≠ 1 := by
        intro h
        have := hcw.dvd_of_pow_eq_one _ h
        exact absurd (Nat.le_of_dvd (by omega) this) (by omega)
      have h1 : ((c ^ 2) ^ (a - b)) ^ n = 1 := by
        rw [← pow_mul, mul_comm, pow_mul, hcw.pow_eq_one, one_pow]
      have h2 := mul_neg_geom_sum ((c ^ 2) ^ (a - b)) n
      rw [h1, sub_self] at h2
      rcases mul_eq_zero.mp h2 with h3 | h3
      · exact absurd (sub_eq_zero.mp h3).symm hne
      · rw [← h3]
        refine sum_congr rfl fun j _ => ?_
        rw [mul_comm j, pow_mul (c ^ 2)]
    rcases lt_or_gt_of_ne (fun h => hik (Fin.ext h) : (i : ℕ) ≠ k) with hlt | hgt
    · have e : ∀ j ∈ range n, (f i : ℂ) * (psi ^ (2 * j + 1)) ^ (i : ℕ) * (psi⁻¹ ^ (2 * j + 1)) ^ (k : ℕ) =
          f i * psi⁻¹ ^ ((k : ℕ) - i) * (psi⁻¹ ^ 2) ^ (j * ((k : ℕ) - i)) := by
        intro j _
        have hk : (k : ℕ) = i + ((k : ℕ) - i) := by omega
        conv_lhs => rw [hk, pow_add]
        have : (psi ^ (2 * j + 1)) ^ (i : ℕ) * (psi⁻¹ ^ (2 * j + 1)) ^ (i : ℕ) = 1 := by
          rw [← mul_pow, ← mul_pow, mul_inv_cancel₀ h0, one_pow, one_pow]
        calc _ = (f i : ℂ) * ((psi ^ (2 * j + 1)) ^ (i : ℕ) * (psi⁻¹ ^ (2 * j + 1)) ^ (i : ℕ)) *
              (psi⁻¹ ^ (2 * j + 1)) ^ ((k : ℕ) - i) := by ring
          _ = _ := by rw [this, ← pow_mul, ← pow_mul]; ring
      rw [sum_congr rfl e, ← mul_sum, key k i k.2 hlt psi⁻¹ (Or.inr (by rw [inv_pow])), mul_zero]
    · have e : ∀ j ∈ range n, (f i : ℂ) * (psi ^ (2 * j + 1)) ^ (i : ℕ) * (psi⁻¹ ^ (2 * j + 1)) ^ (k : ℕ) =
          f i * psi ^ ((i : ℕ) - k) * (psi ^ 2) ^ (j * ((i : ℕ) - k)) := by
        intro j _
        have hk : (i : ℕ) = k + ((i : ℕ) - k) := by omega
        conv_lhs => rw [hk, pow_add]
        have : (psi ^ (2 * j + 1)) ^ (k : ℕ) * (psi⁻¹ ^ (2 * j + 1)) ^ (k : ℕ) = 1 := by
          rw [← mul_pow, ← mul_pow, mul_inv_cancel₀ h0, one_pow, one_pow]
        calc _ = (f i : ℂ) * ((psi ^ (2 * j + 1)) ^ (k : ℕ) * (psi⁻¹ ^ (2 * j + 1)) ^ (k : ℕ)) *
              (psi ^ (2 * j + 1)) ^ ((i : ℕ) - k) := by ring
          _ = _ := by rw [this, ← pow_mul]; ring
      rw [sum_congr rfl e, ← mul_sum, key i k i.2 hgt psi (Or.inl rfl), mul_zero]
  · simp

/-- The coefficients are at most the size. -/
theorem coeff_le_size [NeZero n] {f : Fin n → ℤ} {B : ℝ} (h : SizeAtMost f B) (k : Fin n) : |(f k : ℝ)| ≤ B := by
  have hn : 0 < n := Nat.pos_of_ne_zero (NeZero.ne n)
  have hpsi := Complex.isPrimitiveRoot_exp (2 * n) (by omega)
  set psi := Complex.exp (2 * Real.pi * Complex.I / ((2 * n : ℕ) : ℂ)) with hp
  have h1 : psi ^ n = -1 := by
    have h2 : psi ^ n * psi ^ n = 1 := by rw [← pow_add, ← two_mul, hpsi.pow_eq_one]
    rcases mul_self_eq_one_iff.mp h2 with h3 | h3
    · exact absurd (Nat.le_of_dvd hn (hpsi.dvd_of_pow_eq_one _ h3)) (by omega)
    · exact h3
  have hnorm : ‖psi‖ = 1 := hpsi.norm'_eq_one (by omega)
  have e := coeff_from_values f k hpsi
  have hb : ‖(n : ℂ) * f k‖ ≤ n * B := by
    rw [e]
    calc _ ≤ ∑ j ∈ range n, ‖evalAt f (psi ^ (2 * j + 1)) * (psi⁻¹ ^ (2 * j + 1)) ^ (k : ℕ)‖ := norm_sum_le _ _
      _ ≤ ∑ j ∈ range n, B := by
          refine sum_le_sum fun j _ => ?_
          rw [norm_mul, norm_pow, norm_pow, norm_inv, hnorm, inv_one, one_pow, one_pow, mul_one]
          refine h _ ?_
          rw [← pow_mul, mul_comm, pow_mul, h1, pow_succ, pow_mul]
          simp
      _ = n * B := by rw [sum_const, card_range, nsmul_eq_mul]
  rw [norm_mul, Complex.norm_natCast, Complex.norm_intCast] at hb
  have hn' : (0 : ℝ) < n := by exact_mod_cast hn
  have := le_of_mul_le_mul_left hb hn'
  exact_mod_cast this

end Shell
