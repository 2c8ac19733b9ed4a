import Verif.Spec.GaussianTable
import Mathlib.Analysis.SpecialFunctions.Gaussian.PoissonSummation
import Mathlib.Analysis.SpecificLimits.Basic
import Mathlib.Analysis.Real.Pi.Bounds
import Mathlib.Analysis.Complex.ExponentialBounds
/-!
# Sums of the Gaussian function over the integers
-/

namespace Shell
open Spec Real

/-- `exp(-a n²)` is summable over the natural numbers. -/
theorem summable_expsq_nat {a : ℝ} (ha : 0 < a) : Summable fun n : ℕ => exp (-a * (n : ℝ) ^ 2) := by
  refine Summable.of_nonneg_of_le (fun n => (exp_pos _).le) (fun n => ?_)
    (summable_geometric_of_lt_one (exp_pos (-a)).le (Real.exp_lt_one_iff.mpr (by linarith)))
  rw [← exp_nat_mul]
  apply exp_le_exp.mpr
  have : (n : ℝ) ≤ (n : ℝ) ^ 2 := by
    rcases Nat.eq_zero_or_pos n with rfl | h
    · simp
    · have : (1 : ℝ) ≤ n := by exact_mod_cast h
      nlinarith
  nlinarith

theorem summable_expsq {a : ℝ} (ha : 0 < a) : Summable fun n : ℤ => exp (-a * (n : ℝ) ^ 2) := by
  refine Summable.of_nat_of_neg ?_ ?_
  · exact_mod_cast summable_expsq_nat ha
  · have := summable_expsq_nat ha
    refine this.congr fun n => ?_
    push_cast
    rw [neg_sq]

theorem gauss_eq (s : ℝ) : gauss s = fun n : ℤ => exp (-(1 / (2 * s ^ 2)) * (n : ℝ) ^ 2) := by
  funext n; unfold gauss; congr 1; ring

theorem summable_gauss {s : ℝ} (hs : 0 < s) : Summable (gauss s) := by
  rw [gauss_eq]; exact summable_expsq (by positivity)

theorem gauss_pos (s : ℝ) (x : ℤ) : 0 < gauss s x := exp_pos _
theorem gauss_neg (s : ℝ) (x : ℤ) : gauss s (-x) = gauss s x := by unfold gauss; push_cast; rw [neg_sq]

/-- An even summable function over the integers. -/
theorem tsum_even {f : ℤ → ℝ} (hf : Summable f) (he : ∀ x, f (-x) = f x) (c : ℕ) :
    ∑' x : ℤ, f x = ∑ i ∈ Finset.range (2 * c + 1), f ((i : ℤ) - c) + 2 * ∑' k : ℕ, f ((c : ℤ) + 1 + k) := by
  have h1 : Summable fun n : ℕ => f n := hf.comp_injective Nat.cast_injective
  have h2 : Summable fun n : ℕ => f (-((n : ℤ) + 1)) :=
    hf.comp_injective (fun a b h => by simpa using h)
  rw [tsum_of_nat_of_neg_add_one h1 h2]
  simp only [he]
  rw [← h1.sum_add_tsum_nat_add (c + 1)]
  have h3 : Summable fun n : ℕ => f ((n : ℤ) + 1) := by simpa only [he] using h2
  rw [← h3.sum_add_tsum_nat_add c]
  have e1 : (∑' i : ℕ, f ((i + (c + 1) : ℕ) : ℤ)) = ∑' k : ℕ, f ((c : ℤ) + 1 + k) :=
    tsum_congr fun k => by congr 1; push_cast; ring
  have e2 : (∑' i : ℕ, f (((i + c : ℕ) : ℤ) + 1)) = ∑' k : ℕ, f ((c : ℤ) + 1 + k) :=
    tsum_congr fun k => by congr 1; push_cast; ring
  rw [e1, e2]
  have e3 : ∑ i ∈ Finset.range (2 * c + 1), f ((i : ℤ) - c) =
      ∑ i ∈ Finset.range (c + 1), f (i : ℤ) + ∑ i ∈ Finset.range c, f ((i : ℤ) + 1) := by
    clear e1 e2 h1 h2 h3
    induction c with
    | zero => simp
    | succ c ih =>
      rw [show 2 * (c + 1) + 1 = (2 * c + 1 + 1) + 1 by ring, Finset.sum_range_succ, Finset.sum_range_succ',
        Finset.sum_range_succ (fun i : ℕ => f (i : ℤ)) (c + 1),
        Finset.sum_range_succ (fun i : ℕ => f ((i : ℤ) + 1)) c]
      have : ∑ k ∈ Finset.range (2 * c + 1), f (((k + 1 : ℕ) : ℤ) - ((c + 1 : ℕ) : ℤ)) =
          ∑ i ∈ Finset.range (2 * c + 1), f ((i : ℤ) - c) :=
        Finset.sum_congr rfl fun k _ => by congr 1; push_cast; ring
      rw [this, ih]
      have e4 : f (((0 : ℕ) : ℤ) - ((c + 1 : ℕ) : ℤ)) = f ((c : ℤ) + 1) := by
        rw [← he ((c : ℤ) + 1)]; exact congrArg f (by push_cast; ring)
      have e5 : f (((2 * c + 1 + 1 : ℕ) : ℤ) - ((c + 1 : ℕ) : ℤ)) = f ((c : ℤ) + 1) := by
        congr 1; push_cast; ring
      rw [e4, e5]
      push_cast; ring
  rw [e3]; ring

/-- Sums of `exp(-a n²)` are close to 1 for large `a`. -/
theorem theta_bounds {a : ℝ} (ha : 0 < a) :
    1 ≤ ∑' n : ℤ, exp (-a * (n : ℝ) ^ 2) ∧
    ∑' n : ℤ, exp (-a * (n : ℝ) ^ 2) ≤ 1 + 2 * (exp (-a) / (1 - exp (-a))) := by
  have hs := summable_expsq ha
  rw [tsum_even hs (fun x => by push_cast; rw [neg_sq]) 0]
  have hq : exp (-a) < 1 := Real.exp_lt_one_iff.mpr (by linarith)
  have hq0 := exp_pos (-a)
  have hg : HasSum (fun k : ℕ => exp (-a) * exp (-a) ^ k) (exp (-a) * (1 - exp (-a))⁻¹) :=
    (hasSum_geometric_of_lt_one hq0.le hq).mul_left _
  have hsk : Summable fun k : ℕ => exp (-a * (((0 : ℕ) + 1 + k : ℤ) : ℝ) ^ 2) :=
    hs.comp_injective (i := fun k : ℕ => (((0 : ℕ) : ℤ) + 1 + k)) (fun x y h => by simpa using h)
  have hle : ∑' k : ℕ, exp (-a * (((0 : ℕ) + 1 + k : ℤ) : ℝ) ^ 2) ≤ exp (-a) * (1 - exp (-a))⁻¹ := by
    rw [← hg.tsum_eq]
    refine hsk.tsum_le_tsum (fun k => ?_) hg.summable
    rw [← exp_nat_mul, ← exp_add]
    apply exp_le_exp.mpr
    push_cast
    have : (0 : ℝ) ≤ k := Nat.cast_nonneg k
    nlinarith [mul_nonneg ha.le this, mul_nonneg ha.le (mul_nonneg this this)]
  have h0 : 0 ≤ ∑' k : ℕ, exp (-a * (((0 : ℕ) + 1 + k : ℤ) : ℝ) ^ 2) := tsum_nonneg fun k => (exp_pos _).le
  have e0 : ∑ i ∈ Finset.range (2 * 0 + 1), exp (-a * (((i : ℤ) - (0 : ℕ) : ℤ) : ℝ) ^ 2) = 1 := by simp
  rw [e0, div_eq_mul_inv]
  constructor <;> linarith

/-- Poisson summation. -/
theorem gauss_sum {s : ℝ} (hs : 0 < s) :
    ∑' x : ℤ, gauss s x = √(2 * π) * s * ∑' n : ℤ, exp (-(2 * π ^ 2 * s ^ 2) * (n : ℝ) ^ 2) := by
  have hπ := pi_pos
  have ha : 0 < 1 / (2 * π * s ^ 2) := by positivity
  have h := Real.tsum_exp_neg_mul_int_sq ha
  have e1 : (1 : ℝ) / (1 / (2 * π * s ^ 2)) ^ (1 / 2 : ℝ) = √(2 * π) * s := by
    rw [← sqrt_eq_rpow, sqrt_div zero_le_one, sqrt_one, one_div_one_div, sqrt_mul (by positivity), sqrt_sq hs.le]
  rw [e1] at h
  rw [gauss_eq]
  have e2 : (fun n : ℤ => exp (-(1 / (2 * s ^ 2)) * (n : ℝ) ^ 2)) =
      fun n : ℤ => exp (-π * (1 / (2 * π * s ^ 2)) * (n : ℝ) ^ 2) := by
    funext n; congr 1; field_simp
  have e3 : (fun n : ℤ => exp (-(2 * π ^ 2 * s ^ 2) * (n : ℝ) ^ 2)) =
      fun n : ℤ => exp (-π / (1 / (2 * π * s ^ 2)) * (n : ℝ) ^ 2) := by
    funext n; congr 1; field_simp
  rw [e2, e3, h]

/-- The exact sum exceeds the approximation used by the code by a tiny factor. -/
theorem gauss_sum_bounds {s : ℝ} (hs : 3 ≤ s) :
    √(2 * π) * s ≤ ∑' x : ℤ, gauss s x ∧ ∑' x : ℤ, gauss s x ≤ √(2 * π) * s * (1 + 2 ^ (-80 : ℤ)) := by
  rw [gauss_sum (by linarith)]
  have hπ := pi_gt_three
  have hM : 0 < √(2 * π) * s := by positivity
  have ha : 100 ≤ 2 * π ^ 2 * s ^ 2 := by nlinarith [mul_self_nonneg (π - 3), mul_self_nonneg (s - 3), mul_pos (by linarith : 0 < π) (by linarith : 0 < s)]
  obtain ⟨h1, h2⟩ := theta_bounds (a := 2 * π ^ 2 * s ^ 2) (by linarith)
  have hq : exp (-(2 * π ^ 2 * s ^ 2)) ≤ 2 ^ (-100 : ℤ) := by
    calc exp (-(2 * π ^ 2 * s ^ 2)) ≤ exp (-100) := exp_le_exp.mpr (by linarith)
      _ = (exp 1 ^ 100)⁻¹ := by rw [exp_neg, ← exp_nat_mul]; norm_num
      _ ≤ ((2 : ℝ) ^ 100)⁻¹ := by
        gcongr
        have := exp_one_gt_d9; linarith
      _ = 2 ^ (-100 : ℤ) := by norm_num
  have hq0 := exp_pos (-(2 * π ^ 2 * s ^ 2))
  have h3 : exp (-(2 * π ^ 2 * s ^ 2)) / (1 - exp (-(2 * π ^ 2 * s ^ 2))) ≤ 2 ^ (-90 : ℤ) := by
    have : exp (-(2 * π ^ 2 * s ^ 2)) ≤ 1 / 2 := hq.trans (by norm_num)
    rw [div_le_iff₀ (by linarith)]
    calc exp (-(2 * π ^ 2 * s ^ 2)) ≤ 2 ^ (-100 : ℤ) := hq
      _ ≤ 2 ^ (-90 : ℤ) * (1 / 2) := by norm_num
      _ ≤ _ := by gcongr; linarith
  constructor
  · nlinarith
  · gcongr
    refine h2.trans ?_
    have : (2 : ℝ) * 2 ^ (-90 : ℤ) ≤ 2 ^ (-80 : ℤ) := by norm_num
    linarith

/-- The tail beyond 8 deviations on one side. -/
theorem gauss_tail {s : ℝ} (hs : 0 < s) {c : ℕ} (hc : 8 * s ≤ c) :
    ∑' k : ℕ, gauss s ((c : ℤ) + 1 + k) ≤ exp (-32) * (s / 8) := by
  have hcs : 8 / s ≤ c / s ^ 2 := by rw [div_le_div_iff₀ hs (by positivity)]; nlinarith
  set q := exp (-(8 / s)) with hq
  have hq0 : 0 < q := exp_pos _
  have h8 : 0 < 8 / s := by positivity
  have hq1 : q < 1 := Real.exp_lt_one_iff.mpr (by linarith)
  have hg : HasSum (fun k : ℕ => exp (-32) * q * q ^ k) (exp (-32) * q * (1 - q)⁻¹) :=
    (hasSum_geometric_of_lt_one hq0.le hq1).mul_left _
  have hsk : Summable fun k : ℕ => gauss s ((c : ℤ) + 1 + k) :=
    (summable_gauss hs).comp_injective (i := fun k : ℕ => ((c : ℤ) + 1 + k)) (fun x y h => by simpa using h)
  calc ∑' k : ℕ, gauss s ((c : ℤ) + 1 + k) ≤ ∑' k : ℕ, exp (-32) * q * q ^ k := by
        refine hsk.tsum_le_tsum (fun k => ?_) hg.summable
        unfold gauss
        rw [hq, ← exp_nat_mul, ← exp_add, ← exp_add]
        apply exp_le_exp.mpr
        push_cast
        have hk : (0 : ℝ) ≤ k := Nat.cast_nonneg k
        have h1 : (c : ℝ) ^ 2 + 2 * c * (1 + k) ≤ ((c : ℝ) + 1 + k) ^ 2 := by nlinarith
        have h2 : 64 * s ^ 2 ≤ (c : ℝ) ^ 2 := by nlinarith
        have h3 : 8 * s * (1 + k) ≤ c * (1 + k) := by gcongr
        rw [div_le_iff₀ (by positivity)]
        have : (-32 + -(8 / s) + k * -(8 / s)) * (2 * s ^ 2) = -(64 * s ^ 2 + 2 * (8 * s * (1 + k))) := by
          field_simp; ring
        rw [this]; nlinarith
    _ = exp (-32) * (q * (1 - q)⁻¹) := by rw [hg.tsum_eq]; ring
    _ ≤ exp (-32) * (s / 8) := by
        gcongr
        have h1 : 1 + 8 / s ≤ exp (8 / s) := by have := add_one_le_exp (8 / s); linarith
        have h2 : q = (exp (8 / s))⁻¹ := by rw [hq, exp_neg]
        have h3 : q * (1 + 8 / s) ≤ 1 := by
          rw [h2, inv_mul_le_iff₀ (exp_pos _)]; linarith
        rw [← div_eq_mul_inv, div_le_div_iff₀ (by linarith) (by norm_num)]
        have : q * (8 / s) * s = q * 8 := by field_simp
        nlinarith

end Shell
