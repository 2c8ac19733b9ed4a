import Verif.Lemmas.GaussianSum
/-!
# Combinations of discrete Gaussians

If `x` and `y` follow the discrete Gaussian of deviation `s` and `a`, `b` are coprime and small compared to `s`, then
`a x + b y` follows the discrete Gaussian of deviation `s √(a² + b²)` up to a tiny error.
-/

namespace Shell
open Spec Real

/-- Sums of a shifted Gaussian function are almost independent of the shift. -/
theorem theta_shift {A : ℝ} (hA : 0 < A) (θ : ℝ) :
    |∑' k : ℤ, exp (-A * ((k : ℝ) + θ) ^ 2) - √(π / A)| ≤
      √(π / A) * (2 * (exp (-(π ^ 2 / A)) / (1 - exp (-(π ^ 2 / A))))) := by
  have hπ := pi_pos
  have ha : 0 < ((A / π : ℝ) : ℂ).re := by rw [Complex.ofReal_re]; positivity
  have h := Complex.tsum_exp_neg_quadratic ha ((-A * θ / π : ℝ) : ℂ)
  have hπc : (π : ℂ) ≠ 0 := by exact_mod_cast hπ.ne'
  have hAc : (A : ℂ) ≠ 0 := by exact_mod_cast hA.ne'
  set c : ℤ → ℂ := fun n => Complex.exp (-(π ^ 2 / A * (n : ℝ) ^ 2 : ℝ)) *
    Complex.exp ((2 * π * θ * n : ℝ) * Complex.I) with hc
  -- the identity between the two sums
  have key : ((∑' k : ℤ, exp (-A * ((k : ℝ) + θ) ^ 2) : ℝ) : ℂ) = ((√(π / A) : ℝ) : ℂ) * ∑' n : ℤ, c n := by
    have e1 : ((∑' k : ℤ, exp (-A * ((k : ℝ) + θ) ^ 2) : ℝ) : ℂ) =
        Complex.exp ((-A * θ ^ 2 : ℝ) : ℂ) *
          ∑' n : ℤ, Complex.exp (-π * ((A / π : ℝ) : ℂ) * (n : ℂ) ^ 2 + 2 * π * ((-A * θ / π : ℝ) : ℂ) * n) := by
      rw [Complex.ofReal_tsum, ← tsum_mul_left]
      refine tsum_congr fun n => ?_
      rw [Complex.ofReal_exp, ← Complex.exp_add]
      congr 1
      push_cast
      field_simp
      ring
    have e2 : (1 : ℂ) / ((A / π : ℝ) : ℂ) ^ (1 / 2 : ℂ) = ((√(π / A) : ℝ) : ℂ) := by
      have : ((1 / 2 : ℝ) : ℂ) = (1 / 2 : ℂ) := by push_cast; rfl
      rw [← this, ← Complex.ofReal_cpow (by positivity), ← sqrt_eq_rpow, ← Complex.ofReal_one,
        ← Complex.ofReal_div]
      congr 1
      rw [sqrt_div hA.le, sqrt_div hπ.le, one_div_div]
    rw [e1, h, e2, ← mul_assoc, mul_comm (Complex.exp _), mul_assoc, ← tsum_mul_left]
    congr 1
    refine tsum_congr fun n => ?_
    rw [hc]
    simp only
    rw [← Complex.exp_add, ← Complex.exp_add]
    congr 1
    push_cast
    have hI : Complex.I ^ 2 = -1 := Complex.I_sq
    field_simp
    linear_combination (-(A : ℂ) ^ 2 * θ ^ 2) * hI
  -- the terms other than the one of 0
  have hnorm : ∀ n, ‖c n‖ = exp (-(π ^ 2 / A) * (n : ℝ) ^ 2) := fun n => by
    rw [hc]
    simp only
    rw [norm_mul, Complex.norm_exp_ofReal_mul_I, mul_one, ← Complex.ofReal_neg, Complex.norm_exp_ofReal]
    congr 1; ring
  have hA' : 0 < π ^ 2 / A := by positivity
  have hsum := summable_expsq hA'
  have hcs : Summable c := Summable.of_norm (by simpa only [hnorm] using hsum)
  have h0 : c 0 = 1 := by rw [hc]; simp
  have hrest : ‖∑' n : ℤ, c n - 1‖ ≤ 2 * (exp (-(π ^ 2 / A)) / (1 - exp (-(π ^ 2 / A)))) := by
    have hb := (theta_bounds hA').2
    have e3 : ∑' n : ℤ, c n - 1 = ∑' n : ℤ, (if n = 0 then 0 else c n) := by
      rw [hcs.tsum_eq_add_tsum_ite 0, h0]; ring
    have e4 : ∑' n : ℤ, exp (-(π ^ 2 / A) * (n : ℝ) ^ 2) =
        1 + ∑' n : ℤ, (if n = 0 then 0 else exp (-(π ^ 2 / A) * (n : ℝ) ^ 2)) := by
      rw [hsum.tsum_eq_add_tsum_ite 0]; simp
    have hs' : Summable fun n : ℤ => (if n = 0 then 0 else exp (-(π ^ 2 / A) * (n : ℝ) ^ 2)) :=
      Summable.of_nonneg_of_le (fun n => by split_ifs <;> positivity)
        (fun n => by split_ifs <;> [positivity; exact le_rfl]) hsum
    have e5 : ∀ n : ℤ, ‖(if n = 0 then 0 else c n)‖ = (if n = 0 then 0 else exp (-(π ^ 2 / A) * (n : ℝ) ^ 2)) :=
      fun n => by split_ifs <;> [exact norm_zero; exact hnorm n]
    rw [e3]
    refine (norm_tsum_le_tsum_norm (by simpa only [e5] using hs')).trans ?_
    simp only [e5]
    linarith
  have hre : ((∑' k : ℤ, exp (-A * ((k : ℝ) + θ) ^ 2) - √(π / A) : ℝ) : ℂ) =
      ((√(π / A) : ℝ) : ℂ) * (∑' n : ℤ, c n - 1) := by
    rw [Complex.ofReal_sub, key]; ring
  rw [← Real.norm_eq_abs, ← Complex.norm_real, hre, norm_mul, Complex.norm_real,
    Real.norm_of_nonneg (sqrt_nonneg _)]
  exact mul_le_mul_of_nonneg_left hrest (sqrt_nonneg _)

theorem small_ratio {x : ℝ} (hx : 100 ≤ x) : 2 * (exp (-x) / (1 - exp (-x))) ≤ 2 ^ (-80 : ℤ) := by
  have hq : exp (-x) ≤ 2 ^ (-100 : ℤ) := by
    calc exp (-x) ≤ exp (-100) := exp_le_exp.mpr (by linarith)
      _ = (exp 1 ^ 100)⁻¹ := by rw [exp_neg, ← exp_nat_mul]; norm_num
      _ ≤ ((2 : ℝ) ^ 100)⁻¹ := by
        gcongr
        have := exp_one_gt_d9; linarith
      _ = 2 ^ (-100 : ℤ) := by norm_num
  have hq0 := exp_pos (-x)
  have h1 : exp (-x) ≤ 1 / 2 := hq.trans (by norm_num)
  have h2 : exp (-x) / (1 - exp (-x)) ≤ 2 ^ (-90 : ℤ) := by
    rw [div_le_iff₀ (by linarith)]
    calc exp (-x) ≤ 2 ^ (-100 : ℤ) := hq
      _ ≤ 2 ^ (-90 : ℤ) * (1 / 2) := by norm_num
      _ ≤ _ := by gcongr; linarith
  have : (2 : ℝ) * 2 ^ (-90 : ℤ) ≤ 2 ^ (-80 : ℤ) := by norm_num
  linarith

/-! ### The distribution -/

theorem gaussTotal_pos {s : ℝ} (hs : 0 < s) : 0 < ∑' x : ℤ, gauss s x :=
  (summable_gauss hs).tsum_pos (fun x => (gauss_pos s x).le) 0 (gauss_pos s 0)

theorem dg_nonneg (s : ℝ) (x : ℤ) : 0 ≤ discreteGaussian s x :=
  div_nonneg (gauss_pos s x).le (tsum_nonneg fun y => (gauss_pos s y).le)

theorem dg_summable {s : ℝ} (hs : 0 < s) : Summable (discreteGaussian s) := (summable_gauss hs).div_const _

theorem dg_total {s : ℝ} (hs : 0 < s) : ∑' x, discreteGaussian s x = 1 := by
  unfold discreteGaussian
  rw [tsum_div_const, div_self (gaussTotal_pos hs).ne']

theorem dg_mul_summable {s : ℝ} (hs : 0 < s) {φ : ℤ → ℝ} (hφ : ∀ x, |φ x| ≤ 1) :
    Summable fun x => discreteGaussian s x * φ x := by
  refine Summable.of_norm_bounded (dg_summable hs) fun x => ?_
  rw [norm_eq_abs, abs_mul, abs_of_nonneg (dg_nonneg s x)]
  exact mul_le_of_le_one_right (dg_nonneg s x) (hφ x)

/-- Expectations of bounded functions are bounded. -/
theorem dg_mean_le {s : ℝ} (hs : 0 < s) {φ : ℤ → ℝ} {B : ℝ} (hB : B ≤ 1) (hφ : ∀ x, |φ x| ≤ B) :
    |∑' x, discreteGaussian s x * φ x| ≤ B := by
  have h1 := dg_mul_summable hs (fun x => (hφ x).trans hB)
  rw [← norm_eq_abs]
  refine (norm_tsum_le_tsum_norm h1.norm).trans ?_
  calc ∑' x, ‖discreteGaussian s x * φ x‖ ≤ ∑' x, discreteGaussian s x * B := by
        refine h1.norm.tsum_le_tsum (fun x => ?_) ((dg_summable hs).mul_right B)
        rw [norm_eq_abs, abs_mul, abs_of_nonneg (dg_nonneg s x)]
        exact mul_le_mul_of_nonneg_left (hφ x) (dg_nonneg s x)
    _ = B := by rw [tsum_mul_right, dg_total hs, one_mul]

/-- The change of coordinates `(y, k) ↦ (α y + b k, β y - a k)`. -/
def unimodular (a b α β : ℤ) (h : a * α + b * β = 1) : ℤ × ℤ ≃ ℤ × ℤ where
  toFun p := (α * p.1 + b * p.2, β * p.1 - a * p.2)
  invFun p := (a * p.1 + b * p.2, β * p.1 - α * p.2)
  left_inv p := by
    refine Prod.ext ?_ ?_
    · show a * (α * p.1 + b * p.2) + b * (β * p.1 - a * p.2) = p.1
      linear_combination p.1 * h
    · show β * (α * p.1 + b * p.2) - α * (β * p.1 - a * p.2) = p.2
      linear_combination p.2 * h
  right_inv p := by
    refine Prod.ext ?_ ?_
    · show α * (a * p.1 + b * p.2) + b * (β * p.1 - α * p.2) = p.1
      linear_combination p.1 * h
    · show β * (a * p.1 + b * p.2) - a * (β * p.1 - α * p.2) = p.2
      linear_combination p.2 * h

/-- Two Gaussian weights along a line of pairs with the same combination. -/
theorem gauss_line {s : ℝ} (hs : 0 < s) {a b α β : ℤ} (h : a * α + b * β = 1) {N : ℝ}
    (hN : N = (a : ℝ) ^ 2 + (b : ℝ) ^ 2) (hN0 : 0 < N) (y k : ℤ) :
    gauss s (α * y + b * k) * gauss s (β * y - a * k) =
      gauss (s * √N) y * exp (-(N / (2 * s ^ 2)) * ((k : ℝ) + y * (α * b - β * a) / N) ^ 2) := by
  have h' : (a : ℝ) * α + b * β = 1 := by exact_mod_cast h
  unfold gauss
  rw [← exp_add, ← exp_add, mul_pow, sq_sqrt hN0.le]
  congr 1
  push_cast
  field_simp
  have e : (α ^ 2 + β ^ 2 : ℝ) * N - (α * b - β * a) ^ 2 = 1 := by
    rw [hN]; linear_combination ((a : ℝ) * α + b * β + 1) * h'
  rw [hN] at e ⊢
  linear_combination (-(y : ℝ) ^ 2) * e

theorem line_summable {s : ℝ} (hs : 0 < s) {a b α β : ℤ} (h : a * α + b * β = 1) (y : ℤ) :
    Summable fun k : ℤ => discreteGaussian s (α * y + b * k) * discreteGaussian s (β * y - a * k) := by
  have h1 : Summable fun p : ℤ × ℤ => discreteGaussian s p.1 * discreteGaussian s p.2 :=
    (dg_summable hs).mul_of_nonneg (dg_summable hs) (dg_nonneg s) (dg_nonneg s)
  have h2 := h1.comp_injective (unimodular a b α β h).injective
  exact h2.comp_injective (i := fun k : ℤ => (y, k)) (fun k l hkl => by simpa using hkl)

theorem ratio_close {e d d' b B : ℝ} (he : |e| ≤ b) (f1 : 0 ≤ d) (f2 : d ≤ b) (g1 : 0 ≤ d') (g2 : d' ≤ b)
    (hb0 : 0 < b) (hb : b ≤ B / 100) (hB : B ≤ 1) : |((1 + e) * (1 + d') - (1 + d) ^ 2) / (1 + d) ^ 2| ≤ B := by
  obtain ⟨e3, e4⟩ := abs_le.mp he
  have hp : (0 : ℝ) < (1 + d) ^ 2 := by positivity
  rw [abs_div, abs_of_pos hp, div_le_iff₀ hp]
  refine le_trans ?_ (le_mul_of_one_le_right (by linarith) (one_le_pow₀ (by linarith)))
  have q1 : d ^ 2 ≤ b := by nlinarith
  have q2 : |e * d'| ≤ b := by
    rw [abs_mul, abs_of_nonneg g1]; nlinarith [abs_nonneg e]
  obtain ⟨q3, q4⟩ := abs_le.mp q2
  have : (1 + e) * (1 + d') - (1 + d) ^ 2 = e + d' + e * d' - 2 * d - d ^ 2 := by ring
  rw [this, abs_le]
  have := sq_nonneg d
  constructor <;> linarith

/-- The probability of one value of the combination. -/
theorem line_close {s : ℝ} {a b α β : ℤ} (h : a * α + b * β = 1) (hs3 : 3 ≤ s)
    (hsm : 9 * ((a : ℝ) ^ 2 + (b : ℝ) ^ 2) ≤ s ^ 2) (y : ℤ) :
    |∑' k : ℤ, discreteGaussian s (α * y + b * k) * discreteGaussian s (β * y - a * k) -
        discreteGaussian (s * √((a : ℝ) ^ 2 + (b : ℝ) ^ 2)) y| ≤
      2 ^ (-70 : ℤ) * discreteGaussian (s * √((a : ℝ) ^ 2 + (b : ℝ) ^ 2)) y := by
  have hs : 0 < s := by linarith
  have hπ := pi_gt_three
  have hN1 : (1 : ℝ) ≤ (a : ℝ) ^ 2 + (b : ℝ) ^ 2 := by
    have : (1 : ℤ) ≤ a ^ 2 + b ^ 2 := by
      by_contra hcon
      have ha : a = 0 := by nlinarith [sq_nonneg a, sq_nonneg b]
      have hb : b = 0 := by nlinarith [sq_nonneg a, sq_nonneg b]
      rw [ha, hb] at h; norm_num at h
    exact_mod_cast this
  obtain ⟨N, hN⟩ : ∃ N : ℝ, N = (a : ℝ) ^ 2 + (b : ℝ) ^ 2 := ⟨_, rfl⟩
  rw [← hN] at hN1 hsm ⊢
  have hN0 : 0 < N := by linarith
  have hsN : 1 ≤ √N := by rw [one_le_sqrt]; exact hN1
  have hsN2 : √N * √N = N := mul_self_sqrt hN0.le
  set M := √(2 * π) * s with hM
  have hM0 : 0 < M := by have := pi_pos; positivity
  obtain ⟨z1, z2⟩ := gauss_sum_bounds hs3
  obtain ⟨w1, w2⟩ := gauss_sum_bounds (s := s * √N) (by nlinarith)
  rw [← mul_assoc, ← hM] at w1 w2
  rw [← hM] at z1 z2
  have hA : 0 < N / (2 * s ^ 2) := by positivity
  have hθ := theta_shift hA (y * (α * b - β * a) / N)
  have hR : √(π / (N / (2 * s ^ 2))) = M / √N := by
    rw [div_div_eq_mul_div, sqrt_div (by positivity), hM]
    congr 1
    rw [show π * (2 * s ^ 2) = 2 * π * s ^ 2 by ring, sqrt_mul (by positivity), sqrt_sq hs.le]
  have hδ : 2 * (exp (-(π ^ 2 / (N / (2 * s ^ 2)))) / (1 - exp (-(π ^ 2 / (N / (2 * s ^ 2)))))) ≤ 2 ^ (-80 : ℤ) := by
    refine small_ratio ?_
    rw [div_div_eq_mul_div, le_div_iff₀ hN0]
    nlinarith [mul_self_nonneg (π - 3), mul_pos hN0 hN0]
  rw [hR] at hθ
  have hθ' := hθ.trans (mul_le_mul_of_nonneg_left hδ (by positivity))
  clear hθ hδ
  unfold discreteGaussian
  set Z := ∑' x : ℤ, gauss s x with hZ
  set Z' := ∑' x : ℤ, gauss (s * √N) x with hZ'
  have hZ0 : 0 < Z := by linarith
  have hZ0' : 0 < Z' := lt_of_lt_of_le (by positivity) w1
  have e1 : ∑' k : ℤ, gauss s (α * y + b * k) / Z * (gauss s (β * y - a * k) / Z) =
      gauss (s * √N) y / (Z * Z) *
        ∑' k : ℤ, exp (-(N / (2 * s ^ 2)) * ((k : ℝ) + y * (α * b - β * a) / N) ^ 2) := by
    rw [← tsum_mul_left]
    refine tsum_congr fun k => ?_
    rw [div_mul_div_comm, gauss_line hs h hN hN0]; ring
  rw [e1]
  set Θ := ∑' k : ℤ, exp (-(N / (2 * s ^ 2)) * ((k : ℝ) + y * (α * b - β * a) / N) ^ 2) with hΘ
  have hg := gauss_pos (s * √N) y
  -- normalise everything by `M`
  obtain ⟨e, he⟩ : ∃ e, Θ = M / √N * (1 + e) := ⟨Θ / (M / √N) - 1, by field_simp; ring⟩
  obtain ⟨d, hd⟩ : ∃ d, Z = M * (1 + d) := ⟨Z / M - 1, by field_simp; ring⟩
  obtain ⟨d', hd'⟩ : ∃ d', Z' = M * √N * (1 + d') := ⟨Z' / (M * √N) - 1, by field_simp; ring⟩
  have he1 : |e| ≤ 2 ^ (-80 : ℤ) := by
    rw [he, show M / √N * (1 + e) - M / √N = M / √N * e by ring, abs_mul, abs_of_pos (by positivity)] at hθ'
    exact le_of_mul_le_mul_left hθ' (by positivity)
  have hd1 : 0 ≤ d ∧ d ≤ 2 ^ (-80 : ℤ) := by
    rw [hd] at z1 z2
    constructor
    · nlinarith
    · have := le_of_mul_le_mul_left z2 hM0; linarith
  have hd1' : 0 ≤ d' ∧ d' ≤ 2 ^ (-80 : ℤ) := by
    have hMN : 0 < M * √N := by positivity
    rw [hd'] at w1 w2
    constructor
    · nlinarith
    · have := le_of_mul_le_mul_left w2 hMN; linarith
  have e2 : gauss (s * √N) y / (Z * Z) * Θ - gauss (s * √N) y / Z' =
      gauss (s * √N) y / Z' * (((1 + e) * (1 + d') - (1 + d) ^ 2) / (1 + d) ^ 2) := by
    have h1 : 1 + d ≠ 0 := by linarith [hd1.1]
    have h2 : 1 + d' ≠ 0 := by linarith [hd1'.1]
    have h3 : √N ≠ 0 := by positivity
    rw [he, hd, hd']
    field_simp
  rw [e2, abs_mul, abs_of_pos (by positivity), mul_comm]
  refine mul_le_mul_of_nonneg_right ?_ (by positivity)
  exact ratio_close he1 hd1.1 hd1.2 hd1'.1 hd1'.2 (by positivity) (by norm_num) (by norm_num)

/-- **Combination of two discrete Gaussians.** -/
theorem gauss_combine {s : ℝ} {a b : ℤ} (hab : IsCoprime a b) (hs3 : 3 ≤ s)
    (hsm : 9 * ((a : ℝ) ^ 2 + (b : ℝ) ^ 2) ≤ s ^ 2) {φ : ℤ → ℝ} (hφ : ∀ x, |φ x| ≤ 1) :
    |∑' x : ℤ, discreteGaussian s x * ∑' y : ℤ, discreteGaussian s y * φ (a * x + b * y) -
        ∑' x : ℤ, discreteGaussian (s * √((a : ℝ) ^ 2 + (b : ℝ) ^ 2)) x * φ x| ≤ 2 ^ (-70 : ℤ) := by
  obtain ⟨α, β, h⟩ := hab
  replace h : a * α + b * β = 1 := by linarith
  have hs : 0 < s := by linarith
  have hN1 : (1 : ℝ) ≤ (a : ℝ) ^ 2 + (b : ℝ) ^ 2 := by
    have : (1 : ℤ) ≤ a ^ 2 + b ^ 2 := by
      by_contra hcon
      have ha : a = 0 := by nlinarith [sq_nonneg a, sq_nonneg b]
      have hb : b = 0 := by nlinarith [sq_nonneg a, sq_nonneg b]
      rw [ha, hb] at h; norm_num at h
    exact_mod_cast this
  have hs' : 0 < s * √((a : ℝ) ^ 2 + (b : ℝ) ^ 2) := by positivity
  set D := discreteGaussian s with hD
  set D' := discreteGaussian (s * √((a : ℝ) ^ 2 + (b : ℝ) ^ 2)) with hD'
  have hDD : Summable fun p : ℤ × ℤ => D p.1 * D p.2 :=
    (dg_summable hs).mul_of_nonneg (dg_summable hs) (dg_nonneg s) (dg_nonneg s)
  have hF : Summable fun p : ℤ × ℤ => D p.1 * (D p.2 * φ (a * p.1 + b * p.2)) := by
    refine Summable.of_norm_bounded hDD fun p => ?_
    rw [← mul_assoc, norm_eq_abs, abs_mul, abs_of_nonneg (mul_nonneg (dg_nonneg s _) (dg_nonneg s _))]
    exact mul_le_of_le_one_right (mul_nonneg (dg_nonneg s _) (dg_nonneg s _)) (hφ _)
  have e1 : ∑' x : ℤ, D x * ∑' y : ℤ, D y * φ (a * x + b * y) =
      ∑' y : ℤ, (∑' k : ℤ, D (α * y + b * k) * D (β * y - a * k)) * φ y := by
    have hF' := (unimodular a b α β h).summable_iff.mpr hF
    calc ∑' x : ℤ, D x * ∑' y : ℤ, D y * φ (a * x + b * y)
        = ∑' x : ℤ, ∑' y : ℤ, D x * (D y * φ (a * x + b * y)) := tsum_congr fun x => by rw [tsum_mul_left]
      _ = ∑' p : ℤ × ℤ, D p.1 * (D p.2 * φ (a * p.1 + b * p.2)) := hF.tsum_prod.symm
      _ = ∑' p : ℤ × ℤ, D ((unimodular a b α β h) p).1 * (D ((unimodular a b α β h) p).2 *
            φ (a * ((unimodular a b α β h) p).1 + b * ((unimodular a b α β h) p).2)) :=
          ((unimodular a b α β h).tsum_eq _).symm
      _ = ∑' y : ℤ, ∑' k : ℤ, D (α * y + b * k) * (D (β * y - a * k) *
            φ (a * (α * y + b * k) + b * (β * y - a * k))) := hF'.tsum_prod
      _ = _ := by
          refine tsum_congr fun y => ?_
          rw [← tsum_mul_right]
          refine tsum_congr fun k => ?_
          have : a * (α * y + b * k) + b * (β * y - a * k) = y := by linear_combination y * h
          rw [this]; ring
  rw [e1]
  set G : ℤ → ℝ := fun y => ∑' k : ℤ, D (α * y + b * k) * D (β * y - a * k) with hG
  have hclose : ∀ y, |G y - D' y| ≤ 2 ^ (-70 : ℤ) * D' y := fun y => line_close h hs3 hsm y
  have hD's : Summable D' := dg_summable hs'
  have hdiff : Summable fun y => G y - D' y :=
    Summable.of_norm_bounded (hD's.mul_left (2 ^ (-70 : ℤ))) hclose
  have hGs : Summable G := by
    have := hdiff.add hD's
    exact this.congr fun y => by ring
  have hGφ : Summable fun y => G y * φ y := by
    refine Summable.of_norm_bounded hGs.norm fun y => ?_
    rw [norm_mul]
    exact mul_le_of_le_one_right (norm_nonneg _) (hφ y)
  have hD'φ : Summable fun y => D' y * φ y := dg_mul_summable hs' hφ
  rw [← hGφ.tsum_sub hD'φ, ← norm_eq_abs]
  have hsub : ∀ y, ‖G y * φ y - D' y * φ y‖ ≤ 2 ^ (-70 : ℤ) * D' y := fun y => by
    rw [← sub_mul, norm_mul]
    exact (mul_le_of_le_one_right (norm_nonneg _) (hφ y)).trans (hclose y)
  refine (norm_tsum_le_tsum_norm (Summable.of_nonneg_of_le (fun y => norm_nonneg _) hsub
    (hD's.mul_left _))).trans ?_
  calc ∑' y, ‖G y * φ y - D' y * φ y‖ ≤ ∑' y, 2 ^ (-70 : ℤ) * D' y :=
        (Summable.of_nonneg_of_le (fun y => norm_nonneg _) hsub (hD's.mul_left _)).tsum_le_tsum hsub
          (hD's.mul_left _)
    _ = 2 ^ (-70 : ℤ) := by rw [tsum_mul_left, dg_total hs', mul_one]

end Shell
