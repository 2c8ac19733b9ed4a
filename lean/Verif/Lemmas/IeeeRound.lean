import Verif.Lemmas.Ieee
/-!
# The rounding of IEEE 754
-/

namespace Shell.Ieee
open Spec DoubleError Double

variable {x : ℝ} {cast : ℕ → ℝ}

/-- The significand and exponent of a rounded number. -/
theorem rnd_form (h : x ≠ 0) : ∃ m : ℤ, Double.rnd x = m * 2 ^ (Int.log 2 |x| - 52) ∧ 2 ^ 52 ≤ |m| ∧ |m| ≤ 2 ^ 53 := by
  obtain ⟨h1, h2⟩ := scale_range h
  refine ⟨roundEven (x * 2 ^ (52 - Int.log 2 |x|)), by unfold Double.rnd; rw [if_neg h], ?_, ?_⟩
  · have h3 := roundEven_best (x * 2 ^ (52 - Int.log 2 |x|))
    generalize x * 2 ^ (52 - Int.log 2 |x|) = s at *
    by_contra hc
    push Not at hc
    have h4 : |(roundEven s : ℝ)| ≤ 2 ^ 52 - 1 := by
      have : |roundEven s| ≤ 2 ^ 52 - 1 := by omega
      exact_mod_cast this
    have h5 := roundEven_near s
    rcases abs_cases s with ⟨e, _⟩ | ⟨e, _⟩ <;> rw [e] at h1 <;> rw [abs_le] at h4 h5 <;> norm_num at h1 h4 <;>
      linarith [h4.1, h4.2, h5.1, h5.2]
  · have h5 := roundEven_near (x * 2 ^ (52 - Int.log 2 |x|))
    generalize x * 2 ^ (52 - Int.log 2 |x|) = s at *
    by_contra hc
    push Not at hc
    have h4 : (2 : ℝ) ^ 53 + 1 ≤ |(roundEven s : ℝ)| := by
      have : 2 ^ 53 + 1 ≤ |roundEven s| := by omega
      exact_mod_cast this
    have h6 : |(roundEven s : ℝ)| ≤ |s| + 1 / 2 := by
      have := abs_sub_abs_le_abs_sub (roundEven s : ℝ) s
      linarith
    norm_num at h2 h4 h6
    linarith

theorem zpow_add' (a b : ℤ) : (2 : ℝ) ^ (a + b) = 2 ^ a * 2 ^ b := zpow_add₀ (by norm_num) a b

theorem rnd_representable (h1 : 1 / 2 ^ 1022 ≤ |x|) (h2 : |Double.rnd x| < 2 ^ 1024) : Representable (Double.rnd x) := by
  have h0 : x ≠ 0 := by
    rintro rfl
    rw [abs_zero] at h1
    exact absurd h1 (not_le.mpr (inv_pow_pos _))
  obtain ⟨m, e, hm, hm'⟩ := rnd_form h0
  have hl : -1022 ≤ Int.log 2 |x| := by
    rw [← Int.zpow_le_iff_le_log (by norm_num) (abs_pos.mpr h0)]
    rw [zpow_neg, ← one_div]
    exact_mod_cast h1
  generalize Int.log 2 |x| = l at *
  have hp : (0 : ℝ) < 2 ^ (l - 52) := zpow_pos (by norm_num) _
  have ha : |Double.rnd x| = |(m : ℝ)| * 2 ^ (l - 52) := by rw [e, abs_mul, abs_of_pos hp]
  rw [ha] at h2
  have hm1 : (2 : ℝ) ^ 52 ≤ |(m : ℝ)| := by exact_mod_cast hm
  have lt_of : ∀ k : ℤ, (2 : ℝ) ^ k * 2 ^ (l - 52) < 2 ^ 1024 → k + (l - 52) < 1024 := by
    intro k hk
    rw [← zpow_add', ← zpow_natCast] at hk
    exact (zpow_lt_zpow_iff_right₀ (by norm_num)).mp hk
  by_cases h53 : |m| = 2 ^ 53
  · have hl2 : 53 + (l - 52) < 1024 := lt_of 53 (by
      have : |(m : ℝ)| = 2 ^ 53 := by exact_mod_cast h53
      rw [this] at h2
      exact_mod_cast h2)
    rcases abs_cases m with ⟨k, _⟩ | ⟨k, _⟩
    · refine ⟨2 ^ 52, l - 52 + 1, by norm_num, by omega, by omega, ?_⟩
      have : m = 2 ^ 53 := by omega
      rw [e, this, zpow_add']; push_cast; ring
    · refine ⟨-2 ^ 52, l - 52 + 1, by norm_num, by omega, by omega, ?_⟩
      have : m = -2 ^ 53 := by omega
      rw [e, this, zpow_add']; push_cast; ring
  · have hl2 : 52 + (l - 52) < 1024 := lt_of 52 (by
      refine lt_of_le_of_lt (mul_le_mul_of_nonneg_right ?_ hp.le) h2
      exact_mod_cast hm1)
    exact ⟨m, l - 52, by omega, by omega, by omega, e⟩

theorem representable_isDouble (h : Representable x) : IsDouble x := by
  obtain ⟨m, e, h1, -, -, h2⟩ := h
  exact ⟨m, e, h1, h2⟩

theorem rnd_mono_low {d : ℝ} (hd : IsDouble d) (h : d ≤ x) : d ≤ Double.rnd x := by
  by_contra h1
  push Not at h1
  have h2 := rnd_best (x := x) hd
  rw [abs_of_neg (by linarith), abs_of_nonpos (by linarith)] at h2
  linarith

theorem rnd_mono_high {d : ℝ} (hd : IsDouble d) (h : x ≤ d) : Double.rnd x ≤ d := by
  by_contra h1
  push Not at h1
  have h2 := rnd_best (x := x) hd
  rw [abs_of_pos (by linarith), abs_of_nonneg (by linarith)] at h2
  linarith

theorem over_pos {w x : ℝ} (hw : 0 < w) (h : 2 ^ 54 * w - w ≤ x) : 0 < x ∧ 2 ^ 53 * w ≤ x := by
  norm_num at h ⊢
  constructor <;> linarith

theorem over_low {w s : ℝ} (hw : 0 < w) (h : 2 ^ 54 * w - w ≤ s * (2 * w)) : (2 : ℝ) ^ 53 - 1 / 2 ≤ s := by
  by_contra hn
  push Not at hn
  have := mul_lt_mul_of_pos_right hn hw
  norm_num at h this
  linarith

theorem over_high {w s : ℝ} (hw : 0 < w) (h : s * (2 * w) < 2 ^ 54 * w) : s < 2 ^ 53 := by
  by_contra hn
  push Not at hn
  have := mul_le_mul_of_nonneg_right hn hw.le
  norm_num at h this
  linarith

theorem over_round {s : ℝ} (s1 : (2 : ℝ) ^ 53 - 1 / 2 ≤ s) (s2 : s < 2 ^ 53) : roundEven s = 2 ^ 53 := by
  norm_num at s1 s2
  have hf : ⌊s⌋ = 9007199254740991 := by
    rw [Int.floor_eq_iff]
    norm_num
    constructor <;> linarith
  unfold roundEven
  rw [hf]
  norm_num
  linarith

theorem over_top {w : ℝ} (h : ((2 ^ 53 : ℤ) : ℝ) * (2 * w) < 2 ^ 54 * w) : False := by
  norm_num at h
  linarith

theorem below {a b x r : ℝ} (hx : a - 2 * b < x) (h : x < a - b) (h2 : |r - x| ≤ |a - 2 * b - x|) : r < a := by
  rw [abs_of_neg (a := a - 2 * b - x) (by linarith), abs_le] at h2
  linarith [h2.1, h2.2]

/-- The smallest number that is rounded to infinity. -/
theorem rnd_overflow (h0 : 0 ≤ x) : Double.rnd x < 2 ^ 1024 ↔ x < 2 ^ 1024 - 2 ^ 970 := by
  have e1 : (2 : ℝ) ^ 1024 = 2 ^ 54 * 2 ^ 970 := by rw [← pow_add]
  have e3 : (2 : ℝ) ^ 1023 = 2 ^ 53 * 2 ^ 970 := by rw [← pow_add]
  have e2 : (2 : ℝ) ^ (971 : ℤ) = 2 * 2 ^ 970 := by
    rw [← pow_succ', ← zpow_natCast]; rfl
  have hw : (0 : ℝ) < 2 ^ 970 := by positivity
  constructor
  · intro h
    by_contra hc
    push Not at hc
    by_cases hx : 2 ^ 1024 ≤ x
    · refine absurd h (not_lt.mpr (rnd_mono_low ⟨1, 1024, by norm_num, ?_⟩ hx))
      rw [Int.cast_one, one_mul]
      exact (zpow_natCast _ _).symm
    · push Not at hx
      have hp : 0 < x := (over_pos hw (e1 ▸ hc)).1
      have hl : Int.log 2 |x| = 1023 := by
        rw [abs_of_pos hp]
        refine le_antisymm ?_ ?_
        · refine Int.lt_add_one_iff.mp ((Int.lt_zpow_iff_log_lt (by norm_num) hp).mp ?_)
          exact_mod_cast hx
        · refine (Int.zpow_le_iff_le_log (by norm_num) hp).mp ?_
          have : (2 : ℝ) ^ 1023 ≤ x := e3 ▸ (over_pos hw (e1 ▸ hc)).2
          exact_mod_cast this
      have hs : Double.rnd x = roundEven (x * 2 ^ (-971 : ℤ)) * 2 ^ (971 : ℤ) := by
        unfold Double.rnd
        rw [if_neg hp.ne', hl]
        norm_num
      have i1 : x * 2 ^ (-971 : ℤ) * 2 ^ (971 : ℤ) = x := by
        rw [mul_assoc, ← zpow_add']; norm_num
      generalize x * 2 ^ (-971 : ℤ) = s at *
      rw [e2] at i1 hs
      have s1 : (2 : ℝ) ^ 53 - 1 / 2 ≤ s := by
        rw [e1, ← i1] at hc
        exact over_low hw hc
      have s2 : s < 2 ^ 53 := by
        rw [e1, ← i1] at hx
        exact over_high hw hx
      have hr : roundEven s = 2 ^ 53 := over_round s1 s2
      rw [hs, hr, e1] at h
      exact over_top h
  · intro h
    have hD : IsDouble ((2 : ℝ) ^ 1024 - 2 * 2 ^ 970) := ⟨2 ^ 53 - 1, 971, by norm_num, by
      rw [e1, e2]; push_cast; ring⟩
    by_cases hx : x ≤ 2 ^ 1024 - 2 * 2 ^ 970
    · exact lt_of_le_of_lt (rnd_mono_high hD hx) (sub_lt_self _ (mul_pos two_pos hw))
    · push Not at hx
      exact below hx h (rnd_best (x := x) hD)

/-- Results below the smallest normal number. -/
theorem sub_representable (h : |x| < 1 / 2 ^ 1022) : Representable (roundEven (x * 2 ^ 1074) / 2 ^ 1074) := by
  have e : (2 : ℝ) ^ 1074 = 2 ^ 52 * 2 ^ 1022 := by rw [← pow_add]
  have hb : |x * 2 ^ 1074| < 2 ^ 52 := by
    rw [abs_mul, abs_of_pos (by positivity : (0 : ℝ) < 2 ^ 1074), e]
    rw [lt_div_iff₀ (by positivity)] at h
    nlinarith [show (0 : ℝ) < 2 ^ 52 by norm_num]
  have h1 := roundEven_near (x * 2 ^ 1074)
  have h2 : |(roundEven (x * 2 ^ 1074) : ℝ)| < 2 ^ 53 := by
    have := abs_sub_abs_le_abs_sub (roundEven (x * 2 ^ 1074) : ℝ) (x * 2 ^ 1074)
    generalize x * 2 ^ 1074 = s at *
    norm_num at hb ⊢
    linarith
  refine ⟨roundEven (x * 2 ^ 1074), -1074, by exact_mod_cast h2, le_rfl, by norm_num, ?_⟩
  rw [zpow_neg, div_eq_mul_inv]
  rfl

/-- No representable number is nearer: all are multiples of `2^-1074`. -/
theorem sub_best {z : ℝ} (hz : Representable z) : |(roundEven (x * 2 ^ 1074) / 2 ^ 1074 : ℝ) - x| ≤ |z - x| := by
  obtain ⟨m, e, -, he, -, rfl⟩ := hz
  obtain ⟨k, hk⟩ := Int.eq_ofNat_of_zero_le (show 0 ≤ e + 1074 by omega)
  have hp : (0 : ℝ) < 2 ^ 1074 := by positivity
  have h1 : (m : ℝ) * 2 ^ e = ((m * 2 ^ k : ℤ) : ℝ) / 2 ^ 1074 := by
    rw [eq_div_iff hp.ne', mul_assoc]
    push_cast
    congr 1
    rw [← zpow_natCast, ← zpow_natCast, ← zpow_add']
    congr 1
  have h2 := roundEven_best (x * 2 ^ 1074) (m * 2 ^ k)
  have h3 : x = x * 2 ^ 1074 / 2 ^ 1074 := by rw [mul_div_assoc, div_self hp.ne', mul_one]
  rw [h1]
  generalize x * 2 ^ 1074 = s at *
  rw [h3, ← sub_div, ← sub_div, abs_div, abs_div]
  exact div_le_div_of_nonneg_right h2 (abs_nonneg _)

end Shell.Ieee
