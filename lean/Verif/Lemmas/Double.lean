import Verif.Spec.Double
import Verif.Spec.Rns
import Mathlib.Tactic.Linarith
import Mathlib.Tactic.Positivity
import Mathlib.Tactic.FieldSimp
import Mathlib.Tactic.NormNum
import Mathlib.Tactic.Ring
import Mathlib.Tactic.Push

/-! # Rounding errors -/

namespace Shell.Double

open Spec

variable {K : Type} [Field K] [LinearOrder K] [IsStrictOrderedRing K] [FloorRing K]

theorem roundEven_near (x : K) : |(roundEven x : K) - x| ≤ 1 / 2 := by
  have h1 := Int.floor_le x
  have h2 := Int.lt_floor_add_one x
  unfold roundEven
  split_ifs with a b c
  · rw [abs_le]; constructor <;> linarith
  · push_cast; rw [abs_le]; constructor <;> linarith
  · rw [abs_le]; constructor <;> linarith
  · push_cast; rw [abs_le]; constructor <;> linarith

/-- No integer is nearer. -/
theorem roundEven_best (x : K) (z : ℤ) : |(roundEven x : K) - x| ≤ |(z : K) - x| := by
  by_cases h : z = roundEven x
  · rw [h]
  · have h1 := roundEven_near x
    have h2 : (1 : K) ≤ |(z : K) - roundEven x| := by
      have h3 : 1 ≤ |z - roundEven x| := Int.one_le_abs (sub_ne_zero.mpr h)
      exact_mod_cast h3
    have h3 : |(z : K) - roundEven x| ≤ |(z : K) - x| + |(roundEven x : K) - x| := by
      have := abs_sub_le (z : K) x (roundEven x)
      rwa [abs_sub_comm x] at this
    linarith

section
variable {x : K}

theorem scale_range (h : x ≠ 0) :
    (2 : K) ^ (52 : ℤ) ≤ |x * 2 ^ (52 - Int.log 2 |x|)| ∧ |x * 2 ^ (52 - Int.log 2 |x|)| < (2 : K) ^ (53 : ℤ) := by
  have hp : 0 < |x| := abs_pos.mpr h
  have h1 := Int.zpow_log_le_self (b := 2) (by norm_num) hp
  have h2 := Int.lt_zpow_succ_log_self (b := 2) (by norm_num) |x|
  have e : |x * 2 ^ (52 - Int.log 2 |x|)| = |x| * 2 ^ (52 - Int.log 2 |x|) := by
    rw [abs_mul, abs_of_pos (zpow_pos (by norm_num) _ : (0 : K) < 2 ^ (52 - Int.log 2 |x|))]
  have hk : (0 : K) < 2 ^ (52 - Int.log 2 |x|) := zpow_pos (by norm_num) _
  rw [e]
  generalize Int.log 2 |x| = k at *
  push_cast at h1 h2
  constructor
  · calc (2 : K) ^ (52 : ℤ) = 2 ^ k * 2 ^ (52 - k) := by rw [← zpow_add₀ (by norm_num)]; congr 1; omega
      _ ≤ _ := mul_le_mul_of_nonneg_right h1 hk.le
  · calc _ < (2 : K) ^ (k + 1) * 2 ^ (52 - k) := mul_lt_mul_of_pos_right h2 hk
      _ = _ := by rw [← zpow_add₀ (by norm_num)]; congr 1; omega

theorem rnd_sub (h : x ≠ 0) : rnd x - x =
    ((roundEven (x * 2 ^ (52 - Int.log 2 |x|)) : K) - x * 2 ^ (52 - Int.log 2 |x|)) * 2 ^ (Int.log 2 |x| - 52) := by
  unfold rnd
  rw [if_neg h, sub_mul, mul_assoc, ← zpow_add₀ (by norm_num)]
  congr 1
  rw [show 52 - Int.log 2 |x| + (Int.log 2 |x| - 52) = 0 by omega, zpow_zero, mul_one]

/-- The relative error of an operation. -/
theorem rnd_error (x : K) : |rnd x - x| ≤ |x| / 2 ^ 53 := by
  by_cases h : x = 0
  · subst h; simp [rnd]
  · have h1 := roundEven_near (x * 2 ^ (52 - Int.log 2 |x|))
    have h2 := (scale_range h).1
    have hp : (0 : K) < 2 ^ (Int.log 2 |x| - 52) := zpow_pos (by norm_num) _
    rw [rnd_sub h, abs_mul, abs_of_pos hp]
    have h3 := mul_le_mul_of_nonneg_right h1 hp.le
    have h4 := mul_le_mul_of_nonneg_right h2 hp.le
    have e : |x * 2 ^ (52 - Int.log 2 |x|)| * 2 ^ (Int.log 2 |x| - 52) = |x| := by
      rw [abs_mul, abs_of_pos (zpow_pos (by norm_num) _ : (0 : K) < 2 ^ (52 - Int.log 2 |x|)), mul_assoc,
        ← zpow_add₀ (by norm_num), show 52 - Int.log 2 |x| + (Int.log 2 |x| - 52) = 0 by omega, zpow_zero, mul_one]
    rw [e] at h4
    norm_num at h4 ⊢
    linarith

theorem rnd_isDouble (x : K) : IsDouble (rnd x) := by
  by_cases h : x = 0
  · exact ⟨0, 0, by norm_num, by simp [rnd, h]⟩
  · have h1 := roundEven_near (x * 2 ^ (52 - Int.log 2 |x|))
    have h2 := (scale_range h).2
    have h3 : |(roundEven (x * 2 ^ (52 - Int.log 2 |x|)) : K)| < 2 ^ 53 + 1 := by
      have := abs_sub_abs_le_abs_sub (roundEven (x * 2 ^ (52 - Int.log 2 |x|)) : K) (x * 2 ^ (52 - Int.log 2 |x|))
      rw [show (2 : K) ^ (53 : ℤ) = 2 ^ 53 by norm_num] at h2
      linarith
    have h4 : |roundEven (x * 2 ^ (52 - Int.log 2 |x|))| < 2 ^ 53 + 1 := by exact_mod_cast h3
    have er : rnd x = roundEven (x * 2 ^ (52 - Int.log 2 |x|)) * 2 ^ (Int.log 2 |x| - 52) := by
      unfold rnd; rw [if_neg h]
    rw [er]
    generalize roundEven (x * 2 ^ (52 - Int.log 2 |x|)) = m at *
    by_cases h5 : |m| < 2 ^ 53
    · exact ⟨m, _, h5, rfl⟩
    · have h6 : m = 2 ^ 53 ∨ m = -2 ^ 53 := by
        rcases abs_cases m with ⟨e, _⟩ | ⟨e, _⟩ <;> omega
      rcases h6 with h6 | h6
      · refine ⟨2 ^ 52, Int.log 2 |x| - 52 + 1, by norm_num, ?_⟩
        rw [h6, zpow_add₀ (by norm_num)]; push_cast; ring
      · refine ⟨-2 ^ 52, Int.log 2 |x| - 52 + 1, by norm_num, ?_⟩
        rw [h6, zpow_add₀ (by norm_num)]; push_cast; ring

/-- No number with 53 significant bits is nearer. -/
theorem rnd_best {y : K} (hy : IsDouble y) : |rnd x - x| ≤ |y - x| := by
  by_cases h : x = 0
  · subst h; simp [rnd]
  · obtain ⟨h1, h2⟩ := scale_range h
    rw [rnd_sub h]
    have hp : (0 : K) < 2 ^ (Int.log 2 |x| - 52) := zpow_pos (by norm_num) _
    have hq : (0 : K) < 2 ^ (52 - Int.log 2 |x|) := zpow_pos (by norm_num) _
    have e0 : (2 : K) ^ (52 - Int.log 2 |x|) * 2 ^ (Int.log 2 |x| - 52) = 1 := by
      rw [← zpow_add₀ (by norm_num), show 52 - Int.log 2 |x| + (Int.log 2 |x| - 52) = 0 by omega, zpow_zero]
    have e1 : y - x = (y * 2 ^ (52 - Int.log 2 |x|) - x * 2 ^ (52 - Int.log 2 |x|)) * 2 ^ (Int.log 2 |x| - 52) := by
      rw [sub_mul, mul_assoc, mul_assoc, e0, mul_one, mul_one]
    rw [e1, abs_mul, abs_mul]
    refine mul_le_mul_of_nonneg_right ?_ (abs_nonneg _)
    generalize hs : x * 2 ^ (52 - Int.log 2 |x|) = s at *
    by_cases h3 : (2 : K) ^ (52 : ℤ) ≤ |y * 2 ^ (52 - Int.log 2 |x|)|
    · obtain ⟨m, e, h4, h5⟩ := hy
      have h6 : y * 2 ^ (52 - Int.log 2 |x|) = m * 2 ^ (e + (52 - Int.log 2 |x|)) := by
        rw [h5, mul_assoc, ← zpow_add₀ (by norm_num)]
      have h7 : 0 ≤ e + (52 - Int.log 2 |x|) := by
        by_contra h7
        rw [h6, abs_mul, abs_of_pos (zpow_pos (by norm_num) _ : (0 : K) < 2 ^ (e + (52 - Int.log 2 |x|)))] at h3
        have h8 : (2 : K) ^ (e + (52 - Int.log 2 |x|)) ≤ 2 ^ (-1 : ℤ) :=
          zpow_le_zpow_right₀ (by norm_num) (by omega)
        have h9 : |(m : K)| < 2 ^ 53 := by exact_mod_cast h4
        have h10 := mul_lt_mul_of_pos_right h9 (zpow_pos (by norm_num) _ : (0 : K) < 2 ^ (e + (52 - Int.log 2 |x|)))
        norm_num at h3 h8 h10
        linarith
      obtain ⟨k, hk⟩ := Int.eq_ofNat_of_zero_le h7
      have h8 : y * 2 ^ (52 - Int.log 2 |x|) = ((m * 2 ^ k : ℤ) : K) := by
        rw [h6, hk]; push_cast; rw [zpow_natCast]
      rw [h8]
      exact roundEven_best _ _
    · push Not at h3
      by_cases h4 : 0 ≤ s
      · refine (roundEven_best s (2 ^ 52)).trans ?_
        rw [abs_of_nonneg h4] at h1
        rw [abs_lt] at h3
        norm_num at h1 h3 ⊢
        rw [abs_of_nonpos (by linarith), abs_of_nonpos (by linarith)]
        linarith
      · push Not at h4
        refine (roundEven_best s (-2 ^ 52)).trans ?_
        rw [abs_of_neg h4] at h1
        rw [abs_lt] at h3
        norm_num at h1 h3 ⊢
        rw [abs_of_nonneg (by linarith), abs_of_nonneg (by linarith)]
        linarith

end

theorem rnd_bounds {x : K} (h : 0 ≤ x) : x - x / 2 ^ 53 ≤ rnd x ∧ rnd x ≤ x + x / 2 ^ 53 := by
  have := rnd_error x
  rw [abs_of_nonneg h, abs_le] at this
  constructor <;> linarith [this.1, this.2]

theorem rnd_nonneg {x : K} (h : 0 ≤ x) : 0 ≤ rnd x := by
  have := (rnd_bounds h).1
  have h2 : x / 2 ^ 53 ≤ x := by
    rw [div_le_iff₀ (by norm_num)]; nlinarith
  linarith

theorem rnd_exact {x : K} (h : IsDouble x) : rnd x = x := by
  have := rnd_best (x := x) h
  rw [sub_self, abs_zero] at this
  exact sub_eq_zero.mp (abs_eq_zero.mp (le_antisymm this (abs_nonneg _)))

theorem castNearest_faithful : Faithful castNearest := by
  intro n
  have h := rnd_error (n : ℚ)
  rw [Nat.abs_cast] at h
  refine h.trans ?_
  have : (0 : ℚ) ≤ n := Nat.cast_nonneg n
  norm_num
  linarith

theorem castHalves_faithful (b : ℕ) : Faithful (castHalves b) := by
  intro n
  unfold castHalves
  obtain ⟨a1, a2⟩ := rnd_bounds (x := ((n % 2 ^ b : ℕ) : ℚ)) (Nat.cast_nonneg _)
  obtain ⟨b1, b2⟩ := rnd_bounds (x := ((n / 2 ^ b : ℕ) : ℚ)) (Nat.cast_nonneg _)
  have a0 := rnd_nonneg (x := ((n % 2 ^ b : ℕ) : ℚ)) (Nat.cast_nonneg _)
  have b0 := rnd_nonneg (x := ((n / 2 ^ b : ℕ) : ℚ)) (Nat.cast_nonneg _)
  have e : (n : ℚ) = ((n % 2 ^ b : ℕ) : ℚ) + ((n / 2 ^ b : ℕ) : ℚ) * 2 ^ b := by
    have := Nat.mod_add_div n (2 ^ b)
    rw [mul_comm] at this
    exact_mod_cast this.symm
  obtain ⟨c1, c2⟩ := rnd_bounds (x := rnd ((n % 2 ^ b : ℕ) : ℚ) + rnd ((n / 2 ^ b : ℕ) : ℚ) * 2 ^ b) (by positivity)
  have ha : (0 : ℚ) ≤ ((n % 2 ^ b : ℕ) : ℚ) := Nat.cast_nonneg _
  have hb : (0 : ℚ) ≤ ((n / 2 ^ b : ℕ) : ℚ) := Nat.cast_nonneg _
  rw [e]
  generalize ((n % 2 ^ b : ℕ) : ℚ) = p at *
  generalize ((n / 2 ^ b : ℕ) : ℚ) = q at *
  generalize rnd (rnd p + rnd q * 2 ^ b) = r at *
  have hB : (0 : ℚ) < 2 ^ b := by positivity
  generalize (2 : ℚ) ^ b = B at *
  have b1' := mul_le_mul_of_nonneg_right b1 hB.le
  have b2' := mul_le_mul_of_nonneg_right b2 hB.le
  have hb' := mul_nonneg hb hB.le
  rw [sub_mul, div_mul_eq_mul_div] at b1'
  rw [add_mul, div_mul_eq_mul_div] at b2'
  generalize rnd q * B = qB' at *
  generalize q * B = qB at *
  rw [abs_le]
  norm_num at *
  constructor <;> linarith

section
variable {cast : ℕ → ℚ}

theorem cast_bounds (h : Faithful cast) (n : ℕ) : n - (n : ℚ) / 2 ^ 51 ≤ cast n ∧ cast n ≤ n + (n : ℚ) / 2 ^ 51 := by
  have := h n
  rw [abs_le] at this
  constructor <;> linarith [this.1, this.2]

/-- The quotient of two converted numbers. -/
theorem quot_bounds (h : Faithful cast) {x q : ℕ} (hx : x < q) :
    0 ≤ rnd (cast x / cast q) ∧ |rnd (cast x / cast q) - (x : ℚ) / q| ≤ 12 / 2 ^ 53 * ((x : ℚ) / q) := by
  obtain ⟨a1, a2⟩ := cast_bounds h x
  obtain ⟨b1, b2⟩ := cast_bounds h q
  have hx0 : (0 : ℚ) ≤ x := Nat.cast_nonneg x
  have hq : (0 : ℚ) < q := by exact_mod_cast (by omega : 0 < q)
  have hcq : 0 < cast q := by
    refine lt_of_lt_of_le ?_ b1
    norm_num; linarith
  have hcx : 0 ≤ cast x := by
    refine le_trans ?_ a1
    norm_num; linarith
  have h0 : 0 ≤ cast x / cast q := by positivity
  have hy : 0 ≤ (x : ℚ) / q := by positivity
  have e : (x : ℚ) = x / q * q := by field_simp
  -- the exact quotient of the converted numbers
  have h1 : cast x / cast q ≤ (1 + 9 / 2 ^ 53) * ((x : ℚ) / q) := by
    rw [div_le_iff₀ hcq]
    have : (1 + 9 / 2 ^ 53) * ((x : ℚ) / q) * (q - (q : ℚ) / 2 ^ 51) ≤ (1 + 9 / 2 ^ 53) * ((x : ℚ) / q) * cast q :=
      mul_le_mul_of_nonneg_left b1 (by positivity)
    refine le_trans (a2.trans ?_) this
    have e2 : (1 + 9 / 2 ^ 53) * ((x : ℚ) / q) * (q - (q : ℚ) / 2 ^ 51) =
        (1 + 9 / 2 ^ 53) * (1 - 1 / 2 ^ 51) * x := by
      field_simp
    rw [e2]
    norm_num
    linarith
  have h2 : (1 - 9 / 2 ^ 53) * ((x : ℚ) / q) ≤ cast x / cast q := by
    rw [le_div_iff₀ hcq]
    have : (1 - 9 / 2 ^ 53) * ((x : ℚ) / q) * cast q ≤ (1 - 9 / 2 ^ 53) * ((x : ℚ) / q) * (q + (q : ℚ) / 2 ^ 51) :=
      mul_le_mul_of_nonneg_left b2 (mul_nonneg (by norm_num) hy)
    refine le_trans (this.trans ?_) a1
    have e2 : (1 - 9 / 2 ^ 53) * ((x : ℚ) / q) * (q + (q : ℚ) / 2 ^ 51) =
        (1 - 9 / 2 ^ 53) * (1 + 1 / 2 ^ 51) * x := by
      field_simp
    rw [e2]
    norm_num
    linarith
  obtain ⟨c1, c2⟩ := rnd_bounds h0
  refine ⟨rnd_nonneg h0, ?_⟩
  generalize (x : ℚ) / q = y at *
  generalize cast x / cast q = z at *
  rw [abs_le]
  norm_num at *
  constructor <;> linarith

theorem quot_lt (x q : ℕ) (hx : x < q) : (0 : ℚ) ≤ (x : ℚ) / q ∧ (x : ℚ) / q < 1 := by
  have hq : (0 : ℚ) < q := by exact_mod_cast (by omega : 0 < q)
  refine ⟨by positivity, ?_⟩
  rw [div_lt_one hq]
  exact_mod_cast hx

/-- The error of the sum, by induction over the terms, from any starting point. -/
theorem fold_bounds (h : Faithful cast) (c : List (ℕ × ℕ)) (hc : ∀ xq ∈ c, xq.1 < xq.2) (j : ℕ)
    (hj : ((j + c.length : ℕ) : ℚ) * ((j + c.length : ℕ) + 15) ≤ 2 ^ 53) {u s : ℚ} (hu : 0 ≤ u) (hs : s ≤ j)
    (hus : |u - s| ≤ j * (j + 15) / 2 ^ 53) :
    0 ≤ c.foldl (step cast) u ∧ |c.foldl (step cast) u - (s + (c.map fun xq => (xq.1 : ℚ) / xq.2).sum)| ≤
      ((j + c.length : ℕ) : ℚ) * ((j + c.length : ℕ) + 15) / 2 ^ 53 := by
  induction c generalizing j u s with
  | nil => simpa using ⟨hu, hus⟩
  | cons p c ih =>
    obtain ⟨q1, q2⟩ := quot_bounds h (hc p List.mem_cons_self)
    obtain ⟨y1, y2⟩ := quot_lt p.1 p.2 (hc p List.mem_cons_self)
    have hlen : j + (p :: c).length = j + 1 + c.length := by rw [List.length_cons]; omega
    rw [hlen] at hj ⊢
    rw [List.foldl_cons, List.map_cons, List.sum_cons, ← add_assoc]
    have hz : 0 ≤ u + rnd (cast p.1 / cast p.2) := by linarith
    obtain ⟨r1, r2⟩ := rnd_bounds hz
    have hE : (j : ℚ) * (j + 15) ≤ 2 ^ 53 := by
      have h1 : (j : ℚ) ≤ ((j + 1 + c.length : ℕ) : ℚ) := by exact_mod_cast (by omega)
      have h0 : (0 : ℚ) ≤ j := Nat.cast_nonneg j
      exact (mul_le_mul h1 (by linarith) (by linarith) (by linarith)).trans hj
    refine ih (fun xq hx => hc xq (List.mem_cons_of_mem _ hx)) (j + 1) hj (rnd_nonneg hz)
      (by push_cast; linarith) ?_
    have hj0 : (0 : ℚ) ≤ j := Nat.cast_nonneg j
    push_cast
    unfold step
    generalize rnd (cast p.1 / cast p.2) = z at *
    generalize (p.1 : ℚ) / p.2 = y at *
    generalize rnd (u + z) = r at *
    have hsq : (j : ℚ) * j + 15 * j ≤ 2 ^ 53 := by linarith
    have e1 : (j : ℚ) * (j + 15) / 2 ^ 53 = (j * j + 15 * j) / 2 ^ 53 := by ring
    have e2 : ((j : ℚ) + 1) * (j + 1 + 15) / 2 ^ 53 = (j * j + 17 * j + 16) / 2 ^ 53 := by ring
    rw [e1] at hus
    rw [e2]
    generalize (j : ℚ) * j = jj at *
    rw [abs_le] at *
    obtain ⟨q2, q3⟩ := q2
    obtain ⟨hus1, hus2⟩ := hus
    norm_num at *
    constructor <;> linarith

theorem sum_bounds (h : Faithful cast) {c : List (ℕ × ℕ)} (hc : ∀ xq ∈ c, xq.1 < xq.2)
    (hk : (c.length : ℚ) * (c.length + 15) ≤ 2 ^ 53) :
    0 ≤ sum cast c ∧ |sum cast c - (c.map fun xq => (xq.1 : ℚ) / xq.2).sum| ≤ doubleError c.length := by
  have := fold_bounds h c hc 0 (by simpa using hk) (u := 0) (s := 0) le_rfl (by simp) (by simp)
  simpa [sum, doubleError] using this

theorem error_mono {j k : ℕ} (h : j ≤ k) : (j : ℚ) * (j + 15) ≤ k * (k + 15) := by
  have : (j : ℚ) ≤ k := by exact_mod_cast h
  have h0 : (0 : ℚ) ≤ j := Nat.cast_nonneg j
  exact mul_le_mul this (by linarith) (by linarith) (by linarith)

theorem estimate_within (h : Faithful cast) {k : ℕ} (hk : k * (k + 15) ≤ 2 ^ 53) :
    EstimateWithin k (doubleError k) (estimate cast) := by
  intro c hl hc
  have hk' : (k : ℚ) * (k + 15) ≤ 2 ^ 53 := by exact_mod_cast hk
  have hm := error_mono hl
  obtain ⟨h0, h1⟩ := sum_bounds h hc (hm.trans hk')
  have h2 : doubleError c.length ≤ doubleError k := by
    unfold doubleError
    exact div_le_div_of_nonneg_right hm (by norm_num)
  unfold estimate
  have f1 := Int.floor_le (sum cast c + 1 / 2)
  have f2 := Int.lt_floor_add_one (sum cast c + 1 / 2)
  have f3 : 0 ≤ ⌊sum cast c + 1 / 2⌋ := Int.floor_nonneg.mpr (by linarith)
  have f4 : ((⌊sum cast c + 1 / 2⌋.toNat : ℕ) : ℚ) = (⌊sum cast c + 1 / 2⌋ : ℚ) := by
    exact_mod_cast Int.toNat_of_nonneg f3
  rw [f4]
  generalize (c.map fun xq => (xq.1 : ℚ) / xq.2).sum = s at *
  rw [abs_le] at *
  constructor <;> linarith [h1.1, h1.2]

/-! ### The range of the values -/

/-- Rounding does not cross a number with 53 significant bits. -/
theorem rnd_ge {x d : ℚ} (hd : IsDouble d) (h : d ≤ x) : d ≤ rnd x := by
  by_contra h1
  push Not at h1
  have h2 := rnd_best (x := x) hd
  rw [abs_of_neg (by linarith), abs_of_nonpos (by linarith)] at h2
  linarith

theorem isDouble_pow (w : ℕ) : IsDouble ((1 : ℚ) / 2 ^ w) :=
  ⟨1, -w, by norm_num, by rw [zpow_neg, zpow_natCast]; norm_num⟩

theorem cast_range (h : Faithful cast) (n : ℕ) :
    (n = 0 ∧ cast n = 0 ∨ 1 / 2 ≤ cast n) ∧ cast n ≤ 2 * n := by
  obtain ⟨h1, h2⟩ := cast_bounds h n
  rcases Nat.eq_zero_or_pos n with h0 | h0
  · subst h0
    norm_num at h1 h2 ⊢
    exact ⟨Or.inl (le_antisymm h2 h1), h2⟩
  · have : (1 : ℚ) ≤ n := by exact_mod_cast h0
    norm_num at h1 h2 ⊢
    exact ⟨Or.inr (by linarith), by linarith⟩

theorem quot_range (h : Faithful cast) {w x q : ℕ} (hx : x < q) (hq : q < 2 ^ w) :
    (rnd (cast x / cast q) = 0 ∨ 1 / 2 ^ (w + 1) ≤ rnd (cast x / cast q)) ∧ rnd (cast x / cast q) ≤ 2 := by
  obtain ⟨h0, h1⟩ := quot_bounds h hx
  obtain ⟨y1, y2⟩ := quot_lt x q hx
  rw [abs_le] at h1
  refine ⟨?_, ?_⟩
  · rcases Nat.eq_zero_or_pos x with h2 | h2
    · subst h2
      obtain ⟨h3, h4⟩ := h1
      norm_num at h3 h4
      exact Or.inl (by linarith)
    · right
      have h3 : (1 : ℚ) / 2 ^ w ≤ (x : ℚ) / q := by
        have hx1 : (1 : ℚ) ≤ x := by exact_mod_cast h2
        have hq1 : (q : ℚ) ≤ 2 ^ w := by exact_mod_cast hq.le
        have hq0 : (0 : ℚ) < q := by exact_mod_cast (by omega : 0 < q)
        exact div_le_div₀ (by linarith) hx1 hq0 hq1
      have h4 : (1 : ℚ) / 2 ^ (w + 1) = 1 / 2 ^ w / 2 := by rw [pow_succ]; field_simp
      rw [h4]
      generalize (x : ℚ) / q = y at *
      obtain ⟨h5, h6⟩ := h1
      norm_num at *
      linarith
  · generalize (x : ℚ) / q = y at *
    obtain ⟨h5, h6⟩ := h1
    norm_num at *
    linarith

theorem fold_range (h : Faithful cast) {w : ℕ} (c : List (ℕ × ℕ)) (hc : ∀ xq ∈ c, xq.1 < xq.2 ∧ xq.2 < 2 ^ w) {u : ℚ}
    (hu : u = 0 ∨ 1 / 2 ^ (w + 1) ≤ u) :
    c.foldl (step cast) u = 0 ∨ 1 / 2 ^ (w + 1) ≤ c.foldl (step cast) u := by
  induction c generalizing u with
  | nil => exact hu
  | cons p c ih =>
    obtain ⟨p1, p2⟩ := hc p List.mem_cons_self
    obtain ⟨h1, h2⟩ := quot_range h p1 p2
    refine ih (fun xq hx => hc xq (List.mem_cons_of_mem _ hx)) ?_
    unfold step
    have hp : (0 : ℚ) < 1 / 2 ^ (w + 1) := by positivity
    rcases hu with hu | hu
    · rcases h1 with h1 | h1
      · left; rw [hu, h1, add_zero]; simp [rnd]
      · right; exact rnd_ge (isDouble_pow _) (by linarith)
    · right
      refine rnd_ge (isDouble_pow _) ?_
      have := (quot_bounds h p1).1
      linarith

theorem quots_le (c : List (ℕ × ℕ)) (hc : ∀ xq ∈ c, xq.1 < xq.2) :
    (c.map fun xq => (xq.1 : ℚ) / xq.2).sum ≤ c.length := by
  induction c with
  | nil => simp
  | cons p c ih =>
    have := (quot_lt p.1 p.2 (hc p List.mem_cons_self)).2
    have := ih fun xq hx => hc xq (List.mem_cons_of_mem _ hx)
    rw [List.map_cons, List.sum_cons, List.length_cons]
    push_cast
    linarith

end

end Shell.Double
