import Verif.Model.Int256
import Verif.Lemmas.Core
import Mathlib.Data.Nat.Bitwise
import Mathlib.Tactic.LinearCombination

namespace Shell.U256

/-- Mathematical value. -/
def val (a : U256) : ℕ := a.hi * 2 ^ 128 + a.lo

/-- Both words fit. -/
def WF (a : U256) : Prop := a.hi < 2 ^ 128 ∧ a.lo < 2 ^ 128

theorem val_lt {a : U256} (h : WF a) : a.val < 2 ^ 256 := by
  obtain ⟨h1, h2⟩ := h; unfold val; omega

theorem lt_iff {a b : U256} (ha : WF a) (hb : WF b) : lt a b = true ↔ a.val < b.val := by
  obtain ⟨h1, h2⟩ := ha; obtain ⟨h3, h4⟩ := hb
  unfold lt val; split_ifs with h <;> simp <;> omega
theorem gt_iff {a b : U256} (ha : WF a) (hb : WF b) : gt a b = true ↔ a.val > b.val := by
  obtain ⟨h1, h2⟩ := ha; obtain ⟨h3, h4⟩ := hb
  unfold gt val; split_ifs with h <;> simp <;> omega
theorem ge_iff {a b : U256} (ha : WF a) (hb : WF b) : ge a b = true ↔ a.val ≥ b.val := by
  obtain ⟨h1, h2⟩ := ha; obtain ⟨h3, h4⟩ := hb
  unfold ge val; split_ifs with h <;> simp <;> omega
theorem le_iff {a b : U256} (ha : WF a) (hb : WF b) : le a b = true ↔ a.val ≤ b.val := by
  obtain ⟨h1, h2⟩ := ha; obtain ⟨h3, h4⟩ := hb
  unfold le val; split_ifs with h <;> simp <;> omega
theorem eq_iff {a b : U256} (ha : WF a) (hb : WF b) : eq a b = true ↔ a.val = b.val := by
  obtain ⟨h1, h2⟩ := ha; obtain ⟨h3, h4⟩ := hb
  unfold eq val; simp; omega

theorem add_spec {a b : U256} (ha : WF a) (hb : WF b) :
    WF (add a b) ∧ (add a b).val = (a.val + b.val) % 2 ^ 256 := by
  obtain ⟨h1, h2⟩ := ha; obtain ⟨h3, h4⟩ := hb
  unfold add WF val B
  simp only
  refine ⟨⟨by omega, by omega⟩, ?_⟩
  split_ifs <;> omega

theorem trunc128 (x : ℤ) : ((trunc 128 x : ℕ) : ℤ) = x % 2 ^ 128 := trunc_coe 128 x

theorem sub_spec {a b : U256} (ha : WF a) (hb : WF b) :
    WF (sub a b) ∧ ((sub a b).val : ℤ) = ((a.val : ℤ) - b.val) % 2 ^ 256 := by
  obtain ⟨h1, h2⟩ := ha; obtain ⟨h3, h4⟩ := hb
  unfold sub WF val
  simp only
  refine ⟨⟨trunc_lt _ _, trunc_lt _ _⟩, ?_⟩
  push_cast
  rw [trunc128, trunc128, trunc128]
  split_ifs <;> omega

theorem neg_spec {a : U256} (ha : WF a) :
    WF (neg a) ∧ ((neg a).val : ℤ) = (-(a.val : ℤ)) % 2 ^ 256 := by
  obtain ⟨h1, h2⟩ := ha
  unfold neg WF val flip B
  simp only
  split_ifs with h
  · simp only
    refine ⟨⟨by omega, by omega⟩, ?_⟩
    omega
  · simp only
    refine ⟨⟨by omega, by omega⟩, ?_⟩
    omega

theorem inc_spec {a : U256} (ha : WF a) :
    WF (inc a) ∧ (inc a).val = (a.val + 1) % 2 ^ 256 := by
  obtain ⟨h1, h2⟩ := ha
  unfold inc WF val B
  simp only
  split_ifs with h
  · exact ⟨⟨by omega, by omega⟩, by omega⟩
  · exact ⟨⟨by omega, by omega⟩, by omega⟩

theorem dec_spec {a : U256} (ha : WF a) :
    WF (dec a) ∧ ((dec a).val : ℤ) = ((a.val : ℤ) - 1) % 2 ^ 256 := by
  obtain ⟨h1, h2⟩ := ha
  unfold dec WF val
  simp only
  split_ifs with h
  · refine ⟨⟨trunc_lt _ _, trunc_lt _ _⟩, ?_⟩
    push_cast; rw [trunc128, trunc128]; omega
  · refine ⟨⟨h1, trunc_lt _ _⟩, ?_⟩
    push_cast; rw [trunc128]; omega

theorem testBit_val {a : U256} (ha : WF a) (i : ℕ) :
    a.val.testBit i = if i < 128 then a.lo.testBit i else a.hi.testBit (i - 128) := by
  unfold val
  rw [mul_comm, Nat.testBit_two_pow_mul_add _ ha.2]

theorem compl_spec {a : U256} (ha : WF a) :
    WF (compl a) ∧ (compl a).val = 2 ^ 256 - 1 - a.val := by
  obtain ⟨h1, h2⟩ := ha
  unfold compl WF val flip B
  simp only
  exact ⟨⟨by omega, by omega⟩, by omega⟩

theorem or_spec {a b : U256} (ha : WF a) (hb : WF b) :
    WF (or a b) ∧ (or a b).val = a.val ||| b.val := by
  have hw : WF (or a b) := ⟨Nat.or_lt_two_pow ha.1 hb.1, Nat.or_lt_two_pow ha.2 hb.2⟩
  refine ⟨hw, Nat.eq_of_testBit_eq fun i => ?_⟩
  rw [Nat.testBit_or, testBit_val hw, testBit_val ha, testBit_val hb]
  unfold or; split_ifs <;> simp

theorem and_spec {a b : U256} (ha : WF a) (hb : WF b) :
    WF (and a b) ∧ (and a b).val = a.val &&& b.val := by
  have hw : WF (and a b) := ⟨Nat.and_lt_two_pow _ hb.1, Nat.and_lt_two_pow _ hb.2⟩
  refine ⟨hw, Nat.eq_of_testBit_eq fun i => ?_⟩
  rw [Nat.testBit_and, testBit_val hw, testBit_val ha, testBit_val hb]
  unfold and; split_ifs <;> simp

theorem xor_spec {a b : U256} (ha : WF a) (hb : WF b) :
    WF (xor a b) ∧ (xor a b).val = a.val ^^^ b.val := by
  have hw : WF (xor a b) := ⟨Nat.xor_lt_two_pow ha.1 hb.1, Nat.xor_lt_two_pow ha.2 hb.2⟩
  refine ⟨hw, Nat.eq_of_testBit_eq fun i => ?_⟩
  rw [Nat.testBit_xor, testBit_val hw, testBit_val ha, testBit_val hb]
  unfold xor; split_ifs <;> simp

theorem shlLow_spec {a : U256} (h : WF a) {n : ℕ} (hn : n < 128) (hn0 : n ≠ 0) :
    WF (shlLow a n) ∧ (shlLow a n).val = (a.val * 2 ^ n) % 2 ^ 256 := by
  obtain ⟨hi, lo⟩ := a
  obtain ⟨hhi, hlo⟩ := h
  simp only at hhi hlo
  have rdef : shlLow ⟨hi, lo⟩ n = ⟨(hi <<< n) % B ||| (lo >>> (128 - n)), (lo <<< n) % B⟩ := rfl
  rw [rdef]
  generalize hr : (⟨(hi <<< n) % B ||| (lo >>> (128 - n)), (lo <<< n) % B⟩ : U256) = r
  have h1 : lo >>> (128 - n) < 2 ^ 128 := by
    rw [Nat.shiftRight_eq_div_pow]
    exact lt_of_le_of_lt (Nat.div_le_self _ _) hlo
  have hw : WF r := hr ▸ ⟨Nat.or_lt_two_pow (Nat.mod_lt _ (by positivity)) h1,
    Nat.mod_lt _ (by positivity)⟩
  have ha : WF ⟨hi, lo⟩ := ⟨hhi, hlo⟩
  refine ⟨hw, Nat.eq_of_testBit_eq fun i => ?_⟩
  have e3 : ((⟨hi, lo⟩ : U256).val * 2 ^ n % 2 ^ 256).testBit i =
      (decide (i < 256) && (decide (i ≥ n) && if i - n < 128 then lo.testBit (i - n)
        else hi.testBit (i - n - 128))) := by
    rw [Nat.testBit_mod_two_pow, ← Nat.shiftLeft_eq, Nat.testBit_shiftLeft, testBit_val ha]
  rw [testBit_val hw, e3]
  subst hr
  simp only [B, Nat.testBit_or, Nat.testBit_mod_two_pow, Nat.testBit_shiftLeft,
    Nat.testBit_shiftRight]
  by_cases hi1 : i < 128
  · have a1 : i < 256 := by omega
    have a2 : i - n < 128 := by omega
    simp [hi1, a1, a2]
  · by_cases hi2 : i < 256
    · have a1 : i - 128 < 128 := by omega
      have a2 : n ≤ i := by omega
      by_cases hi3 : i - n < 128
      · have a3 : ¬ n ≤ i - 128 := by omega
        have a4 : 128 - n + (i - 128) = i - n := by omega
        simp [hi1, hi2, a1, a2, hi3, a3, a4]
      · have a3 : n ≤ i - 128 := by omega
        have a4 : lo.testBit (128 - n + (i - 128)) = false := by
          apply Nat.testBit_lt_two_pow
          exact lt_of_lt_of_le hlo (Nat.pow_le_pow_right (by norm_num) (by omega))
        have a5 : i - 128 - n = i - n - 128 := by omega
        simp [hi1, hi2, a1, a2, hi3, a3, a4, a5]
    · have a1 : ¬ i - 128 < 128 := by omega
      have a4 : lo.testBit (128 - n + (i - 128)) = false := by
        apply Nat.testBit_lt_two_pow
        exact lt_of_lt_of_le hlo (Nat.pow_le_pow_right (by norm_num) (by omega))
      simp [hi1, hi2, a1, a4]

theorem shrLow_spec {a : U256} (h : WF a) {n : ℕ} (hn : n < 128) (hn0 : n ≠ 0) :
    WF (shrLow a n) ∧ (shrLow a n).val = a.val / 2 ^ n := by
  obtain ⟨hi, lo⟩ := a
  obtain ⟨hhi, hlo⟩ := h
  simp only at hhi hlo
  have rdef : shrLow ⟨hi, lo⟩ n = ⟨hi >>> n, (lo >>> n) ||| (hi <<< (128 - n)) % B⟩ := rfl
  rw [rdef]
  generalize hr : (⟨hi >>> n, (lo >>> n) ||| (hi <<< (128 - n)) % B⟩ : U256) = r
  have h1 : lo >>> n < 2 ^ 128 := by
    rw [Nat.shiftRight_eq_div_pow]
    exact lt_of_le_of_lt (Nat.div_le_self _ _) hlo
  have h2 : hi >>> n < 2 ^ 128 := by
    rw [Nat.shiftRight_eq_div_pow]
    exact lt_of_le_of_lt (Nat.div_le_self _ _) hhi
  have hw : WF r := hr ▸ ⟨h2, Nat.or_lt_two_pow h1 (Nat.mod_lt _ (by positivity))⟩
  have ha : WF ⟨hi, lo⟩ := ⟨hhi, hlo⟩
  refine ⟨hw, Nat.eq_of_testBit_eq fun i => ?_⟩
  have e3 : ((⟨hi, lo⟩ : U256).val / 2 ^ n).testBit i =
      (if n + i < 128 then lo.testBit (n + i) else hi.testBit (n + i - 128)) := by
    rw [← Nat.shiftRight_eq_div_pow, Nat.testBit_shiftRight, testBit_val ha]
  rw [testBit_val hw, e3]
  subst hr
  simp only [B, Nat.testBit_or, Nat.testBit_mod_two_pow, Nat.testBit_shiftLeft,
    Nat.testBit_shiftRight]
  by_cases hi1 : i < 128
  · by_cases hi2 : n + i < 128
    · have a1 : ¬ 128 - n ≤ i := by omega
      simp [hi1, hi2, a1]
    · have a1 : 128 - n ≤ i := by omega
      have a2 : lo.testBit (n + i) = false := by
        apply Nat.testBit_lt_two_pow
        exact lt_of_lt_of_le hlo (Nat.pow_le_pow_right (by norm_num) (by omega))
      have a3 : i - (128 - n) = n + i - 128 := by omega
      simp [hi1, hi2, a1, a2, a3]
  · have a1 : ¬ n + i < 128 := by omega
    have a2 : n + (i - 128) = n + i - 128 := by omega
    simp [hi1, a1, a2]

theorem shl_spec {a : U256} (ha : WF a) (n : ℕ) :
    ∃ r, shl a (n : ℤ) = .ok r ∧ WF r ∧ r.val = (a.val * 2 ^ n) % 2 ^ 256 := by
  obtain ⟨h1, h2⟩ := ha
  unfold shl
  rw [if_neg (by omega)]
  simp only [Int.toNat_natCast]
  by_cases hn : n < 128
  · rw [if_pos hn]
    by_cases hn0 : n = 0
    · subst hn0
      refine ⟨a, by simp, ⟨h1, h2⟩, ?_⟩
      have := val_lt (a := a) ⟨h1, h2⟩
      simp; omega
    · rw [if_pos hn0]
      exact ⟨_, rfl, shlLow_spec ⟨h1, h2⟩ hn hn0⟩
  · rw [if_neg hn]
    obtain ⟨m, rfl⟩ : ∃ m, n = 128 + m := ⟨n - 128, by omega⟩
    by_cases hm : 128 + m < 256
    · rw [if_pos hm]
      refine ⟨_, rfl, ⟨Nat.mod_lt _ (by positivity), by positivity⟩, ?_⟩
      simp only [val, B]
      rw [show 128 + m - 128 = m by omega, Nat.shiftLeft_eq, pow_add, show (2:ℕ) ^ 256 = 2 ^ 128 * 2 ^ 128 by norm_num]
      have e : (a.hi * 2 ^ 128 + a.lo) * (2 ^ 128 * 2 ^ m) =
          2 ^ 128 * (a.lo * 2 ^ m + 2 ^ 128 * (a.hi * 2 ^ m)) := by ring
      rw [e, Nat.mul_mod_mul_left, Nat.add_mul_mod_self_left]; ring
    · rw [if_neg hm]
      refine ⟨_, rfl, ⟨by positivity, by positivity⟩, ?_⟩
      obtain ⟨k, rfl⟩ : ∃ k, m = 128 + k := ⟨m - 128, by omega⟩
      simp only [val]
      have e : (a.hi * 2 ^ 128 + a.lo) * 2 ^ (128 + (128 + k)) =
          2 ^ 256 * ((a.hi * 2 ^ 128 + a.lo) * 2 ^ k) := by
        rw [pow_add, pow_add]; ring
      rw [e, Nat.mul_mod_right, zero_mul]

theorem shr_spec {a : U256} (ha : WF a) (n : ℕ) :
    ∃ r, shr a (n : ℤ) = .ok r ∧ WF r ∧ r.val = a.val / 2 ^ n := by
  have hv := val_lt ha
  obtain ⟨h1, h2⟩ := ha
  unfold shr
  rw [if_neg (by omega)]
  simp only [Int.toNat_natCast]
  by_cases hn : n < 128
  · rw [if_pos hn]
    by_cases hn0 : n = 0
    · subst hn0
      exact ⟨a, by simp, ⟨h1, h2⟩, by simp⟩
    · rw [if_pos hn0]
      exact ⟨_, rfl, shrLow_spec ⟨h1, h2⟩ hn hn0⟩
  · rw [if_neg hn]
    obtain ⟨m, rfl⟩ : ∃ m, n = 128 + m := ⟨n - 128, by omega⟩
    by_cases hm : 128 + m < 256
    · rw [if_pos hm]
      refine ⟨_, rfl, ⟨by positivity, ?_⟩, ?_⟩
      · simp only
        rw [Nat.shiftRight_eq_div_pow]
        exact lt_of_le_of_lt (Nat.div_le_self _ _) h1
      · simp only [val]
        rw [show 128 + m - 128 = m by omega, pow_add, ← Nat.div_div_eq_div_mul,
          Nat.shiftRight_eq_div_pow]
        have : (a.hi * 2 ^ 128 + a.lo) / 2 ^ 128 = a.hi := by omega
        rw [this]; simp
    · rw [if_neg hm]
      refine ⟨_, rfl, ⟨by positivity, by positivity⟩, ?_⟩
      simp only [val]
      symm
      rw [zero_mul, Nat.div_eq_zero_iff]
      right
      exact lt_of_lt_of_le hv (Nat.pow_le_pow_right (by norm_num) (by omega))

theorem mul_spec {a b : U256} (ha : WF a) (hb : WF b) :
    WF (mul a b) ∧ (mul a b).val = (a.val * b.val) % 2 ^ 256 := by
  obtain ⟨h1, h2⟩ := ha; obtain ⟨h3, h4⟩ := hb
  unfold mul
  simp only
  set a64 := a.lo / 2 ^ 64 with ea64
  set a00 := a.lo % 2 ^ 64 with ea00
  set b64 := b.lo / 2 ^ 64 with eb64
  set b00 := b.lo % 2 ^ 64 with eb00
  have l1 : a64 < 2 ^ 64 := by omega
  have l2 : a00 < 2 ^ 64 := by omega
  have l3 : b64 < 2 ^ 64 := by omega
  have l4 : b00 < 2 ^ 64 := by omega
  have p1 : a64 * b00 < 2 ^ 128 := lt_of_lt_of_le (Nat.mul_lt_mul'' l1 l4) (by norm_num)
  have p2 : a00 * b64 < 2 ^ 128 := lt_of_lt_of_le (Nat.mul_lt_mul'' l2 l3) (by norm_num)
  have p3 : a00 * b00 < 2 ^ 128 := lt_of_lt_of_le (Nat.mul_lt_mul'' l2 l4) (by norm_num)
  rw [Nat.mod_eq_of_lt p1, Nat.mod_eq_of_lt p2, Nat.mod_eq_of_lt p3]
  obtain ⟨m1, m2⟩ := add_spec (a := ⟨0, a64 * b00⟩) (b := ⟨0, a00 * b64⟩) ⟨by positivity, p1⟩
    ⟨by positivity, p2⟩
  set mid := add ⟨0, a64 * b00⟩ ⟨0, a00 * b64⟩ with hmid
  obtain ⟨s1, s2⟩ := shlLow_spec (n := 64) m1 (by norm_num) (by norm_num)
  obtain ⟨t1, t2⟩ := add_spec (a := ⟨(a.hi * b.lo + a64 * b64 + a.lo * b.hi) % B, a00 * b00⟩)
    ⟨Nat.mod_lt _ (by positivity), p3⟩ s1
  refine ⟨t1, ?_⟩
  rw [t2, s2]
  have hm : mid.val = a64 * b00 + a00 * b64 := by
    rw [m2]; simp only [val]; rw [Nat.mod_eq_of_lt (by omega)]; ring
  rw [hm]
  simp only [val]
  have ealo : a.lo = a64 * 2 ^ 64 + a00 := by omega
  have eblo : b.lo = b64 * 2 ^ 64 + b00 := by omega
  clear_value a64 a00 b64 b00
  have key : (a.hi * b.lo + a64 * b64 + a.lo * b.hi) % B * 2 ^ 128 ≡
      (a.hi * b.lo + a64 * b64 + a.lo * b.hi) * 2 ^ 128 [MOD 2 ^ 256] := by
    have := (Nat.mod_modEq (a.hi * b.lo + a64 * b64 + a.lo * b.hi) B).mul_right' (2 ^ 128)
    rwa [show B * 2 ^ 128 = 2 ^ 256 by norm_num [B]] at this
  have e2 : (a.hi * 2 ^ 128 + a.lo) * (b.hi * 2 ^ 128 + b.lo) =
      (a.hi * b.lo + a64 * b64 + a.lo * b.hi) * 2 ^ 128 + a00 * b00 +
        (a64 * b00 + a00 * b64) * 2 ^ 64 + 2 ^ 256 * (a.hi * b.hi) := by
    rw [ealo, eblo]; ring
  rw [e2, Nat.add_mul_mod_self_left, Nat.add_mod_mod]
  exact ((key.add_right _).add_right _)

end Shell.U256
