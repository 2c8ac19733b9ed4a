import Verif.Model.Ntt
import Verif.Lemmas.Loop
import Verif.Lemmas.Tactics
import Mathlib.Data.Nat.Bitwise

namespace Shell.Ntt

theorem bitrevLoop_eq : ∀ (k o x : ℕ), o * 2 ^ k < 2 ^ 32 →
    bitrevLoop k o x = o * 2 ^ k + bitrevLoop k 0 x := by
  intro k
  induction k with
  | zero => intro o x _; simp [bitrevLoop]
  | succ k ih =>
    intro o x h
    have hb : x &&& 1 = x % 2 := Nat.and_one_is_mod x
    have hx : x % 2 < 2 := Nat.mod_lt _ (by norm_num)
    have hk : 0 < 2 ^ k := by positivity
    have hk' : 2 ^ k * o * 2 < 2 ^ 32 := by rw [pow_succ] at h; linarith [mul_comm o (2 ^ k)]
    have ho : o * 2 < 2 ^ 32 := by nlinarith
    have step : ∀ o, o * 2 < 2 ^ 32 → (o <<< 1) % 2 ^ 32 ||| (x &&& 1) = 2 * o + x % 2 := by
      intro o ho
      rw [hb, Nat.shiftLeft_eq, pow_one, Nat.mod_eq_of_lt ho, mul_comm o 2]
      have := Nat.two_pow_add_eq_or_of_lt (i := 1) (b := x % 2) (by simpa using hx) o
      rw [pow_one] at this; exact this.symm
    have hk32 : 0 < o → 2 ^ k * 2 < 2 ^ 32 := by
      intro h0; nlinarith
    rw [bitrevLoop, bitrevLoop, step o ho, step 0 (by norm_num)]
    by_cases h0 : o = 0
    · subst h0; simp
    · have := hk32 (Nat.pos_of_ne_zero h0)
      have key : (2 * o + x % 2) * 2 ^ k < 2 ^ 32 := by
        have h1 : (o * 2 ^ k * 2) + 2 ^ k * 2 ≤ 2 ^ 32 := by
          -- both are multiples of `2^(k+1)` below `2^32`
          have hkk : k + 1 ≤ 32 := by
            by_contra hc
            have : 2 ^ 32 ≤ 2 ^ k := Nat.pow_le_pow_right (by norm_num) (by omega)
            omega
          obtain ⟨d, hd⟩ : ∃ d, 32 = d + (k + 1) := ⟨32 - (k + 1), by omega⟩
          have e32 : 2 ^ 32 = 2 ^ d * 2 ^ (k + 1) := by rw [← pow_add, ← hd]
          rw [e32] at h ⊢
          have : o < 2 ^ d := Nat.lt_of_mul_lt_mul_right h
          calc o * 2 ^ k * 2 + 2 ^ k * 2 = (o + 1) * 2 ^ (k + 1) := by rw [pow_succ]; ring
            _ ≤ _ := Nat.mul_le_mul_right _ this
        have h2 : x % 2 * 2 ^ k ≤ 1 * 2 ^ k := Nat.mul_le_mul_right _ (by omega)
        nlinarith
      rw [ih _ _ key, ih (2 * 0 + x % 2) _ (by
        have : x % 2 * 2 ^ k ≤ 1 * 2 ^ k := Nat.mul_le_mul_right _ (by omega)
        simp only [mul_zero, zero_add]; omega)]
      rw [pow_succ]; ring

theorem bitrev_zero (x : ℕ) : bitrev x 0 = 0 := rfl

/-- The low input bit becomes the top output bit. -/
theorem bitrev_succ (x k : ℕ) (hk : k < 32) :
    bitrev x (k + 1) = x % 2 * 2 ^ k + bitrev (x / 2) k := by
  have hb : x &&& 1 = x % 2 := Nat.and_one_is_mod x
  unfold bitrev
  rw [bitrevLoop, hb, Nat.shiftRight_eq_div_pow, pow_one]
  simp only [Nat.zero_shiftLeft, Nat.zero_mod, Nat.zero_or]
  apply bitrevLoop_eq
  have h1 : x % 2 * 2 ^ k ≤ 1 * 2 ^ k := Nat.mul_le_mul_right _ (by omega)
  have h2 : 2 ^ k < 2 ^ 32 := Nat.pow_lt_pow_right (by norm_num) hk
  omega

theorem bitrev_lt (k : ℕ) : ∀ x, k ≤ 32 → bitrev x k < 2 ^ k := by
  induction k with
  | zero => intro x _; simp [bitrev_zero]
  | succ k ih =>
    intro x h
    rw [bitrev_succ x k (by omega)]
    have := ih (x / 2) (by omega)
    have h1 : x % 2 * 2 ^ k ≤ 1 * 2 ^ k := Nat.mul_le_mul_right _ (by omega)
    rw [pow_succ]; omega

theorem bitrev_two_mul (b d : ℕ) (hd : d < 32) : bitrev (2 * b) (d + 1) = bitrev b d := by
  rw [bitrev_succ _ _ hd]; simp

theorem bitrev_two_mul_add (b d : ℕ) (hd : d < 32) :
    bitrev (2 * b + 1) (d + 1) = 2 ^ d + bitrev b d := by
  rw [bitrev_succ _ _ hd]
  rw [show (2 * b + 1) % 2 = 1 by omega, show (2 * b + 1) / 2 = b by omega, one_mul]

/-- The top input bit becomes the low output bit. -/
theorem bitrev_top (k : ℕ) : ∀ x, k < 32 → x < 2 ^ (k + 1) →
    bitrev x (k + 1) = 2 * bitrev (x % 2 ^ k) k + x / 2 ^ k := by
  induction k with
  | zero =>
    intro x _ h
    rw [bitrev_succ x 0 (by omega)]
    simp [bitrev_zero]; omega
  | succ k ih =>
    intro x h hx
    rw [bitrev_succ x (k + 1) h, ih (x / 2) (by omega) (by rw [pow_succ] at hx; omega),
      bitrev_succ _ k (by omega)]
    have e1 : x % 2 ^ (k + 1) % 2 = x % 2 := Nat.mod_mod_of_dvd x (dvd_pow_self 2 (by omega))
    have e2 : x % 2 ^ (k + 1) / 2 = x / 2 % 2 ^ k := by
      rw [pow_succ, mul_comm, Nat.mod_mul_right_div_self]
    have e3 : x / 2 / 2 ^ k = x / 2 ^ (k + 1) := by
      rw [Nat.div_div_eq_div_mul, pow_succ, mul_comm]
    rw [e1, e2, e3, pow_succ]; ring

theorem bitrev_low (k x : ℕ) (hk : k < 32) (hx : x < 2 ^ k) :
    bitrev x (k + 1) = 2 * bitrev x k := by
  rw [bitrev_top k x hk (by rw [pow_succ]; omega), Nat.mod_eq_of_lt hx, Nat.div_eq_of_lt hx, add_zero]

theorem bitrev_invol (k : ℕ) : ∀ x, k ≤ 32 → x < 2 ^ k → bitrev (bitrev x k) k = x := by
  induction k with
  | zero => intro x _ hx; simp at hx; subst hx; rfl
  | succ k ih =>
    intro x hk hx
    have h1 := bitrev_lt k (x / 2) (by omega)
    rw [bitrev_succ x k (by omega), bitrev_top k _ (by omega)]
    · have hx2 : x / 2 < 2 ^ k := by rw [pow_succ] at hx; omega
      have hp : 0 < 2 ^ k := by positivity
      rw [mul_comm (x % 2), Nat.mul_add_mod, Nat.mod_eq_of_lt h1, ih _ (by omega) hx2,
        Nat.mul_add_div hp, Nat.div_eq_of_lt h1]
      omega
    · have h1 : x % 2 * 2 ^ k ≤ 1 * 2 ^ k := Nat.mul_le_mul_right _ (by omega)
      rw [pow_succ]; omega

/-- Bit `i` of the reversal is bit `k-1-i` of the argument. -/
theorem bitrev_testBit (k : ℕ) : ∀ x i, k ≤ 32 → i < k →
    (bitrev x k).testBit i = x.testBit (k - 1 - i) := by
  induction k with
  | zero => intro x i _ h; omega
  | succ k ih =>
    intro x i hk hi
    have h1 := bitrev_lt k (x / 2) (by omega)
    rw [bitrev_succ x k (by omega), mul_comm, Nat.testBit_two_pow_mul_add _ h1]
    by_cases h : i < k
    · rw [if_pos h, ih _ _ (by omega) h]
      have : k + 1 - 1 - i = (k - 1 - i) + 1 := by omega
      rw [this, Nat.testBit_succ]
    · have : i = k := by omega
      subst this
      rw [if_neg h]
      have e : i + 1 - 1 - i = 0 := by omega
      rw [e, Nat.sub_self, Nat.testBit_zero, Nat.testBit_zero]; simp

theorem bitrev_fwd_index (d L b : ℕ) (hL : L ≤ 32) (hd : d < L) (hb : b < 2 ^ d) :
    bitrev (2 ^ d + b) L = 2 ^ (L - 1 - d) * (1 + 2 * bitrev b d) := by
  obtain ⟨m, rfl⟩ : ∃ m, L = d + 1 + m := ⟨L - (d + 1), by omega⟩
  clear hd
  have hlt : 2 ^ d + b < 2 ^ (d + 1) := by rw [pow_succ]; omega
  induction m with
  | zero =>
    have hp : 0 < 2 ^ d := by positivity
    rw [show d + 1 + 0 = d + 1 by ring, bitrev_top d _ (by omega) hlt, Nat.add_mod_left,
      Nat.mod_eq_of_lt hb, Nat.add_div_left _ hp, Nat.div_eq_of_lt hb]
    simp; ring
  | succ m ih =>
    rw [show d + 1 + (m + 1) = d + 1 + m + 1 by ring, bitrev_low _ _ (by omega), ih (by omega)]
    · rw [show d + 1 + m - 1 - d = m by omega, show d + 1 + m + 1 - 1 - d = m + 1 by omega, pow_succ]
      ring
    · exact lt_of_lt_of_le hlt (Nat.pow_le_pow_right (by norm_num) (by omega))

theorem bitrev_inv_index (i : ℕ) : ∀ (L b : ℕ), L ≤ 32 → i < L → b < 2 ^ (L - 1 - i) →
    bitrev (2 ^ L - 2 ^ (L - i) + b) L + 1 = 2 ^ i * (1 + 2 * bitrev b (L - 1 - i)) := by
  induction i with
  | zero =>
    intro L b hL hi hb
    obtain ⟨m, rfl⟩ : ∃ m, L = m + 1 := ⟨L - 1, by omega⟩
    simp only [Nat.sub_zero, Nat.sub_self, zero_add, pow_zero, one_mul, Nat.add_sub_cancel] at hb ⊢
    rw [bitrev_low m b (by omega) hb]; ring
  | succ i ih =>
    intro L b hL hi hb
    obtain ⟨m, rfl⟩ : ∃ m, L = m + 1 := ⟨L - 1, by omega⟩
    have e1 : m + 1 - (i + 1) = m - i := by omega
    have e2 : m + 1 - 1 - (i + 1) = m - 1 - i := by omega
    rw [e2] at hb
    rw [e1, e2]
    have := ih m b (by omega) (by omega) hb
    have hmi : 2 ^ (m - i) = 2 * 2 ^ (m - 1 - i) := by
      rw [← pow_succ']; congr 1; omega
    have hle : 2 ^ (m - i) ≤ 2 ^ m := Nat.pow_le_pow_right (by norm_num) (by omega)
    have hlt : 2 ^ m - 2 ^ (m - i) + b < 2 ^ m := by omega
    have e3 : 2 ^ (m + 1) - 2 ^ (m - i) + b = 2 ^ m + (2 ^ m - 2 ^ (m - i) + b) := by
      rw [pow_succ]; omega
    rw [e3, bitrev_top m _ (by omega) (by rw [pow_succ]; omega), Nat.add_mod_left,
      Nat.mod_eq_of_lt hlt, Nat.add_div_left _ (by positivity), Nat.div_eq_of_lt hlt, pow_succ]
    linarith

/-- Shorter vectors use a prefix of the table: reversing with more bits shifts the result. -/
theorem bitrev_shift (s L x : ℕ) (h : L + s ≤ 32) (hx : x < 2 ^ L) :
    bitrev x (L + s) = 2 ^ s * bitrev x L := by
  induction s with
  | zero => simp
  | succ s ih =>
    rw [← add_assoc, bitrev_low _ _ (by omega), ih (by omega), pow_succ]
    · ring
    · exact lt_of_lt_of_le hx (Nat.pow_le_pow_right (by norm_num) (by omega))

theorem bitrevArray_length (l : ℕ) : (bitrevArray l).length = 2 ^ l := by simp [bitrevArray]

theorem rd_bitrevArray {l i : ℕ} (h : i < 2 ^ l) : rd (bitrevArray l) i = .ok (bitrev i l) := by
  rw [rd_ok (by rw [bitrevArray_length]; exact h)]
  simp [bitrevArray]

/-- `BitrevHelper` with the table for `l` bits permutes a vector of length `2^l`. -/
theorem bitrevHelper_spec (l : ℕ) (hl : l ≤ 32) (row : List ℕ) (hr : row.length = 2 ^ l) :
    ∃ out, bitrevHelper (bitrevArray l) row = .ok out ∧ out.length = 2 ^ l ∧
      ∀ x < 2 ^ l, out.getD x 0 = row.getD (bitrev x l) 0 := by
  unfold bitrevHelper
  have key := loop_ok (n := row.length) (s := row)
    (P := fun i v => v.length = 2 ^ l ∧ ∀ x < 2 ^ l,
      v.getD x 0 = if min x (bitrev x l) < i then row.getD (bitrev x l) 0 else row.getD x 0)
    (f := fun i v => do
      let r ← rd (bitrevArray l) i
      if i < r then do
        let x ← rd v i
        let y ← rd v r
        let v ← wr v i y
        wr v r x
      else return v) ⟨hr, fun x _ => by simp⟩
  have key2 := key ?_
  · obtain ⟨out, h1, h2, h3⟩ := key2
    refine ⟨out, h1, h2, fun x hx => ?_⟩
    rw [h3 x hx, if_pos (by rw [hr]; omega)]
  · rintro i v hi ⟨hv, hval⟩
    rw [hr] at hi
    have hri := bitrev_lt l i hl
    have hinv := bitrev_invol l i hl hi
    simp only [rd_bitrevArray hi, Outcome.bind_ok]
    by_cases hlt : i < bitrev i l
    · rw [if_pos hlt, rd_getD 0 (by omega), Outcome.bind_ok, rd_getD 0 (by omega), Outcome.bind_ok,
        wr_ok (by omega), Outcome.bind_ok, wr_ok (by simp; omega)]
      refine ⟨_, rfl, by simp [hv], fun x hx => ?_⟩
      rw [getD_set _ _ _ _ _ (by simp; omega), getD_set _ _ _ _ _ (by omega)]
      have hxinv := bitrev_invol l x hl hx
      by_cases hx1 : bitrev i l = x
      · rw [if_pos hx1]
        subst hx1
        rw [hinv, hval i hi, if_neg (by omega), if_pos (by omega)]
      · rw [if_neg hx1]
        by_cases hx2 : i = x
        · subst hx2
          rw [if_pos rfl, if_pos (by omega), hval _ hri, hinv, if_neg (by omega)]
        · rw [if_neg hx2, hval x hx]
          have hne : bitrev x l ≠ i := fun h => hx1 (by rw [← h, hxinv])
          congr 1
          apply propext
          omega
    · rw [if_neg hlt]
      refine ⟨v, rfl, hv, fun x hx => ?_⟩
      rw [hval x hx]
      by_cases hx2 : i = x
      · subst hx2
        by_cases he : bitrev i l = i
        · rw [he]; simp
        · rw [if_pos (by omega), if_pos (by omega)]
      · by_cases hne : bitrev x l = i
        · have hxinv := bitrev_invol l x hl hx
          rw [hne] at hxinv
          rw [if_pos (by omega), if_pos (by omega)]
        · congr 1
          apply propext
          omega

end Shell.Ntt
