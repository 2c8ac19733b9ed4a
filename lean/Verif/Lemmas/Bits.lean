import Verif.Model.Bits
import Mathlib.Data.Nat.Digits.Lemmas
import Mathlib.Data.Nat.Bitwise
import Mathlib.Tactic.Ring
import Mathlib.Tactic.Linarith
import Mathlib.Tactic.IntervalCases

namespace Shell.Bits

/-! ## Leading zeros -/

theorem clzStep_inv (k z x L : ℕ) (hz : 2 * k ≤ z) (hx : x < 2 ^ (2 * k))
    (hL : x < 2 ^ L) (hL' : x ≠ 0 → 2 ^ (L - 1) ≤ x) (hL0 : x = 0 → L = 0) :
    let s := clzStep k (z, x)
    ∃ L', s.2 < 2 ^ k ∧ s.2 < 2 ^ L' ∧ (s.2 ≠ 0 → 2 ^ (L' - 1) ≤ s.2) ∧ (s.2 = 0 → L' = 0) ∧
      s.1 + L = z + L' ∧ k ≤ s.1 := by
  simp only [clzStep, Nat.shiftRight_eq_div_pow]
  have hk : 0 < 2 ^ k := by positivity
  by_cases h : x / 2 ^ k = 0
  · simp only [h, ne_eq, not_true_eq_false, if_false]
    rw [Nat.div_eq_zero_iff] at h
    exact ⟨L, by omega, hL, hL', hL0, rfl, by omega⟩
  · simp only [h, ne_eq, not_false_eq_true, if_true]
    have hge : 2 ^ k ≤ x := by
      by_contra hc; exact h (Nat.div_eq_of_lt (by omega))
    have hkL : k < L := by
      by_contra hc
      have : 2 ^ L ≤ 2 ^ k := Nat.pow_le_pow_right (by norm_num) (by omega)
      omega
    refine ⟨L - k, ?_, ?_, ?_, ?_, by omega, by omega⟩
    · rw [Nat.div_lt_iff_lt_mul hk, ← pow_add, ← two_mul]; exact hx
    · rw [Nat.div_lt_iff_lt_mul hk, ← pow_add, show L - k + k = L by omega]; exact hL
    · intro _
      rw [Nat.le_div_iff_mul_le hk, ← pow_add, show L - k - 1 + k = L - 1 by omega]
      exact hL' (by omega)
    · intro h0; simp at h0

/-- The bit length of `x`, characterised. -/
theorem exists_len (x : ℕ) : ∃ L, x < 2 ^ L ∧ (x ≠ 0 → 2 ^ (L - 1) ≤ x) ∧ (x = 0 → L = 0) := by
  by_cases h : x = 0
  · exact ⟨0, by simp [h]⟩
  · refine ⟨Nat.log 2 x + 1, Nat.lt_pow_succ_log_self (by norm_num) x, fun _ => ?_, fun h' => absurd h' h⟩
    simpa using Nat.pow_log_le_self 2 h

theorem clz64_spec (x L : ℕ) (hx : x < 2 ^ 64) (hL : x < 2 ^ L)
    (hL' : x ≠ 0 → 2 ^ (L - 1) ≤ x) (hL0 : x = 0 → L = 0) :
    countLeadingZeros64 x + L = 64 := by
  unfold countLeadingZeros64
  obtain ⟨L1, a1, b1, c1, d1, e1, f1⟩ := clzStep_inv 32 64 x L (by norm_num) hx hL hL' hL0
  set s1 := clzStep 32 (64, x)
  obtain ⟨L2, a2, b2, c2, d2, e2, f2⟩ := clzStep_inv 16 s1.1 s1.2 L1 (by omega) a1 b1 c1 d1
  simp only [Prod.mk.eta] at a2 b2 c2 d2 e2 f2
  set s2 := clzStep 16 s1
  obtain ⟨L3, a3, b3, c3, d3, e3, f3⟩ := clzStep_inv 8 s2.1 s2.2 L2 (by omega) a2 b2 c2 d2
  simp only [Prod.mk.eta] at a3 b3 c3 d3 e3 f3
  set s3 := clzStep 8 s2
  obtain ⟨L4, a4, b4, c4, d4, e4, f4⟩ := clzStep_inv 4 s3.1 s3.2 L3 (by omega) a3 b3 c3 d3
  simp only [Prod.mk.eta] at a4 b4 c4 d4 e4 f4
  set s4 := clzStep 4 s3
  obtain ⟨L5, a5, b5, c5, d5, e5, f5⟩ := clzStep_inv 2 s4.1 s4.2 L4 (by omega) a4 b4 c4 d4
  simp only [Prod.mk.eta] at a5 b5 c5 d5 e5 f5
  set s5 := clzStep 2 s4
  obtain ⟨L6, a6, b6, c6, d6, e6, f6⟩ := clzStep_inv 1 s5.1 s5.2 L5 (by omega) a5 b5 c5 d5
  simp only [Prod.mk.eta] at a6 b6 c6 d6 e6 f6
  set s6 := clzStep 1 s5
  simp only
  have hL6 : L6 = s6.2 := by
    by_cases h0 : s6.2 = 0
    · rw [d6 h0, h0]
    · have : s6.2 = 1 := by omega
      have hc := c6 h0
      rw [this] at hc b6 ⊢
      have h1 : L6 - 1 = 0 := by
        by_contra h
        have : 2 ^ 1 ≤ 2 ^ (L6 - 1) := Nat.pow_le_pow_right (by norm_num) (by omega)
        omega
      have h2 : L6 ≠ 0 := by rintro rfl; simp at b6
      omega
  omega

theorem bitLength_eq (x L : ℕ) (hx : x < 2 ^ 128) (hL : x < 2 ^ L)
    (hL' : x ≠ 0 → 2 ^ (L - 1) ≤ x) (hL0 : x = 0 → L = 0) : bitLength x = L := by
  unfold bitLength countLeadingZeros128
  have h64 : 0 < 2 ^ 64 := by positivity
  simp only
  by_cases h : x / 2 ^ 64 = 0
  · rw [if_neg (by simpa using h)]
    have hlt : x < 2 ^ 64 := by
      rw [Nat.div_eq_zero_iff] at h; omega
    rw [Nat.mod_eq_of_lt hlt]
    have := clz64_spec x L hlt hL hL' hL0
    omega
  · rw [if_pos h]
    have hge : 2 ^ 64 ≤ x := by
      by_contra hc; exact h (Nat.div_eq_of_lt (by omega))
    have hkL : 64 < L := by
      by_contra hc
      have : 2 ^ L ≤ 2 ^ 64 := Nat.pow_le_pow_right (by norm_num) (by omega)
      omega
    have := clz64_spec (x / 2 ^ 64) (L - 64) (by omega)
      (by rw [Nat.div_lt_iff_lt_mul h64, ← pow_add, show L - 64 + 64 = L by omega]; exact hL)
      (by
        intro _
        rw [Nat.le_div_iff_mul_le h64, ← pow_add, show L - 64 - 1 + 64 = L - 1 by omega]
        exact hL' (by omega))
      (by intro h0; exact absurd h0 h)
    omega

/-! ## Population count -/

/-- Adjacent digits added. -/
def pairSum : List ℕ → List ℕ
  | a :: b :: l => (a + b) :: pairSum l
  | l => l

theorem and_block (k a m y z : ℕ) (ha : a < 2 ^ k) (hm : m < 2 ^ k) :
    (a + 2 ^ k * y) &&& (m + 2 ^ k * z) = (a &&& m) + 2 ^ k * (y &&& z) := by
  have ham : a &&& m < 2 ^ k := lt_of_le_of_lt Nat.and_le_left ha
  apply Nat.eq_of_testBit_eq
  intro i
  rw [Nat.testBit_and, add_comm a, add_comm m, add_comm (a &&& m),
    Nat.testBit_two_pow_mul_add _ ha, Nat.testBit_two_pow_mul_add _ hm,
    Nat.testBit_two_pow_mul_add _ ham]
  split_ifs <;> simp

/-- Mask selecting the even-indexed blocks of `k` bits among `2n` blocks. -/
def mask (k : ℕ) : ℕ → ℕ
  | 0 => 0
  | n + 1 => (2 ^ k - 1) + 2 ^ k * (0 + 2 ^ k * mask k n)

theorem and_allOnes (k a : ℕ) (ha : a < 2 ^ k) : a &&& (2 ^ k - 1) = a := by
  rw [Nat.and_two_pow_sub_one_eq_mod, Nat.mod_eq_of_lt ha]

/-- One SWAR step on a number given by its base-`2^k` digits. -/
theorem swar_step (k : ℕ) : ∀ (n : ℕ) (l : List ℕ), l.length = 2 * n → (∀ d ∈ l, d < 2 ^ k) →
    (Nat.ofDigits (2 ^ k) l &&& mask k n) + (Nat.ofDigits (2 ^ k) l >>> k &&& mask k n) =
      Nat.ofDigits (2 ^ (2 * k)) (pairSum l) := by
  intro n
  induction n with
  | zero =>
    intro l hl _
    have : l = [] := List.eq_nil_of_length_eq_zero (by omega)
    subst this; simp [pairSum, mask]
  | succ n ih =>
    intro l hl hd
    match l, hl, hd with
    | a :: b :: l, hl, hd =>
      have ha : a < 2 ^ k := hd a (by simp)
      have hb : b < 2 ^ k := hd b (by simp)
      have hk : 0 < 2 ^ k := by positivity
      have ih' := ih l (by simpa [mul_add] using hl) (fun d h => hd d (by simp [h]))
      simp only [Nat.ofDigits_cons, pairSum, mask]
      set Y := Nat.ofDigits (2 ^ k) l with hY
      have e1 : (a + 2 ^ k * (b + 2 ^ k * Y)) >>> k = b + 2 ^ k * Y := by
        rw [Nat.shiftRight_eq_div_pow, Nat.add_mul_div_left _ _ hk, Nat.div_eq_of_lt ha, zero_add]
      push_cast
      rw [e1, and_block k _ _ _ _ ha (by omega), and_block k _ _ _ _ hb hk,
        and_allOnes k a ha, Nat.and_zero]
      have hsplit : b + 2 ^ k * Y &&& 2 ^ k - 1 + 2 ^ k * (0 + 2 ^ k * mask k n) =
          b + 2 ^ k * ((Y >>> k) &&& mask k n) * 2 ^ k := by
        have hYsplit : Y = Y % 2 ^ k + 2 ^ k * (Y / 2 ^ k) := (Nat.mod_add_div Y (2 ^ k)).symm
        rw [and_block k _ _ _ _ hb (by omega), and_allOnes k b hb]
        conv_lhs => rw [hYsplit]
        rw [and_block k _ _ _ _ (Nat.mod_lt _ hk) hk, Nat.and_zero, Nat.shiftRight_eq_div_pow]
        ring
      rw [hsplit, ← ih']
      rw [show 2 * k = k + k by ring, pow_add]; ring

theorem pairSum_sum : ∀ l : List ℕ, (pairSum l).sum = l.sum
  | [] => rfl
  | [a] => rfl
  | a :: b :: l => by simp [pairSum, pairSum_sum l, add_assoc]

theorem pairSum_length : ∀ (n : ℕ) (l : List ℕ), l.length = 2 * n → (pairSum l).length = n
  | 0, l, h => by
    have : l = [] := List.eq_nil_of_length_eq_zero (by omega)
    subst this; rfl
  | n + 1, a :: b :: l, h => by
    simp [pairSum, pairSum_length n l (by simpa [mul_add] using h)]

theorem pairSum_bound (B : ℕ) : ∀ l : List ℕ, (∀ d ∈ l, d ≤ B) → ∀ d ∈ pairSum l, d ≤ 2 * B
  | [], _ => by simp [pairSum]
  | [a], h => by simp [pairSum]; have := h a (by simp); omega
  | a :: b :: l, h => by
    have h1 := h a (by simp)
    have h2 := h b (by simp)
    intro d hd
    simp only [pairSum, List.mem_cons] at hd
    rcases hd with rfl | hd
    · omega
    · exact pairSum_bound B l (fun d hd => h d (by simp [hd])) d hd

/-- One step of `CountOnes64`, in digit form. -/
theorem swar_digit (k n B M x : ℕ) (l : List ℕ) (hM : M = mask k n) (hl : l.length = 2 * n)
    (hB : ∀ d ∈ l, d ≤ B) (hBk : 2 * B < 2 ^ k ∨ (B < 2 ^ k ∧ 2 * B < 2 ^ (2 * k)))
    (hx : x = Nat.ofDigits (2 ^ k) l) (h64 : 2 * k * n = 64) :
    ∃ l', ((x &&& M) + (x >>> k &&& M)) % 2 ^ 64 = Nat.ofDigits (2 ^ (2 * k)) l' ∧
      l'.length = n ∧ (∀ d ∈ l', d ≤ 2 * B) ∧ l'.sum = l.sum := by
  have hBk' : B < 2 ^ k := by omega
  have h2 : 2 * B < 2 ^ (2 * k) := by
    rcases hBk with h | h
    · exact lt_of_lt_of_le h (Nat.pow_le_pow_right (by norm_num) (by omega))
    · exact h.2
  refine ⟨pairSum l, ?_, pairSum_length n l hl, pairSum_bound B l hB, pairSum_sum l⟩
  subst hM hx
  rw [swar_step k n l hl (fun d hd => lt_of_le_of_lt (hB d hd) hBk')]
  apply Nat.mod_eq_of_lt
  have hk : 0 < k := by
    rcases Nat.eq_zero_or_pos k with h | h
    · subst h; simp at h64
    · exact h
  have hb1 : 1 < 2 ^ (2 * k) := Nat.one_lt_two_pow (by omega)
  have := Nat.ofDigits_lt_base_pow_length hb1 (l := pairSum l)
    (fun d hd => lt_of_le_of_lt (pairSum_bound B l hB d hd) h2)
  rw [pairSum_length n l hl, ← pow_mul, h64] at this
  exact this

/-- Bits of a 64-bit number, least significant first. -/
def bits64 (x : ℕ) : List ℕ := (List.range 64).map fun i => x / 2 ^ i % 2

theorem ofDigits_bits (n x : ℕ) (hx : x < 2 ^ n) :
    Nat.ofDigits 2 ((List.range n).map fun i => x / 2 ^ i % 2) = x := by
  induction n generalizing x with
  | zero => simp at hx; simp [hx]
  | succ n ih =>
    rw [List.range_succ_eq_map, List.map_cons, List.map_map, Nat.ofDigits_cons]
    have : ((fun i => x / 2 ^ i % 2) ∘ Nat.succ) = fun i => (x / 2) / 2 ^ i % 2 := by
      funext i
      simp only [Function.comp]
      rw [Nat.pow_succ', Nat.div_div_eq_div_mul]
    rw [this, ih (x / 2) (by rw [Nat.div_lt_iff_lt_mul (by norm_num), ← pow_succ]; exact hx)]
    simp; omega

theorem countOnes64_eq (x : ℕ) (hx : x < 2 ^ 64) : countOnes64 x = (bits64 x).sum := by
  have hl0 : (bits64 x).length = 2 * 32 := by simp [bits64]
  have hb0 : ∀ d ∈ bits64 x, d ≤ 1 := by
    intro d hd
    simp only [bits64, List.mem_map, List.mem_range] at hd
    obtain ⟨i, _, rfl⟩ := hd; omega
  obtain ⟨l1, e1, n1, b1, s1⟩ := swar_digit 1 32 1 0x5555555555555555 x (bits64 x)
    (by decide +kernel) hl0 hb0 (by norm_num) (by rw [pow_one]; exact (ofDigits_bits 64 x hx).symm)
    (by norm_num)
  obtain ⟨l2, e2, n2, b2, s2⟩ := swar_digit 2 16 2 0x3333333333333333 _ l1
    (by decide +kernel) n1 b1 (by norm_num) e1 (by norm_num)
  obtain ⟨l3, e3, n3, b3, s3⟩ := swar_digit 4 8 4 0x0F0F0F0F0F0F0F0F _ l2
    (by decide +kernel) n2 b2 (by norm_num) e2 (by norm_num)
  obtain ⟨l4, e4, n4, b4, s4⟩ := swar_digit 8 4 8 0x00FF00FF00FF00FF _ l3
    (by decide +kernel) n3 b3 (by norm_num) e3 (by norm_num)
  obtain ⟨l5, e5, n5, b5, s5⟩ := swar_digit 16 2 16 0x0000FFFF0000FFFF _ l4
    (by decide +kernel) n4 b4 (by norm_num) e4 (by norm_num)
  obtain ⟨l6, e6, n6, b6, s6⟩ := swar_digit 32 1 32 0x00000000FFFFFFFF _ l5
    (by decide +kernel) n5 b5 (by norm_num) e5 (by norm_num)
  obtain ⟨d, rfl⟩ := List.length_eq_one_iff.1 n6
  simp only [Nat.ofDigits_singleton] at e6
  simp only [List.sum_cons, List.sum_nil, add_zero] at s6
  have hd := b6 d (by simp)
  unfold countOnes64
  simp only
  have hlt : ∀ y : ℕ, (y &&& 0x00000000FFFFFFFF) + (y >>> 32 &&& 0x00000000FFFFFFFF) < 2 ^ 64 := by
    intro y
    have h1 : y &&& 0x00000000FFFFFFFF ≤ 0x00000000FFFFFFFF := Nat.and_le_right
    have h2 : y >>> 32 &&& 0x00000000FFFFFFFF ≤ 0x00000000FFFFFFFF := Nat.and_le_right
    omega
  rw [Nat.mod_eq_of_lt (hlt _)] at e6
  rw [e6, Nat.mod_eq_of_lt (by omega), s6, s5, s4, s3, s2, s1]

end Shell.Bits
