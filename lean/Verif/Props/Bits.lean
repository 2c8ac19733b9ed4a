import Verif.Lemmas.Bits
/-!
# Property C12: bit utilities
-/

namespace Shell
open Bits

/-- Specification: the number of set bits among bits `0..n-1` of `x`. -/
def Spec.ones (n x : ℕ) : ℕ := ((List.range n).filter fun i => x.testBit i).length

theorem ones_eq_sum (n x : ℕ) :
    ((List.range n).map fun i => x / 2 ^ i % 2).sum = Spec.ones n x := by
  unfold Spec.ones
  induction n with
  | zero => rfl
  | succ n ih =>
    rw [List.range_succ, List.map_append, List.sum_append, ih, List.filter_append,
      List.length_append]
    congr 1
    simp only [List.map_cons, List.map_nil, List.sum_cons, List.sum_nil, add_zero]
    have : x.testBit n = decide (x / 2 ^ n % 2 = 1) := Nat.testBit_eq_decide_div_mod_eq
    by_cases h : x / 2 ^ n % 2 = 1
    · simp [this, h]
    · have h0 : x / 2 ^ n % 2 = 0 := by omega
      simp [this, h0]

/-- C12, population counts: every 8-bit value (all 256 of them, checked by the kernel) and every
64-bit value (by proof). -/
theorem c12_count_ones :
    (∀ x < 2 ^ 8, countOnesInByte x = Spec.ones 8 x) ∧
    (∀ x < 2 ^ 64, countOnes64 x = Spec.ones 64 x) := by
  refine ⟨by decide +kernel, fun x hx => ?_⟩
  rw [countOnes64_eq x hx, ← ones_eq_sum]; rfl

/-- C12, bit length: `BitLength(x)` is the least `L` with `x < 2^L`. -/
theorem c12_bit_length (x : ℕ) (hx : x < 2 ^ 128) :
    x < 2 ^ bitLength x ∧ ∀ L, x < 2 ^ L → bitLength x ≤ L := by
  obtain ⟨L, h1, h2, h3⟩ := exists_len x
  rw [bitLength_eq x L hx h1 h2 h3]
  refine ⟨h1, fun M hM => ?_⟩
  by_contra hc
  by_cases h0 : x = 0
  · have := h3 h0; omega
  · have a := h2 h0
    have : 2 ^ M ≤ 2 ^ (L - 1) := Nat.pow_le_pow_right (by norm_num) (by omega)
    omega

/-- C12, leading zeros: a 64-bit value has exactly `CountLeadingZeros64(x)` zero bits on top, and a
128-bit value `CountLeadingZeros128(x)`. -/
theorem c12_leading_zeros :
    (∀ x < 2 ^ 64, countLeadingZeros64 x ≤ 64 ∧ x < 2 ^ (64 - countLeadingZeros64 x) ∧
      (x ≠ 0 → 2 ^ (63 - countLeadingZeros64 x) ≤ x ∧ countLeadingZeros64 x < 64)) ∧
    (∀ x < 2 ^ 128, countLeadingZeros128 x ≤ 128 ∧ x < 2 ^ (128 - countLeadingZeros128 x) ∧
      (x ≠ 0 → 2 ^ (127 - countLeadingZeros128 x) ≤ x ∧ countLeadingZeros128 x < 128)) := by
  constructor
  · intro x hx
    obtain ⟨L, h1, h2, h3⟩ := exists_len x
    have e := clz64_spec x L hx h1 h2 h3
    refine ⟨by omega, by rw [show 64 - countLeadingZeros64 x = L by omega]; exact h1, fun h => ?_⟩
    have hL : L ≠ 0 := by rintro rfl; simp at h1; exact h h1
    refine ⟨?_, by omega⟩
    rw [show 63 - countLeadingZeros64 x = L - 1 by omega]; exact h2 h
  · intro x hx
    obtain ⟨L, h1, h2, h3⟩ := exists_len x
    have e := bitLength_eq x L hx h1 h2 h3
    unfold bitLength at e
    have hle : L ≤ 128 := by omega
    have hc : countLeadingZeros128 x ≤ 128 := by
      unfold countLeadingZeros128
      simp only
      split_ifs
      · obtain ⟨L', g1, g2, g3⟩ := exists_len (x / 2 ^ 64)
        have := clz64_spec (x / 2 ^ 64) L' (by omega) g1 g2 g3
        omega
      · obtain ⟨L', g1, g2, g3⟩ := exists_len (x % 2 ^ 64)
        have := clz64_spec (x % 2 ^ 64) L' (by omega) g1 g2 g3
        omega
    refine ⟨hc, by rw [show 128 - countLeadingZeros128 x = L by omega]; exact h1, fun h => ?_⟩
    have hL : L ≠ 0 := by rintro rfl; simp at h1; exact h h1
    refine ⟨?_, by omega⟩
    rw [show 127 - countLeadingZeros128 x = L - 1 by omega]; exact h2 h

example : countOnes64 0xF0F0000000000001 = 9 ∧ countLeadingZeros64 0x00F0000000000000 = 8 ∧
    bitLength (2 ^ 100) = 101 ∧ bitLength 0 = 0 := by decide +kernel

end Shell
