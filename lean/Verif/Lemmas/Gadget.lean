import Verif.Model.Relin
import Verif.Spec.Gadget
import Verif.Lemmas.Polynomial
import Mathlib.Algebra.BigOperators.Ring.Finset
import Mathlib.Algebra.Order.BigOperators.Group.Finset
import Mathlib.Data.Nat.Bitwise

namespace Shell
open Spec Finset

theorem digit_zero (b x : ℕ) : digit b 0 x = x % 2 ^ b := by simp [digit]

theorem digit_succ (b j x : ℕ) : digit b (j + 1) x = digit b j (x >>> b) := by
  unfold digit
  rw [Nat.shiftRight_eq_div_pow, pow_succ', Nat.div_div_eq_div_mul]

theorem digit_lt (b j x : ℕ) : digit b j x < 2 ^ b := Nat.mod_lt _ (by positivity)

theorem sum_digit (b d x : ℕ) :
    ∑ j ∈ range d, digit b j x * (2 ^ b) ^ j = x % (2 ^ b) ^ d := by
  induction d with
  | zero => simp [Nat.mod_one]
  | succ d ih =>
    rw [sum_range_succ, ih, pow_succ, Nat.mod_mul, digit, mul_comm]

theorem sum_digit_eq (b d x : ℕ) (h : x < (2 ^ b) ^ d) :
    ∑ j ∈ range d, digit b j x * (2 ^ b) ^ j = x := by
  rw [sum_digit, Nat.mod_eq_of_lt h]

/-- The number of digits suffices. -/
theorem gadget_fits {L b N : ℕ} (hb : 0 < b) (hN : N < 2 ^ L) :
    N < (2 ^ b) ^ ((L + (b - 1)) / b) := by
  refine lt_of_lt_of_le hN ?_
  rw [← pow_mul]
  apply Nat.pow_le_pow_right (by norm_num)
  have h1 := Nat.div_add_mod (L + (b - 1)) b
  have h2 := Nat.mod_lt (L + (b - 1)) hb
  omega

theorem and_mask (b x : ℕ) : x &&& (2 ^ b - 1) = x % 2 ^ b := Nat.and_two_pow_sub_one_eq_mod x b

theorem mask_eq {w b : ℕ} (hb : b < w) :
    ∃ one, Transcription.shl w 1 b = .ok one ∧ one = 2 ^ b ∧
      trunc w ((one : ℤ) - 1) = 2 ^ b - 1 := by
  have h : 2 ^ b < 2 ^ w := Nat.pow_lt_pow_right (by norm_num) hb
  refine ⟨2 ^ b, ?_, rfl, ?_⟩
  · unfold Transcription.shl
    rw [if_pos (by omega), Nat.one_shiftLeft, Nat.mod_eq_of_lt h]
  · apply trunc_eq
    · have : 0 < 2 ^ b := by positivity
      push_cast [Nat.cast_sub this]
      ring
    · exact lt_of_le_of_lt (Nat.sub_le _ _) h

variable {C : Ctx}

theorem digits_eq (b d : ℕ) (cur : Fin (2 ^ C.l) → ℕ) :
    C.digits (2 ^ b - 1) b d cur =
      (List.range d).map fun j i => ((digit b j (cur i) : ℕ) : ZMod C.q) := by
  induction d generalizing cur with
  | zero => rfl
  | succ d ih =>
    rw [Ctx.digits, ih, List.range_succ_eq_map, List.map_cons, List.map_map]
    congr 1
    · funext i; rw [and_mask, digit_zero]
    · apply List.map_congr_left
      intro j _
      funext i
      simp only [Function.comp]
      rw [digit_succ]

theorem baseDecompose_eq {b : ℕ} (hb : b < C.w) (d : ℕ) (f : C.Poly) :
    C.baseDecompose f b d =
      .ok ((List.range d).map fun j i => ((digit b j (f i).val : ℕ) : ZMod C.q)) := by
  obtain ⟨one, e1, _, e2⟩ := mask_eq hb
  unfold Ctx.baseDecompose
  rw [e1, Outcome.bind_ok]
  simp only [e2]
  rw [digits_eq]
  rfl

end Shell
