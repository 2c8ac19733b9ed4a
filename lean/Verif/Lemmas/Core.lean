import Verif.Model.Core
import Mathlib.Tactic.Ring
import Mathlib.Tactic.Linarith
import Mathlib.Tactic.Positivity
import Mathlib.Tactic.NormNum
import Mathlib.Data.Nat.ModEq

namespace Shell

theorem trunc_lt (w : ℕ) (x : ℤ) : trunc w x < 2 ^ w := by
  unfold trunc
  have h1 : (0:ℤ) < 2 ^ w := by positivity
  have h2 := Int.emod_lt_of_pos x h1
  have h3 := Int.emod_nonneg x (ne_of_gt h1)
  zify
  rw [Int.toNat_of_nonneg h3]
  exact h2

theorem trunc_coe (w : ℕ) (x : ℤ) : ((trunc w x : ℕ) : ℤ) = x % 2 ^ w := by
  unfold trunc
  have h1 : (0:ℤ) < 2 ^ w := by positivity
  exact Int.toNat_of_nonneg (Int.emod_nonneg x (ne_of_gt h1))

/-- Truncation is the identity on values that fit. -/
theorem trunc_eq (w : ℕ) (x : ℤ) (n : ℕ) (h : x = n) (hn : n < 2 ^ w) : trunc w x = n := by
  subst h
  have : ((trunc w n : ℕ) : ℤ) = n := by
    rw [trunc_coe]
    exact Int.emod_eq_of_lt (by positivity) (by exact_mod_cast hn)
  exact_mod_cast this

theorem trunc_natCast (w n : ℕ) : trunc w (n : ℤ) = n % 2 ^ w := by
  have : ((trunc w n : ℕ) : ℤ) = ((n % 2 ^ w : ℕ) : ℤ) := by
    rw [trunc_coe]; push_cast; rfl
  exact_mod_cast this

/-- If `x` agrees with `y` modulo `2^w` and `0 ≤ y < 2^w` then truncation gives `y`. -/
theorem trunc_eq_of_sub_dvd (w : ℕ) (x : ℤ) (n : ℕ) (h : (2 ^ w : ℤ) ∣ x - n) (hn : n < 2 ^ w) :
    trunc w x = n := by
  have : ((trunc w x : ℕ) : ℤ) = n := by
    rw [trunc_coe]
    have h2 : x % 2 ^ w = (n:ℤ) % 2 ^ w := Int.emod_eq_emod_iff_emod_sub_eq_zero.mpr
      (Int.emod_eq_zero_of_dvd h)
    rw [h2]
    exact Int.emod_eq_of_lt (by positivity) (by exact_mod_cast hn)
  exact_mod_cast this

end Shell
