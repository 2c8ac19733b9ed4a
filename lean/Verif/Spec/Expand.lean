import Mathlib.Data.Int.Notation
import Mathlib.Algebra.Group.Defs
import Mathlib.Data.Nat.Notation
import Mathlib.Data.Int.Order.Basic
import Mathlib.Algebra.Order.Group.Unbundled.Int
/-!
What expansion is meant to compute.
-/

namespace Shell.Spec

/-- Coefficient `m` of a polynomial, zero beyond its length. -/
def coef {n : ℕ} (f : Fin n → ℤ) (m : ℕ) : ℤ := if h : m < n then f ⟨m, h⟩ else 0

/-- The `k`-th output of `L` levels of expansion of `f`: `2^L` times the polynomial made of the
coefficients of `f` at positions `k, k + 2^L, k + 2*2^L, ...`, moved down by `k`.  If `f` has degree
below `2^L` this is the constant `2^L * f_k`. -/
def expandTo {n : ℕ} (L k : ℕ) (f : Fin n → ℤ) : Fin n → ℤ := fun i =>
  if 2 ^ L ∣ (i : ℕ) then 2 ^ L * coef f (i + k) else 0

/-- `d` is a multiple of `t` of absolute value at most `b`, coefficientwise: an error that does not
change the message. -/
def Small {n : ℕ} (t b : ℤ) (d : Fin n → ℤ) : Prop := ∀ i, t ∣ d i ∧ |d i| ≤ b

end Shell.Spec
