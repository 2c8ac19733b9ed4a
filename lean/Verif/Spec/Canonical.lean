import Mathlib.Analysis.Complex.Basic
import Mathlib.Algebra.BigOperators.Group.Finset.Basic
/-!
# The size of a polynomial in the canonical embedding

This is the "size of an NTT coefficient" of the comments in error_params.h: the values of the polynomial at the
complex roots of `X^n + 1`.
-/

namespace Shell.Spec
open Finset

/-- The value of the integer polynomial `f` at a complex number. -/
noncomputable def evalAt {n : ℕ} (f : Fin n → ℤ) (z : ℂ) : ℂ := ∑ i : Fin n, (f i : ℂ) * z ^ (i : ℕ)

/-- All values at the roots of `X^n + 1` are at most `B`. -/
def SizeAtMost {n : ℕ} (f : Fin n → ℤ) (B : ℝ) : Prop := ∀ z : ℂ, z ^ n = -1 → ‖evalAt f z‖ ≤ B

end Shell.Spec
