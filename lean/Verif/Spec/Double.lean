import Verif.Model.Double

/-! # Specification of `double` arithmetic -/

namespace Shell.Spec

/-- The numbers with 53 significant bits. -/
def IsDouble {K : Type} [Field K] (x : K) : Prop := ∃ m e : ℤ, |m| < 2 ^ 53 ∧ x = m * 2 ^ e

/-- A conversion of integers to `double`s with relative error at most `2^-51`; this covers rounding to nearest, rounding
to one of the two neighbouring `double`s (all that C++ prescribes), and rounding in two steps. -/
def Faithful (cast : ℕ → ℚ) : Prop := ∀ n : ℕ, |cast n - n| ≤ n / 2 ^ 51

/-- The error of the floating-point sum of `k` quotients. -/
def doubleError (k : ℕ) : ℚ := k * (k + 15) / 2 ^ 53

end Shell.Spec
