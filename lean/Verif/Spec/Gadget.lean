import Mathlib.Data.Nat.Notation
/-!
Digits in base `2^b`.
-/

namespace Shell.Spec

/-- Digit `j` of `x` in base `2^b`. -/
def digit (b j x : ℕ) : ℕ := x / (2 ^ b) ^ j % 2 ^ b

end Shell.Spec
