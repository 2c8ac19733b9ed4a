import Mathlib.Data.Nat.Notation
import Mathlib.Data.Int.Notation
/-!
The representative of a residue closest to zero.
-/

namespace Shell.Spec

/-- The representative of `x` (given in `[0, q)`) in `(-q/2, q/2]`. -/
def balanced (q x : ℕ) : ℤ := if 2 * x ≤ q then x else (x : ℤ) - q

end Shell.Spec
