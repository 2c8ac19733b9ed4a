import Mathlib.Analysis.SpecialFunctions.Exp
import Mathlib.Topology.Algebra.InfiniteSum.Defs
import Mathlib.Topology.Instances.Real.Lemmas
import Verif.Model.Core
/-!
# The discrete Gaussian distribution over the integers
-/

namespace Shell.Spec

/-- The Gaussian function. -/
noncomputable def gauss (s : ℝ) (x : ℤ) : ℝ := Real.exp (-(x : ℝ) ^ 2 / (2 * s ^ 2))

/-- The discrete Gaussian distribution: the probability of `x` is proportional to `exp(-x²/(2s²))`. -/
noncomputable def discreteGaussian (s : ℝ) (x : ℤ) : ℝ := gauss s x / ∑' y : ℤ, gauss s y

/-- The probability that a computation started with a uniformly random 64-bit word returns `x`. -/
noncomputable def probability {α : Type} [DecidableEq α] (f : ℕ → Outcome α) (x : α) : ℝ :=
  ((Finset.range (2 ^ 64)).filter fun u => f u = .ok x).card / 2 ^ 64

/-- The integer in `[-2^(w-1), 2^(w-1))` that a `w`-bit word stands for. -/
def signedValue (w : ℕ) (v : ℕ) : ℤ := if v < 2 ^ (w - 1) then v else (v : ℤ) - 2 ^ w

end Shell.Spec
