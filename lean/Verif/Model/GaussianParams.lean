import Verif.Model.Core
import Mathlib.Analysis.Real.Sqrt
import Mathlib.Algebra.Order.Floor.Ring
/-!
# Standard deviations and weights of `sampler/discrete_gaussian.cc`

The doubles are idealised as real numbers: rounding, overflow to infinity and NaN are not modelled.
-/

namespace Shell.Sampler
open Classical

/-- `kSmoothingParameter` (sampler/discrete_gaussian.h:58). -/
noncomputable def smoothing : ℝ := 5.3349782

/-- `sqrt(2) * kSmoothingParameter` (sampler/discrete_gaussian.cc:57, 148 and 194). -/
noncomputable def denum : ℝ := √2 * smoothing

/-- The condition of `Create` on the base deviation (sampler/discrete_gaussian.cc:57-60). -/
noncomputable def acceptsBase (sBase : ℝ) : Outcome Unit :=
  if sBase < denum then .err .invalidArgument else .ok ()

/-- `z = floor(s / denum)` (sampler/discrete_gaussian.cc:152 and 194), a nonnegative number as `s` is. -/
noncomputable def weight (s : ℝ) : ℕ := ⌊s / denum⌋₊

/-- The deviation of the next level (sampler/discrete_gaussian.cc:152-155 and 194-196). -/
noncomputable def nextDeviation (s : ℝ) : ℝ :=
  s * √(max (((weight s : ℝ) - 1) * ((weight s : ℝ) - 1)) 1 + (weight s : ℝ) * (weight s : ℝ))

/-- The variable `s` after `lvl` iterations of `SampleIIterative` (sampler/discrete_gaussian.cc:191-196). -/
noncomputable def deviation (sBase : ℝ) : ℕ → ℝ
  | 0 => sBase
  | lvl + 1 => nextDeviation (deviation sBase lvl)

/-- The loop of `NumIterations` (sampler/discrete_gaussian.cc:149-157); without fuel left the loop is still
running. -/
noncomputable def iterationsLoop (s : ℝ) : ℕ → ℝ → ℤ → Outcome ℤ
  | 0, _, _ => .ub .diverge
  | fuel + 1, cur, i => if cur ≤ s then iterationsLoop s fuel (nextDeviation cur) (i + 1) else .ok (i - 1)

/-- `NumIterations` (sampler/discrete_gaussian.cc:136-159). -/
noncomputable def numIterations (fuel : ℕ) (sBase s : ℝ) : Outcome ℤ :=
  if s < sBase then .err .invalidArgument else iterationsLoop s fuel sBase 0

/-- The final `z` (sampler/discrete_gaussian.cc:115-116). -/
noncomputable def finalWeight (s si : ℝ) : ℕ := ⌈(√(2 * (s / si) * (s / si) - 1) + 1) / 2⌉₊

end Shell.Sampler
