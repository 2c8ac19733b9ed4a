import Verif.Model.GaussianParams
import Verif.Model.Sampler
import Mathlib.Analysis.SpecialFunctions.Exp
import Mathlib.Analysis.SpecialFunctions.Trigonometric.Basic
/-!
# The table of the base sampler (`Create` of `sampler/discrete_gaussian.cc`)

The doubles are idealised as real numbers: rounding, overflow to infinity and NaN are not modelled.
-/

namespace Shell.Sampler
open Classical Real

/-- `mass_base` (sampler/discrete_gaussian.cc:63). -/
noncomputable def massBase (s : ℝ) : ℝ := √(2 * π) * s

/-- `cut_off_bound` (sampler/discrete_gaussian.cc:68), a double converted to `int`, and the expression
`2 * cut_off_bound + 1` (sampler/discrete_gaussian.cc:70) computed from it; a value that `int` does not hold is
undefined behaviour in both. -/
noncomputable def cutOff (s : ℝ) : Outcome ℕ :=
  if 2 ^ 31 ≤ 8 * ⌈s⌉₊ then .ub .signedOverflow
  else if 2 ^ 31 ≤ 2 * (8 * ⌈s⌉₊) + 1 then .ub .signedOverflow
  else .ok (8 * ⌈s⌉₊)

/-- The value pushed for `x` (sampler/discrete_gaussian.cc:72-74). -/
noncomputable def density (s : ℝ) (x : ℤ) : ℝ :=
  let y := (x : ℝ) / s
  exp (-(y * y) / 2) / massBase s

/-- The first loop (sampler/discrete_gaussian.cc:71-75): `x` runs from `-cut_off_bound` to `cut_off_bound`. -/
noncomputable def densities (s : ℝ) (c : ℕ) : List ℝ :=
  (List.range (2 * c + 1)).map fun i : ℕ => density s ((i : ℤ) - c)

/-- The second loop (sampler/discrete_gaussian.cc:76-78): sums in place. -/
noncomputable def accumulate (c : ℕ) (cdf : List ℝ) : Outcome (List ℝ) :=
  loop (2 * c) (fun i cdf => do
    let a ← rd cdf (i + 1)
    let b ← rd cdf i
    wr cdf (i + 1) (a + b)) cdf

/-- `static_cast<Uint64>(p * std::exp2(kPrecision))` (sampler/discrete_gaussian.cc:83) for a nonnegative `p`; a value
that a `Uint64` does not hold is undefined behaviour. -/
noncomputable def scaleEntry (p : ℝ) : Outcome ℕ :=
  if 2 ^ 64 ≤ ⌊p * 2 ^ 63⌋₊ then .ub .signedOverflow else .ok ⌊p * 2 ^ 63⌋₊

/-- The third loop (sampler/discrete_gaussian.cc:80-84). -/
noncomputable def scaleTable : List ℝ → Outcome (List ℕ)
  | [] => .ok []
  | p :: ps => do
    let a ← scaleEntry p
    let as ← scaleTable ps
    .ok (a :: as)

/-- `DiscreteGaussianSampler::Create` (sampler/discrete_gaussian.cc:54-87), with the table as its result. -/
noncomputable def createTable (s : ℝ) : Outcome (List ℕ) := do
  acceptsBase s
  let c ← cutOff s
  let cdf ← accumulate c (densities s c)
  scaleTable cdf

end Shell.Sampler
