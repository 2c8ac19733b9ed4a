import Mathlib.Data.ZMod.Basic
import Mathlib.Algebra.BigOperators.Group.Finset.Basic
/-!
Independent vocabulary for the statements about number theoretic transforms.
-/

namespace Shell.Spec
open Finset

/-- The value at `x` of the polynomial with coefficient list `c` (constant term first). -/
def evalPoly {N : ℕ} (c : List (ZMod N)) (x : ZMod N) : ZMod N :=
  ∑ j ∈ range c.length, c.getD j 0 * x ^ j

/-- `j` is the reversal of the `L`-bit number `i`. -/
def IsBitReversal (L i j : ℕ) : Prop :=
  i < 2 ^ L ∧ j < 2 ^ L ∧ ∀ k < L, j.testBit k = i.testBit (L - 1 - k)

end Shell.Spec
