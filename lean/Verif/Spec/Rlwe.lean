import Mathlib.Data.ZMod.Basic
import Mathlib.Algebra.BigOperators.Group.Finset.Basic
/-!
What decryption means.
-/

namespace Shell.Spec
open Finset

/-- The inner product `sum_i c_i * s^i` of the components with the powers of the key. -/
def phase {R : Type*} [CommRing R] (s : R) (c : List R) : R :=
  ∑ i ∈ range c.length, c.getD i 0 * s ^ i

/-- The representative of `x` in `(-q/2, q/2]`. -/
def centered (q : ℕ) (x : ZMod q) : ℤ := if 2 * x.val ≤ q then x.val else (x.val : ℤ) - q

/-- An integer vector modulo `q`. -/
def modq {n : ℕ} (q : ℕ) (f : Fin n → ℤ) : Fin n → ZMod q := fun i => (f i : ZMod q)

end Shell.Spec
