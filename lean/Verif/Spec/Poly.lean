import Mathlib.Algebra.BigOperators.Group.Finset.Basic
import Mathlib.Algebra.Ring.Defs
import Mathlib.Data.Fintype.BigOperators
/-!
The ring `R[X]/(X^n + 1)` on coefficient vectors, written out.
-/

namespace Shell.Spec

/-- Product of two coefficient vectors modulo `X^n + 1`: `X^i * X^j` is `X^(i+j)` when `i + j < n` and
`-X^(i+j-n)` otherwise. -/
def negMul {R : Type*} [CommRing R] {n : ℕ} (f g : Fin n → R) : Fin n → R := fun k =>
  ∑ i : Fin n, ∑ j : Fin n,
    if (i : ℕ) + j = k then f i * g j else if (i : ℕ) + j = k + n then -(f i * g j) else 0

/-- The coefficient vector of `f(X^e)` modulo `X^n + 1`: `X^(j*e)` is `X^k` or `-X^k` according to
whether `j * e` is congruent to `k` or to `k + n` modulo `2n`. -/
def substPow {R : Type*} [CommRing R] {n : ℕ} (e : ℕ) (f : Fin n → R) : Fin n → R := fun k =>
  ∑ j : Fin n,
    if (j * e) % (2 * n) = (k : ℕ) then f j else if (j * e) % (2 * n) = k + n then -f j else 0

end Shell.Spec
