import Verif.Model.Ntt
import Mathlib.Data.ZMod.Basic
import Mathlib.Algebra.BigOperators.Group.Finset.Basic
import Mathlib.Data.Fintype.BigOperators
/-!
# Polynomials as vectors of residues

The layers above `Polynomial` only use `ConvertToNtt`, `InverseNtt`, `Substitute` and the
coordinate-wise operations.  They are modelled on vectors `Fin n → ZMod N` of residues, with the
pointwise ring operations; the theorems of `Verif/Props/Polynomial.lean` show that the operations on
stored words (`Verif/Model/Polynomial.lean`) compute exactly these.
-/

namespace Shell.NttRing
open Finset

/-- The value at `x` of the polynomial with coefficient vector `f`
(no code: the mathematical meaning of the transform of dft_transformations.h:157-175). -/
def ev {R : Type*} [CommRing R] {n : ℕ} (f : Fin n → R) (x : R) : R := ∑ j : Fin n, f j * x ^ (j : ℕ)

/-- The root at which position `i` of an NTT vector evaluates (dft_transformations.h:157-175). -/
def point {N : ℕ} (psi : ZMod N) (l i : ℕ) : ZMod N := psi ^ (1 + 2 * Ntt.bitrev i l)

/-- `ConvertToNtt` on residues (polynomial.h:69-79). -/
def ntt {N : ℕ} (psi : ZMod N) (l : ℕ) (f : Fin (2 ^ l) → ZMod N) : Fin (2 ^ l) → ZMod N :=
  fun i => ev f (point psi l i)

/-- `InverseNtt` on residues (polynomial.h:96-112): `f_j = n^-1 * sum_i F_i * x_i^-j`. -/
def intt {N : ℕ} (psi : ZMod N) (l : ℕ) (F : Fin (2 ^ l) → ZMod N) : Fin (2 ^ l) → ZMod N :=
  fun j => ((2 ^ l : ℕ) : ZMod N)⁻¹ * ∑ i : Fin (2 ^ l), F i * point psi l i ^ (2 * 2 ^ l - (j : ℕ))

/-- `Substitute` on NTT vectors (polynomial.h:216-250). -/
def subst {R : Type*} (l k : ℕ) (F : Fin (2 ^ l) → R) : Fin (2 ^ l) → R :=
  fun x => F (Fin.ofNat (2 ^ l)
    (Ntt.bitrev (((k - 1) / 2 + Ntt.bitrev x l * k) % 2 ^ l) l))

end Shell.NttRing
