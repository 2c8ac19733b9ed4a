import Verif.Props.Polynomial
import Verif.Model.Word
import Mathlib.Data.Real.Basic
/-!
# Short secret keys

Switching the modulus rounds every component of a ciphertext; the roundings are multiplied with the secret key. The sum of
the absolute values of the key's coefficients bounds what they contribute to any coefficient.
-/

namespace Shell.Spec
open Shell.Poly

/-- The secret key is a polynomial with integer coefficients in the open interval from `-N/2` to `N/2`, the absolute values of
which add up to at most `B`. -/
def ShortKey (N n : ℕ) (k : Word.Key) (B : ℝ) : Prop :=
  ∃ S : Fin n → ℤ, HasCoeffs k.p k.q N n k.key (fun i => (S i : ZMod N)) ∧ (∀ i, 2 * |S i| < N) ∧
    ∑ i, |(S i : ℝ)| ≤ B

end Shell.Spec
