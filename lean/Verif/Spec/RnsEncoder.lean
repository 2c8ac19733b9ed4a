import Verif.Spec.RnsContext
import Verif.Spec.Convert
import Verif.Model.RnsEncoder
/-!
# What the encoders compute
-/

namespace Shell.Spec
open Rns

/-- A bound on the coefficients after reducing a polynomial, whose coefficients are at most `b` in absolute
value, by the moduli in the list, one after the other, with plaintext modulus `t`: each step with modulus `q`
divides by `q`, multiplies by `q mod t` and rounds to a multiple of `t`. -/
def lsbBound (t : ℕ) : List ℕ → ℚ → ℚ
  | [], b => b
  | q :: qs, b => lsbBound t qs ((q % t : ℕ) * b / q + t / 2)

/-- The moduli `q_l, .., q_1` by which a polynomial with moduli `q_0, .., q_l` is reduced when it is
decoded. -/
def dropOrder (ms : List Modulus) : List ℕ := (ms.tail.map (·.N)).reverse

end Shell.Spec
