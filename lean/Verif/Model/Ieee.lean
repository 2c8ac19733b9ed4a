import Verif.Model.RnsEstimate
/-!
# The error estimates in `double` arithmetic with a bounded exponent

`Verif/Model/DoubleError.lean` models `double`s whose exponent is not bounded.  Here they are the `double`s of
IEEE 754: results beyond the largest finite number are infinite, results below the smallest normal number are rounded to
a multiple of `2^-1074`, and operations without a result give a NaN.  Simplified: zeros and infinities have no sign (no
estimate is ever negative).
-/

namespace Shell.Ieee
open DoubleError

/-- A `double` (`error_`, symmetric_encryption.h:607, rns/rns_ciphertext.h:512).  `cast` is the conversion of integers to
`double`s. -/
inductive Val (cast : ℕ → ℝ) where
  | fin (x : ℝ)
  | inf
  | nan

namespace Val
variable {cast : ℕ → ℝ}

/-- The result of an operation whose exact value is `x` (used by error_params.h:68-174 and rns/rns_error_params.h:84-169). -/
noncomputable def round (x : ℝ) : Val cast :=
  if x = 0 then .fin 0
  else if |x| < 1 / 2 ^ 1022 then .fin (Double.roundEven (x * 2 ^ 1074) / 2 ^ 1074)
  else if |Double.rnd x| < 2 ^ 1024 then .fin (Double.rnd x)
  else .inf

/-- `+` (for example rns/rns_ciphertext.h:126). -/
noncomputable instance : Add (Val cast) := ⟨fun
  | .nan, _ => .nan
  | _, .nan => .nan
  | .fin x, .fin y => round (x + y)
  | _, _ => .inf⟩

/-- `*` (for example rns/rns_ciphertext.h:179): infinity times zero is a NaN. -/
noncomputable instance : Mul (Val cast) := ⟨fun
  | .nan, _ => .nan
  | _, .nan => .nan
  | .fin x, .fin y => round (x * y)
  | .fin x, .inf => if x = 0 then .nan else .inf
  | .inf, .fin y => if y = 0 then .nan else .inf
  | .inf, .inf => .inf⟩

/-- `/` (for example rns/rns_error_params.h:88). -/
noncomputable instance : Div (Val cast) := ⟨fun
  | .nan, _ => .nan
  | _, .nan => .nan
  | .fin x, .fin y => if y = 0 then (if x = 0 then .nan else .inf) else round (x / y)
  | .fin _, .inf => .fin 0
  | .inf, .fin _ => .inf
  | .inf, .inf => .nan⟩

/-- `static_cast<double>` (for example rns/rns_ciphertext.h:232), and literals: the integers have at most 256 bits, so
that the result is always finite. -/
instance : NatCast (Val cast) := ⟨fun n => .fin (cast n)⟩

/-- `sqrt` (for example rns/rns_error_params.h:128). -/
noncomputable instance : Sqrt (Val cast) := ⟨fun
  | .nan => .nan
  | .inf => .inf
  | .fin x => if x < 0 then .nan else round √x⟩

/-- `0.0` (for example the initial estimates of oblivious_expand.h:183-186). -/
instance : Zero (Val cast) := ⟨.fin 0⟩

end Val

end Shell.Ieee
