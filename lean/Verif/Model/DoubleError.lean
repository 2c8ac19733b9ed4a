import Verif.Model.Double
import Verif.Model.StoreKeys
import Verif.Model.WordExpand
import Verif.Model.WordAux
import Verif.Model.WordPublic
import Verif.Model.ErrorTrack
import Verif.Model.RnsErrorTrack
import Mathlib.Analysis.SpecialFunctions.Pow.Real
/-!
# The error estimates in `double` arithmetic

The ciphertext operations of `Verif/Model/WordCt.lean` and of the modules built on it take the estimates from any type
with the arithmetic of the code.  Here are that type for `double`s, and the constants of error_params.h and
rns/rns_error_params.h in the order in which the code evaluates them.  Simplified: the exponent of a `double` is not
bounded, so there is neither overflow to infinity nor gradual underflow.
-/

namespace Shell.DoubleError

/-- `sqrt` (used by error_params.h:75, 96, 115-116, 128, 146, 157, 167). -/
class Sqrt (E : Type) where
  sqrt : E → E

export Sqrt (sqrt)

noncomputable instance : Sqrt ℝ := ⟨Real.sqrt⟩

/-- The number that a `double` stands for (`error_`, symmetric_encryption.h:607).  `cast` is the conversion of integers to `double`s. -/
structure Dbl (cast : ℕ → ℝ) where
  val : ℝ

section
variable {cast : ℕ → ℝ}

/-- `+` (for example symmetric_encryption.h:133). -/
noncomputable instance : Add (Dbl cast) := ⟨fun a b => ⟨Double.rnd (a.val + b.val)⟩⟩
/-- `*` (for example symmetric_encryption.h:225). -/
noncomputable instance : Mul (Dbl cast) := ⟨fun a b => ⟨Double.rnd (a.val * b.val)⟩⟩
/-- `/` (for example symmetric_encryption.h:459-460). -/
noncomputable instance : Div (Dbl cast) := ⟨fun a b => ⟨Double.rnd (a.val / b.val)⟩⟩
/-- `static_cast<double>` (for example symmetric_encryption.h:242), and literals such as `3.0`. -/
instance : NatCast (Dbl cast) := ⟨fun n => ⟨cast n⟩⟩
/-- `sqrt`, which IEEE 754 requires to be correctly rounded (for example error_params.h:146). -/
noncomputable instance : Sqrt (Dbl cast) := ⟨fun a => ⟨Double.rnd √a.val⟩⟩
/-- `0.0` (for example the initial estimates of oblivious_expand.h:183-186). -/
instance : Zero (Dbl cast) := ⟨⟨0⟩⟩

end

section
variable {E : Type} [Add E] [Mul E] [Div E] [NatCast E] [Sqrt E] (P : ErrorTrack.ErrorParams)

/-- `ExportDoubleT` (error_params.h:172-174): the low 64 bits of `t_`. -/
def exportT : E := (P.t % 2 ^ 64 : ℕ)

/-- `sigma_ = sqrt(variance)` (error_params.h:128). -/
def sigma : E := sqrt (P.variance : E)

/-- `B_plaintext` (error_params.h:143-147). -/
def bPlaintext (n : ℕ) : E := exportT P * sqrt ((3 : ℕ) * (n : E))

/-- `B_encryption` (error_params.h:156-158). -/
def bEncryption (n : ℕ) : E := exportT P * sqrt (n : E) * (sqrt ((3 : ℕ) : E) + (6 : ℕ) * sigma P)

/-- `B_scale` (error_params.h:165-168). -/
def bScale (n : ℕ) : E :=
  exportT P * (sqrt ((3 : ℕ) * (n : E)) + (8 : ℕ) * (n : E) * sqrt ((1 : ℕ) / ((3 : ℕ) : E)))

/-- The value of `B_relinearize` (error_params.h:75-76). -/
def relinearizeValue (n numComponents numDigits m : ℕ) : E :=
  ((8 : ℕ) : E) / sqrt ((3 : ℕ) : E) * exportT P * numDigits * sigma P * n * m * numComponents

/-- `B_relinearize` (error_params.h:68-77). -/
def bRelinearize (n numComponents b : ℕ) : Outcome E :=
  if b = 0 then .ub .divByZero
  else do
    let numDigits := (b + P.logModulus - 1) / b
    let m ← Relin.decompositionModulus b
    return relinearizeValue P n numComponents numDigits m

/-- `B_aux_mod_relinearize` (error_params.h:89-97); `std::pow(2, log_modulus_)` is exact. -/
def bAux (n numComponents modulusAux : ℕ) : E :=
  exportT P * (6 : ℕ) * sigma P *
    ((n : E) * (((2 ^ P.logModulus : ℕ) : E) / (modulusAux % 2 ^ 64 : ℕ)) * numComponents + sqrt (n : E))

/-- The value of `B_publickey_encryption` (error_params.h:115-117); `z` is `72 * dimension * variance`. -/
def publicKeyValue (n variance z : ℕ) : E :=
  exportT P * (sqrt (n : E) * ((6 : ℕ) * sqrt (variance : E) + sqrt ((3 : ℕ) : E)) + z)

/-- `B_publickey_encryption` (error_params.h:109-118): `72 * dimension * variance` is computed with `int`s. -/
def bPublicKey (n : ℕ) (variance : ℤ) : Outcome E :=
  if variance ≤ 0 then .err .invalidArgument
  else do
    let z ← Transcription.int32 (72 * n)
    let z ← Transcription.int32 (z * variance)
    return publicKeyValue P n variance.toNat z.toNat

end

/-- `class RnsErrorParams` (rns/rns_error_params.h:171-184) with `sigma_` in the given arithmetic. -/
structure RParams (E : Type) where
  logN : ℕ
  logT : ℕ
  sigma : E

namespace RParams
variable {E : Type} [Add E] [Mul E] [Div E] [NatCast E] [Sqrt E] (P : RParams E)

/-- `ExportDoubleT` (rns/rns_error_params.h:168-169); `std::pow(log_plaintext_modulus_, 2)` is rounded once. -/
def exportT : E := (P.logT ^ 2 : ℕ)

/-- `B_plaintext` (rns/rns_error_params.h:127-131). -/
def bPlaintext : E := P.exportT * sqrt ((3 : ℕ) * ((2 ^ P.logN : ℕ) : E))

/-- `B_secretkey_encryption` (rns/rns_error_params.h:140-142). -/
def bSecretKey : E :=
  P.exportT * sqrt ((2 ^ P.logN : ℕ) : E) * (sqrt ((3 : ℕ) : E) + (6 : ℕ) * P.sigma)

/-- `B_publickey_encryption` (rns/rns_error_params.h:153-156): `72 * dimension` is computed with `int`s (see
`RErrorParams.create`). -/
def bPublicKey : E :=
  P.exportT * (sqrt ((2 ^ P.logN : ℕ) : E) * ((6 : ℕ) * P.sigma + sqrt ((3 : ℕ) : E)) +
    ((72 * 2 ^ P.logN : ℕ) : E) * P.sigma * P.sigma)

/-- `BoundOnGadgetBasedKeySwitching` (rns/rns_error_params.h:84-90). -/
def boundOnKeySwitching (numComponents logBase numDigits : ℕ) : Outcome E := do
  let b ← Rns.shl1 logBase
  let n ← Rns.shl1 P.logN
  return ((8 : ℕ) : E) / sqrt ((3 : ℕ) : E) * P.exportT * numDigits * P.sigma * n * b * numComponents

end RParams

end Shell.DoubleError
