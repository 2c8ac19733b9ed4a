import Verif.Model.Ntt
import Verif.Model.Sampler
/-!
# `context.h` and the integer part of `error_params.h`

The error constants (doubles) are in `Verif/Model/ErrorTrack.lean`; here the checks of `ErrorParams::Create`.
-/

namespace Shell.Context

/-- The conversion of a `size_t` argument to an `int` parameter, modulo `2^32` (context.h:61-69:
`log_n` and `log_t`). -/
def toInt32 (x : ℕ) : ℤ := Int.bmod x (2 ^ 32)

/-- `ErrorParams::Create` and the constructor's `t_` (error_params.h:39-58 and 122-126). The
doubles are left out. -/
def errorParams (p : MParams) (logT : ℤ) (variance : ℕ) : Outcome ℕ :=
  if logT > (p.logModulus : ℤ) - 1 then .err .invalidArgument
  else if logT ≤ 0 then .err .invalidArgument
  else if variance > Sampler.kMaxVariance then .err .invalidArgument
  else .ok (trunc p.w ((1 <<< logT.toNat + 1 : ℕ) : ℤ))

/-- `RlweContext` (context.h:124-127) with the `t_` of its error parameters. -/
structure RlweContext where
  params : MParams
  ntt : Ntt.NttParams
  errorT : ℕ
  modulus : ℕ
  logN : ℕ
  logT : ℕ
  variance : ℕ

/-- `RlweContext::Create` (context.h:53-78); `log_n`, `log_t` and `variance` are `size_t`s. -/
def create (w modulus logN logT variance : ℕ) : Outcome RlweContext := do
  let p ← MParams.create w modulus
  let q ← Ntt.initNtt p (toInt32 logN)
  let t ← errorParams p (toInt32 logT) variance
  return ⟨p, q, t, modulus, logN, logT, variance⟩

namespace RlweContext

/-- `GetN` (context.h:107): the shift of an `int`. -/
def getN (c : RlweContext) : Outcome ℕ := if c.logN < 31 then .ok (1 <<< c.logN) else .ub .badShift

/-- `GetT` (context.h:109-111): the shift of an `Int`, which is at least an `int` after promotion. -/
def getT (c : RlweContext) : Outcome ℕ :=
  if c.logT < max 31 c.params.w then .ok (trunc c.params.w ((1 <<< c.logT + 1 : ℕ) : ℤ))
  else .ub .badShift

/-- `CanModulusSwitchTo` (context.h:87-93). -/
def canModulusSwitchTo (c : RlweContext) (modulus : ℕ) : Outcome Unit := do
  let t ← c.getT
  if t = 0 then .ub .divByZero
  else if c.modulus % t ≠ modulus % t then .err .invalidArgument
  else .ok ()

end RlweContext
end Shell.Context
