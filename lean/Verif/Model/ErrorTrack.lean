import Verif.Model.Expand
import Verif.Model.PublicKey
import Verif.Model.Sampler
import Mathlib.Analysis.SpecialFunctions.Pow.Real
/-!
# The error estimates of `error_params.h` and `symmetric_encryption.h`

Every ciphertext carries a `double` `error_` next to its components.  The doubles are idealised as real numbers
(no rounding, no overflow to infinity); the components are those of `Verif/Model/Symmetric.lean`.
-/

namespace Shell.ErrorTrack
open Sym Relin
variable {C : Ctx}

/-- `class ErrorParams` (error_params.h:176-182) without `dimension_`, which is the context's: the word `t_`,
the variance whose root is `sigma_`, and `log_modulus_`. -/
structure ErrorParams where
  t : ℕ
  variance : ℕ
  logModulus : ℕ
  deriving DecidableEq

/-- `ErrorParams::Create` and the constructor (error_params.h:39-57 and 122-135). -/
def ErrorParams.create (C : Ctx) (logT : ℤ) (variance : ℕ) : Outcome ErrorParams :=
  if logT > (C.logModulus : ℤ) - 1 then .err .invalidArgument
  else if logT ≤ 0 then .err .invalidArgument
  else if variance > Sampler.kMaxVariance then .err .invalidArgument
  else do
    let t ← plaintextModulus C.w logT.toNat
    return { t := t, variance := variance, logModulus := C.logModulus }

namespace ErrorParams
variable (P : ErrorParams)

/-- `ExportDoubleT` (error_params.h:172-174): the low 64 bits of `t_`. -/
noncomputable def exportT : ℝ := (P.t % 2 ^ 64 : ℕ)

/-- `sigma_ = sqrt(variance)` (error_params.h:128). -/
noncomputable def sigma : ℝ := √P.variance

/-- `B_plaintext` (error_params.h:143-147). -/
noncomputable def bPlaintext (n : ℕ) : ℝ := P.exportT * √(3 * n)

/-- `B_encryption` (error_params.h:156-158). -/
noncomputable def bEncryption (n : ℕ) : ℝ := P.exportT * √n * (√3 + 6 * P.sigma)

/-- `B_scale` (error_params.h:165-168). -/
noncomputable def bScale (n : ℕ) : ℝ := P.exportT * (√(3 * n) + 8 * n * √(1 / 3))

/-- `B_relinearize` (error_params.h:68-77). -/
noncomputable def bRelinearize (n numComponents b : ℕ) : Outcome ℝ :=
  if b = 0 then .ub .divByZero
  else do
    let numDigits := (b + P.logModulus - 1) / b
    let m ← decompositionModulus b
    return 8 / √3 * P.exportT * numDigits * P.sigma * n * m * numComponents

/-- `B_publickey_encryption` (error_params.h:109-118).  Simplified: the product `72 * dimension * variance` is not bounded
(see `DoubleError.bPublicKey`). -/
noncomputable def bPublicKey (n : ℕ) (variance : ℤ) : Outcome ℝ :=
  if variance ≤ 0 then .err .invalidArgument
  else .ok (P.exportT * (√n * (6 * √variance + √3) + 72 * n * variance))

end ErrorParams

/-- A ciphertext with its `error_` (symmetric_encryption.h:600-607). -/
structure Tracked (C : Ctx) where
  ct : Ct C
  error : ℝ

/-- `Encrypt` (symmetric_encryption.h:1005-1023). -/
noncomputable def encrypt (P : ErrorParams) (k : Key C) (m a e : C.Poly) : Tracked C :=
  ⟨Sym.encrypt k m a e, P.bEncryption C.n⟩

/-- `PublicRlweKey::Encrypt` (public_key_encryption.cc:117-168). -/
noncomputable def encryptPublic (P : ErrorParams) (pk : Pub.PKey C) (m : C.Poly) (variance : ℤ) (prngNull : Bool)
    (v e0 e1 : C.Poly) : Outcome (Tracked C) := do
  let c ← Pub.encrypt pk m variance prngNull v e0 e1
  let b ← P.bPublicKey C.n variance
  return ⟨c, b⟩

/-- `AddInPlace` (symmetric_encryption.h:118-136). -/
noncomputable def add (x y : Tracked C) : Outcome (Tracked C) := do
  let c ← addInPlace x.ct y.ct
  return ⟨c, x.error + y.error⟩

/-- `SubInPlace` (symmetric_encryption.h:160-180). -/
noncomputable def sub (x y : Tracked C) : Outcome (Tracked C) := do
  let c ← subInPlace x.ct y.ct
  return ⟨c, x.error + y.error⟩

/-- `AbsorbInPlace(polynomial)` (symmetric_encryption.h:221-227). -/
noncomputable def absorb (P : ErrorParams) (x : Tracked C) (f : C.Poly) : Tracked C :=
  ⟨Sym.absorb x.ct f, x.error * P.bPlaintext C.n⟩

/-- `AbsorbInPlace(scalar)` (symmetric_encryption.h:238-244). -/
noncomputable def absorbScalar (x : Tracked C) (s : ZMod C.q) : Tracked C :=
  ⟨Sym.absorbScalar x.ct s, x.error * (s.val : ℕ)⟩

/-- `internal::AbsorbNttMonomialInPlace` (oblivious_expand.h:42-51): the estimate is restored. -/
noncomputable def absorbMonomial (P : ErrorParams) (x : Tracked C) (f : C.Poly) : Tracked C :=
  let e := x.error
  let y := absorb P x f
  ⟨y.ct, e⟩

/-- `FusedAbsorbAddInPlace` and `FusedAbsorbConstantAddInPlace` (symmetric_encryption.h:250-275, 364-391). -/
noncomputable def fusedAbsorbAdd (P : ErrorParams) (x a : Tracked C) (b : C.Poly) : Outcome (Tracked C) := do
  let c ← Sym.fusedAbsorbAdd x.ct a.ct b
  return ⟨c, x.error + a.error * P.bPlaintext C.n⟩

/-- `FusedAbsorbAddInPlaceLazily` (symmetric_encryption.h:285-335): the estimate is updated at once, unless
the absorbed ciphertext is empty. -/
noncomputable def fusedAbsorbAddLazily (P : ErrorParams) (x a : Tracked C) (b : C.Poly) : Outcome (Tracked C) := do
  let c ← Sym.fusedAbsorbAddLazily x.ct a.ct b
  return ⟨c, if a.ct.c.length = 0 then x.error else x.error + a.error * P.bPlaintext C.n⟩

/-- `MergeLazyOperations` (symmetric_encryption.h:340-362). -/
noncomputable def mergeLazy (x : Tracked C) : Outcome (Tracked C) := do
  let c ← Sym.mergeLazy x.ct
  return ⟨c, x.error⟩

/-- `operator*` of ciphertexts (symmetric_encryption.h:408-435). -/
noncomputable def mul (x y : Tracked C) : Outcome (Tracked C) := do
  let c ← Sym.mul x.ct y.ct
  return ⟨c, x.error * y.error⟩

/-- `Substitute` (symmetric_encryption.h:517-532). -/
noncomputable def substitute (x : Tracked C) (k : ℤ) : Outcome (Tracked C) := do
  let c ← Sym.substitute x.ct k
  return ⟨c, x.error⟩

/-- `SwitchModulus` (symmetric_encryption.h:442-507); `Q` are the error parameters for the new modulus. -/
noncomputable def switchModulus (Q : ErrorParams) (D : Ctx) (h : C.l = D.l) (x : Tracked C) (t : ℕ) :
    Outcome (Tracked D) := do
  let c ← Sym.switchModulus D h x.ct t
  return ⟨c, (D.q : ℝ) / C.q * x.error + Q.bScale D.n⟩

/-- `RelinearizationKey::ApplyTo` (relinearization_key.cc:288-344). -/
noncomputable def relinearize (P : ErrorParams) (rk : RKey C) (x : Tracked C) : Outcome (Tracked C) := do
  let c ← rk.applyTo x.ct
  let b ← P.bRelinearize C.n rk.parts.length rk.logDecomp
  return ⟨c, x.error + b⟩

end Shell.ErrorTrack
