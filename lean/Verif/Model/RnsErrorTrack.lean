import Verif.Model.RnsGadget
import Verif.Model.LazyRns
import Mathlib.Analysis.SpecialFunctions.Pow.Real
/-!
# The error estimates of `rns/rns_error_params.h` and of the BGV ciphertexts

Every RNS ciphertext carries a `double` `error_` next to its components.  The doubles are idealised as real numbers
(no rounding, no overflow to infinity); the components are those of `Verif/Model/RnsCiphertext.lean`.  The operations
of `rns_ciphertext.h` are shared by BGV and BFV ciphertexts.
-/

namespace Shell.RnsErrorTrack
open Rns
variable {σ : Type}

/-- `class RnsErrorParams` (rns/rns_error_params.h:171-184) without the logarithms of the moduli, which no
function uses. -/
structure RErrorParams where
  logN : ℕ
  logT : ℕ
  sigma : ℝ

/-- `RnsErrorParams::Create` and the constructor (rns/rns_error_params.h:46-77, 100-118); `72 * dimension` is an `int`
(rns/rns_error_params.h:155). -/
noncomputable def RErrorParams.create (logN : ℤ) (ms : List Modulus) (logT : ℤ) (sigma : ℝ) :
    Outcome RErrorParams :=
  if logN ≤ 0 then .err .invalidArgument
  else if ms.isEmpty then .err .invalidArgument
  else if logT ≤ 0 then .err .invalidArgument
  else open scoped Classical in if sigma ≤ 0 then .err .invalidArgument
  else do
    let n ← shl1 logN.toNat
    let _ ← Transcription.int32 (72 * n)
    return ⟨logN.toNat, logT.toNat, sigma⟩

namespace RErrorParams
variable (P : RErrorParams)

/-- `ExportDoubleT` (rns/rns_error_params.h:168-169): the square of the logarithm. -/
noncomputable def exportT : ℝ := (P.logT : ℝ) ^ 2

/-- The dimension `1 << log_n` (rns/rns_error_params.h:113). -/
noncomputable def dim : ℝ := (2 ^ P.logN : ℕ)

/-- `B_plaintext` (rns/rns_error_params.h:127-131). -/
noncomputable def bPlaintext : ℝ := P.exportT * √(3 * P.dim)

/-- `B_secretkey_encryption` (rns/rns_error_params.h:140-142). -/
noncomputable def bSecretKey : ℝ := P.exportT * √P.dim * (√3 + 6 * P.sigma)

/-- `B_publickey_encryption` (rns/rns_error_params.h:153-156). -/
noncomputable def bPublicKey : ℝ :=
  P.exportT * (√P.dim * (6 * P.sigma + √3) + 72 * P.dim * P.sigma * P.sigma)

/-- `BoundOnGadgetBasedKeySwitching` (rns/rns_error_params.h:84-90). -/
noncomputable def boundOnKeySwitching (numComponents logBase numDigits : ℕ) : Outcome ℝ := do
  let b ← shl1 logBase
  let n ← shl1 P.logN
  return 8 / √3 * P.exportT * numDigits * P.sigma * n * b * numComponents

end RErrorParams

/-- A ciphertext with its `error_` (rns/rns_ciphertext.h:490-513). -/
structure RTracked where
  ct : RCt
  error : ℝ

namespace RTracked

/-- `CreateZero` (rns/rns_ciphertext.h:63-68). -/
noncomputable def createZero (ms : List Modulus) : RTracked := ⟨RCt.createZero ms, 0⟩

/-- `NegateInPlace` (rns/rns_ciphertext.h:101-106). -/
noncomputable def negate (x : RTracked) : Outcome RTracked := do
  let c ← x.ct.negate
  return ⟨c, x.error⟩

/-- `AddInPlace(ciphertext)` (rns/rns_ciphertext.h:111-128). -/
noncomputable def add (x y : RTracked) : Outcome RTracked := do
  let c ← x.ct.add y.ct
  return ⟨c, x.error + y.error⟩

/-- `SubInPlace(ciphertext)` (rns/rns_ciphertext.h:143-160). -/
noncomputable def sub (x y : RTracked) : Outcome RTracked := do
  let c ← x.ct.sub y.ct
  return ⟨c, x.error + y.error⟩

/-- `AddInPlace(plaintext)` (rns/rns_ciphertext.h:132-138): the estimate stays. -/
noncomputable def addPlain (x : RTracked) (pt : RPoly) : Outcome RTracked := do
  let c ← x.ct.addPlain pt
  return ⟨c, x.error⟩

/-- `SubInPlace(plaintext)` (rns/rns_ciphertext.h:164-170): the estimate stays. -/
noncomputable def subPlain (x : RTracked) (pt : RPoly) : Outcome RTracked := do
  let c ← x.ct.subPlain pt
  return ⟨c, x.error⟩

/-- `AbsorbInPlace(plaintext)` (rns/rns_ciphertext.h:175-181). -/
noncomputable def absorb (P : RErrorParams) (x : RTracked) (pt : RPoly) : Outcome RTracked := do
  let c ← x.ct.absorb pt
  return ⟨c, x.error * P.bPlaintext⟩

/-- `AbsorbMonomialInPlace` (rns/rns_ciphertext.h:186-192). -/
noncomputable def absorbMonomial (x : RTracked) (pt : RPoly) : Outcome RTracked := do
  let c ← x.ct.absorb pt
  return ⟨c, x.error⟩

/-- `AbsorbInPlace` by a scalar in RNS form (rns/rns_ciphertext.h:205-216). -/
noncomputable def absorbRns (P : RErrorParams) (x : RTracked) (z : List ℕ) : Outcome RTracked := do
  let c ← x.ct.absorbRns z
  return ⟨c, x.error * P.bPlaintext⟩

/-- `AbsorbInPlace(scalar)` (rns/rns_ciphertext.h:227-234). -/
noncomputable def absorbInt (x : RTracked) (z : ℕ) : Outcome RTracked := do
  let c ← x.ct.absorbInt z
  return ⟨c, x.error * (z / 2)⟩

/-- `FusedAbsorbAddInPlace` (rns/rns_ciphertext.h:237-259). -/
noncomputable def fusedAbsorbAdd (P : RErrorParams) (x y : RTracked) (pt : RPoly) : Outcome RTracked := do
  let c ← x.ct.fusedAbsorbAdd y.ct pt
  return ⟨c, x.error + y.error * P.bPlaintext⟩

/-- `FusedAbsorbAddInPlaceWithoutPad` (rns/rns_ciphertext.h:269-290). -/
noncomputable def fusedAbsorbAddWithoutPad (P : RErrorParams) (x y : RTracked) (pt : RPoly) : Outcome RTracked := do
  let c ← x.ct.fusedAbsorbAddWithoutPad y.ct pt
  return ⟨c, x.error + y.error * P.bPlaintext⟩

/-- `SetPadComponent` (rns/rns_ciphertext.h:365-377). -/
noncomputable def setPad (x : RTracked) (a : RPoly) : Outcome RTracked := do
  let c ← x.ct.setPad a
  return ⟨c, x.error⟩

/-- `Mul` (rns/rns_ciphertext.h:383-406). -/
noncomputable def mul (x y : RTracked) : Outcome RTracked := do
  let c ← x.ct.mul y.ct
  return ⟨c, x.error * y.error⟩

/-- `RnsBgvCiphertext::Substitute` (rns/rns_bgv_ciphertext.h:161-174). -/
noncomputable def substitute (x : RTracked) (k : ℤ) : Outcome RTracked := do
  let c ← x.ct.substitute k
  return ⟨c, x.error⟩

/-- `RnsBgvCiphertext::ModReduce` (rns/rns_bgv_ciphertext.h:146-157): the estimate stays. -/
noncomputable def modReduce (x : RTracked) (t : ℕ) (qlInv : List ℕ) : Outcome RTracked := do
  let c ← x.ct.modReduceBgv t qlInv
  return ⟨c, x.error⟩

/-- `RnsBfvCiphertext::ModReduce` (rns/rns_bfv_ciphertext.h:171-186): the estimate stays. -/
noncomputable def modReduceBfv (ctx : Rns.Ctx) (x : RTracked) : Outcome RTracked := do
  let c ← x.ct.modReduceBfv ctx
  return ⟨c, x.error⟩

/-- `RnsBfvCiphertext::AbsorbInPlaceSimple` (rns/rns_bfv_ciphertext.cc:207-222). -/
noncomputable def absorbSimple (P : RErrorParams) (x : RTracked) (pt : RPoly) : Outcome RTracked := do
  let c ← x.ct.absorbSimple pt
  return ⟨c, x.error * P.bPlaintext⟩

/-- `RnsBfvCiphertext::AbsorbInPlace` (rns/rns_bfv_ciphertext.cc:33-97). -/
noncomputable def absorbBfv (P : RErrorParams) (est : Estimate) (ctx : Rns.Ctx) (x : RTracked) (pt : RPoly) :
    Outcome RTracked := do
  let c ← x.ct.absorbBfv est ctx pt
  return ⟨c, x.error * P.bPlaintext⟩

/-- `RnsBfvCiphertext::Mul` (rns/rns_bfv_ciphertext.cc:99-205). -/
noncomputable def mulBfv (est : Estimate) (ctx : Rns.Ctx) (x y : RTracked) : Outcome RTracked := do
  let c ← x.ct.mulBfv est ctx y.ct
  return ⟨c, x.error * y.error⟩

end RTracked

/-- A ciphertext with its `lazy_components_` and `error_` (rns/rns_ciphertext.h:490-513). -/
structure LTracked where
  ct : LCt
  error : ℝ

/-- `FusedAbsorbAddInPlaceWithoutPadLazily` (rns/rns_ciphertext.h:298-331): the first call returns before the
estimate is updated. -/
noncomputable def LTracked.fusedAbsorbLazily (P : RErrorParams) (w : ℕ) (x : LTracked) (y : RTracked) (pt : RPoly) :
    Outcome LTracked := do
  let c ← x.ct.fusedAbsorbLazily w y.ct pt
  return ⟨c, if x.ct.lazy.isEmpty then x.error else x.error + y.error * P.bPlaintext⟩

/-- `MergeLazyOperations` (rns/rns_ciphertext.h:334-361). -/
noncomputable def LTracked.merge (x : LTracked) : Outcome LTracked := do
  let c ← x.ct.merge
  return ⟨c, x.error⟩

/-- `EncryptBgv` (rns/rns_secret_key.h:166-231). -/
noncomputable def encryptBgv (P : RErrorParams) (G : Gen σ) (fuel : ℕ) (k : RKey) (E : Encoder) (messages : List ℕ)
    (s : σ) : Outcome (RTracked × σ) := do
  let (c, s) ← k.encryptBgv G fuel E messages s
  return (⟨c, P.bSecretKey⟩, s)

/-- `RnsBgvPublicKey::Encrypt` (rns/rns_bgv_public_key.h:83-130). -/
noncomputable def encryptBgvPublic (P : RErrorParams) (G : Gen σ) (k : RPub) (E : Encoder) (messages : List ℕ)
    (s : σ) : Outcome (RTracked × σ) := do
  let (c, s) ← k.encryptBgv G E messages s
  return (⟨c, P.bPublicKey⟩, s)

/-- `EncryptBfv` with one generator (rns/rns_secret_key.h:303-362). -/
noncomputable def encryptBfv1 (P : RErrorParams) (G : Gen σ) (fuel : ℕ) (k : RKey) (E : Encoder) (messages : List ℕ)
    (s : σ) : Outcome (RTracked × σ) := do
  let (c, s) ← k.encryptBfv1 G fuel E messages s
  return (⟨c, P.bSecretKey⟩, s)

/-- `EncryptBfv` with a generator for the mask (rns/rns_secret_key.h:303-353). -/
noncomputable def encryptBfv {τ : Type} (P : RErrorParams) (G : Gen σ) (Gp : Gen τ) (fuel : ℕ) (k : RKey) (E : Encoder)
    (messages : List ℕ) (s : σ) (sp : τ) : Outcome (RTracked × σ × τ) := do
  let (c, s, sp) ← k.encryptBfv G Gp fuel E messages s sp
  return (⟨c, P.bSecretKey⟩, s, sp)

/-- `RnsBfvPublicKey::Encrypt` (rns/rns_bfv_public_key.h:80-127). -/
noncomputable def encryptBfvPublic (P : RErrorParams) (G : Gen σ) (k : RPub) (E : Encoder) (messages : List ℕ)
    (s : σ) : Outcome (RTracked × σ) := do
  let (c, s) ← k.encryptBfv G E messages s
  return (⟨c, P.bPublicKey⟩, s)

/-- `LogGadgetBase` (rns/rns_gadget.h:91-94): the largest base; the end iterator of an empty vector is
dereferenced. -/
def logGadgetBase (g : RGadget) : Outcome ℕ :=
  match g.logBs.max? with
  | some b => .ok b
  | none => .ub .outOfBounds

/-- `RnsGaloisKey::ApplyTo` (rns/rns_galois_key.h:137-147) with `ErrorAfterApplication`
(rns/rns_galois_key.h:264-270). -/
noncomputable def applyGalois (P : RErrorParams) (k : RGalois) (x : RTracked) : Outcome RTracked := do
  let c ← k.applyTo x.ct
  let b ← logGadgetBase k.gadget
  let e ← P.boundOnKeySwitching 1 b k.gadget.dimension
  return ⟨c, x.error + e⟩

/-- `RnsRelinKey::ApplyTo` (rns/rns_relinearization_key.h:80-92) with `ErrorAfterApplication`
(rns/rns_relinearization_key.h:158-164); `k.applyTo` succeeds only on ciphertexts of degree 1 and more, so the
number of components is not negative. -/
noncomputable def applyRelin (P : RErrorParams) (k : RRelin) (x : RTracked) : Outcome RTracked := do
  let c ← k.applyTo x.ct
  let b ← logGadgetBase k.gadget
  let e ← P.boundOnKeySwitching (x.ct.c.length - 2) b k.gadget.dimension
  return ⟨c, x.error + e⟩

end Shell.RnsErrorTrack
