import Verif.Model.Relin
import Verif.Model.Convert
/-!
# `shell_encryption/aux_relinearization_key.{h,cc}` and `aux_galois_key.h`

On residue vectors, as in `Verif/Model/Symmetric.lean`.  The auxiliary parameters are those of a modulus
`p` with the word width and number of coefficients of the main context (the code does not check this:
other lengths make the NTT fail).  Null pointers and seeds are not modelled; the random polynomials and
errors are arguments indexed by key component.
-/

namespace Shell.AuxKey
open Sym
variable {C : Ctx}

/-- The auxiliary context (the parameters with suffix `_aux` of aux_relinearization_key.h:95-117). -/
abbrev aux (C : Ctx) (p : ℕ) (psi : ZMod p) : Ctx := ⟨C.w, p, C.l, psi⟩

/-- `MultiplicativeInverse` (montgomery.cc:468-472): `x^(q-2)`. -/
def inv {q : ℕ} (x : ZMod q) : ZMod q := (x.val ^ (q - 2) : ℕ)

/-- `struct KeyComponent` (aux_relinearization_key.h:152-182). -/
structure Comp (C : Ctx) (p : ℕ) where
  bMain : C.Poly
  aMain : C.Poly
  bAux : Fin (2 ^ C.l) → ZMod p
  aAux : Fin (2 ^ C.l) → ZMod p

/-- `class AuxModRelinearizationKey` (aux_relinearization_key.h:207-234). -/
structure AKey (C : Ctx) (p : ℕ) where
  keys : List (Comp C p)
  t : ℕ
  power : ℤ

variable {p : ℕ} (psi : ZMod p)

/-- `ConvertModulusBalancedOnNttPolynomial` from the main to the auxiliary modulus
(modulus_conversion.h:123, called at aux_relinearization_key.cc:156, 255). -/
def toAux (f : C.Poly) : (aux C p psi).Poly :=
  (aux C p psi).toNtt (Convert.balancedRes C.q p (C.fromNtt f))

/-- `ConvertModulusBalancedOnNttPolynomial` from the auxiliary to the main modulus
(modulus_conversion.h:123, called at aux_relinearization_key.cc:294, 298). -/
def toMain (f : (aux C p psi).Poly) : C.Poly :=
  C.toNtt (Convert.balancedRes p C.q ((aux C p psi).fromNtt f))

/-- `KeyComponent::Create` (aux_relinearization_key.cc:32-86). -/
def Comp.create (sTargetMain : C.Poly) (sTargetAux : (aux C p psi).Poly) (sSourceMain : C.Poly)
    (tMain : ZMod C.q) (tAux : ZMod p) (aMain : C.Poly) (aAux : (aux C p psi).Poly) (e : C.Poly) :
    Comp C p :=
  let eAux : (aux C p psi).Poly := Convert.balancedRes C.q p e
  let bMain := scalarMul tMain (C.toNtt e)
  let bAux := scalarMul tAux ((aux C p psi).toNtt eAux)
  let bMain := bMain + aMain * sTargetMain
  let bAux := bAux + aAux * sTargetAux
  ⟨bMain + sSourceMain, -aMain, bAux, -aAux⟩

/-- The loop of `Create` (aux_relinearization_key.cc:176-190): `cnt` components left, `i` done. -/
def createComps (k : Key C) (sAux : (aux C p psi).Poly) (base : C.Poly) (same : Bool) (tAux : ZMod p)
    (padsMain : ℕ → C.Poly) (padsAux : ℕ → (aux C p psi).Poly) (errs : ℕ → C.Poly) :
    ℕ → ℕ → C.Poly → List (Comp C p)
  | 0, _, _ => []
  | cnt + 1, i, sPower =>
    let sPower := if same || decide (i > 0) then sPower * base else sPower
    Comp.create psi k.key sAux sPower k.tUnderQ tAux (padsMain i) (padsAux i) (errs i) ::
      createComps k sAux base same tAux padsMain padsAux errs cnt (i + 1) sPower

/-- `AuxModRelinearizationKey::Create` (aux_relinearization_key.cc:88-194). -/
def create (k : Key C) (prng : PrngType) (degree : ℤ) (power : ℤ)
    (padsMain : ℕ → C.Poly) (padsAux : ℕ → (aux C p psi).Poly) (errs : ℕ → C.Poly) :
    Outcome (AKey C p) :=
  if degree ≤ 0 then .err .invalidArgument
  else if power ≤ 0 then .err .invalidArgument
  else if prng = .invalid then .err .invalidArgument
  else do
    let pMain : ZMod C.q := p
    let t := k.tUnderQ.val
    let tAux : ZMod p := t
    let sAux := toAux psi k.key
    let base ← C.substitute k.key power
    let sPower := scalarMul pMain base
    let len := if power = 1 then degree - 1 else degree
    return { keys := createComps psi k sAux base (power = 1) tAux padsMain padsAux errs len.toNat 0 sPower
             t := t
             power := power }

/-- The accumulators of the loop in `ApplyTo` (aux_relinearization_key.cc:236-285). -/
structure Acc (C : Ctx) (p : ℕ) where
  c0 : C.Poly
  c1 : C.Poly
  c0Aux : Fin (2 ^ C.l) → ZMod p
  c1Aux : Fin (2 ^ C.l) → ZMod p

/-- One iteration of the loop in `ApplyTo` (aux_relinearization_key.cc:245-268). -/
def applyStep (ak : AKey C p) (x : Ct C) (first : ℕ) (j : ℕ) (s : Acc C p) : Outcome (Acc C p) := do
  let i := first + j
  let ci ← Relin.component x i
  let key ← rd ak.keys (i - first)
  let ciAux := toAux psi ci
  return ⟨s.c0 + key.bMain * ci, s.c1 + key.aMain * ci,
    s.c0Aux + key.bAux * ciAux, s.c1Aux + key.aAux * ciAux⟩

/-- `ConvertToMainModulus` (aux_relinearization_key.cc:280-318). -/
def convertToMain (ak : AKey C p) (pMain : ZMod C.q) (s : Acc C p) : C.Poly × C.Poly :=
  let tInv := inv (ak.t : ZMod p)
  let c0Aux : (aux C p psi).Poly := scalarMul tInv s.c0Aux
  let c1Aux : (aux C p psi).Poly := scalarMul tInv s.c1Aux
  let tq : ZMod C.q := ak.t
  let c0m := scalarMul tq (toMain psi c0Aux)
  let c1m := scalarMul tq (toMain psi c1Aux)
  let pInv := inv pMain
  (scalarMul pInv (s.c0 - c0m), scalarMul pInv (s.c1 - c1m))

/-- `AuxModRelinearizationKey::ApplyTo` (aux_relinearization_key.cc:196-278).  The ciphertext's modulus
is the key's by typing. -/
def applyTo (ak : AKey C p) (x : Ct C) : Outcome (Ct C) :=
  let same := ak.power = 1
  if x.c.length ≠ (if same then ak.keys.length + 2 else ak.keys.length + 1) then .err .invalidArgument
  else do
    let pMain : ZMod C.q := p
    let c0 ← Relin.component x 0
    let c1 ← (if same then Relin.component x 1 else .ok 0 : Outcome C.Poly)
    let first := if same then 2 else 1
    let s ← loop (x.c.length - first) (applyStep psi ak x first)
      (⟨scalarMul pMain c0, scalarMul pMain c1, 0, 0⟩ : Acc C p)
    let r := convertToMain psi ak pMain s
    return { c := [r.1, r.2], power := 1 }

/-- `AuxModGaloisKey::Create` (aux_galois_key.h:60-77). -/
def galoisCreate (k : Key C) (prng : PrngType) (power : ℤ)
    (padsMain : ℕ → C.Poly) (padsAux : ℕ → (aux C p psi).Poly) (errs : ℕ → C.Poly) :=
  create psi k prng 1 power padsMain padsAux errs

/-- `AuxModGaloisKey::ApplyTo` (aux_galois_key.h:83-92). -/
def galoisApply (ak : AKey C p) (x : Ct C) : Outcome (Ct C) :=
  if x.power ≠ ak.power then .err .invalidArgument else applyTo psi ak x

end Shell.AuxKey
