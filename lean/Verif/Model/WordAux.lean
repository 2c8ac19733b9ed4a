import Verif.Model.WordSwitch
import Verif.Model.ErrorTrack
import Verif.Model.AuxKey
/-!
# `AuxModRelinearizationKey::ApplyTo` and `AuxModGaloisKey::ApplyTo` on stored words

`Create` and the serialization of these keys on stored words are in `Verif/Model/Word.lean`, the same functions on
residues in `Verif/Model/AuxKey.lean`.
-/

namespace Shell.WordCt
variable {E : Type}

/-- The accumulators of the loop in `ApplyTo` (aux_relinearization_key.cc:226-241). -/
structure AuxAcc where
  c0 : List ℕ
  c1 : List ℕ
  c0Aux : List ℕ
  c1Aux : List ℕ

/-- One iteration of the loop in `ApplyTo` (aux_relinearization_key.cc:245-266). -/
def auxStep (ak : Word.AKey) (x : Obj E) (first j : ℕ) (s : AuxAcc) : Outcome AuxAcc := do
  let i := first + j
  let ci ← component x i
  let key ← rd ak.keys (i - first)
  let c0 ← Poly.copying (Poly.fusedMulAddInPlace ak.p s.c0 key.bMain ci)
  let c1 ← Poly.copying (Poly.fusedMulAddInPlace ak.p s.c1 key.aMain ci)
  let ciAux ← Convert.convertNtt ci ak.p ak.q ak.pAux ak.qAux
  let c0Aux ← Poly.copying (Poly.fusedMulAddInPlace ak.pAux s.c0Aux key.bAux ciAux)
  let c1Aux ← Poly.copying (Poly.fusedMulAddInPlace ak.pAux s.c1Aux key.aAux ciAux)
  return ⟨c0, c1, c0Aux, c1Aux⟩

/-- `ConvertToMainModulus` (aux_relinearization_key.cc:280-318). -/
def convertToMain (ak : Word.AKey) (pMain : ℕ) (s : AuxAcc) : Outcome (List ℕ × List ℕ) := do
  let tModP := Mont.importInt ak.pAux ak.t
  let tInv := Mont.multiplicativeInverse ak.pAux tModP
  let c0Aux ← Poly.copying (Poly.mulScalarInPlace ak.pAux s.c0Aux tInv)
  let c1Aux ← Poly.copying (Poly.mulScalarInPlace ak.pAux s.c1Aux tInv)
  let c0m ← Convert.convertNtt c0Aux ak.pAux ak.qAux ak.p ak.q
  let c1m ← Convert.convertNtt c1Aux ak.pAux ak.qAux ak.p ak.q
  let tModQ := Mont.importInt ak.p ak.t
  let c0m ← Poly.copying (Poly.mulScalarInPlace ak.p c0m tModQ)
  let c1m ← Poly.copying (Poly.mulScalarInPlace ak.p c1m tModQ)
  let pInv := Mont.multiplicativeInverse ak.p pMain
  let c0 ← Poly.copying (Poly.subInPlace ak.p s.c0 c0m)
  let c0 ← Poly.copying (Poly.mulScalarInPlace ak.p c0 pInv)
  let c1 ← Poly.copying (Poly.subInPlace ak.p s.c1 c1m)
  let c1 ← Poly.copying (Poly.mulScalarInPlace ak.p c1 pInv)
  return (c0, c1)

variable [Add E] [Mul E] [Div E] [NatCast E]

/-- `AuxModRelinearizationKey::ApplyTo` (aux_relinearization_key.cc:196-278); `modulus` is
`ciphertext.ModulusParams()->modulus`, and `bA` is `ciphertext.ErrorParams()->B_aux_mod_relinearize` if the error
parameters are not null. -/
def auxApply (ak : Word.AKey) (modulus : ℕ) (bA : Option (ℕ → ℕ → E)) (x : Obj E) : Outcome (Obj E) :=
  let same := ak.power = 1
  if modulus ≠ ak.p.modulus then .err .invalidArgument
  else if x.c.length ≠ (if same then ak.keys.length + 2 else ak.keys.length + 1) then .err .invalidArgument
  else match bA with
  | none => .err .invalidArgument
  | some bA => do
    let pMain := Mont.importInt ak.p ak.pAux.modulus
    let c0 ← component x 0
    let zero := List.replicate ak.q.numberCoeffs 0
    let c1 ← (if same then do
        let c ← component x 1
        Poly.copying (Poly.addInPlace ak.p zero c)
      else .ok zero : Outcome (List ℕ))
    let c0 ← Poly.copying (Poly.mulScalarInPlace ak.p c0 pMain)
    let c1 ← Poly.copying (Poly.mulScalarInPlace ak.p c1 pMain)
    let first := if same then 2 else 1
    let s ← loop (x.c.length - first) (auxStep ak x first) ⟨c0, c1, zero, zero⟩
    let r ← convertToMain ak pMain s
    return { c := [r.1, r.2], power := 1, error := x.error + bA (x.c.length - first) ak.pAux.modulus }

/-- `AuxModGaloisKey::ApplyTo` (aux_galois_key.h:83-92). -/
def auxGaloisApply (ak : Word.AKey) (modulus : ℕ) (bA : Option (ℕ → ℕ → E)) (x : Obj E) : Outcome (Obj E) :=
  if x.power ≠ ak.power then .err .invalidArgument else auxApply ak modulus bA x

/-- `AuxModGaloisKey::Create` (aux_galois_key.h:60-77). -/
def auxGaloisCreate {σ : Type} (R : Word.Rng σ) (fuel : ℕ) (k : Word.Key) (prng : PrngType) (pAux : MParams)
    (qAux : Ntt.NttParams) (power : ℤ) (seed seedE : List ℕ) : Outcome Word.AKey :=
  Word.AKey.create R fuel k prng 1 pAux qAux power seed seedE

end Shell.WordCt

namespace Shell.ErrorTrack
open Sym
variable {C : Ctx}

/-- `B_aux_mod_relinearize` (error_params.h:89-97). -/
noncomputable def ErrorParams.bAux (P : ErrorParams) (n numComponents modulusAux : ℕ) : ℝ :=
  P.exportT * 6 * P.sigma *
    (n * (2 ^ P.logModulus / (modulusAux % 2 ^ 64 : ℕ)) * numComponents + √n)

/-- `AuxModRelinearizationKey::ApplyTo` (aux_relinearization_key.cc:196-278). -/
noncomputable def auxRelinearize (P : ErrorParams) {m : ℕ} (psi : ZMod m) (ak : AuxKey.AKey C m) (x : Tracked C) :
    Outcome (Tracked C) := do
  let c ← AuxKey.applyTo psi ak x.ct
  return ⟨c, x.error + P.bAux C.n (x.ct.c.length - (if ak.power = 1 then 2 else 1)) m⟩

end Shell.ErrorTrack
