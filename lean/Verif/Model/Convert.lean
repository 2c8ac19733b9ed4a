import Verif.Model.Montgomery
import Verif.Model.Polynomial
import Verif.Model.Symmetric
/-!
# `shell_encryption/modulus_conversion.h`
-/

namespace Shell.Convert

/-- One iteration of the two loops of `ConvertModulusBalanced` (modulus_conversion.h:49-82). -/
def balancedCoeff (pq pp : MParams) (diffP : ℕ) (v : ℕ) : ℕ :=
  let x := Mont.exportInt pq v
  let xp := Mont.importInt pp x
  if pp.modulus > pq.modulus then
    if x > pq.modulus >>> 1 then Mont.add pp xp diffP else xp
  else if x > pq.modulus >>> 1 then Mont.sub pp xp diffP else xp

/-- `ConvertModulusBalanced` (modulus_conversion.h:30-83).  `ImportInt` never fails. -/
def convertModulusBalanced (v : List ℕ) (pq pp : MParams) : List ℕ :=
  if pq.modulus = pp.modulus then v
  else
    let diff := if pq.modulus > pp.modulus then trunc pp.w ((pq.modulus : ℤ) - pp.modulus)
      else trunc pp.w ((pp.modulus : ℤ) - pq.modulus)
    let diffP := Mont.importInt pp diff
    v.map (balancedCoeff pq pp diffP)

/-- `ImportBalancedModularInt` (modulus_conversion.h:91-116). -/
def importBalanced (vs : List ℕ) (t : ℕ) (pp : MParams) : Outcome (List ℕ) :=
  vs.mapM fun v =>
    if t = 0 then .ub .divByZero
    else
      let vv := v % t
      if vv > t >>> 1 then .ok (Mont.negate pp (Mont.importInt pp (trunc pp.w ((t : ℤ) - vv))))
      else .ok (Mont.importInt pp vv)

/-- `ConvertModulusBalancedOnNttPolynomial` (modulus_conversion.h:121-137). -/
def convertNtt (a : List ℕ) (pq : MParams) (nq : Ntt.NttParams) (pp : MParams) (np : Ntt.NttParams) :
    Outcome (List ℕ) := do
  let c ← Poly.inverseNtt pq nq a
  Poly.convertToNtt pp np (convertModulusBalanced c pq pp)

/-- `ConvertModulus` (modulus_conversion.h:140-157). -/
def convertModulus (vs : List ℕ) (pq pp : MParams) : List ℕ :=
  if pq.modulus = pp.modulus then vs
  else vs.map fun v => Mont.importInt pp (Mont.exportInt pq v)

/-! ### On residues

The same functions on residue vectors (see `Verif/Model/Symmetric.lean`). -/

/-- `ConvertModulusBalanced` (modulus_conversion.h:30-83) on residue vectors. -/
def balancedRes {n : ℕ} (q p : ℕ) (f : Fin n → ZMod q) : Fin n → ZMod p := fun i =>
  let x := (f i).val
  if q = p then x
  else if p > q then
    if x > q >>> 1 then (x : ZMod p) + ((p - q : ℕ) : ZMod p) else x
  else if x > q >>> 1 then (x : ZMod p) - ((q - p : ℕ) : ZMod p) else x

end Shell.Convert
