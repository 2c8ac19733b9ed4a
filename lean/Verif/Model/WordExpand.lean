import Verif.Model.WordSwitch
import Verif.Model.Expand
/-!
# Oblivious expansion on stored words

shell_encryption/oblivious_expand.h with the polynomials as vectors of stored words of any lengths and with the error
estimates.  Lookups and the arithmetic of indices and powers are those of `Verif/Model/Expand.lean`.
-/

namespace Shell.WordExpand
open WordCt Expand
variable {E : Type} [Add E] [Mul E] [Div E] [NatCast E] [Zero E]

/-- What an `ObliviousExpander` is constructed with (oblivious_expand.h:160-163), and `error_params_->B_plaintext()`
of the ciphertexts. -/
structure Env (E : Type) where
  p : MParams
  q : Ntt.NttParams
  bPlain : E

/-- `SubstitutionWithKeys` (oblivious_expand.h:166-170). -/
abbrev Sub (E : Type) := Obj E → ℤ → Outcome (Obj E)

/-- `internal::AbsorbNttMonomialInPlace` (oblivious_expand.h:42-51): the estimate is restored. -/
def absorbMonomial (e : Env E) (x : Obj E) (f : List ℕ) : Outcome (Obj E) := do
  let y ← (absorbIn e.p e.bPlain x f).value
  return { y with error := x.error }

/-- The coefficients of `-x^(N - 2^j)` (oblivious_expand.h:188-190, 197-198). -/
def monomial (p : MParams) (n j : ℕ) : Outcome (List ℕ) :=
  if 2 ^ j > n then .ub .outOfBounds
  else wr (List.replicate n (Mont.importZero p)) (n - 2 ^ j) (Mont.negate p (Mont.importOne p))

/-- One iteration of the inner loop (oblivious_expand.h:203-223). -/
def expandInner (e : Env E) (sub : Sub E) (n j : ℕ) (toAbsorb : List ℕ) (k : ℕ) (result : List (Obj E)) :
    Outcome (List (Obj E)) := do
  let rk ← rd result k
  let s ← sub rk ((n >>> j) + 1 : ℕ)
  let d ← (subIn e.p rk s).value
  let result ← wr result (k + 2 ^ j) d
  let d ← absorbMonomial e d toAbsorb
  let result ← wr result (k + 2 ^ j) d
  let r ← (addIn e.p rk s).value
  wr result k r

/-- One iteration of the outer loop (oblivious_expand.h:194-224). -/
def expandOuter (e : Env E) (sub : Sub E) (n j : ℕ) (result : List (Obj E)) : Outcome (List (Obj E)) := do
  let m ← monomial e.p n j
  let toAbsorb ← Poly.convertToNtt e.p e.q m
  loop (2 ^ j) (expandInner e sub n j toAbsorb) result

/-- `ExpandCiphertext` (oblivious_expand.h:173-227). -/
def expandCiphertext (e : Env E) (sub : Sub E) (levels : ℕ) (x : Obj E) : Outcome (List (Obj E)) := do
  let c0 ← component x 0
  if c0.length ≠ e.q.numberCoeffs then .err .invalidArgument
  else if levels ≥ 31 then .ub .fatal
  else do
    let result ← wr (List.replicate (2 ^ levels) ({ c := [], power := 1, error := 0 } : Obj E)) 0 x
    loop levels (expandOuter e sub c0.length) result

/-- `ObliviousExpander::ObliviousExpand` (oblivious_expand.h:95-138). -/
def obliviousExpand (e : Env E) (sub : Sub E) (cts : List (Obj E)) (levels outLen : ℤ) : Outcome (List (Obj E)) :=
  if outLen < 0 then .err .invalidArgument
  else if levels < 0 ∨ levels ≥ 32 then .err .invalidArgument
  else if (cts.length : ℤ) = outLen then .ok cts
  else
    let maxLen := wrap32 (cts.length * wrap32 (2 ^ levels.toNat))
    if outLen > maxLen then .err .invalidArgument
    else do
      let parts ← cts.mapM (expandCiphertext e sub levels.toNat)
      let result := parts.flatten
      if (result.length : ℤ) > outLen then .ok (result.take outLen.toNat)
      else if (result.length : ℤ) < outLen then .err .invalidArgument
      else .ok result

/-! ### The expanders -/

/-- The loop of `GaloisKeysObliviousExpander::Create` (oblivious_expand.h:245-253) from index `i` on. -/
def checkKeys (n : ℕ) : ℕ → List Word.RKey → Outcome Unit
  | _, [] => .ok ()
  | i, k :: ks => if k.power ≠ ((n >>> i) + 1 : ℕ) then .err .invalidArgument else checkKeys n (i + 1) ks

/-- `GaloisKeysObliviousExpander::Create` (oblivious_expand.h:237-258). -/
def keysCreate (q : Ntt.NttParams) (keys : List Word.RKey) : Outcome (List Word.RKey) := do
  checkKeys q.numberCoeffs 0 keys
  return keys

/-- `GaloisKeysObliviousExpander::SubstitutionWithKeys` (oblivious_expand.h:273-282); `bR` is
`ErrorParams()->B_relinearize`. -/
def keysSub (q : Ntt.NttParams) (bR : ℕ → ℕ → Outcome E) (keys : List Word.RKey) : Sub E := fun x power => do
  let s ← WordCt.substitute q x power
  match keyIndex q.numberCoeffs power keys.length with
  | none => .ub .nullDeref
  | some i => do
    let k ← rd keys i
    galoisApply k bR s

/-- `GaloisGeneratorObliviousExpander::Create` (oblivious_expand.h:299-312). -/
def generatorCreate (key : Word.RKey) : Outcome Word.RKey :=
  if key.power ≠ generator then .err .invalidArgument else .ok key

/-- `GaloisGeneratorObliviousExpander::SubstitutionWithKeys` (oblivious_expand.h:328-344). -/
def generatorSub (q : Ntt.NttParams) (bR : ℕ → ℕ → Outcome E) (key : Word.RKey) : Sub E := fun x power => do
  let _ ← component x 0
  let m ← numSubstitutions q.numberCoeffs power
  loop m (fun _ r => do
    let s ← WordCt.substitute q r generator
    galoisApply key bR s) x

/-! ### Building the query -/

/-- One iteration of the index loop of `MakeCompressedVector` (oblivious_expand.h:471-480). -/
def setIndex (p : MParams) (totalSize : ℤ) (logCf : ℕ) (vc : List (List ℕ)) (index : ℤ) : Outcome (List (List ℕ)) :=
  if index < 0 ∨ index ≥ totalSize then .err .invalidArgument
  else do
    let pi := index.toNat >>> logCf
    let v ← rd vc pi
    let v ← wr v (index.toNat % 2 ^ logCf) (Mont.importOne p)
    wr vc pi v

/-- `MakeCompressedVector` (oblivious_expand.h:437-491) for parameters that are not null; see
`Expand.makeCompressedVector` for the rounded-up quotient. -/
def makeCompressedVector (p : MParams) (q : Ntt.NttParams) (totalSize : ℤ) (indices : List ℤ) (logCf : ℤ) :
    Outcome (List (List ℕ)) :=
  if totalSize ≤ 0 then .err .invalidArgument
  else if logCf < 0 ∨ logCf ≥ 32 then .err .invalidArgument
  else
    let cf := wrap32 (2 ^ logCf.toNat)
    if cf ≤ 0 ∨ cf > q.numberCoeffs then .err .invalidArgument
    else do
      let size := (totalSize.toNat + 2 ^ logCf.toNat - 1) / 2 ^ logCf.toNat
      let vc ← indices.foldlM (setIndex p totalSize logCf.toNat)
        (List.replicate size (List.replicate q.numberCoeffs (Mont.importZero p)))
      vc.mapM (Poly.convertToNtt p q)

end Shell.WordExpand
