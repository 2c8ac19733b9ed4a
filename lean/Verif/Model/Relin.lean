import Verif.Model.Symmetric
import Verif.Model.Gadget
/-!
# `shell_encryption/relinearization_key.{h,cc}` and `galois_key.h`

On residue vectors, as in `Verif/Model/Symmetric.lean`.  The random polynomials drawn from the seed
(`pads`) and the sampled errors (`errs`) are arguments, indexed by key part and column.
-/

namespace Shell

/-- The digits pushed by `BaseDecompose` (gadget.h:68-77) on residue vectors. -/
def Ctx.digits (C : Ctx) (mask logBase : ℕ) : ℕ → (Fin (2 ^ C.l) → ℕ) → List C.Poly
  | 0, _ => []
  | d + 1, cur =>
    (fun j => ((cur j &&& mask : ℕ) : ZMod C.q)) :: C.digits mask logBase d fun j => cur j >>> logBase

/-- `BaseDecompose` (gadget.h:52-79) on residue vectors. -/
def Ctx.baseDecompose (C : Ctx) (f : C.Poly) (logBase dimension : ℕ) : Outcome (List C.Poly) := do
  let one ← Transcription.shl C.w 1 logBase
  let mask := trunc C.w ((one : ℤ) - 1)
  return C.digits mask logBase dimension fun j => (f j).val

/-- `log_modulus` (montgomery.h:180). -/
def Ctx.logModulus (C : Ctx) : ℕ := Bits.bitLength C.q

/-- `enum PrngType` (serialization.proto:45-49). -/
inductive PrngType
  | invalid
  | hkdf
  | chacha
  deriving DecidableEq

namespace Relin
open Sym
variable {C : Ctx}

/-- `RelinearizationKeyPart` (relinearization_key.h:117-157): the two rows of `matrix_`. -/
structure Part (C : Ctx) where
  row0 : List C.Poly
  row1 : List C.Poly

/-- `RelinearizationKey` (relinearization_key.h:184-216). -/
structure RKey (C : Ctx) where
  numParts : ℤ
  logDecomp : ℕ
  power : ℤ
  parts : List (Part C)

/-- `PowersOfT` (relinearization_key.cc:57-74): `i` counts up, `cur` is `key_to_i`. -/
def powersOfT (T : ZMod C.q) : ℕ → ℕ → C.Poly → List C.Poly
  | 0, _, _ => []
  | d + 1, i, cur =>
    let cur := if i ≠ 0 then scalarMul T cur else cur
    cur :: powersOfT T d (i + 1) cur

/-- One column of `RelinearizationKeyPart::Create` (relinearization_key.cc:117-139) with
`SampleOrthogonalFromPrng` (relinearization_key.cc:39-54). -/
def column (k : Key C) (powerOfT pad err : C.Poly) : C.Poly × C.Poly :=
  let rTop := -(pad * k.key)
  let e := scalarMul k.tUnderQ (C.toNtt err)
  let e := e + rTop
  (e + powerOfT, pad)

/-- `RelinearizationKeyPart::Create` (relinearization_key.cc:98-142). -/
def Part.create (keyPower : C.Poly) (k : Key C) (T : ZMod C.q) (dimension : ℕ)
    (pads errs : ℕ → C.Poly) : Outcome (Part C) := do
  let powers := powersOfT T dimension 0 keyPower
  loop dimension (fun i (m : Part C) => do
    let pt ← rd powers i
    let col := column k pt (pads i) (errs i)
    return ⟨m.row0 ++ [col.1], m.row1 ++ [col.2]⟩) ⟨[], []⟩

/-- `MatrixMultiply` (relinearization_key.cc:76-96). -/
def matrixMultiply (digits : List C.Poly) (m : Part C) : Outcome (C.Poly × C.Poly) := do
  let _ ← rd digits 0
  loop m.row0.length (fun i (r : C.Poly × C.Poly) => do
    let d ← rd digits i
    let d := C.toNtt d
    let a ← rd m.row0 i
    let b ← rd m.row1 i
    return (r.1 + d * a, r.2 + d * b)) (0, 0)

/-- `RelinearizationKeyPart::ApplyPartTo` (relinearization_key.cc:144-162). -/
def Part.applyTo (m : Part C) (logDecomp : ℕ) (c : C.Poly) : Outcome (C.Poly × C.Poly) := do
  let coeffs := C.fromNtt c
  let digits ← C.baseDecompose coeffs logDecomp m.row0.length
  matrixMultiply digits m

/-- `HasIdenticalBaseKey` (relinearization_key.h:174-182) as `first_key_index`. -/
def firstKeyIndex (power : ℤ) : ℕ := if power = 1 then 2 else 1

/-- The loop of `Create` over `i = first_key_index .. num_parts - 1` (relinearization_key.cc:263-280):
`cnt` iterations left, `j` key parts done. -/
def createParts (k : Key C) (base : C.Poly) (T : ZMod C.q) (dim : ℕ) (pads errs : ℕ → ℕ → C.Poly) :
    ℕ → ℕ → ℕ → C.Poly → Outcome (List (Part C))
  | 0, _, _, _ => .ok []
  | cnt + 1, i, j, keyPower => do
    let keyPower := if i ≠ 1 then keyPower * base else keyPower
    let part ← Part.create keyPower k T dim (pads j) (errs j)
    let rest ← createParts k base T dim pads errs cnt (i + 1) (j + 1) keyPower
    return part :: rest

/-- `RelinearizationKey::Create` (relinearization_key.cc:211-286).  `substitution_power` is taken to fit
an `int`. -/
def create (k : Key C) (prng : PrngType) (numParts : ℤ) (logDecomp : ℕ) (power : ℤ)
    (pads errs : ℕ → ℕ → C.Poly) : Outcome (RKey C) :=
  if numParts < (if power = 1 then 3 else 2) then .err .invalidArgument
  else if logDecomp = 0 then .err .invalidArgument
  else if logDecomp > C.logModulus then .err .invalidArgument
  else do
    let one ← Transcription.shl C.w 1 logDecomp
    let T : ZMod C.q := one
    let base ← k.substitute power
    if prng = .invalid then .err .invalidArgument
    else do
      let dim ← Gadget.gadgetSize C.logModulus logDecomp
      let first := firstKeyIndex power
      let parts ← createParts k base.key T dim pads errs (numParts - first).toNat first 0 base.key
      return { numParts := numParts, logDecomp := logDecomp, power := power, parts := parts }

/-- `SymmetricRlweCiphertext::Component` (symmetric_encryption.h:574-579). -/
def component (x : Ct C) (i : ℤ) : Outcome C.Poly :=
  if 0 > i ∨ i ≥ x.c.length then .err .invalidArgument else rd x.c i.toNat

/-- The loop over the following parts in `ApplyTo` (relinearization_key.cc:313-324). -/
def applyRest (x : Ct C) (first logDecomp : ℕ) :
    List (Part C) → ℕ → C.Poly × C.Poly → Outcome (C.Poly × C.Poly)
  | [], _, r => .ok r
  | p :: ps, i, r => do
    let c ← component x (i + first : ℕ)
    let rp ← p.applyTo logDecomp c
    applyRest x first logDecomp ps (i + 1) (r.1 + rp.1, r.2 + rp.2)

/-- `int decomposition_modulus = 1 << log_decomposition_modulus` in `B_relinearize` (error_params.h:74). -/
def decompositionModulus (b : ℕ) : Outcome ℕ := if b < 31 then .ok (2 ^ b) else .ub .badShift

/-- `RelinearizationKey::ApplyTo` (relinearization_key.cc:288-344). The error estimate itself is in
`Verif/Model/ErrorTrack.lean`; here only the shift it evaluates is kept. -/
def RKey.applyTo (rk : RKey C) (x : Ct C) : Outcome (Ct C) :=
  if (x.c.length : ℤ) > rk.numParts then .err .invalidArgument
  else do
    let first := firstKeyIndex rk.power
    let c1 ← component x first
    let p0 ← rd rk.parts 0
    let r ← p0.applyTo rk.logDecomp c1
    let r ← applyRest x first rk.logDecomp (rk.parts.drop 1) 1 r
    let c0 ← component x 0
    let r := (r.1 + c0, r.2)
    if rk.power = 1 then do
      let c1 ← component x 1
      let _ ← decompositionModulus rk.logDecomp
      return { c := [r.1, r.2 + c1], power := 1 }
    else do
      let _ ← decompositionModulus rk.logDecomp
      return { c := [r.1, r.2], power := 1 }

end Relin

namespace Galois
open Sym
variable {C : Ctx}

/-- `GaloisKey::Create` (galois_key.h:52-60). -/
def create (k : Key C) (prng : PrngType) (power : ℤ) (logDecomp : ℕ)
    (pads errs : ℕ → ℕ → C.Poly) : Outcome (Relin.RKey C) :=
  Relin.create k prng 2 logDecomp power pads errs

/-- `GaloisKey::ApplyTo` (galois_key.h:66-75). -/
def applyTo (rk : Relin.RKey C) (x : Ct C) : Outcome (Ct C) :=
  if x.power ≠ rk.power then .err .invalidArgument else rk.applyTo x

end Galois
end Shell
