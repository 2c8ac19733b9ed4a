import Verif.Model.Relin
import Verif.Model.Bits
/-!
Model of oblivious expansion (shell_encryption/oblivious_expand.h) on residue vectors.

Error estimates are modelled apart (`Verif.Model.ErrorTrack`), so `AbsorbNttMonomialInPlace` (oblivious_expand.h:42-51) is `AbsorbInPlace`.
The number of coefficients of a ciphertext is fixed by the context, so the length check at
oblivious_expand.h:178-182 always passes.
-/

namespace Shell.Expand
open Sym Relin
variable {C : Ctx}

/-- Conversion to `int` (C++ semantics; used for example at oblivious_expand.h:113, 175). -/
def wrap32 (x : ℤ) : ℤ := (x + 2 ^ 31) % 2 ^ 32 - 2 ^ 31

/-- `SubstitutionWithKeys`: the virtual function the expanders differ in (oblivious_expand.h:168). -/
abbrev Sub (C : Ctx) := Ct C → ℤ → Outcome (Ct C)

/-- The monomial `-x^(N - 2^j)` before its transform (oblivious_expand.h:197-198). -/
def monomial (C : Ctx) (j : ℕ) : C.Poly := fun i => if (i : ℕ) = C.n - 2 ^ j then -1 else 0

/-- One iteration of the inner loop (oblivious_expand.h:203-223). -/
def expandInner (sub : Sub C) (j : ℕ) (toAbsorb : C.Poly) (k : ℕ) (result : List (Ct C)) :
    Outcome (List (Ct C)) := do
  let rk ← rd result k
  let s ← sub rk ((C.n >>> j) + 1 : ℕ)
  let d ← subInPlace rk s
  let result ← wr result (k + 2 ^ j) d
  let result ← wr result (k + 2 ^ j) (absorb d toAbsorb)
  let r ← addInPlace rk s
  wr result k r

/-- One iteration of the outer loop (oblivious_expand.h:194-224). -/
def expandOuter (sub : Sub C) (j : ℕ) (result : List (Ct C)) : Outcome (List (Ct C)) :=
  if 2 ^ j > C.n then .ub .outOfBounds
  else loop (2 ^ j) (expandInner sub j (C.toNtt (monomial C j))) result

/-- `ExpandCiphertext` (oblivious_expand.h:173-227).  With 31 levels `1 << levels` is negative and the
vector constructor throws. -/
def expandCiphertext (sub : Sub C) (levels : ℕ) (x : Ct C) : Outcome (List (Ct C)) := do
  let _ ← component x 0
  if levels ≥ 31 then .ub .fatal
  else do
    let result ← wr (List.replicate (2 ^ levels) (⟨[], 1, []⟩ : Ct C)) 0 x
    loop levels (expandOuter sub) result

/-- `ObliviousExpander::ObliviousExpand` (oblivious_expand.h:95-138). -/
def obliviousExpand (sub : Sub C) (cts : List (Ct C)) (levels outLen : ℤ) : Outcome (List (Ct C)) :=
  if outLen < 0 then .err .invalidArgument
  else if levels < 0 ∨ levels ≥ 32 then .err .invalidArgument
  else if (cts.length : ℤ) = outLen then .ok cts
  else
    let maxLen := wrap32 (cts.length * wrap32 (2 ^ levels.toNat))
    if outLen > maxLen then .err .invalidArgument
    else do
      let parts ← cts.mapM (expandCiphertext sub levels.toNat)
      let result := parts.flatten
      if (result.length : ℤ) > outLen then .ok (result.take outLen.toNat)
      else if (result.length : ℤ) < outLen then .err .invalidArgument
      else .ok result

/-- `ComputeNormalizer` (oblivious_expand.h:143-157), for non-negative arguments; the result is a
`Uint64`. -/
def computeNormalizer (k logT : ℕ) : Outcome ℕ :=
  if logT = 0 then .ub .divByZero
  else do
    let m := logT - k % logT
    let p := k / logT
    if p % 2 = 0 then do
      let a ← Transcription.shl 64 1 logT
      let b ← Transcription.shl 64 1 m
      return (a + 1 + (2 ^ 64 - b)) % 2 ^ 64
    else Transcription.shl 64 1 m

/-! ### The expanders -/

/-- The loop of `GaloisKeysObliviousExpander::Create` (oblivious_expand.h:245-253) from index `i` on. -/
def checkKeys (n : ℕ) : ℕ → List (RKey C) → Outcome Unit
  | _, [] => .ok ()
  | i, k :: ks =>
    if k.power ≠ ((n >>> i) + 1 : ℕ) then .err .invalidArgument else checkKeys n (i + 1) ks

/-- `GaloisKeysObliviousExpander::Create` (oblivious_expand.h:237-258); the state is the list of keys. -/
def keysCreate (keys : List (RKey C)) : Outcome (List (RKey C)) := do
  checkKeys C.n 0 keys
  return keys

/-- The lookup in `key_index_for_substitution_` (oblivious_expand.h:252, 279): the last index stored for
a power, among the first `m` keys. -/
def keyIndex (n : ℕ) (power : ℤ) : ℕ → Option ℕ
  | 0 => none
  | m + 1 => if ((n >>> m) + 1 : ℕ) = power then some m else keyIndex n power m

/-- `GaloisKeysObliviousExpander::SubstitutionWithKeys` (oblivious_expand.h:273-282); a missing key
dereferences the end iterator. -/
def keysSub (keys : List (RKey C)) : Sub C := fun x power => do
  let s ← Sym.substitute x power
  match keyIndex C.n power keys.length with
  | none => .ub .nullDeref
  | some i => do
    let k ← rd keys i
    Galois.applyTo k s

/-- `kSubstitutionGenerator` (oblivious_expand.h:350). -/
def generator : ℕ := 5

/-- `GaloisGeneratorObliviousExpander::Create` (oblivious_expand.h:299-312). -/
def generatorCreate (key : RKey C) : Outcome (RKey C) :=
  if key.power ≠ generator then .err .invalidArgument else .ok key

/-- The search loop (oblivious_expand.h:371-377), `fuel` iterations left; products stay below
`5 * 2^16`. -/
def searchPower (n : ℕ) (target : ℤ) : ℕ → ℕ → ℕ → Option ℕ
  | 0, _, _ => none
  | fuel + 1, b, power =>
    let power := (power * generator) % (2 * n)
    if (power : ℤ) = target then some b else searchPower n target fuel (b + 1) power

/-- `ComputeNumberSubstitutionsWithGenerator` (oblivious_expand.h:355-385). -/
def numSubstitutions (n : ℕ) (power : ℤ) : Outcome ℕ :=
  if power < 5 ∨ power ≥ 2 * n ∨ Bits.countOnes64 (power - 1).toNat ≠ 1 then .err .invalidArgument
  else match searchPower n power (2 * n - 1) 1 1 with
    | some b => .ok b
    | none => .err .invalidArgument

/-- `GaloisGeneratorObliviousExpander::SubstitutionWithKeys` (oblivious_expand.h:328-344). -/
def generatorSub (key : RKey C) : Sub C := fun x power => do
  let _ ← component x 0
  let m ← numSubstitutions C.n power
  loop m (fun _ r => do
    let s ← Sym.substitute r generator
    Galois.applyTo key s) x

/-- `DefaultObliviousExpander::ObliviousExpand` (oblivious_expand.h:408-418). -/
def defaultExpand (cts : List (Ct C)) (_levels outLen : ℤ) : Outcome (List (Ct C)) :=
  if (cts.length : ℤ) ≠ outLen then .err .invalidArgument else .ok cts

/-! ### Building the query -/

/-- One iteration of the index loop of `MakeCompressedVector` (oblivious_expand.h:471-480). -/
def setIndex (totalSize : ℤ) (logCf : ℕ) (vc : List C.Poly) (index : ℤ) : Outcome (List C.Poly) :=
  if index < 0 ∨ index ≥ totalSize then .err .invalidArgument
  else do
    let pi := index.toNat >>> logCf
    let v ← rd vc pi
    let ci := index.toNat % 2 ^ logCf
    if ci ≥ C.n then .ub .outOfBounds
    else wr vc pi (fun i => if (i : ℕ) = ci then 1 else v i)

/-- `MakeCompressedVector` (oblivious_expand.h:437-491).  The rounded-up quotient is computed exactly:
the divisor is a power of two and both arguments are below `2^31`. -/
def makeCompressedVector (C : Ctx) (totalSize : ℤ) (indices : List ℤ) (logCf : ℤ) :
    Outcome (List C.Poly) :=
  if totalSize ≤ 0 then .err .invalidArgument
  else if logCf < 0 ∨ logCf ≥ 32 then .err .invalidArgument
  else
    let cf := wrap32 (2 ^ logCf.toNat)
    if cf ≤ 0 ∨ cf > C.n then .err .invalidArgument
    else do
      let size := (totalSize.toNat + 2 ^ logCf.toNat - 1) / 2 ^ logCf.toNat
      let vc ← indices.foldlM (setIndex totalSize logCf.toNat) (List.replicate size (0 : C.Poly))
      return vc.map C.toNtt

end Shell.Expand
