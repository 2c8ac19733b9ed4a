import Verif.Model.Montgomery
/-!
# `shell_encryption/opt/lazy_polynomial.h`

`BigInt` has `2w` bits and wraps.
-/

namespace Shell.Lazy

/-- `class LazyPolynomial` data members (opt/lazy_polynomial.h:151-153). -/
structure LPoly where
  coeffs : List ℕ
  level : ℕ
  maxLevel : ℕ
  deriving Repr, DecidableEq

/-- `ComputeLogMaximalLevel` (opt/lazy_polynomial.h:130-149): an `int`. -/
def logMaxLevel (p : MParams) : Outcome ℕ :=
  let lm : ℤ := 2 * p.w - 1 - 2 * p.logModulus
  if lm < 1 then .err .invalidArgument else .ok lm.toNat

/-- `static_cast<BigInt>(a) * b` on stored words (opt/lazy_polynomial.h:59-60, 104-105). -/
def prod (p : MParams) (a b : ℕ) : ℕ := (a * b) % 2 ^ (2 * p.w)

/-- `Create` (opt/lazy_polynomial.h:44-65). -/
def create (p : MParams) (a b : List ℕ) : Outcome LPoly := do
  if a.length ≠ b.length then .err .invalidArgument
  else do
    let lm ← logMaxLevel p
    return ⟨List.zipWith (prod p) a b, 1, 2 ^ lm % 2 ^ (2 * p.w)⟩

/-- `CreateEmpty` (opt/lazy_polynomial.h:68-76). -/
def createEmpty (p : MParams) (len : ℕ) : Outcome LPoly := do
  let lm ← logMaxLevel p
  return ⟨List.replicate len 0, 0, 2 ^ lm % 2 ^ (2 * p.w)⟩

/-- `Export` (opt/lazy_polynomial.h:79-90). -/
def exportPoly (p : MParams) (s : LPoly) : List ℕ :=
  s.coeffs.map fun c => p.exportInt (p.barrettReduceBigInt c)

/-- `Refresh` (opt/lazy_polynomial.h:123-128). -/
def refresh (p : MParams) (s : LPoly) : LPoly :=
  { s with coeffs := s.coeffs.map p.barrettReduceBigInt, level := 1 }

/-- `FusedMulAddInPlace` (opt/lazy_polynomial.h:92-113); the error branch leaves the object
unchanged. -/
def fusedMulAdd (p : MParams) (s : LPoly) (a b : List ℕ) : Outcome LPoly :=
  if a.length ≠ b.length ∨ a.length ≠ s.coeffs.length then .err .invalidArgument
  else
    let s := if s.level = s.maxLevel then refresh p s else s
    .ok { s with
      coeffs := List.zipWith (fun c ab => (c + prod p ab.1 ab.2) % 2 ^ (2 * p.w)) s.coeffs (a.zip b)
      level := (s.level + 1) % 2 ^ (2 * p.w) }

end Shell.Lazy
