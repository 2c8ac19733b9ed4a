import Verif.Model.Ntt
import Verif.Model.Transcription
/-!
# `shell_encryption/polynomial.h` and `shell_encryption/opt/constant_polynomial.h`

A `Polynomial<ModularInt>` is its vector `coeffs_` of stored words.  (`log_len_`, returned by `LogLen`,
is not modelled.)  An in-place operation returns the vector after the call together with the error, if
any.
-/

namespace Shell.Poly

/-- State after an in-place operation: the polynomial and the returned error
(the `absl::Status` members of polynomial.h:134-260). -/
abbrev InPlace := List ℕ × Option Status

/-- Copy, operate in place, return the copy unless there was an error (the pattern of `Mul`, `Add`,
`Sub`, `MulConstant`, polynomial.h:130-148, 190-205, 325-333). -/
def copying (r : InPlace) : Outcome (List ℕ) :=
  match r.2 with
  | none => .ok r.1
  | some e => .err e

/-- `ConvertToNtt` (polynomial.h:69-79): an invalid (empty) polynomial on error. -/
def convertToNtt (p : MParams) (q : Ntt.NttParams) (v : List ℕ) : Outcome (List ℕ) :=
  match Ntt.forward p q v with
  | .ok u => .ok u
  | .err _ => .ok []
  | .ub u => .ub u

/-- `InverseNtt` (polynomial.h:96-112) for non-null parameters: the unchanged vector on error. -/
def inverseNtt (p : MParams) (q : Ntt.NttParams) (v : List ℕ) : Outcome (List ℕ) :=
  match Ntt.inverse p q v with
  | .ok u => .ok u
  | .err _ => .ok v
  | .ub u => .ub u

/-- `IsValid` (polynomial.h:123). -/
def isValid (v : List ℕ) : Bool := !v.isEmpty

/-- `MulInPlace(scalar)` (polynomial.h:134-137) through `BatchMulInPlace` (montgomery.cc:378-387). -/
def mulScalarInPlace (p : MParams) (x : List ℕ) (c : ℕ) : InPlace :=
  (x.map fun a => Mont.mul p a c, none)

/-- `MulInPlace(that)` (polynomial.h:148-151) through `BatchMulInPlace` (montgomery.cc:354-366). -/
def mulInPlace (p : MParams) (x y : List ℕ) : InPlace :=
  if x.length ≠ y.length then (x, some .invalidArgument)
  else (List.zipWith (Mont.mul p) x y, none)

/-- `FusedMulAddInPlace` (polynomial.h:154-158) through `BatchFusedMulAddInPlace`
(montgomery.cc:400-413). -/
def fusedMulAddInPlace (p : MParams) (x a b : List ℕ) : InPlace :=
  if x.length ≠ a.length ∨ x.length ≠ b.length then (x, some .invalidArgument)
  else (List.zipWith (fun s k => Mont.fusedMulAdd p s k.1 k.2) x (a.zip b), none)

/-- A `ConstantPolynomial`: the constants and their Barrett factors (opt/constant_polynomial.h:40-48). -/
structure Const where
  c : List ℕ
  cb : List ℕ
  deriving Repr, DecidableEq

/-- `ConstantPolynomial::Create` (opt/constant_polynomial.h:40-48). -/
def Const.create (c cb : List ℕ) : Outcome Const :=
  if c.length ≠ cb.length then .err .invalidArgument else .ok ⟨c, cb⟩

/-- `ComputeConstantRepresentation` (polynomial.h:312-327). -/
def computeConstant (p : MParams) (x : List ℕ) : Outcome Const :=
  Const.create (x.map fun a => (Mont.getConstant p a).1) (x.map fun a => (Mont.getConstant p a).2)

/-- `FusedMulConstantAddInPlace` (polynomial.h:162-169) through `BatchFusedMulConstantAddInPlace`
(montgomery.cc:428-443). -/
def fusedMulConstantAddInPlace (p : MParams) (x a : List ℕ) (b : Const) : InPlace :=
  if x.length ≠ a.length ∨ x.length ≠ b.c.length ∨ x.length ≠ b.cb.length then
    (x, some .invalidArgument)
  else (List.zipWith (fun s k => Mont.fusedMulConstantAdd p s k.1 k.2.1 k.2.2) x
    (a.zip (b.c.zip b.cb)), none)

/-- `MulConstantInPlace` (polynomial.h:339-344) through `BatchMulConstantInPlace`
(montgomery.cc:304-319). -/
def mulConstantInPlace (p : MParams) (x : List ℕ) (b : Const) : InPlace :=
  if x.length ≠ b.c.length ∨ b.c.length ≠ b.cb.length then (x, some .invalidArgument)
  else (List.zipWith (fun a k => Mont.mulConstant p a k.1 k.2) x (b.c.zip b.cb), none)

/-- `Negate`/`NegateInPlace` (polynomial.h:172-184). -/
def negate (p : MParams) (x : List ℕ) : List ℕ := x.map (Mont.negate p)

/-- `AddInPlace` (polynomial.h:203-206) through `BatchAddInPlace` (montgomery.cc:213-225). -/
def addInPlace (p : MParams) (x y : List ℕ) : InPlace :=
  if x.length ≠ y.length then (x, some .invalidArgument)
  else (List.zipWith (Mont.add p) x y, none)

/-- `SubInPlace` (polynomial.h:209-212) through `BatchSubInPlace` (montgomery.cc:259-270). -/
def subInPlace (p : MParams) (x y : List ℕ) : InPlace :=
  if x.length ≠ y.length then (x, some .invalidArgument)
  else (List.zipWith (Mont.sub p) x y, none)

/-- `Mul`, `Add`, `Sub`, `MulConstant` returning a copy (polynomial.h:126-148, 187-200, 330-336). -/
def mulScalar (p : MParams) (x : List ℕ) (c : ℕ) := copying (mulScalarInPlace p x c)
@[inherit_doc mulScalar] def mul (p : MParams) (x y : List ℕ) := copying (mulInPlace p x y)
@[inherit_doc mulScalar] def add (p : MParams) (x y : List ℕ) := copying (addInPlace p x y)
@[inherit_doc mulScalar] def sub (p : MParams) (x y : List ℕ) := copying (subInPlace p x y)
@[inherit_doc mulScalar] def mulConstant (p : MParams) (x : List ℕ) (b : Const) :=
  copying (mulConstantInPlace p x b)

/-- Body of the loop of `Substitute` (polynomial.h:235-247) on `(psi_power_index, out)`. -/
def substStep (bitrevs coeffs : List ℕ) (power : ℕ) (i : ℕ) (s : ℕ × List ℕ) :
    Outcome (ℕ × List ℕ) := do
  let r ← rd bitrevs s.1
  if r ≥ coeffs.length then .err .internal
  else do
    let x ← rd coeffs r
    let k ← rd bitrevs i
    let out ← wr s.2 k x
    return ((s.1 + power) % coeffs.length, out)

/-- `Substitute` (polynomial.h:216-250).  `2 * Len()` is an `int`: lengths of `2^30` and more
overflow. -/
def substitute (q : Ntt.NttParams) (coeffs : List ℕ) (power : ℤ) : Outcome (List ℕ) :=
  if 0 > power ∨ power.tmod 2 = 0 then .err .invalidArgument
  else if 2 * coeffs.length ≥ 2 ^ 31 then .ub .signedOverflow
  else if power ≥ 2 * coeffs.length then .err .invalidArgument
  else do
    let s ← loop coeffs.length (substStep q.bitrevs coeffs power.toNat)
      (((power - 1).tdiv 2).toNat, coeffs)
    return s.2

/-- `operator==` (polynomial.h:261-273). -/
def beq (x y : List ℕ) : Bool :=
  x.length == y.length && (List.zipWith Mont.beq x y).all id

/-- `Serialize` (polynomial.h:282-290): number of coefficients and bytes. -/
def serialize (p : MParams) (x : List ℕ) : Outcome (ℕ × List ℕ) := do
  let s ← Mont.serializeVector p x
  return (x.length, s)

/-- `Deserialize` (polynomial.h:292-309). -/
def deserialize (p : MParams) (numCoeffs : ℤ) (bytes : List ℕ) : Outcome (List ℕ) :=
  if numCoeffs ≤ 0 then .err .invalidArgument
  else if numCoeffs > Mont.kMaxNumCoeffs then .err .invalidArgument
  else Mont.deserializeVector p numCoeffs bytes

end Shell.Poly
