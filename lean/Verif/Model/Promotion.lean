import Verif.Model.Montgomery
/-!
# Integer promotion and signed overflow in `MontgomeryInt`

For `Int = Uint16` the usual arithmetic conversions promote both operands of `Int op Int` to *signed*
32-bit `int`, so a result outside `[-2^31, 2^31)` is undefined behaviour.  For 32, 64 and 128-bit
words `Int op Int` is unsigned and wraps.  The functions of this file are the arithmetic members of
`MontgomeryInt` with every `Int op Int` expression checked; an expression with a `BigInt` operand is
unsigned for every word type and needs no check.
-/

namespace Shell.Chk

/-- The value of an `Int op Int` expression: undefined if the (promoted) signed result does not fit
in `int`, when `Int` is narrower than `int` (C++ semantics; used for example at montgomery.h:134-141). -/
def ii (w : ℕ) (x : ℤ) : Outcome ℤ :=
  if w < 32 ∧ ¬(-2 ^ 31 ≤ x ∧ x < 2 ^ 31) then .ub .signedOverflow else .ok x

/-- `BarrettReduce` (montgomery.h:134-141). -/
def barrettReduce (p : MParams) (input : ℕ) : Outcome ℕ := do
  let out := trunc p.w ((p.barrettNum * input) % 2 ^ (2 * p.w) / 2 ^ p.w : ℕ)
  let a ← ii p.w ((out : ℤ) * p.modulus)
  let b ← ii p.w ((input : ℤ) - a)
  let out := trunc p.w b
  if out ≥ p.modulus then
    let c ← ii p.w ((out : ℤ) - p.modulus)
    return trunc p.w c
  else return out

/-- `ExportInt` (montgomery.h:156-164). -/
def exportInt (p : MParams) (input : ℕ) : Outcome ℕ := do
  let out := trunc p.w ((p.invRBarrett * input) / 2 ^ p.w : ℕ)
  let x ← ii p.w ((input : ℤ) * p.invR)
  let y ← ii p.w ((out : ℤ) * p.modulus)
  let z ← ii p.w (x - y)
  let out := trunc p.w z
  if out ≥ p.modulus then
    let c ← ii p.w ((out : ℤ) - p.modulus)
    return trunc p.w c
  else return out

/-- `ImportInt` (montgomery.cc:72-82). -/
def importInt (p : MParams) (n : ℕ) : Outcome ℕ := do
  let product := p.rModBarrett * n
  let result := trunc p.w (product / 2 ^ p.w : ℕ)
  let x ← ii p.w ((n : ℤ) * p.rMod)
  let y ← ii p.w ((result : ℤ) * p.modulus)
  let z ← ii p.w (x - y)
  let result := trunc p.w z
  let c ← ii p.w ((result : ℤ) - if result ≥ p.modulus then (p.modulus : ℤ) else 0)
  return trunc p.w c

/-- `MulInPlace` (montgomery.h:312-330): the only `Int op Int` expression is the final conditional
subtraction. -/
def mul (p : MParams) (a b : ℕ) : Outcome ℕ := do
  let product := (a * b) % 2 ^ (2 * p.w)
  let u := trunc p.w ((product * p.invModulus) % 2 ^ (2 * p.w) : ℕ)
  let t := (product + p.modulus * u) % 2 ^ (2 * p.w)
  let tMsb := trunc p.w (t / 2 ^ p.w : ℕ)
  if tMsb ≥ p.modulus then
    let c ← ii p.w ((tMsb : ℤ) - p.modulus)
    return trunc p.w c
  else return tMsb

/-- `MulConstantInPlace` (montgomery.h:356-366). -/
def mulConstant (p : MParams) (a constant constantBarrett : ℕ) : Outcome ℕ := do
  let out := trunc p.w ((constantBarrett * a) / 2 ^ p.w : ℕ)
  let x ← ii p.w ((a : ℤ) * constant)
  let y ← ii p.w ((out : ℤ) * p.modulus)
  let z ← ii p.w (x - y)
  let n := trunc p.w z
  let c ← ii p.w ((n : ℤ) - if n ≥ p.modulus then (p.modulus : ℤ) else 0)
  return trunc p.w c

/-- `AddInPlace` (montgomery.h:377-381). -/
def add (p : MParams) (a b : ℕ) : Outcome ℕ := do
  let x ← ii p.w ((a : ℤ) + b)
  barrettReduce p (trunc p.w x)

/-- `Negate` (montgomery.h:384-393). -/
def negate (p : MParams) (a : ℕ) : Outcome ℕ := do
  let x ← ii p.w ((p.modulus : ℤ) - a)
  return trunc p.w x

/-- `SubInPlace` (montgomery.h:405-409). -/
def sub (p : MParams) (a b : ℕ) : Outcome ℕ := do
  let x ← ii p.w ((p.modulus : ℤ) - b)
  let y ← ii p.w ((a : ℤ) + x)
  barrettReduce p (trunc p.w y)

/-- `FusedMulAddInPlace` (montgomery.h:440-459): `static_cast<Int>(t) * params->inv_modulus` is an
`Int * Int` product of two full words. -/
def fusedMulAdd (p : MParams) (self a b : ℕ) : Outcome ℕ := do
  let t := (p.rMod * self + a * b) % 2 ^ (2 * p.w)
  let x ← ii p.w ((trunc p.w (t : ℤ) : ℤ) * p.invModulus)
  let u := trunc p.w x
  let t := (t + p.modulus * u) % 2 ^ (2 * p.w)
  let tMsb := trunc p.w (t / 2 ^ p.w : ℕ)
  if tMsb ≥ p.modulus then
    let c ← ii p.w ((tMsb : ℤ) - p.modulus)
    return trunc p.w c
  else return tMsb

/-- `FusedMulConstantAddInPlace` (montgomery.h:461-502). -/
def fusedMulConstantAdd (p : MParams) (self a constant constantBarrett : ℕ) : Outcome ℕ := do
  let out := trunc p.w
    ((constantBarrett * a + p.barrettNum * self) % 2 ^ (2 * p.w) / 2 ^ p.w : ℕ)
  let x ← ii p.w ((a : ℤ) * constant)
  let y ← ii p.w ((out : ℤ) * p.modulus)
  let z ← ii p.w (x - y)
  let s ← ii p.w ((self : ℤ) + z)
  let n := trunc p.w s
  let c ← ii p.w ((n : ℤ) - if n ≥ p.modulus then (p.modulus : ℤ) else 0)
  return trunc p.w c

end Shell.Chk
