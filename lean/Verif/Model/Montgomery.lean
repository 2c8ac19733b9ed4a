import Verif.Model.Bits
/-!
# `shell_encryption/montgomery.{h,cc}`: `MontgomeryIntParams` and `MontgomeryInt`

The word width `w = 8*sizeof(Int)` is a field of the parameter record (16, 32, 64 and 128 are the
instantiated widths); `BigInt` has `2w` bits.  A `MontgomeryInt` is its only data member `n_`, a
natural.  Every expression assigned to an `Int` is truncated with `trunc w`, every `BigInt`
expression that could wrap is reduced modulo `2^(2w)`.

The functions here give the value semantics in which `Int * Int` wraps modulo `2^w`.  The promotion
of 16-bit words to *signed* `int` (and the resulting undefined behaviour) is modelled separately in
`Verif.Model.Promotion`.
-/

namespace Shell

/-- `struct MontgomeryIntParams` data members (montgomery.h:86-124).  `modulus_bigint` equals
`modulus` and `r` equals `2^w`. -/
structure MParams where
  w : ℕ
  modulus : ℕ
  logModulus : ℕ
  rMod : ℕ
  rModBarrett : ℕ
  invModulus : ℕ
  invR : ℕ
  invRBarrett : ℕ
  barrettNum : ℕ
  barrettNumBig : ℕ
  deriving DecidableEq, Repr

namespace MParams

/-- Loop body of `MontgomeryIntParams::Inverses` (montgomery.cc:51-67) on the `BigInt`s `(x, y)`. -/
def inversesStep (w N : ℕ) (s : ℕ × ℕ) : ℕ × ℕ :=
  let s := if s.1 % 2 = 1 then ((s.1 + N) % 2 ^ (2 * w), (s.2 + 2 ^ w) % 2 ^ (2 * w)) else s
  (s.1 / 2, s.2 / 2)

/-- The counted loop `for (int i = bitsize_int; i > 0; i--)` (montgomery.cc:51). -/
def inversesLoop (w N : ℕ) : ℕ → ℕ × ℕ → ℕ × ℕ
  | 0, s => s
  | i + 1, s => inversesLoop w N i (inversesStep w N s)

/-- `MontgomeryIntParams::Inverses` (montgomery.cc:41-70): `(inv_r, inv_modulus)`. -/
def inverses (w N : ℕ) : ℕ × ℕ :=
  let s := inversesLoop w N w (1, 0)
  (s.1 % 2 ^ w, s.2 % 2 ^ w)

/-- Private constructor of `MontgomeryIntParams` (montgomery.h:177-192). -/
def make (w N : ℕ) : MParams :=
  let rMod := trunc w (2 ^ w % N : ℕ)
  let inv := inverses w N
  { w := w
    modulus := N
    logModulus := Bits.bitLength N
    rMod := rMod
    rModBarrett := trunc w ((rMod * 2 ^ w) / N : ℕ)
    invModulus := inv.2
    invR := inv.1
    invRBarrett := trunc w ((inv.1 * 2 ^ w) / N : ℕ)
    barrettNum := 2 ^ w / N
    barrettNumBig := 2 ^ (2 * w - 1) / N }

/-- `MontgomeryIntParams::Create` (montgomery.cc:23-37). -/
def create (w N : ℕ) : Outcome MParams :=
  if N >>> (w - 2) ≠ 0 then .err .invalidArgument
  else if N % 2 = 0 then .err .invalidArgument
  else .ok (make w N)

/-- `MontgomeryIntParams::BarrettReduce` (montgomery.h:134-141). -/
def barrettReduce (p : MParams) (input : ℕ) : ℕ :=
  let out := trunc p.w ((p.barrettNum * input) % 2 ^ (2 * p.w) / 2 ^ p.w : ℕ)
  let out := trunc p.w ((input : ℤ) - out * p.modulus)
  if out ≥ p.modulus then out - p.modulus else out

/-- `MontgomeryIntParams::BarrettReduceBigInt` (montgomery.h:143-152); the generic version uses a
`4w`-bit `BigBigInt` product (which cannot wrap).  For 128-bit words the specialisations
(montgomery.h:205-217) compute `input % modulus` instead. -/
def barrettReduceBigInt (p : MParams) (input : ℕ) : ℕ :=
  if p.w = 128 then input % p.modulus
  else
    let out := trunc p.w ((p.barrettNumBig * input) / 2 ^ (2 * p.w - 1) : ℕ)
    let out := trunc p.w ((trunc p.w (input : ℤ) : ℤ) - out * p.modulus)
    if out ≥ p.modulus then out - p.modulus else out

/-- `MontgomeryIntParams::ExportInt` (montgomery.h:156-164). -/
def exportInt (p : MParams) (input : ℕ) : ℕ :=
  let out := trunc p.w ((p.invRBarrett * input) / 2 ^ p.w : ℕ)
  let out := trunc p.w ((input : ℤ) * p.invR - out * p.modulus)
  if out ≥ p.modulus then out - p.modulus else out

/-- `MontgomeryIntParams::SerializedSize` (montgomery.h:167). -/
def serializedSize (p : MParams) : ℕ := (p.logModulus + 7) / 8

/-- `MontgomeryIntParams::DoesLogNFit` (montgomery.h:170). -/
def doesLogNFit (w logN : ℕ) : Bool := logN < w - 1

end MParams

/-! ## `MontgomeryInt` members; a value is its representation `n_` -/
namespace Mont

/-- `MontgomeryInt::ImportInt` (montgomery.cc:72-82). -/
def importInt (p : MParams) (n : ℕ) : ℕ :=
  let product := p.rModBarrett * n
  let result := trunc p.w (product / 2 ^ p.w : ℕ)
  let result := trunc p.w ((n : ℤ) * p.rMod - result * p.modulus)
  trunc p.w ((result : ℤ) - if result ≥ p.modulus then (p.modulus : ℤ) else 0)

/-- `MontgomeryInt::ImportZero` (montgomery.cc:84-87). -/
def importZero (_p : MParams) : ℕ := 0

/-- `MontgomeryInt::ImportOne` (montgomery.cc:89-93). -/
def importOne (p : MParams) : ℕ := p.rMod

/-- `MontgomeryInt::ExportInt` (montgomery.h:281). -/
def exportInt (p : MParams) (a : ℕ) : ℕ := p.exportInt a

/-- `MontgomeryInt::MulInPlace` (montgomery.h:312-330). -/
def mul (p : MParams) (a b : ℕ) : ℕ :=
  let product := (a * b) % 2 ^ (2 * p.w)
  let u := trunc p.w ((product * p.invModulus) % 2 ^ (2 * p.w) : ℕ)
  let t := (product + p.modulus * u) % 2 ^ (2 * p.w)
  let tMsb := trunc p.w (t / 2 ^ p.w : ℕ)
  if tMsb ≥ p.modulus then tMsb - p.modulus else tMsb

/-- `MontgomeryInt::GetConstant` (montgomery.cc:194-200). -/
def getConstant (p : MParams) (a : ℕ) : ℕ × ℕ :=
  let constant := exportInt p a
  (constant, trunc p.w ((constant * 2 ^ p.w) / p.modulus : ℕ))

/-- `MontgomeryInt::MulConstantInPlace` (montgomery.h:356-366). -/
def mulConstant (p : MParams) (a constant constantBarrett : ℕ) : ℕ :=
  let out := trunc p.w ((constantBarrett * a) / 2 ^ p.w : ℕ)
  let n := trunc p.w ((a : ℤ) * constant - out * p.modulus)
  trunc p.w ((n : ℤ) - if n ≥ p.modulus then (p.modulus : ℤ) else 0)

/-- `MontgomeryInt::AddInPlace` (montgomery.h:377-381). -/
def add (p : MParams) (a b : ℕ) : ℕ := p.barrettReduce (trunc p.w ((a : ℤ) + b))

/-- `MontgomeryInt::Negate` / `NegateInPlace` (montgomery.h:384-393). -/
def negate (p : MParams) (a : ℕ) : ℕ := trunc p.w ((p.modulus : ℤ) - a)

/-- `MontgomeryInt::SubInPlace` (montgomery.h:405-409). -/
def sub (p : MParams) (a b : ℕ) : ℕ := p.barrettReduce (trunc p.w ((a : ℤ) + (p.modulus - b)))

/-- `MontgomeryInt::LazyAddInPlace` (montgomery.h:426-430). -/
def lazyAdd (p : MParams) (a b : ℕ) : ℕ := trunc p.w ((a : ℤ) + b)

/-- `MontgomeryInt::LazySubInPlace` (montgomery.h:434-438). -/
def lazySub (p : MParams) (a b : ℕ) : ℕ := trunc p.w ((a : ℤ) + (p.modulus - b))

/-- `MontgomeryInt::FusedMulAddInPlace` (montgomery.h:440-459): `self + a*b`. -/
def fusedMulAdd (p : MParams) (self a b : ℕ) : ℕ :=
  let t := (p.rMod * self + a * b) % 2 ^ (2 * p.w)
  let u := trunc p.w ((trunc p.w (t : ℤ) : ℤ) * p.invModulus)
  let t := (t + p.modulus * u) % 2 ^ (2 * p.w)
  let tMsb := trunc p.w (t / 2 ^ p.w : ℕ)
  if tMsb ≥ p.modulus then tMsb - p.modulus else tMsb

/-- `MontgomeryInt::FusedMulConstantAddInPlace` (montgomery.h:461-502). -/
def fusedMulConstantAdd (p : MParams) (self a constant constantBarrett : ℕ) : ℕ :=
  let out := trunc p.w
    ((constantBarrett * a + p.barrettNum * self) % 2 ^ (2 * p.w) / 2 ^ p.w : ℕ)
  let n := trunc p.w ((self : ℤ) + ((a : ℤ) * constant - out * p.modulus))
  trunc p.w ((n : ℤ) - if n ≥ p.modulus then (p.modulus : ℤ) else 0)

/-- `operator==` (montgomery.h:602): compares the representations. -/
def beq (a b : ℕ) : Bool := a == b

/-- Loop of `MontgomeryInt::ModExp` (montgomery.cc:454-463). -/
def modExpLoop (p : MParams) (e result base : ℕ) : ℕ :=
  if _h : e = 0 then result
  else
    modExpLoop p (e / 2) (if e % 2 = 1 then mul p result base else result) (mul p base base)
termination_by e
decreasing_by exact Nat.div_lt_self (Nat.pos_of_ne_zero _h) (by decide)

/-- `MontgomeryInt::ModExp` (montgomery.cc:445-466). -/
def modExp (p : MParams) (a e : ℕ) : ℕ := modExpLoop p e (importOne p) a

/-- `MontgomeryInt::MultiplicativeInverse` (montgomery.cc:468-472); the exponent
`modulus - 2` is an `Int` expression and wraps for modulus 1. -/
def multiplicativeInverse (p : MParams) (a : ℕ) : ℕ :=
  modExp p a (trunc p.w ((p.modulus : ℤ) - 2))

/-- Loop of `MultiplicativeInverseFast` (montgomery.cc:495-500).  The arguments are
`(j, r[j], r[j^1], s[j], s[j^1])`; after an iteration `j` is toggled so the roles swap. -/
def invFastLoop (w : ℕ) (j : Bool) (rj rj' sj sj' : ℕ) : Bool × ℕ × ℕ :=
  if h : rj' = 0 then (j, rj, sj)
  else
    let q := rj / rj'
    invFastLoop w (!j) rj' (rj % rj') sj' (trunc w ((sj : ℤ) + q * sj'))
termination_by rj'
decreasing_by exact Nat.mod_lt _ (Nat.pos_of_ne_zero h)

/-- `MontgomeryInt::MultiplicativeInverseFast` (montgomery.cc:477-509); `j = false` is `j == 0`. -/
def multiplicativeInverseFast (p : MParams) (a : ℕ) : Outcome ℕ :=
  let x := exportInt p a
  let res := invFastLoop p.w false x (trunc p.w ((p.modulus : ℤ) - x)) 1 1
  if res.2.1 ≠ 1 then .err .invalidArgument
  else .ok (importInt p (if res.1 = false then res.2.2
                          else trunc p.w ((p.modulus : ℤ) - res.2.2)))

/-! ### Batch operations (montgomery.cc:202-443)

The copying variants `BatchX` copy `in1` and call `BatchXInPlace`; both are one function here.
In-place variants write the destination only after the size check, so an error leaves it unchanged;
the error outcome therefore carries no new vector. -/

/-- `BatchAdd(InPlace)` of two vectors (montgomery.cc:202-225). -/
def batchAdd (p : MParams) (x y : List ℕ) : Outcome (List ℕ) :=
  if x.length ≠ y.length then .err .invalidArgument else .ok (List.zipWith (add p) x y)

/-- `BatchAdd(InPlace)` with a scalar (montgomery.cc:227-246). -/
def batchAddScalar (p : MParams) (x : List ℕ) (c : ℕ) : Outcome (List ℕ) :=
  .ok (x.map fun a => add p a c)

/-- `BatchSub(InPlace)` of two vectors (montgomery.cc:248-270). -/
def batchSub (p : MParams) (x y : List ℕ) : Outcome (List ℕ) :=
  if x.length ≠ y.length then .err .invalidArgument else .ok (List.zipWith (sub p) x y)

/-- `BatchSub(InPlace)` with a scalar (montgomery.cc:272-291). -/
def batchSubScalar (p : MParams) (x : List ℕ) (c : ℕ) : Outcome (List ℕ) :=
  .ok (x.map fun a => sub p a c)

/-- `BatchMulConstant(InPlace)` with vectors of constants (montgomery.cc:293-319). -/
def batchMulConstant (p : MParams) (x c cb : List ℕ) : Outcome (List ℕ) :=
  if x.length ≠ c.length ∨ c.length ≠ cb.length then .err .invalidArgument
  else .ok (List.zipWith (fun a k => mulConstant p a k.1 k.2) x (c.zip cb))

/-- `BatchMulConstant(InPlace)` with one constant (montgomery.cc:321-342). -/
def batchMulConstantScalar (p : MParams) (x : List ℕ) (c cb : ℕ) : Outcome (List ℕ) :=
  .ok (x.map fun a => mulConstant p a c cb)

/-- `BatchMul(InPlace)` of two vectors (montgomery.cc:344-366). -/
def batchMul (p : MParams) (x y : List ℕ) : Outcome (List ℕ) :=
  if x.length ≠ y.length then .err .invalidArgument else .ok (List.zipWith (mul p) x y)

/-- `BatchMul(InPlace)` with a scalar (montgomery.cc:368-387). -/
def batchMulScalar (p : MParams) (x : List ℕ) (c : ℕ) : Outcome (List ℕ) :=
  .ok (x.map fun a => mul p a c)

/-- `BatchFusedMulAdd(InPlace)` (montgomery.cc:389-413). -/
def batchFusedMulAdd (p : MParams) (x y z : List ℕ) : Outcome (List ℕ) :=
  if x.length ≠ y.length ∨ x.length ≠ z.length then .err .invalidArgument
  else .ok (List.zipWith (fun a k => fusedMulAdd p a k.1 k.2) x (y.zip z))

/-- `BatchFusedMulConstantAdd(InPlace)` (montgomery.cc:415-443). -/
def batchFusedMulConstantAdd (p : MParams) (x y c cb : List ℕ) : Outcome (List ℕ) :=
  if x.length ≠ y.length ∨ x.length ≠ c.length ∨ x.length ≠ cb.length then .err .invalidArgument
  else .ok (List.zipWith (fun a k => fusedMulConstantAdd p a k.1 k.2.1 k.2.2) x
    (y.zip (c.zip cb)))

end Mont
end Shell
