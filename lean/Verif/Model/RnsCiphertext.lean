import Verif.Model.RnsEncoder
/-!
# `rns/rns_ciphertext.h`, `rns/rns_bgv_ciphertext.h`, `rns/rns_bfv_ciphertext.{h,cc}`

The error estimate `error_` is modelled apart (`Verif.Model.RnsErrorTrack`), and so are the lazy components
(`Verif.Model.LazyRns`).  In-place operations are modelled by the value left in the
object when the call returns OK; `Verif.Model.InPlace` has the object after an error.
-/

namespace Shell.Rns

/-- `RnsRlweCiphertext` (rns/rns_ciphertext.h:490-509). -/
structure RCt where
  c : List RPoly
  ms : List Modulus
  power : ℤ
  deriving Repr

namespace RCt

/-- `CreateZero` (rns/rns_ciphertext.h:63-68). -/
def createZero (ms : List Modulus) : RCt := ⟨[], ms, 1⟩

/-- `components_[0].LogN()` (rns/rns_ciphertext.h:462). -/
def logN (x : RCt) : Outcome ℕ := do
  let c ← rd x.c 0
  return c.logN

/-- `NegateInPlace` (rns/rns_ciphertext.h:101-106). -/
def negate (x : RCt) : Outcome RCt := do
  let c ← x.c.mapM (negateInPlace x.ms)
  return { x with c }

/-- The checks at the beginning of the operations on two ciphertexts
(rns/rns_ciphertext.h:112-121, 144-153, 239-247). -/
def check (x y : RCt) : Outcome Unit :=
  if x.c.length ≠ y.c.length then .err .invalidArgument
  else if x.ms.length ≠ y.ms.length then .err .invalidArgument
  else if x.power ≠ y.power then .err .invalidArgument
  else .ok ()

/-- `AddInPlace(ciphertext)` (rns/rns_ciphertext.h:111-128). -/
def add (x y : RCt) : Outcome RCt := do
  check x y
  let c ← (x.c.zip y.c).mapM fun u => Rns.add x.ms u.1 u.2
  return { x with c }

/-- `SubInPlace(ciphertext)` (rns/rns_ciphertext.h:143-160). -/
def sub (x y : RCt) : Outcome RCt := do
  check x y
  let c ← (x.c.zip y.c).mapM fun u => Rns.sub x.ms u.1 u.2
  return { x with c }

/-- `AddInPlace(plaintext)` (rns/rns_ciphertext.h:132-138): `components_[0]` is accessed without a check. -/
def addPlain (x : RCt) (pt : RPoly) : Outcome RCt :=
  if x.ms.length ≠ pt.coeffs.length then .err .invalidArgument
  else do
    let c0 ← rd x.c 0
    let r ← Rns.add x.ms c0 pt
    let c ← wr x.c 0 r
    return { x with c }

/-- `SubInPlace(plaintext)` (rns/rns_ciphertext.h:164-170). -/
def subPlain (x : RCt) (pt : RPoly) : Outcome RCt :=
  if x.ms.length ≠ pt.coeffs.length then .err .invalidArgument
  else do
    let c0 ← rd x.c 0
    let r ← Rns.sub x.ms c0 pt
    let c ← wr x.c 0 r
    return { x with c }

/-- `AbsorbInPlace(plaintext)` and `AbsorbMonomialInPlace` (rns/rns_ciphertext.h:175-192). -/
def absorb (x : RCt) (pt : RPoly) : Outcome RCt := do
  let c ← x.c.mapM fun u => Rns.mul x.ms u pt
  return { x with c }

/-- `AbsorbInPlace` by a scalar in RNS form (rns/rns_ciphertext.h:205-216). -/
def absorbRns (x : RCt) (z : List ℕ) : Outcome RCt :=
  if z.length ≠ x.ms.length then .err .invalidArgument
  else do
    let c ← x.c.mapM fun u => Rns.mulRns x.ms u z
    return { x with c }

/-- `AbsorbInPlace(scalar)` (rns/rns_ciphertext.h:227-234). -/
def absorbInt (x : RCt) (z : ℕ) : Outcome RCt := do
  let c ← x.c.mapM fun u => Rns.mulInt x.ms u z
  return { x with c }

/-- `FusedAbsorbAddInPlace` (rns/rns_ciphertext.h:237-259): `x + y * pt`. -/
def fusedAbsorbAdd (x y : RCt) (pt : RPoly) : Outcome RCt := do
  check x y
  let c ← (x.c.zip y.c).mapM fun u => Rns.fusedMulAdd x.ms u.1 u.2 pt
  return { x with c }

/-- `FusedAbsorbAddInPlaceWithoutPad` (rns/rns_ciphertext.h:269-290). -/
def fusedAbsorbAddWithoutPad (x y : RCt) (pt : RPoly) : Outcome RCt :=
  if x.c.length ≠ 2 ∨ x.c.length ≠ y.c.length then .err .invalidArgument
  else if x.ms.length ≠ y.ms.length then .err .invalidArgument
  else if x.power ≠ y.power then .err .invalidArgument
  else do
    let u ← rd x.c 0
    let v ← rd y.c 0
    let r ← Rns.fusedMulAdd x.ms u v pt
    let c ← wr x.c 0 r
    return { x with c }

/-- `SetPadComponent` (rns/rns_ciphertext.h:365-377). -/
def setPad (x : RCt) (a : RPoly) : Outcome RCt :=
  if x.c.length > 2 then .err .invalidArgument
  else if x.c.length = 2 then do
    let c ← wr x.c 1 a
    return { x with c }
  else .ok { x with c := x.c ++ [a] }

/-- The tensor product loops (rns/rns_ciphertext.h:398-403). -/
def tensor (ms : List Modulus) (xs ys r : List RPoly) : Outcome (List RPoly) :=
  loop xs.length (fun i r => loop ys.length (fun j r => do
    let t ← rd r (i + j)
    let u ← rd xs i
    let v ← rd ys j
    let t ← Rns.fusedMulAdd ms t u v
    wr r (i + j) t) r) r

/-- `Mul` (rns/rns_ciphertext.h:383-406).  `LogN()` needs a component of this ciphertext, so the number of
components of the result is not negative. -/
def mul (x y : RCt) : Outcome RCt :=
  if x.ms.length ≠ y.ms.length then .err .invalidArgument
  else if x.power ≠ y.power then .err .invalidArgument
  else do
    let n ← x.logN
    let zero ← Rns.createZero n x.ms true
    let r ← tensor x.ms x.c y.c (List.replicate (x.c.length + y.c.length - 1) zero)
    return ⟨r, x.ms, x.power⟩

/-- `ConvertToNttForm` (rns/rns_ciphertext.h:409-414). -/
def toNtt (x : RCt) : Outcome RCt := do
  let c ← x.c.mapM (Rns.toNtt x.ms)
  return { x with c }

/-- `ConvertToCoeffForm` (rns/rns_ciphertext.h:417-422). -/
def toCoeff (x : RCt) : Outcome RCt := do
  let c ← x.c.mapM (Rns.toCoeff x.ms)
  return { x with c }

/-- `IsModulusSameAs` (rns/rns_ciphertext.h:428-439). -/
def sameModulus (x y : RCt) : Bool :=
  x.ms.length == y.ms.length && (x.ms.zip y.ms).all fun u => u.1.N == u.2.N

/-- `Component` (rns/rns_ciphertext.h:455-460). -/
def component (x : RCt) (i : ℤ) : Outcome RPoly :=
  if i < 0 ∨ i ≥ x.c.length then .err .invalidArgument else rd x.c i.toNat

/-- `(PowerOfS() * substitution_power) % (2 * NumCoeffs())` on `int`
(rns/rns_bgv_ciphertext.h:169-170, rns/rns_bfv_ciphertext.h:198-199). -/
def newPower (x : RCt) (k : ℤ) : Outcome ℤ :=
  if x.power * k < -2 ^ 31 ∨ x.power * k ≥ 2 ^ 31 then .ub .signedOverflow
  else do
    let l ← x.logN
    let n ← shl1 l
    if 2 * n ≥ 2 ^ 31 then .ub .signedOverflow
    else .ok ((x.power * k).tmod (2 * n))

/-- `Substitute` (rns/rns_bgv_ciphertext.h:161-174, rns/rns_bfv_ciphertext.h:190-202). -/
def substitute (x : RCt) (k : ℤ) : Outcome RCt := do
  let c ← x.c.mapM fun u => Rns.substitute x.ms u k
  let p ← newPower x k
  return { x with c, power := p }

/-- `RnsBgvCiphertext::ModReduce` (rns/rns_bgv_ciphertext.h:146-157). -/
def modReduceBgv (x : RCt) (t : ℕ) (qlInv : List ℕ) : Outcome RCt :=
  if x.ms.length ≤ 1 then .err .failedPrecondition
  else do
    let c ← x.c.mapM fun u => modReduceLsb t qlInv x.ms u
    return { x with c, ms := x.ms.dropLast }

/-- `RnsBfvCiphertext::ModReduce` (rns/rns_bfv_ciphertext.h:171-186). -/
def modReduceBfv (ctx : Ctx) (x : RCt) : Outcome RCt :=
  if x.ms.length ≤ 1 then .err .failedPrecondition
  else do
    let level := x.ms.length - 1
    let row ← rd ctx.primeQInvs level
    if row.length < level then .ub .outOfBounds
    else do
      let c ← x.c.mapM fun u => modReduceMsb (row.take level) x.ms u
      return { x with c, ms := x.ms.dropLast }

/-- `RnsBfvCiphertext::AbsorbInPlaceSimple` (rns/rns_bfv_ciphertext.cc:207-222). -/
def absorbSimple (x : RCt) (pt : RPoly) : Outcome RCt :=
  if x.ms.length ≠ pt.coeffs.length then .err .invalidArgument
  else if !pt.ntt then .err .invalidArgument
  else absorb x pt

/-- The scaled polynomials `P/t * c` modulo `P` and modulo `Q`, in NTT form
(rns/rns_bfv_ciphertext.cc:65-83, 165-179). -/
def scaleToAux (est : Estimate) (ctx : Ctx) (ms : List Modulus) (hatInv : List ℕ) (c : RPoly) :
    Outcome (RPoly × RPoly) := do
  let aux ← scaleAndSwitchBasis est ms ctx.ps hatInv ctx.primeQInvModPs ctx.pModQs c
  let main ← switchBasis est ctx.ps ms ctx.primePHatInvs ctx.primePHatModQs ctx.pModQs aux
  let main ← Rns.toNtt ms main
  let aux ← Rns.toNtt ctx.ps aux
  return (main, aux)

/-- The body of the loop of `RnsBfvCiphertext::AbsorbInPlace` (rns/rns_bfv_ciphertext.cc:61-94). -/
def absorbBfvStep (est : Estimate) (ctx : Ctx) (ms : List Modulus) (hatInv : List ℕ) (pt ptAux c : RPoly) :
    Outcome RPoly := do
  let c ← ensureCoeff ms c
  let (main, aux) ← scaleToAux est ctx ms hatInv c
  let main ← Rns.mul ms main pt
  let aux ← Rns.mul ctx.ps aux ptAux
  scaleAndReduceBasis est aux ctx.t ms ctx.ps ctx.primePHatInvs ctx.primePHatModQs ctx.pModQs
    ctx.pInvModQs main

/-- `RnsBfvCiphertext::AbsorbInPlace` (rns/rns_bfv_ciphertext.cc:33-97).  The products modulo `Q` and
modulo `P` are computed in the order `main`, `aux`; the code converts `aux` to NTT form between them. -/
def absorbBfv (est : Estimate) (ctx : Ctx) (x : RCt) (pt : RPoly) : Outcome RCt :=
  if !pt.ntt then .err .invalidArgument
  else do
    let level : ℤ := (x.ms.length : ℤ) - 1
    let hatInv ← ctx.crtFactors level
    let hatMod ← ctx.complementResidues level
    let qMod ← ctx.leveledAuxResidues level
    let ptCoeff ← Rns.toCoeff x.ms pt
    let ptAux ← switchBasis est x.ms ctx.ps hatInv hatMod qMod ptCoeff
    let ptAux ← Rns.toNtt ctx.ps ptAux
    let c ← x.c.mapM fun u => absorbBfvStep est ctx x.ms hatInv pt ptAux u
    return { x with c }

/-- `RnsBfvCiphertext::Mul` (rns/rns_bfv_ciphertext.cc:99-205).  The two tensor products are computed one
after the other; the code interleaves them. -/
def mulBfv (est : Estimate) (ctx : Ctx) (x y : RCt) : Outcome RCt :=
  if x.ms.length ≠ y.ms.length then .err .invalidArgument
  else if x.power ≠ y.power then .err .invalidArgument
  else do
    let level : ℤ := (x.ms.length : ℤ) - 1
    let hatInv ← ctx.crtFactors level
    let hatMod ← ctx.complementResidues level
    let qMod ← ctx.leveledAuxResidues level
    let yAux ← y.c.mapM fun u => do
      let u ← Rns.toCoeff x.ms u
      let a ← switchBasis est x.ms ctx.ps hatInv hatMod qMod u
      Rns.toNtt ctx.ps a
    let n ← x.logN
    let zero ← Rns.createZero n x.ms true
    let zeroAux ← Rns.createZero n ctx.ps true
    let xs ← x.c.mapM fun u => do
      let u ← Rns.toCoeff x.ms u
      scaleToAux est ctx x.ms hatInv u
    let r ← tensor x.ms (xs.map (·.1)) y.c (List.replicate (x.c.length + y.c.length - 1) zero)
    let ra ← tensor ctx.ps (xs.map (·.2)) yAux (List.replicate (x.c.length + y.c.length - 1) zeroAux)
    let c ← (r.zip ra).mapM fun u =>
      scaleAndReduceBasis est u.2 ctx.t x.ms ctx.ps ctx.primePHatInvs ctx.primePHatModQs ctx.pModQs
        ctx.pInvModQs u.1
    return ⟨c, x.ms, x.power⟩

/-! ### Serialization -/

/-- A `SerializedRnsRlweCiphertext` without the error estimate (rns/serialization.proto:36-45). -/
structure SCt where
  components : List Serialized
  power : ℤ
  deriving DecidableEq, Repr

/-- `Serialize` (rns/rns_ciphertext.h:90-98). -/
def serialize (x : RCt) : Outcome SCt := do
  let cs ← x.c.mapM (Rns.serialize x.ms)
  return ⟨cs, x.power⟩

/-- `Deserialize` (rns/rns_ciphertext.h:70-88) for non-null `error_params`. -/
def deserialize (s : SCt) (ms : List Modulus) : Outcome RCt := do
  let c ← s.components.mapM (Rns.deserialize ms)
  return ⟨c, ms, s.power⟩

end RCt
end Shell.Rns
