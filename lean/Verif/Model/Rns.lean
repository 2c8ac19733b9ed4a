import Verif.Model.Convert
/-!
# `shell_encryption/rns/rns_modulus.h`, `rns_integer.h`, `rns_polynomial.{h,cc}`

A `PrimeModulus` is its Montgomery and NTT parameters; an `RnsPolynomial` is its `log_n_`, its vectors of
stored words and its form.  In-place operations are modelled by the value left in the object when the
call returns OK (the object after an error is the subject of Model/InPlace).
-/

namespace Shell.Rns

/-- `PrimeModulus` (rns/rns_modulus.h:30-42). -/
structure Modulus where
  p : MParams
  q : Ntt.NttParams
  deriving Repr

/-- The prime `q_i` (rns/rns_modulus.h:34). -/
abbrev Modulus.N (m : Modulus) : ℕ := m.p.modulus

/-- `RnsPolynomial` (rns/rns_polynomial.h:616-624). -/
structure RPoly where
  logN : ℕ
  coeffs : List (List ℕ)
  ntt : Bool
  deriving DecidableEq, Repr

/-- A loop `for (i = 0; i < num_moduli; ++i)` whose body works on the `i`-th modulus and the `i`-th
vector; an index outside of either is undefined (C++ semantics; used for example at rns/rns_polynomial.h:226-240). -/
def perModulus {α β : Type} (f : Modulus → α → Outcome β) : List Modulus → List α → Outcome (List β)
  | [], [] => .ok []
  | m :: ms, v :: vs => do
    let r ← f m v
    let rs ← perModulus f ms vs
    return r :: rs
  | _, _ => .ub .outOfBounds

/-- `1 << log_n` on `int` (C++ semantics; used for example at rns/rns_polynomial.h:105). -/
def shl1 (k : ℕ) : Outcome ℕ := if k < 31 then .ok (2 ^ k) else .ub .badShift

/-- `IsNotPowerOfTwo` (rns/rns_polynomial.cc:29-32) for a size below `2^31`. -/
def isNotPowerOfTwo (n : ℕ) : Bool := n = 0 || n &&& (n - 1) != 0

/-- `Create` (rns/rns_polynomial.cc:37-54).  `log2` of a power of two is exact. -/
def create (vs : List (List ℕ)) (isNtt : Bool) : Outcome RPoly :=
  match vs with
  | [] => .err .invalidArgument
  | v :: _ =>
    if isNotPowerOfTwo v.length then .err .invalidArgument
    else if vs.any (fun u => u.length != v.length) then .err .invalidArgument
    else .ok ⟨Nat.log2 v.length, vs, isNtt⟩

/-- The common part of `CreateZero` and `CreateOne` (rns/rns_polynomial.cc:57-98). -/
def createConst (logN : ℤ) (ms : List Modulus) (c : MParams → ℕ) (isNtt : Bool) : Outcome RPoly :=
  if logN ≤ 0 then .err .invalidArgument
  else if ms.isEmpty then .err .invalidArgument
  else do
    let n ← shl1 logN.toNat
    return ⟨logN.toNat, ms.map fun m => List.replicate n (c m.p), isNtt⟩

/-- `CreateZero` (rns/rns_polynomial.cc:57-76). -/
def createZero (logN : ℤ) (ms : List Modulus) (isNtt : Bool) : Outcome RPoly :=
  createConst logN ms Mont.importZero isNtt

/-- `CreateOne` (rns/rns_polynomial.cc:79-98). -/
def createOne (logN : ℤ) (ms : List Modulus) : Outcome RPoly :=
  createConst logN ms Mont.importOne true

/-- `ConvertFromPolynomialCoeffs` (rns/rns_polynomial.cc:102-129) for non-null parameters. -/
def convertFrom (v : List ℕ) (pq : MParams) (ms : List Modulus) : Outcome RPoly :=
  if isNotPowerOfTwo v.length then .err .invalidArgument
  else if ms.isEmpty then .err .invalidArgument
  else do
    let cs ← perModulus (fun m _ => Ntt.forward m.p m.q (Convert.convertModulus v pq m.p)) ms
      (ms.map fun _ => ())
    return ⟨Nat.log2 v.length, cs, true⟩

/-- `ConvertBalancedFromPolynomialCoeffs` (rns/rns_polynomial.cc:133-161); the check accepts the empty
vector. -/
def convertBalancedFrom (v : List ℕ) (pq : MParams) (ms : List Modulus) : Outcome RPoly :=
  if v.length &&& (v.length - 1) ≠ 0 then .err .invalidArgument
  else if ms.isEmpty then .err .invalidArgument
  else do
    let cs ← perModulus (fun m _ => Ntt.forward m.p m.q (Convert.convertModulusBalanced v pq m.p)) ms
      (ms.map fun _ => ())
    return ⟨Nat.log2 v.length, cs, true⟩

/-- `ConvertToNttForm` (rns/rns_polynomial.cc:164-180). -/
def toNtt (ms : List Modulus) (x : RPoly) : Outcome RPoly :=
  if x.ntt then .err .invalidArgument
  else if ms.length ≠ x.coeffs.length then .err .invalidArgument
  else do
    let cs ← perModulus (fun m v => Ntt.forward m.p m.q v) ms x.coeffs
    return { x with coeffs := cs, ntt := true }

/-- `ConvertToCoeffForm` (rns/rns_polynomial.cc:183-199). -/
def toCoeff (ms : List Modulus) (x : RPoly) : Outcome RPoly :=
  if !x.ntt then .err .invalidArgument
  else if ms.length ≠ x.coeffs.length then .err .invalidArgument
  else do
    let cs ← perModulus (fun m v => Ntt.inverse m.p m.q v) ms x.coeffs
    return { x with coeffs := cs, ntt := false }

/-- `NegateInPlace` (rns/rns_polynomial.h:153-167). -/
def negateInPlace (ms : List Modulus) (x : RPoly) : Outcome RPoly :=
  if ms.length ≠ x.coeffs.length then .err .invalidArgument
  else do
    let cs ← perModulus (fun m v => .ok (Poly.negate m.p v)) ms x.coeffs
    return { x with coeffs := cs }

/-- `Negate` (rns/rns_polynomial.h:145-150): the status of `NegateInPlace` is discarded. -/
def negate (ms : List Modulus) (x : RPoly) : Outcome RPoly :=
  match negateInPlace ms x with
  | .ok r => .ok r
  | .err _ => .ok x
  | .ub u => .ub u

/-- `Add`/`AddInPlace` (rns/rns_polynomial.h:170-205): the forms of the two polynomials are not
compared. -/
def add (ms : List Modulus) (x y : RPoly) : Outcome RPoly :=
  if y.coeffs.length ≠ x.coeffs.length then .err .invalidArgument
  else if ms.length ≠ x.coeffs.length then .err .invalidArgument
  else do
    let cs ← perModulus (fun m vs => Poly.add m.p vs.1 vs.2) ms (x.coeffs.zip y.coeffs)
    return { x with coeffs := cs }

/-- `Sub`/`SubInPlace` (rns/rns_polynomial.h:179-225). -/
def sub (ms : List Modulus) (x y : RPoly) : Outcome RPoly :=
  if y.coeffs.length ≠ x.coeffs.length then .err .invalidArgument
  else if ms.length ≠ x.coeffs.length then .err .invalidArgument
  else do
    let cs ← perModulus (fun m vs => Poly.sub m.p vs.1 vs.2) ms (x.coeffs.zip y.coeffs)
    return { x with coeffs := cs }

/-- `Mul(scalar)`/`MulInPlace(scalar)` (rns/rns_polynomial.h:228-253). -/
def mulInt (ms : List Modulus) (x : RPoly) (c : ℕ) : Outcome RPoly :=
  if ms.length ≠ x.coeffs.length then .err .invalidArgument
  else do
    let cs ← perModulus (fun m v => Poly.mulScalar m.p v (Mont.importInt m.p c)) ms x.coeffs
    return { x with coeffs := cs }

/-- `MulInPlace` by a scalar in RNS form (rns/rns_polynomial.h:256-280). -/
def mulRns (ms : List Modulus) (x : RPoly) (c : List ℕ) : Outcome RPoly :=
  if c.length ≠ x.coeffs.length then .err .invalidArgument
  else if ms.length ≠ x.coeffs.length then .err .invalidArgument
  else do
    let cs ← perModulus (fun m vc => Poly.mulScalar m.p vc.1 vc.2) ms (x.coeffs.zip c)
    return { x with coeffs := cs }

/-- `Mul`/`MulInPlace` (rns/rns_polynomial.h:284-320). -/
def mul (ms : List Modulus) (x y : RPoly) : Outcome RPoly :=
  if y.coeffs.length ≠ x.coeffs.length then .err .invalidArgument
  else if ms.length ≠ x.coeffs.length then .err .invalidArgument
  else if !x.ntt then .err .invalidArgument
  else if !y.ntt then .err .invalidArgument
  else do
    let cs ← perModulus (fun m vs => Poly.mul m.p vs.1 vs.2) ms (x.coeffs.zip y.coeffs)
    return { x with coeffs := cs }

/-- `FusedMulAddInPlace` (rns/rns_polynomial.h:324-359): `x + a * b`. -/
def fusedMulAdd (ms : List Modulus) (x a b : RPoly) : Outcome RPoly :=
  if a.coeffs.length ≠ x.coeffs.length then .err .invalidArgument
  else if b.coeffs.length ≠ x.coeffs.length then .err .invalidArgument
  else if ms.length ≠ x.coeffs.length then .err .invalidArgument
  else if !x.ntt then .err .invalidArgument
  else if !a.ntt then .err .invalidArgument
  else if !b.ntt then .err .invalidArgument
  else do
    let cs ← perModulus (fun m vs => Poly.copying (Poly.fusedMulAddInPlace m.p vs.1 vs.2.1 vs.2.2)) ms
      (x.coeffs.zip (a.coeffs.zip b.coeffs))
    return { x with coeffs := cs }

/-- Body of the inner loop of `Substitute` (rns/rns_polynomial.cc:235-248) on `(psi_power_index, out)`. -/
def substStep (n : ℕ) (bitrevs coeffs : List ℕ) (power : ℕ) (j : ℕ) (s : ℕ × List ℕ) :
    Outcome (ℕ × List ℕ) := do
  let r ← rd bitrevs s.1
  if r ≥ n then .err .internal
  else do
    let k ← rd bitrevs j
    let x ← rd coeffs r
    let out ← wr s.2 k x
    return ((s.1 + power) % n, out)

/-- The loop over the moduli of `Substitute` (rns/rns_polynomial.cc:233-249): `psi_power_index` is
carried over from one modulus to the next. -/
def substAll (n power : ℕ) : List Modulus → List (List ℕ) → ℕ → Outcome (List (List ℕ))
  | [], [], _ => .ok []
  | m :: ms, v :: vs, idx => do
    let s ← loop n (substStep n m.q.bitrevs v power) (idx, v)
    let rs ← substAll n power ms vs s.1
    return s.2 :: rs
  | _, _, _ => .ub .outOfBounds

/-- `Substitute` (rns/rns_polynomial.cc:202-252). -/
def substitute (ms : List Modulus) (x : RPoly) (power : ℤ) : Outcome RPoly := do
  let n ← shl1 x.logN
  if power < 0 ∨ power.tmod 2 = 0 then .err .invalidArgument
  else if 2 * n ≥ 2 ^ 31 then .ub .signedOverflow
  else if power ≥ 2 * n then .err .invalidArgument
  else if ms.length ≠ x.coeffs.length then .err .invalidArgument
  else if !x.ntt then .err .invalidArgument
  else do
    let cs ← substAll n power.toNat ms x.coeffs ((power - 1).tdiv 2).toNat
    return { x with coeffs := cs }

/-! ### Modulus reduction -/

/-- `DetachLastCoeffVector` (rns/rns_polynomial.h:563-570). -/
def detachLast (x : RPoly) : Outcome (List ℕ × RPoly) :=
  match x.coeffs.getLast? with
  | none => .err .invalidArgument
  | some v => .ok (v, { x with coeffs := x.coeffs.dropLast })

/-- `moduli[num_moduli - 1]` (rns/rns_polynomial.cc:280-281, 366-367). -/
def lastModulus (ms : List Modulus) : Outcome Modulus :=
  match ms.getLast? with
  | none => .ub .outOfBounds
  | some m => .ok m

/-- `ModReduceLsb` (rns/rns_polynomial.cc:255-336).  A zero `t` divides by zero. -/
def modReduceLsb (t : ℕ) (qlInv : List ℕ) (ms : List Modulus) (x : RPoly) : Outcome RPoly :=
  if ms.length ≠ x.coeffs.length then .err .invalidArgument
  else if x.coeffs.length ≤ 1 then .err .invalidArgument
  else if qlInv.length ≠ x.coeffs.length - 1 then .err .invalidArgument
  else do
    let (d, x) ← detachLast x
    let m ← lastModulus ms
    if t = 0 then .ub .divByZero
    else do
      let r := m.p.modulus % t
      let k := (m.p.modulus - r) / t
      let d ← Poly.mulScalar m.p d (Mont.importInt m.p k)
      let red := ms.take x.coeffs.length
      let x ← mulInt red x r
      if x.ntt then do
        let d ← Ntt.inverse m.p m.q d
        let delta : RPoly := ⟨x.logN, red.map fun m' => Convert.convertModulusBalanced d m.p m'.p, false⟩
        let delta ← toNtt red delta
        let delta ← mulInt red delta t
        let x ← add red x delta
        mulRns red x qlInv
      else do
        let cs ← perModulus (fun m' vc => do
          let e ← Poly.mulScalar m'.p (Convert.convertModulusBalanced d m.p m'.p)
            (Mont.importInt m'.p t)
          let v ← Poly.add m'.p vc.1 e
          Poly.mulScalar m'.p v vc.2) red (x.coeffs.zip qlInv)
        return { x with coeffs := cs }

/-- `ModReduceMsb` (rns/rns_polynomial.cc:342-409). -/
def modReduceMsb (qlInv : List ℕ) (ms : List Modulus) (x : RPoly) : Outcome RPoly :=
  if ms.length ≠ x.coeffs.length then .err .invalidArgument
  else if x.coeffs.length ≤ 1 then .err .invalidArgument
  else if qlInv.length ≠ x.coeffs.length - 1 then .err .invalidArgument
  else do
    let (d, x) ← detachLast x
    let m ← lastModulus ms
    let red := ms.take x.coeffs.length
    if x.ntt then do
      let d ← Ntt.inverse m.p m.q d
      let delta : RPoly := ⟨x.logN, red.map fun m' => Convert.convertModulusBalanced d m.p m'.p, false⟩
      let delta ← toNtt red delta
      let x ← sub red x delta
      mulRns red x qlInv
    else do
      let cs ← perModulus (fun m' vc => do
        let v ← Poly.sub m'.p vc.1 (Convert.convertModulusBalanced d m.p m'.p)
        Poly.mulScalar m'.p v vc.2) red (x.coeffs.zip qlInv)
      return { x with coeffs := cs }

/-! ### Basis conversion -/

/-- The computation `static_cast<Int>(std::round(us[k]))`, where `us[k]` is the floating-point sum of
the quotients `x_i / q_i`, as a function of the list of the pairs `(x_i, q_i)`
(rns/rns_polynomial.cc:462-475, 508).  This is a parameter; `Double.estimate` is the computation in `double` arithmetic. -/
abbrev Estimate := List (ℕ × ℕ) → ℕ

/-- The values `ExportInt(scaled_coeff_mod_qs[i][k])` and `q_i` for all `i`
(rns/rns_polynomial.cc:467-475).  All the vectors of an `RnsPolynomial` have `2^log_n` elements; a
shorter one is undefined here. -/
def column : List Modulus → List (List ℕ) → ℕ → Outcome (List (ℕ × ℕ))
  | [], [], _ => .ok []
  | m :: ms, v :: vs, k => do
    let a ← rd v k
    let r ← column ms vs k
    return (Mont.exportInt m.p a, m.p.modulus) :: r
  | _, _, _ => .ub .outOfBounds

/-- The estimates `round(us[k])` for all `k` (rns/rns_polynomial.cc:462-475, 508). -/
def estimates (est : Estimate) (ms : List Modulus) (vs : List (List ℕ)) (n : ℕ) : Outcome (List ℕ) :=
  (List.range n).mapM fun k => do
    let c ← column ms vs k
    return est c

/-- The accumulation into `output_coeffs[j]` (rns/rns_polynomial.cc:484-500, 603-620, 699-712) over the
moduli with index `i, i+1, ...`; `conv` is the conversion of a vector to the output modulus `pj` and
`c i` the factor for the `i`-th vector.  (The code has `i` in the outer and `j` in the inner loop.) -/
def accumulate (conv : List ℕ → MParams → MParams → List ℕ) (pj : MParams) (c : ℕ → Outcome ℕ) :
    ℕ → List Modulus → List (List ℕ) → List ℕ → Outcome (List ℕ)
  | _, [], [], acc => .ok acc
  | i, m :: ms, v :: vs, acc => do
    let f ← c i
    let s ← Poly.mulScalar pj (conv v m.p pj) f
    let acc ← Poly.add pj acc s
    accumulate conv pj c (i + 1) ms vs acc
  | _, _, _, _ => .ub .outOfBounds

/-- `prime_q_hat_mod_ps[i].Component(j)` (rns/rns_polynomial.cc:494, 709). -/
def entry (t : List (List ℕ)) (j i : ℕ) : Outcome ℕ := do
  let r ← rd t i
  rd r j

/-- `SwitchRnsBasis` (rns/rns_polynomial.cc:413-523). -/
def switchBasis (est : Estimate) (ms outs : List Modulus) (hatInv : List ℕ) (hatMod : List (List ℕ))
    (qMod : List ℕ) (x : RPoly) : Outcome RPoly :=
  if x.ntt then .err .invalidArgument
  else if ms.length ≠ x.coeffs.length then .err .invalidArgument
  else if outs.isEmpty then .err .invalidArgument
  else if hatInv.length < x.coeffs.length then .err .invalidArgument
  else if hatMod.length < x.coeffs.length then .err .invalidArgument
  else if qMod.length ≠ outs.length then .err .invalidArgument
  else do
    let scaled ← perModulus (fun m vc => Poly.mulScalar m.p vc.1 vc.2) ms (x.coeffs.zip hatInv)
    let n ← shl1 x.logN
    let us ← estimates est ms scaled n
    let cs ← perModulus (fun pj jq => do
      let out ← accumulate Convert.convertModulus pj.p (entry hatMod jq.1) 0 ms scaled
        (List.replicate n (Mont.importZero pj.p))
      Poly.sub pj.p out (us.map fun u => Mont.mul pj.p (Mont.importInt pj.p u) jq.2)) outs
        ((List.range outs.length).zip qMod)
    return ⟨x.logN, cs, false⟩

/-- `ScaleAndSwitchRnsBasis` (rns/rns_polynomial.cc:527-642). -/
def scaleAndSwitchBasis (est : Estimate) (ms outs : List Modulus) (hatInv : List ℕ)
    (qInvMod : List (List ℕ)) (pMod : List ℕ) (x : RPoly) : Outcome RPoly :=
  if x.ntt then .err .invalidArgument
  else if ms.length ≠ x.coeffs.length then .err .invalidArgument
  else if outs.isEmpty then .err .invalidArgument
  else if hatInv.length < x.coeffs.length then .err .invalidArgument
  else if qInvMod.length ≠ outs.length then .err .invalidArgument
  else if pMod.length < x.coeffs.length then .err .invalidArgument
  else do
    let scaled ← perModulus (fun m vc => do
      let v ← Poly.mulScalar m.p vc.1 vc.2.1
      Poly.mulScalar m.p v vc.2.2) ms (x.coeffs.zip (pMod.zip hatInv))
    let n ← shl1 x.logN
    let us ← estimates est ms scaled n
    let cs ← perModulus (fun pj inv => do
      let out ← accumulate Convert.convertModulus pj.p
        (fun i => do let c ← rd inv i; return Mont.negate pj.p c) 0 ms scaled
        (List.replicate n (Mont.importZero pj.p))
      Poly.add pj.p out (us.map (Mont.importInt pj.p))) outs qInvMod
    return ⟨x.logN, cs, false⟩

/-- `ApproxSwitchRnsBasis` (rns/rns_polynomial.cc:656-717). -/
def approxSwitchBasis (balanced : Bool) (ms outs : List Modulus) (hatInv : List ℕ)
    (hatMod : List (List ℕ)) (x : RPoly) : Outcome RPoly :=
  if ms.length ≠ x.coeffs.length then .err .invalidArgument
  else if outs.isEmpty then .err .invalidArgument
  else if hatInv.length ≠ x.coeffs.length then .err .invalidArgument
  else if hatMod.length ≠ x.coeffs.length then .err .invalidArgument
  else do
    let n ← shl1 x.logN
    let scaled ← perModulus (fun m vc => do
      let v ← Poly.mulScalar m.p vc.1 vc.2
      if x.ntt then Ntt.inverse m.p m.q v else .ok v) ms (x.coeffs.zip hatInv)
    let cs ← perModulus (fun pj j =>
      accumulate (if balanced then Convert.convertModulusBalanced else Convert.convertModulus) pj.p
        (entry hatMod j) 0 ms scaled (List.replicate n (Mont.importZero pj.p))) outs (List.range outs.length)
    return ⟨x.logN, cs, false⟩

/-- The conversion to NTT form of `ApproxModReduceLsb`/`Msb` (rns/rns_polynomial.cc:782-784, 835-837). -/
def ensureNtt (ms : List Modulus) (x : RPoly) : Outcome RPoly :=
  if x.ntt then .ok x else toNtt ms x

/-- `ApproxModReduceLsb` (rns/rns_polynomial.cc:720-792). -/
def approxModReduceLsb (aux : RPoly) (ms auxMs : List Modulus) (pInv hatInv : List ℕ)
    (hatMod : List (List ℕ)) (tInv : List ℕ) (pModT t : ℕ) (x : RPoly) : Outcome RPoly :=
  if ms.length ≠ x.coeffs.length then .err .invalidArgument
  else if auxMs.length ≠ aux.coeffs.length then .err .invalidArgument
  else if pInv.length ≠ x.coeffs.length then .err .invalidArgument
  else if hatInv.length ≠ aux.coeffs.length then .err .invalidArgument
  else if hatMod.length ≠ aux.coeffs.length then .err .invalidArgument
  else if tInv.length ≠ aux.coeffs.length then .err .invalidArgument
  else do
    let acs ← perModulus (fun m vt => do
      let v ← Poly.mulScalar m.p vt.1 (Mont.importInt m.p pModT)
      Poly.mulScalar m.p v (Mont.negate m.p vt.2)) auxMs (aux.coeffs.zip tInv)
    let delta ← approxSwitchBasis true auxMs ms hatInv hatMod { aux with coeffs := acs }
    let delta ← toNtt ms delta
    let delta ← mulInt ms delta t
    let x ← ensureNtt ms x
    let x ← mulInt ms x pModT
    let x ← add ms x delta
    mulRns ms x pInv

/-- `ApproxModReduceMsb` (rns/rns_polynomial.cc:795-844). -/
def approxModReduceMsb (aux : RPoly) (ms auxMs : List Modulus) (pInv hatInv : List ℕ)
    (hatMod : List (List ℕ)) (x : RPoly) : Outcome RPoly :=
  if ms.length ≠ x.coeffs.length then .err .invalidArgument
  else if auxMs.length ≠ aux.coeffs.length then .err .invalidArgument
  else if pInv.length ≠ x.coeffs.length then .err .invalidArgument
  else if hatInv.length ≠ aux.coeffs.length then .err .invalidArgument
  else if hatMod.length ≠ aux.coeffs.length then .err .invalidArgument
  else do
    let delta ← approxSwitchBasis false auxMs ms hatInv hatMod aux
    let delta ← toNtt ms delta
    let x ← ensureNtt ms x
    let x ← sub ms x delta
    mulRns ms x pInv

/-- `ExtendRnsBasisInPlace` (rns/rns_polynomial.h:430-446). -/
def extendBasis (est : Estimate) (ms auxMs : List Modulus) (hatInv : List ℕ) (hatMod : List (List ℕ))
    (qMod : List ℕ) (x : RPoly) : Outcome RPoly := do
  let a ← switchBasis est ms auxMs hatInv hatMod qMod x
  return { x with coeffs := x.coeffs ++ a.coeffs }

/-- `ScaleAndReduceRnsBasisInPlace` (rns/rns_polynomial.h:452-484). -/
def scaleAndReduceBasis (est : Estimate) (aux : RPoly) (t : ℕ) (ms auxMs : List Modulus)
    (hatInv : List ℕ) (hatMod : List (List ℕ)) (pMod pInv : List ℕ) (x : RPoly) : Outcome RPoly := do
  let x ← mulInt ms x t
  let aux ← mulInt auxMs aux t
  let aux ← (if aux.ntt then toCoeff auxMs aux else .ok aux : Outcome RPoly)
  let delta ← switchBasis est auxMs ms hatInv hatMod pMod aux
  let delta ← (if x.ntt then toNtt ms delta else .ok delta : Outcome RPoly)
  let x ← sub ms x delta
  mulRns ms x pInv

/-! ### Serialization -/

/-- A `SerializedRnsPolynomial`: `log_n`, the bytes of each vector, `is_ntt` (rns/serialization.proto:24-33). -/
structure Serialized where
  logN : ℤ
  vectors : List (List ℕ)
  ntt : Bool
  deriving DecidableEq, Repr

/-- `Serialize` (rns/rns_polynomial.h:118-134). -/
def serialize (ms : List Modulus) (x : RPoly) : Outcome Serialized :=
  if ms.length ≠ x.coeffs.length then .err .invalidArgument
  else do
    let vs ← perModulus (fun m v => Mont.serializeVector m.p v) ms x.coeffs
    return ⟨x.logN, vs, x.ntt⟩

/-- `Deserialize` (rns/rns_polynomial.h:93-116). -/
def deserialize (ms : List Modulus) (s : Serialized) : Outcome RPoly :=
  if s.logN ≤ 0 then .err .invalidArgument
  else if s.vectors.length ≠ ms.length then .err .invalidArgument
  else do
    let n ← shl1 s.logN.toNat
    let vs ← perModulus (fun m v => Mont.deserializeVector m.p n v) ms s.vectors
    create vs s.ntt

/-- `operator==` (rns/rns_polynomial.h:584-588). -/
def beq (x y : RPoly) : Bool := x.logN == y.logN && x.ntt == y.ntt && x.coeffs == y.coeffs

end Shell.Rns
