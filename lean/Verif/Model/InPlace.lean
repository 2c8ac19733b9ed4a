import Verif.Model.LazyRns
/-!
# What in-place operations leave behind when they fail

`Verif.Model.Rns`, `Verif.Model.RnsCiphertext` and `Verif.Model.LazyRns` describe an in-place operation by the object
that a successful call leaves.  This file follows the same functions statement by statement and also returns the
object as it is after a call that returned an error.  The object after undefined behaviour has no meaning.
`error_` is left out: every function here updates it in its last statement, after everything that can fail.
-/

namespace Shell.Rns

/-- The object after a call and the returned `absl::Status`
(the `absl::Status` members, for example rns/rns_polynomial.h:226-389). -/
abbrev Res (α : Type) := α × Outcome Unit

namespace Res
variable {α β : Type}

/-- The call as seen by a caller that drops the object unless the call succeeded
(`RLWE_RETURN_IF_ERROR`, status_macros.h:44-52). -/
def value (r : Res α) : Outcome α :=
  match r.2 with
  | .ok _ => .ok r.1
  | .err e => .err e
  | .ub u => .ub u

/-- `RLWE_RETURN_IF_ERROR` on a call that changes the object, followed by further statements
(status_macros.h:22-52). -/
def andThen (r : Res α) (f : α → Res α) : Res α :=
  match r.2 with
  | .ok _ => f r.1
  | .err e => (r.1, .err e)
  | .ub u => (r.1, .ub u)

/-- `RLWE_ASSIGN_OR_RETURN` of a temporary that does not change the object `x`, followed by further statements
(status_macros.h:22-52). -/
def withTemp (x : α) (o : Outcome β) (f : β → Res α) : Res α :=
  match o with
  | .ok b => f b
  | .err e => (x, .err e)
  | .ub u => (x, .ub u)

/-- A function that reports errors before it changes its argument (as `ForwardNumberTheoreticTransform`,
dft_transformations.h:157-175), or `x = f(x)`. -/
def assign (x : α) (o : Outcome α) : Res α := withTemp x o fun y => (y, .ok ())

/-- A failed check at the beginning of a function (for example rns/rns_ciphertext.h:112-121). -/
def reject (x : α) : Res α := (x, .err .invalidArgument)

/-- The batch operations of `MontgomeryInt` on one vector (montgomery.h:518-603). -/
def vec (r : Poly.InPlace) : Res (List ℕ) :=
  (r.1, match r.2 with | none => .ok () | some e => .err e)

/-- A loop over the elements of a vector that stops at the first error; `bs` holds what the body needs for the
element of the same index (for example the loop of rns/rns_polynomial.h:226-240). -/
def each (f : α → β → Res α) : List α → List β → Res (List α)
  | [], [] => ([], .ok ())
  | x :: xs, b :: bs =>
    match (f x b).2 with
    | .ok _ => let r := each f xs bs; ((f x b).1 :: r.1, r.2)
    | .err e => ((f x b).1 :: xs, .err e)
    | .ub u => ((f x b).1 :: xs, .ub u)
  | xs, _ => (xs, .ub .outOfBounds)

/-- `for (auto& c : components_)` with a body that may fail (for example rns/rns_ciphertext.h:122-126). -/
def all (f : α → Res α) : List α → Res (List α)
  | [] => ([], .ok ())
  | x :: xs =>
    match (f x).2 with
    | .ok _ => let r := all f xs; ((f x).1 :: r.1, r.2)
    | .err e => ((f x).1 :: xs, .err e)
    | .ub u => ((f x).1 :: xs, .ub u)

/-- `k` iterations of a loop on the object, starting with index `i`
(for example the loop of rns/rns_polynomial.cc:255-336). -/
def loopFrom (f : ℕ → α → Res α) : ℕ → ℕ → α → Res α
  | 0, _, x => (x, .ok ())
  | k + 1, i, x => (f i x).andThen (loopFrom f k (i + 1))

end Res

open Res

/-! ### The inverse transform, which may fail after it has changed the vector -/

/-- One block of a layer of `IterativeGentlemanSande` (dft_transformations.h:126-149) on `index_psi_inv` and the
vector. -/
def gsBlockIn (p : MParams) (table : List (ℕ × ℕ)) (i blk : ℕ) (s : ℕ × List ℕ) : Res (ℕ × List ℕ) :=
  let halfM := 1 <<< i
  let m := halfM <<< 1
  if s.1 ≥ table.length then reject s
  else withTemp s (rd table s.1) fun c =>
    let r := Res.loopFrom (fun j v =>
      if blk * m + j + halfM ≥ v.length then reject v
      else assign v (Ntt.bfStep (Ntt.gsButterfly p c) halfM (blk * m) j v)) halfM 0 s.2
    Res.andThen ((s.1, r.1), r.2) fun s => ((s.1 + 1, s.2), .ok ())

/-- One layer of `IterativeGentlemanSande` (dft_transformations.h:123-150). -/
def gsLayerIn (p : MParams) (table : List (ℕ × ℕ)) (i : ℕ) (s : ℕ × List ℕ) : Res (ℕ × List ℕ) :=
  let m := (1 <<< i) <<< 1
  Res.loopFrom (gsBlockIn p table i) ((s.2.length + m - 1) / m) 0 s

/-- `InverseNumberTheoreticTransform` (dft_transformations.h:117-152, 180-200). -/
def inverseIn (p : MParams) (q : Ntt.NttParams) (v : List ℕ) : Res (List ℕ) :=
  if v.length = 0 then (v, .ub .signedOverflow)
  else if v.length ≥ 2 ^ 31 then (v, .ub .badShift)
  else
    let logLen := Nat.log2 v.length
    if v.length ≠ 1 <<< logLen then reject v
    else
      let r := Res.loopFrom (gsLayerIn p q.psisInvBitrevConstant) logLen 0 (0, v)
      Res.andThen (r.1.2, r.2) fun v => (v.map fun c => Mont.mul p c q.nInv, .ok ())

/-! ### `RnsPolynomial` -/

/-- The polynomial after its vectors have been changed (`coeff_vectors_`, rns/rns_polynomial.h:616-624). -/
def onCoeffs (x : RPoly) (r : Res (List (List ℕ))) : Res RPoly := ({ x with coeffs := r.1 }, r.2)

/-- `ConvertToNttForm` (rns/rns_polynomial.cc:164-180): `is_ntt_` is set after the loop. -/
def toNttIn (ms : List Modulus) (x : RPoly) : Res RPoly :=
  if x.ntt then reject x
  else if ms.length ≠ x.coeffs.length then reject x
  else (onCoeffs x (each (fun v (m : Modulus) => assign v (Ntt.forward m.p m.q v)) x.coeffs ms)).andThen
    fun x => ({ x with ntt := true }, .ok ())

/-- `ConvertToCoeffForm` (rns/rns_polynomial.cc:183-199). -/
def toCoeffIn (ms : List Modulus) (x : RPoly) : Res RPoly :=
  if !x.ntt then reject x
  else if ms.length ≠ x.coeffs.length then reject x
  else (onCoeffs x (each (fun v (m : Modulus) => inverseIn m.p m.q v) x.coeffs ms)).andThen
    fun x => ({ x with ntt := false }, .ok ())

/-- `NegateInPlace` (rns/rns_polynomial.h:153-167). -/
def negateIn (ms : List Modulus) (x : RPoly) : Res RPoly :=
  if ms.length ≠ x.coeffs.length then reject x
  else onCoeffs x (each (fun v (m : Modulus) => (Poly.negate m.p v, .ok ())) x.coeffs ms)

/-- `AddInPlace` (rns/rns_polynomial.h:188-205). -/
def addIn (ms : List Modulus) (x y : RPoly) : Res RPoly :=
  if y.coeffs.length ≠ x.coeffs.length then reject x
  else if ms.length ≠ x.coeffs.length then reject x
  else onCoeffs x (each (fun v (b : Modulus × List ℕ) => vec (Poly.addInPlace b.1.p v b.2)) x.coeffs (ms.zip y.coeffs))

/-- `SubInPlace` (rns/rns_polynomial.h:208-225). -/
def subIn (ms : List Modulus) (x y : RPoly) : Res RPoly :=
  if y.coeffs.length ≠ x.coeffs.length then reject x
  else if ms.length ≠ x.coeffs.length then reject x
  else onCoeffs x (each (fun v (b : Modulus × List ℕ) => vec (Poly.subInPlace b.1.p v b.2)) x.coeffs (ms.zip y.coeffs))

/-- `MulInPlace(scalar)` (rns/rns_polynomial.h:237-253). -/
def mulIntIn (ms : List Modulus) (x : RPoly) (c : ℕ) : Res RPoly :=
  if ms.length ≠ x.coeffs.length then reject x
  else onCoeffs x (each (fun v (m : Modulus) => vec (Poly.mulScalarInPlace m.p v (Mont.importInt m.p c))) x.coeffs ms)

/-- `MulInPlace` by a scalar in RNS form (rns/rns_polynomial.h:256-280). -/
def mulRnsIn (ms : List Modulus) (x : RPoly) (c : List ℕ) : Res RPoly :=
  if c.length ≠ x.coeffs.length then reject x
  else if ms.length ≠ x.coeffs.length then reject x
  else onCoeffs x (each (fun v (b : Modulus × ℕ) => vec (Poly.mulScalarInPlace b.1.p v b.2)) x.coeffs (ms.zip c))

/-- `MulInPlace` (rns/rns_polynomial.h:294-320). -/
def mulIn (ms : List Modulus) (x y : RPoly) : Res RPoly :=
  if y.coeffs.length ≠ x.coeffs.length then reject x
  else if ms.length ≠ x.coeffs.length then reject x
  else if !x.ntt then reject x
  else if !y.ntt then reject x
  else onCoeffs x (each (fun v (b : Modulus × List ℕ) => vec (Poly.mulInPlace b.1.p v b.2)) x.coeffs (ms.zip y.coeffs))

/-- `FusedMulAddInPlace` (rns/rns_polynomial.h:324-359). -/
def fusedMulAddIn (ms : List Modulus) (x a b : RPoly) : Res RPoly :=
  if a.coeffs.length ≠ x.coeffs.length then reject x
  else if b.coeffs.length ≠ x.coeffs.length then reject x
  else if ms.length ≠ x.coeffs.length then reject x
  else if !x.ntt then reject x
  else if !a.ntt then reject x
  else if !b.ntt then reject x
  else onCoeffs x (each (fun v (k : Modulus × List ℕ × List ℕ) => vec (Poly.fusedMulAddInPlace k.1.p v k.2.1 k.2.2))
    x.coeffs (ms.zip (a.coeffs.zip b.coeffs)))

/-- `ModReduceLsb` (rns/rns_polynomial.cc:255-336). -/
def modReduceLsbIn (t : ℕ) (qlInv : List ℕ) (ms : List Modulus) (x : RPoly) : Res RPoly :=
  if ms.length ≠ x.coeffs.length then reject x
  else if x.coeffs.length ≤ 1 then reject x
  else if qlInv.length ≠ x.coeffs.length - 1 then reject x
  else withTemp x (detachLast x) fun dx =>
    let x := dx.2
    withTemp x (lastModulus ms) fun m =>
    if t = 0 then (x, .ub .divByZero)
    else
      let r := m.p.modulus % t
      let k := (m.p.modulus - r) / t
      withTemp x (Poly.mulScalar m.p dx.1 (Mont.importInt m.p k)) fun d =>
      let red := ms.take x.coeffs.length
      (mulIntIn red x r).andThen fun x =>
      if x.ntt then
        withTemp x (Ntt.inverse m.p m.q d) fun d =>
        withTemp x (Rns.toNtt red ⟨x.logN, red.map fun m' => Convert.convertModulusBalanced d m.p m'.p, false⟩) fun delta =>
        withTemp x (mulInt red delta t) fun delta =>
        (addIn red x delta).andThen fun x => mulRnsIn red x qlInv
      else
        onCoeffs x (each (fun v (b : Modulus × ℕ) =>
          withTemp v (Poly.mulScalar b.1.p (Convert.convertModulusBalanced d m.p b.1.p) (Mont.importInt b.1.p t)) fun e =>
          (vec (Poly.addInPlace b.1.p v e)).andThen fun v => vec (Poly.mulScalarInPlace b.1.p v b.2))
          x.coeffs (red.zip qlInv))

/-- `ModReduceMsb` (rns/rns_polynomial.cc:342-409). -/
def modReduceMsbIn (qlInv : List ℕ) (ms : List Modulus) (x : RPoly) : Res RPoly :=
  if ms.length ≠ x.coeffs.length then reject x
  else if x.coeffs.length ≤ 1 then reject x
  else if qlInv.length ≠ x.coeffs.length - 1 then reject x
  else withTemp x (detachLast x) fun dx =>
    let x := dx.2
    withTemp x (lastModulus ms) fun m =>
    let red := ms.take x.coeffs.length
    if x.ntt then
      withTemp x (Ntt.inverse m.p m.q dx.1) fun d =>
      withTemp x (Rns.toNtt red ⟨x.logN, red.map fun m' => Convert.convertModulusBalanced d m.p m'.p, false⟩) fun delta =>
      (subIn red x delta).andThen fun x => mulRnsIn red x qlInv
    else
      onCoeffs x (each (fun v (b : Modulus × ℕ) =>
        (vec (Poly.subInPlace b.1.p v (Convert.convertModulusBalanced dx.1 m.p b.1.p))).andThen fun v =>
          vec (Poly.mulScalarInPlace b.1.p v b.2)) x.coeffs (red.zip qlInv))

/-- `ExtendRnsBasisInPlace` (rns/rns_polynomial.h:430-446). -/
def extendBasisIn (est : Estimate) (ms auxMs : List Modulus) (hatInv : List ℕ) (hatMod : List (List ℕ))
    (qMod : List ℕ) (x : RPoly) : Res RPoly :=
  withTemp x (switchBasis est ms auxMs hatInv hatMod qMod x) fun a =>
    ({ x with coeffs := x.coeffs ++ a.coeffs }, .ok ())

/-- `ScaleAndReduceRnsBasisInPlace` (rns/rns_polynomial.h:452-484): the object is changed before `polynomial_aux`
is looked at. -/
def scaleAndReduceBasisIn (est : Estimate) (aux : RPoly) (t : ℕ) (ms auxMs : List Modulus)
    (hatInv : List ℕ) (hatMod : List (List ℕ)) (pMod pInv : List ℕ) (x : RPoly) : Res RPoly :=
  (mulIntIn ms x t).andThen fun x =>
  withTemp x (mulInt auxMs aux t) fun aux =>
  withTemp x (if aux.ntt then Rns.toCoeff auxMs aux else .ok aux : Outcome RPoly) fun aux =>
  withTemp x (switchBasis est auxMs ms hatInv hatMod pMod aux) fun delta =>
  withTemp x (if x.ntt then Rns.toNtt ms delta else .ok delta : Outcome RPoly) fun delta =>
  (subIn ms x delta).andThen fun x => mulRnsIn ms x pInv

/-- The conversion to NTT form of `ApproxModReduceLsb`/`Msb` (rns/rns_polynomial.cc:782-784, 835-837). -/
def ensureNttIn (ms : List Modulus) (x : RPoly) : Res RPoly :=
  if x.ntt then (x, .ok ()) else toNttIn ms x

/-- `ApproxModReduceLsb` (rns/rns_polynomial.cc:720-792). -/
def approxModReduceLsbIn (aux : RPoly) (ms auxMs : List Modulus) (pInv hatInv : List ℕ)
    (hatMod : List (List ℕ)) (tInv : List ℕ) (pModT t : ℕ) (x : RPoly) : Res RPoly :=
  if ms.length ≠ x.coeffs.length then reject x
  else if auxMs.length ≠ aux.coeffs.length then reject x
  else if pInv.length ≠ x.coeffs.length then reject x
  else if hatInv.length ≠ aux.coeffs.length then reject x
  else if hatMod.length ≠ aux.coeffs.length then reject x
  else if tInv.length ≠ aux.coeffs.length then reject x
  else
    withTemp x (perModulus (fun m vt => do
      let v ← Poly.mulScalar m.p vt.1 (Mont.importInt m.p pModT)
      Poly.mulScalar m.p v (Mont.negate m.p vt.2)) auxMs (aux.coeffs.zip tInv)) fun acs =>
    withTemp x (approxSwitchBasis true auxMs ms hatInv hatMod { aux with coeffs := acs }) fun delta =>
    withTemp x (Rns.toNtt ms delta) fun delta =>
    withTemp x (mulInt ms delta t) fun delta =>
    (ensureNttIn ms x).andThen fun x =>
    (mulIntIn ms x pModT).andThen fun x =>
    (addIn ms x delta).andThen fun x => mulRnsIn ms x pInv

/-- `ApproxModReduceMsb` (rns/rns_polynomial.cc:795-844). -/
def approxModReduceMsbIn (aux : RPoly) (ms auxMs : List Modulus) (pInv hatInv : List ℕ)
    (hatMod : List (List ℕ)) (x : RPoly) : Res RPoly :=
  if ms.length ≠ x.coeffs.length then reject x
  else if auxMs.length ≠ aux.coeffs.length then reject x
  else if pInv.length ≠ x.coeffs.length then reject x
  else if hatInv.length ≠ aux.coeffs.length then reject x
  else if hatMod.length ≠ aux.coeffs.length then reject x
  else
    withTemp x (approxSwitchBasis false auxMs ms hatInv hatMod aux) fun delta =>
    withTemp x (Rns.toNtt ms delta) fun delta =>
    (ensureNttIn ms x).andThen fun x =>
    (subIn ms x delta).andThen fun x => mulRnsIn ms x pInv

/-! ### `RnsRlweCiphertext`, `RnsBgvCiphertext`, `RnsBfvCiphertext` -/

namespace RCt

/-- The ciphertext after its components have been changed (`components_`, rns/rns_ciphertext.h:490-509). -/
def onComponents (x : RCt) (r : Res (List RPoly)) : Res RCt := ({ x with c := r.1 }, r.2)

/-- `NegateInPlace` (rns/rns_ciphertext.h:101-106). -/
def negateIn (x : RCt) : Res RCt := onComponents x (all (Rns.negateIn x.ms) x.c)

/-- `AddInPlace(ciphertext)` (rns/rns_ciphertext.h:111-128). -/
def addIn (x y : RCt) : Res RCt :=
  withTemp x (check x y) fun _ => onComponents x (each (Rns.addIn x.ms) x.c y.c)

/-- `SubInPlace(ciphertext)` (rns/rns_ciphertext.h:143-160). -/
def subIn (x y : RCt) : Res RCt :=
  withTemp x (check x y) fun _ => onComponents x (each (Rns.subIn x.ms) x.c y.c)

/-- A call that changes `components_[0]` (for example rns/rns_ciphertext.h:136, 168, 285). -/
def onFirst (x : RCt) (f : RPoly → Res RPoly) : Res RCt :=
  match x.c with
  | [] => (x, .ub .outOfBounds)
  | c :: cs => ({ x with c := (f c).1 :: cs }, (f c).2)

/-- `AddInPlace(plaintext)` (rns/rns_ciphertext.h:132-138). -/
def addPlainIn (x : RCt) (pt : RPoly) : Res RCt :=
  if x.ms.length ≠ pt.coeffs.length then reject x else onFirst x fun c => Rns.addIn x.ms c pt

/-- `SubInPlace(plaintext)` (rns/rns_ciphertext.h:164-170). -/
def subPlainIn (x : RCt) (pt : RPoly) : Res RCt :=
  if x.ms.length ≠ pt.coeffs.length then reject x else onFirst x fun c => Rns.subIn x.ms c pt

/-- `AbsorbInPlace(plaintext)` and `AbsorbMonomialInPlace` (rns/rns_ciphertext.h:175-192). -/
def absorbIn (x : RCt) (pt : RPoly) : Res RCt := onComponents x (all (fun u => Rns.mulIn x.ms u pt) x.c)

/-- `AbsorbInPlace` by a scalar in RNS form (rns/rns_ciphertext.h:205-216). -/
def absorbRnsIn (x : RCt) (z : List ℕ) : Res RCt :=
  if z.length ≠ x.ms.length then reject x
  else onComponents x (all (fun u => Rns.mulRnsIn x.ms u z) x.c)

/-- `AbsorbInPlace(scalar)` (rns/rns_ciphertext.h:227-234). -/
def absorbIntIn (x : RCt) (z : ℕ) : Res RCt := onComponents x (all (fun u => Rns.mulIntIn x.ms u z) x.c)

/-- `FusedAbsorbAddInPlace` (rns/rns_ciphertext.h:237-259). -/
def fusedAbsorbAddIn (x y : RCt) (pt : RPoly) : Res RCt :=
  withTemp x (check x y) fun _ => onComponents x (each (fun u v => Rns.fusedMulAddIn x.ms u v pt) x.c y.c)

/-- `FusedAbsorbAddInPlaceWithoutPad` (rns/rns_ciphertext.h:269-290). -/
def fusedAbsorbAddWithoutPadIn (x y : RCt) (pt : RPoly) : Res RCt :=
  if x.c.length ≠ 2 ∨ x.c.length ≠ y.c.length then reject x
  else if x.ms.length ≠ y.ms.length then reject x
  else if x.power ≠ y.power then reject x
  else withTemp x (rd y.c 0) fun v => onFirst x fun u => Rns.fusedMulAddIn x.ms u v pt

/-- `SetPadComponent` (rns/rns_ciphertext.h:365-377). -/
def setPadIn (x : RCt) (a : RPoly) : Res RCt :=
  if x.c.length > 2 then reject x
  else if x.c.length = 2 then withTemp x (wr x.c 1 a) fun c => ({ x with c }, .ok ())
  else ({ x with c := x.c ++ [a] }, .ok ())

/-- `ConvertToNttForm` (rns/rns_ciphertext.h:409-414). -/
def toNttIn (x : RCt) : Res RCt := onComponents x (all (Rns.toNttIn x.ms) x.c)

/-- `ConvertToCoeffForm` (rns/rns_ciphertext.h:417-422). -/
def toCoeffIn (x : RCt) : Res RCt := onComponents x (all (Rns.toCoeffIn x.ms) x.c)

/-- `RnsBgvCiphertext::ModReduce` (rns/rns_bgv_ciphertext.h:146-157). -/
def modReduceBgvIn (x : RCt) (t : ℕ) (qlInv : List ℕ) : Res RCt :=
  if x.ms.length ≤ 1 then (x, .err .failedPrecondition)
  else (onComponents x (all (modReduceLsbIn t qlInv x.ms) x.c)).andThen fun x =>
    ({ x with ms := x.ms.dropLast }, .ok ())

/-- `RnsBfvCiphertext::ModReduce` (rns/rns_bfv_ciphertext.h:171-186). -/
def modReduceBfvIn (ctx : Ctx) (x : RCt) : Res RCt :=
  if x.ms.length ≤ 1 then (x, .err .failedPrecondition)
  else
    let level := x.ms.length - 1
    withTemp x (rd ctx.primeQInvs level) fun row =>
    if row.length < level then (x, .ub .outOfBounds)
    else (onComponents x (all (modReduceMsbIn (row.take level) x.ms) x.c)).andThen fun x =>
      ({ x with ms := x.ms.dropLast }, .ok ())

/-- `RnsBfvCiphertext::AbsorbInPlaceSimple` (rns/rns_bfv_ciphertext.cc:207-222). -/
def absorbSimpleIn (x : RCt) (pt : RPoly) : Res RCt :=
  if x.ms.length ≠ pt.coeffs.length then reject x
  else if !pt.ntt then reject x
  else absorbIn x pt

/-- The body of the loop of `RnsBfvCiphertext::AbsorbInPlace` (rns/rns_bfv_ciphertext.cc:61-94): the component is
converted in place, the rest is computed into temporaries and assigned at the end. -/
def absorbBfvStepIn (est : Estimate) (ctx : Ctx) (ms : List Modulus) (hatInv : List ℕ) (pt ptAux c : RPoly) :
    Res RPoly :=
  (if c.ntt then Rns.toCoeffIn ms c else (c, .ok ()) : Res RPoly).andThen fun c => assign c (do
    let (main, aux) ← scaleToAux est ctx ms hatInv c
    let main ← Rns.mul ms main pt
    let aux ← Rns.mul ctx.ps aux ptAux
    scaleAndReduceBasis est aux ctx.t ms ctx.ps ctx.primePHatInvs ctx.primePHatModQs ctx.pModQs
      ctx.pInvModQs main)

/-- `RnsBfvCiphertext::AbsorbInPlace` (rns/rns_bfv_ciphertext.cc:33-97). -/
def absorbBfvIn (est : Estimate) (ctx : Ctx) (x : RCt) (pt : RPoly) : Res RCt :=
  if !pt.ntt then reject x
  else
    let level : ℤ := (x.ms.length : ℤ) - 1
    withTemp x (ctx.crtFactors level) fun hatInv =>
    withTemp x (ctx.complementResidues level) fun hatMod =>
    withTemp x (ctx.leveledAuxResidues level) fun qMod =>
    withTemp x (Rns.toCoeff x.ms pt) fun ptCoeff =>
    withTemp x (switchBasis est x.ms ctx.ps hatInv hatMod qMod ptCoeff) fun ptAux =>
    withTemp x (Rns.toNtt ctx.ps ptAux) fun ptAux =>
    onComponents x (all (fun u => absorbBfvStepIn est ctx x.ms hatInv pt ptAux u) x.c)

end RCt

/-- `LazyRnsPolynomial::FusedMulAddInPlace` (rns/lazy_rns_polynomial.cc:34-82). -/
def LRns.fusedMulAddIn (w : ℕ) (ms : List Modulus) (s : LRns) (a b : RPoly) : Res LRns :=
  if !a.ntt || !b.ntt then reject s
  else if a.coeffs.length ≠ ms.length ∨ b.coeffs.length ≠ ms.length ∨ s.coeffs.length ≠ ms.length then reject s
  else withTemp s (rd s.coeffs 0) fun c0 =>
    if 2 ^ a.logN ≠ c0.length ∨ 2 ^ b.logN ≠ c0.length then reject s
    else (if s.level = s.maxLevel then assign s (refresh ms s) else (s, .ok ()) : Res LRns).andThen fun s =>
      withTemp s (perModulus (addProducts c0.length) ms (s.coeffs.zip (a.coeffs.zip b.coeffs))) fun cs =>
      ({ s with coeffs := cs, level := (s.level + 1) % 2 ^ (2 * w) }, .ok ())

namespace LCt

/-- `FusedAbsorbAddInPlaceWithoutPadLazily` (rns/rns_ciphertext.h:298-331). -/
def fusedAbsorbLazilyIn (w : ℕ) (x : LCt) (y : RCt) (pt : RPoly) : Res LCt :=
  if y.c.length ≠ 2 then reject x
  else if x.ct.ms.length ≠ y.ms.length then reject x
  else if x.ct.power ≠ y.power then reject x
  else withTemp x (rd y.c 0) fun v =>
    match x.lazy with
    | [] => withTemp x (LRns.create w x.ct.ms v pt) fun z => ({ x with lazy := [z] }, .ok ())
    | z :: zs =>
      let r := LRns.fusedMulAddIn w x.ct.ms z v pt
      ({ x with lazy := r.1 :: zs }, r.2)

/-- The two loops of `MergeLazyOperations` (rns/rns_ciphertext.h:346-358). -/
def mergeLoopIn (ms : List Modulus) : List RPoly → List LRns → Res (List RPoly)
  | cs, [] => (cs, .ok ())
  | c :: cs, z :: zs =>
    withTemp (c :: cs) (z.exportPoly ms) fun e =>
    match (Rns.addIn ms c e).2 with
    | .ok _ => let r := mergeLoopIn ms cs zs; ((Rns.addIn ms c e).1 :: r.1, r.2)
    | .err s => ((Rns.addIn ms c e).1 :: cs, .err s)
    | .ub u => ((Rns.addIn ms c e).1 :: cs, .ub u)
  | [], z :: zs =>
    withTemp [] (z.exportPoly ms) fun e =>
    let r := mergeLoopIn ms [] zs
    (e :: r.1, r.2)

/-- `MergeLazyOperations` (rns/rns_ciphertext.h:334-361): the lazy components are cleared at the end. -/
def mergeIn (x : LCt) : Res LCt :=
  if x.lazy.isEmpty then (x, .err .failedPrecondition)
  else
    let r := mergeLoopIn x.ct.ms x.ct.c x.lazy
    match r.2 with
    | .ok _ => (⟨{ x.ct with c := r.1 }, []⟩, .ok ())
    | .err e => (⟨{ x.ct with c := r.1 }, x.lazy⟩, .err e)
    | .ub u => (⟨{ x.ct with c := r.1 }, x.lazy⟩, .ub u)

end LCt

/-! ### Calls on a ciphertext object -/

/-- The in-place calls of `RnsRlweCiphertext`, `RnsBgvCiphertext` and `RnsBfvCiphertext` with their arguments
(rns/rns_ciphertext.h:101-422, rns/rns_bgv_ciphertext.h:146-157, rns/rns_bfv_ciphertext.h:171-186); `AbsorbInPlace`
and `AbsorbMonomialInPlace` differ in `error_` only, and `RnsBfvCiphertext::AbsorbInPlace` is apart (`absorbBfvIn`). -/
inductive Call where
  | negate
  | add (y : RCt)
  | sub (y : RCt)
  | addPlain (pt : RPoly)
  | subPlain (pt : RPoly)
  | absorb (pt : RPoly)
  | absorbSimple (pt : RPoly)
  | absorbRns (z : List ℕ)
  | absorbInt (z : ℕ)
  | fusedAbsorbAdd (y : RCt) (pt : RPoly)
  | fusedAbsorbAddWithoutPad (y : RCt) (pt : RPoly)
  | fusedAbsorbLazily (y : RCt) (pt : RPoly)
  | merge
  | setPad (a : RPoly)
  | toNtt
  | toCoeff
  | modReduceBgv (t : ℕ) (qlInv : List ℕ)
  | modReduceBfv (ctx : Ctx)

namespace Call

/-- The lazy components are left alone by the other operations (rns/rns_ciphertext.h:490-509). -/
def onCt (x : LCt) (r : Res RCt) : Res LCt := (⟨r.1, x.lazy⟩, r.2)

/-- The object after the call and the returned status
(dispatch on the members cited with each constructor; rns/rns_ciphertext.h:60-509). -/
def run (w : ℕ) (x : LCt) : Call → Res LCt
  | negate => onCt x x.ct.negateIn
  | add y => onCt x (x.ct.addIn y)
  | sub y => onCt x (x.ct.subIn y)
  | addPlain pt => onCt x (x.ct.addPlainIn pt)
  | subPlain pt => onCt x (x.ct.subPlainIn pt)
  | absorb pt => onCt x (x.ct.absorbIn pt)
  | absorbSimple pt => onCt x (x.ct.absorbSimpleIn pt)
  | absorbRns z => onCt x (x.ct.absorbRnsIn z)
  | absorbInt z => onCt x (x.ct.absorbIntIn z)
  | fusedAbsorbAdd y pt => onCt x (x.ct.fusedAbsorbAddIn y pt)
  | fusedAbsorbAddWithoutPad y pt => onCt x (x.ct.fusedAbsorbAddWithoutPadIn y pt)
  | fusedAbsorbLazily y pt => x.fusedAbsorbLazilyIn w y pt
  | merge => x.mergeIn
  | setPad a => onCt x (x.ct.setPadIn a)
  | toNtt => onCt x x.ct.toNttIn
  | toCoeff => onCt x x.ct.toCoeffIn
  | modReduceBgv t qlInv => onCt x (x.ct.modReduceBgvIn t qlInv)
  | modReduceBfv ctx => onCt x (x.ct.modReduceBfvIn ctx)

/-- The value of a successful call, by the functions of `Verif.Model.RnsCiphertext` and `Verif.Model.LazyRns`
(dispatch on the members cited with each constructor; rns/rns_ciphertext.h:60-509). -/
def result (w : ℕ) (x : LCt) : Call → Outcome LCt
  | negate => do return ⟨← x.ct.negate, x.lazy⟩
  | add y => do return ⟨← x.ct.add y, x.lazy⟩
  | sub y => do return ⟨← x.ct.sub y, x.lazy⟩
  | addPlain pt => do return ⟨← x.ct.addPlain pt, x.lazy⟩
  | subPlain pt => do return ⟨← x.ct.subPlain pt, x.lazy⟩
  | absorb pt => do return ⟨← x.ct.absorb pt, x.lazy⟩
  | absorbSimple pt => do return ⟨← x.ct.absorbSimple pt, x.lazy⟩
  | absorbRns z => do return ⟨← x.ct.absorbRns z, x.lazy⟩
  | absorbInt z => do return ⟨← x.ct.absorbInt z, x.lazy⟩
  | fusedAbsorbAdd y pt => do return ⟨← x.ct.fusedAbsorbAdd y pt, x.lazy⟩
  | fusedAbsorbAddWithoutPad y pt => do return ⟨← x.ct.fusedAbsorbAddWithoutPad y pt, x.lazy⟩
  | fusedAbsorbLazily y pt => x.fusedAbsorbLazily w y pt
  | merge => x.merge
  | setPad a => do return ⟨← x.ct.setPad a, x.lazy⟩
  | toNtt => do return ⟨← x.ct.toNtt, x.lazy⟩
  | toCoeff => do return ⟨← x.ct.toCoeff, x.lazy⟩
  | modReduceBgv t qlInv => do return ⟨← x.ct.modReduceBgv t qlInv, x.lazy⟩
  | modReduceBfv ctx => do return ⟨← x.ct.modReduceBfv ctx, x.lazy⟩

end Call

end Shell.Rns
