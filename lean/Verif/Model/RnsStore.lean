import Verif.Model.InPlace
/-!
# Programs on RNS polynomials

A program holds any number of `RnsPolynomial` objects and calls their members one after the other.
-/

namespace Shell.Rns
open Res

/-- `AppendCoeffVector` (rns/rns_polynomial.h:558-560): the length is not checked. -/
def append (x : RPoly) (v : List ℕ) : RPoly := { x with coeffs := x.coeffs ++ [v] }

/-- `DetachLastCoeffVector` (rns/rns_polynomial.h:563-570) as a change of the object. -/
def detachIn (x : RPoly) : Res RPoly := withTemp x (detachLast x) fun dx => (dx.2, .ok ())

/-- `ReplaceSubPolynomialAt` (rns/rns_polynomial.h:573-581): the length is not checked. -/
def replaceIn (x : RPoly) (index : ℤ) (v : List ℕ) : Res RPoly :=
  if index < 0 ∨ index ≥ x.coeffs.length then reject x
  else ({ x with coeffs := x.coeffs.set index.toNat v }, .ok ())

/-- A call of a member of `RnsPolynomial`.  The numbers `i`, `j`, `k` select objects of the program
(rns/rns_polynomial.h:67-581). -/
inductive PolyCall where
  | create (vs : List (List ℕ)) (isNtt : Bool)
  | zero (logN : ℤ) (ms : List Modulus) (isNtt : Bool)
  | one (logN : ℤ) (ms : List Modulus)
  | convert (v : List ℕ) (pq : MParams) (ms : List Modulus)
  | convertBalanced (v : List ℕ) (pq : MParams) (ms : List Modulus)
  | deserialize (ms : List Modulus) (s : Serialized)
  | serialize (i : ℕ) (ms : List Modulus)
  | copy (i : ℕ)
  | toNtt (i : ℕ) (ms : List Modulus)
  | toCoeff (i : ℕ) (ms : List Modulus)
  | negate (i : ℕ) (ms : List Modulus)
  | negateIn (i : ℕ) (ms : List Modulus)
  | add (i j : ℕ) (ms : List Modulus)
  | sub (i j : ℕ) (ms : List Modulus)
  | mul (i j : ℕ) (ms : List Modulus)
  | mulInt (i c : ℕ) (ms : List Modulus)
  | mulRns (i : ℕ) (c : List ℕ) (ms : List Modulus)
  | fusedMulAdd (i j k : ℕ) (ms : List Modulus)
  | substitute (i : ℕ) (power : ℤ) (ms : List Modulus)
  | modReduceLsb (i t : ℕ) (qlInv : List ℕ) (ms : List Modulus)
  | modReduceMsb (i : ℕ) (qlInv : List ℕ) (ms : List Modulus)
  | switchBasis (i : ℕ) (est : Estimate) (ms outs : List Modulus) (hatInv : List ℕ) (hatMod : List (List ℕ))
      (qMod : List ℕ)
  | scaleAndSwitchBasis (i : ℕ) (est : Estimate) (ms outs : List Modulus) (hatInv : List ℕ)
      (qInvMod : List (List ℕ)) (pMod : List ℕ)
  | approxSwitchBasis (i : ℕ) (balanced : Bool) (ms outs : List Modulus) (hatInv : List ℕ) (hatMod : List (List ℕ))
  | approxModReduceLsb (i j : ℕ) (ms auxMs : List Modulus) (pInv hatInv : List ℕ) (hatMod : List (List ℕ))
      (tInv : List ℕ) (pModT t : ℕ)
  | approxModReduceMsb (i j : ℕ) (ms auxMs : List Modulus) (pInv hatInv : List ℕ) (hatMod : List (List ℕ))
  | extendBasis (i : ℕ) (est : Estimate) (ms auxMs : List Modulus) (hatInv : List ℕ) (hatMod : List (List ℕ))
      (qMod : List ℕ)
  | scaleAndReduceBasis (i j : ℕ) (est : Estimate) (t : ℕ) (ms auxMs : List Modulus) (hatInv : List ℕ)
      (hatMod : List (List ℕ)) (pMod pInv : List ℕ)
  | append (i : ℕ) (v : List ℕ)
  | detach (i : ℕ)
  | replace (i : ℕ) (index : ℤ) (v : List ℕ)

/-- A call that returns a new object (for example `Substitute`, rns/rns_polynomial.h:399-401). -/
def fresh (objs : List RPoly) (o : Outcome RPoly) : Res (List RPoly) :=
  withTemp objs o fun y => (objs ++ [y], .ok ())

/-- A call that changes the object `i` (for example `AddInPlace`, rns/rns_polynomial.h:188-205). -/
def onObject (objs : List RPoly) (i : ℕ) (f : RPoly → Res RPoly) : Res (List RPoly) :=
  withTemp objs (rd objs i) fun x => (objs.set i (f x).1, (f x).2)

/-- The objects after the call and the returned status (dispatch on the members cited in `Verif.Model.Rns` and
`Verif.Model.InPlace`; rns/rns_polynomial.h:67-581). -/
def PolyCall.run (objs : List RPoly) : PolyCall → Res (List RPoly)
  | create vs b => fresh objs (Rns.create vs b)
  | zero logN ms b => fresh objs (createZero logN ms b)
  | one logN ms => fresh objs (createOne logN ms)
  | convert v pq ms => fresh objs (convertFrom v pq ms)
  | convertBalanced v pq ms => fresh objs (convertBalancedFrom v pq ms)
  | deserialize ms s => fresh objs (Rns.deserialize ms s)
  | serialize i ms => withTemp objs (rd objs i) fun x => withTemp objs (Rns.serialize ms x) fun _ => (objs, .ok ())
  | copy i => fresh objs (rd objs i)
  | toNtt i ms => onObject objs i (toNttIn ms)
  | toCoeff i ms => onObject objs i (toCoeffIn ms)
  | negate i ms => withTemp objs (rd objs i) fun x => fresh objs (Rns.negate ms x)
  | negateIn i ms => onObject objs i (Rns.negateIn ms)
  | add i j ms => withTemp objs (rd objs j) fun y => onObject objs i fun x => addIn ms x y
  | sub i j ms => withTemp objs (rd objs j) fun y => onObject objs i fun x => subIn ms x y
  | mul i j ms => withTemp objs (rd objs j) fun y => onObject objs i fun x => mulIn ms x y
  | mulInt i c ms => onObject objs i fun x => mulIntIn ms x c
  | mulRns i c ms => onObject objs i fun x => mulRnsIn ms x c
  | fusedMulAdd i j k ms => withTemp objs (rd objs j) fun y => withTemp objs (rd objs k) fun z =>
      onObject objs i fun x => fusedMulAddIn ms x y z
  | substitute i power ms => withTemp objs (rd objs i) fun x => fresh objs (Rns.substitute ms x power)
  | modReduceLsb i t qlInv ms => onObject objs i (modReduceLsbIn t qlInv ms)
  | modReduceMsb i qlInv ms => onObject objs i (modReduceMsbIn qlInv ms)
  | switchBasis i est ms outs hatInv hatMod qMod => withTemp objs (rd objs i) fun x =>
      fresh objs (Rns.switchBasis est ms outs hatInv hatMod qMod x)
  | scaleAndSwitchBasis i est ms outs hatInv qInvMod pMod => withTemp objs (rd objs i) fun x =>
      fresh objs (Rns.scaleAndSwitchBasis est ms outs hatInv qInvMod pMod x)
  | approxSwitchBasis i balanced ms outs hatInv hatMod => withTemp objs (rd objs i) fun x =>
      fresh objs (Rns.approxSwitchBasis balanced ms outs hatInv hatMod x)
  | approxModReduceLsb i j ms auxMs pInv hatInv hatMod tInv pModT t => withTemp objs (rd objs j) fun aux =>
      onObject objs i (approxModReduceLsbIn aux ms auxMs pInv hatInv hatMod tInv pModT t)
  | approxModReduceMsb i j ms auxMs pInv hatInv hatMod => withTemp objs (rd objs j) fun aux =>
      onObject objs i (approxModReduceMsbIn aux ms auxMs pInv hatInv hatMod)
  | extendBasis i est ms auxMs hatInv hatMod qMod => onObject objs i (extendBasisIn est ms auxMs hatInv hatMod qMod)
  | scaleAndReduceBasis i j est t ms auxMs hatInv hatMod pMod pInv => withTemp objs (rd objs j) fun aux =>
      onObject objs i (scaleAndReduceBasisIn est aux t ms auxMs hatInv hatMod pMod pInv)
  | append i v => onObject objs i fun x => (Rns.append x v, .ok ())
  | detach i => onObject objs i detachIn
  | replace i index v => onObject objs i fun x => replaceIn x index v

end Shell.Rns
