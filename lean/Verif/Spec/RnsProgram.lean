import Verif.Spec.RnsStore
import Verif.Spec.Poly
/-!
# Programs on integer polynomials

The machine that a program on RNS polynomials is meant to be: its objects are integer polynomials of degree less than
`2^l`, each known modulo the first `level` moduli of a fixed chain and marked as being in NTT form or not.
-/

namespace Shell.Spec
open Rns

/-- An object of the machine. -/
structure IdealPoly (l : ℕ) where
  level : ℕ
  ntt : Bool
  poly : Fin (2 ^ l) → ℤ

/-- A call; `k` is the number of moduli that the caller passes. -/
inductive RingCall where
  | zero (k : ℕ) (ntt : Bool)
  | one (k : ℕ)
  | copy (i : ℕ)
  | toNtt (i k : ℕ)
  | toCoeff (i k : ℕ)
  | negate (i k : ℕ)
  | negateIn (i k : ℕ)
  | add (i j k : ℕ)
  | sub (i j k : ℕ)
  | mul (i j k : ℕ)
  | fusedMulAdd (i j h k : ℕ)
  | mulInt (i c k : ℕ)
  | substitute (i : ℕ) (power : ℤ) (k : ℕ)
  | modReduceLsb (i t k : ℕ)
  | modReduceMsb (i k : ℕ)
  | detach (i : ℕ)

/-- The call of the library; `invs k` is the table of the inverses of the modulus `k` modulo the moduli before it. -/
def RingCall.call (l : ℕ) (ms : List Modulus) (invs : ℕ → List ℕ) : RingCall → PolyCall
  | zero k b => .zero l (ms.take k) b
  | one k => .one l (ms.take k)
  | copy i => .copy i
  | toNtt i k => .toNtt i (ms.take k)
  | toCoeff i k => .toCoeff i (ms.take k)
  | negate i k => .negate i (ms.take k)
  | negateIn i k => .negateIn i (ms.take k)
  | add i j k => .add i j (ms.take k)
  | sub i j k => .sub i j (ms.take k)
  | mul i j k => .mul i j (ms.take k)
  | fusedMulAdd i j h k => .fusedMulAdd i j h (ms.take k)
  | mulInt i c k => .mulInt i c (ms.take k)
  | substitute i power k => .substitute i power (ms.take k)
  | modReduceLsb i t k => .modReduceLsb i t (invs (k - 1)) (ms.take k)
  | modReduceMsb i k => .modReduceMsb i (invs (k - 1)) (ms.take k)
  | detach i => .detach i

/-- The integer nearest to `z / q`, for odd `q`. -/
def nearestQuotient (q : ℕ) (z : ℤ) : ℤ := (z - z.bmod q) / q

/-- The quotient of `z` by `q` that keeps `z` modulo `t` (see `c90_exactQuotient`). -/
def exactQuotient (t q : ℕ) (z : ℤ) : ℤ := ((q % t : ℕ) * z + t * ((q / t : ℕ) * z).bmod q) / q

/-- The modulus `j` of the chain. -/
def modulusAt (ms : List Modulus) (j : ℕ) : ℕ := (ms[j]?.map (·.N)).getD 0

variable {l : ℕ}

/-- What a call does to the machine; `none` if it is rejected. -/
def RingCall.ideal (ms : List Modulus) (objs : List (IdealPoly l)) : RingCall → Option (List (IdealPoly l))
  | zero k b => if k = 0 then none else some (objs ++ [⟨k, b, 0⟩])
  | one k => if k = 0 then none else some (objs ++ [⟨k, true, fun i => if (i : ℕ) = 0 then 1 else 0⟩])
  | copy i => objs[i]?.map fun x => objs ++ [x]
  | toNtt i k => do
      let x ← objs[i]?
      if x.ntt = false ∧ k = x.level then some (objs.set i { x with ntt := true }) else none
  | toCoeff i k => do
      let x ← objs[i]?
      if x.ntt = true ∧ k = x.level then some (objs.set i { x with ntt := false }) else none
  | negate i _ => objs[i]?.map fun x => objs ++ [{ x with poly := -x.poly }]
  | negateIn i k => do
      let x ← objs[i]?
      if k = x.level then some (objs.set i { x with poly := -x.poly }) else none
  | add i j k => do
      let x ← objs[i]?
      let y ← objs[j]?
      if k = x.level ∧ k = y.level then some (objs.set i { x with poly := x.poly + y.poly }) else none
  | sub i j k => do
      let x ← objs[i]?
      let y ← objs[j]?
      if k = x.level ∧ k = y.level then some (objs.set i { x with poly := x.poly - y.poly }) else none
  | mul i j k => do
      let x ← objs[i]?
      let y ← objs[j]?
      if k = x.level ∧ k = y.level ∧ x.ntt = true ∧ y.ntt = true then
        some (objs.set i { x with poly := negMul x.poly y.poly }) else none
  | fusedMulAdd i j h k => do
      let x ← objs[i]?
      let y ← objs[j]?
      let z ← objs[h]?
      if k = x.level ∧ k = y.level ∧ k = z.level ∧ x.ntt = true ∧ y.ntt = true ∧ z.ntt = true then
        some (objs.set i { x with poly := x.poly + negMul y.poly z.poly }) else none
  | mulInt i c k => do
      let x ← objs[i]?
      if k = x.level then some (objs.set i { x with poly := fun j => c * x.poly j }) else none
  | substitute i power k => do
      let x ← objs[i]?
      if 0 < power ∧ power % 2 = 1 ∧ power < 2 * 2 ^ l ∧ k = x.level ∧ x.ntt = true then
        some (objs ++ [{ x with poly := substPow power.toNat x.poly }]) else none
  | modReduceLsb i t k => do
      let x ← objs[i]?
      if k = x.level ∧ 1 < k then
        some (objs.set i ⟨k - 1, x.ntt, fun j => exactQuotient t (modulusAt ms (k - 1)) (x.poly j)⟩) else none
  | modReduceMsb i k => do
      let x ← objs[i]?
      if k = x.level ∧ 1 < k then
        some (objs.set i ⟨k - 1, x.ntt, fun j => nearestQuotient (modulusAt ms (k - 1)) (x.poly j)⟩) else none
  | detach i => do
      let x ← objs[i]?
      if x.level = 0 then none else some (objs.set i { x with level := x.level - 1 })

/-- Which calls succeed, and the objects at the end; a rejected call changes nothing. -/
def runIdeal (ms : List Modulus) : List (IdealPoly l) → List RingCall → List Bool × List (IdealPoly l)
  | objs, [] => ([], objs)
  | objs, c :: cs =>
    match c.ideal ms objs with
    | some objs' => (true :: (runIdeal ms objs' cs).1, (runIdeal ms objs' cs).2)
    | none => (false :: (runIdeal ms objs cs).1, (runIdeal ms objs cs).2)

/-- The indices of the objects that a call names. -/
def RingCall.objects : RingCall → List ℕ
  | zero _ _ | one _ => []
  | copy i | toNtt i _ | toCoeff i _ | negate i _ | negateIn i _ | mulInt i _ _ | substitute i _ _
  | modReduceLsb i _ _ | modReduceMsb i _ | detach i => [i]
  | add i j _ | sub i j _ | mul i j _ => [i, j]
  | fusedMulAdd i j h _ => [i, j, h]

/-- The number of moduli that the caller passes. -/
def RingCall.moduli : RingCall → ℕ
  | copy _ | detach _ => 0
  | zero k _ | one k | toNtt _ k | toCoeff _ k | negate _ k | negateIn _ k | mulInt _ _ k | substitute _ _ k
  | modReduceLsb _ _ k | modReduceMsb _ k | add _ _ k | sub _ _ k | mul _ _ k | fusedMulAdd _ _ _ k => k

/-- What the library leaves to the caller: the objects exist, the moduli are the first ones of the chain, scalars fit a
word, `t` is not zero; and what it does not check: the two operands of a sum have the same form, `Negate` gets the
moduli of its operand. -/
def RingCall.Proper (w : ℕ) (ms : List Modulus) (objs : List (IdealPoly l)) (c : RingCall) : Prop :=
  (∀ i ∈ c.objects, i < objs.length) ∧ c.moduli ≤ ms.length ∧
  match c with
  | .negate i k => ∀ x, objs[i]? = some x → k = x.level
  | .add i j _ | .sub i j _ => ∀ x y, objs[i]? = some x → objs[j]? = some y → x.ntt = y.ntt
  | .mulInt _ c _ => c < 2 ^ w
  | .modReduceLsb _ t _ => 0 < t ∧ t < 2 ^ w
  | _ => True

/-- Every call of the program is proper at its time. -/
def ProperAll (w : ℕ) (ms : List Modulus) : List (IdealPoly l) → List RingCall → Prop
  | _, [] => True
  | objs, c :: cs => c.Proper w ms objs ∧ ProperAll w ms ((c.ideal ms objs).getD objs) cs

/-- The RNS polynomial `x` stands for the object `y`. -/
def Shows (ms : List Modulus) (x : RPoly) (y : IdealPoly l) : Prop :=
  y.level ≤ ms.length ∧ x.ntt = y.ntt ∧ Represents l (ms.take y.level) x y.poly

end Shell.Spec
