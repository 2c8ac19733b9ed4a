import Verif.Spec.InPlace
import Verif.Model.RnsStore
/-!
# When the arguments of a call fit the object

Nothing is required of the values: words need not be reduced, other operands may have any dimension, form and number
of moduli, scalars, powers and indices are arbitrary, serialized polynomials may come from anywhere.
-/

namespace Shell.Spec
open Rns

/-- A polynomial whose vectors have `2^log_n` elements, at most `2^30`. -/
def Boxed (x : RPoly) : Prop := x.logN ≤ 30 ∧ ∀ v ∈ x.coeffs, v.length = 2 ^ x.logN

/-- The program has an object `i`, and it satisfies `P`. -/
def At (objs : List RPoly) (i : ℕ) (P : RPoly → Prop) : Prop := ∃ x, objs[i]? = some x ∧ P x

/-- Moduli of a context with dimension `2^l`. -/
def ModuliOf (w l : ℕ) (ms : List Modulus) : Prop := ∀ m ∈ ms, GoodModulus w l m

/-- Every row of the table has at least `n` entries. -/
def Rows (n : ℕ) (t : List (List ℕ)) : Prop := ∀ r ∈ t, n ≤ r.length

/-- What a caller has to see to: the objects exist; sizes fit an `int`; moduli whose NTT tables are used belong to the
dimension of the object; tables of constants are wide enough for the moduli; `t` is not zero; a vector that is appended
or put in place of another has the right number of elements. -/
def Fitting (w : ℕ) (objs : List RPoly) : PolyCall → Prop
  | .create vs _ => ∀ v ∈ vs, v.length < 2 ^ 31
  | .zero logN _ _ | .one logN _ => logN < 31
  | .convert v _ ms => ∀ m ∈ ms, ∃ l, GoodModulus w l m ∧ v.length ≤ 2 ^ l
  | .convertBalanced v _ ms => v ≠ [] ∧ ∀ m ∈ ms, ∃ l, GoodModulus w l m ∧ v.length ≤ 2 ^ l
  | .deserialize ms s => s.logN < 31 ∧ ∀ m ∈ ms, ∃ l, GoodModulus w l m
  | .serialize i ms => At objs i fun _ => ∀ m ∈ ms, ∃ l, GoodModulus w l m
  | .copy i | .negate i _ | .negateIn i _ | .mulInt i _ _ | .mulRns i _ _ | .detach i => At objs i fun _ => True
  | .toNtt i ms | .toCoeff i ms | .modReduceMsb i _ ms => At objs i fun x => ModuliOf w x.logN ms
  | .substitute i _ ms => At objs i fun x => ModuliOf w x.logN ms ∧ x.logN < 30
  | .add i j _ | .sub i j _ | .mul i j _ => At objs i fun _ => At objs j fun _ => True
  | .fusedMulAdd i j k _ => At objs i fun _ => At objs j fun _ => At objs k fun _ => True
  | .modReduceLsb i t _ ms => t ≠ 0 ∧ At objs i fun x => ModuliOf w x.logN ms
  | .switchBasis i _ _ outs _ hatMod _ | .extendBasis i _ _ outs _ hatMod _ => Rows outs.length hatMod ∧ At objs i fun _ => True
  | .scaleAndSwitchBasis i _ _ _ _ qInvMod _ => At objs i fun x => Rows x.coeffs.length qInvMod
  | .approxSwitchBasis i _ ms outs _ hatMod => Rows outs.length hatMod ∧ At objs i fun x => ModuliOf w x.logN ms
  | .approxModReduceLsb i j ms auxMs _ _ hatMod _ _ _ | .approxModReduceMsb i j ms auxMs _ _ hatMod
  | .scaleAndReduceBasis i j _ _ ms auxMs _ hatMod _ _ => Rows ms.length hatMod ∧ At objs i fun x =>
      ModuliOf w x.logN ms ∧ ModuliOf w x.logN auxMs ∧ At objs j fun aux => aux.logN = x.logN
  | .append i v | .replace i _ v => At objs i fun x => v.length = 2 ^ x.logN

/-- The statuses that the calls of a program return, and the objects at its end. -/
def runAll : List RPoly → List PolyCall → List (Outcome Unit) × List RPoly
  | objs, [] => ([], objs)
  | objs, c :: cs => ((c.run objs).2 :: (runAll (c.run objs).1 cs).1, (runAll (c.run objs).1 cs).2)

/-- The arguments of every call fit the objects at the time of the call. -/
def FittingAll (w : ℕ) : List RPoly → List PolyCall → Prop
  | _, [] => True
  | objs, c :: cs => Fitting w objs c ∧ FittingAll w (c.run objs).1 cs

/-! ### One ciphertext object -/

/-- All vectors have `2^log_n` elements. -/
def Filled (x : RPoly) : Prop := ∀ v ∈ x.coeffs, v.length = 2 ^ x.logN

/-- A ciphertext object with components of dimension `2^l`, at least one of them, and moduli of that dimension, at
least one of them; the components may differ in form and in the number of moduli. -/
structure Sound (w l : ℕ) (x : LCt) : Prop where
  moduli : ModuliOf w l x.ct.ms
  someModulus : x.ct.ms ≠ []
  someComponent : x.ct.c ≠ []
  components : ∀ c ∈ x.ct.c, c.logN = l ∧ Filled c
  lazyOne : x.lazy.length ≤ 1
  lazyPoly : ∀ z ∈ x.lazy, z.coeffs ≠ [] ∧ ∃ l', ∀ v ∈ z.coeffs, v.length = 2 ^ l'

/-- What a caller has to see to: nothing for most calls, whatever the other ciphertexts, plaintexts and scalars are. -/
def Careful (l : ℕ) (x : LCt) : Call → Prop
  | .fusedAbsorbLazily y pt => (∀ c ∈ y.c, Filled c) ∧ Filled pt
  | .setPad a => a.logN = l ∧ Filled a
  | .modReduceBgv t _ => t ≠ 0
  | .modReduceBfv ctx => ∃ row, ctx.primeQInvs[x.ct.ms.length - 1]? = some row ∧ x.ct.ms.length - 1 ≤ row.length
  | _ => True

/-- The statuses that the calls return, and the object at the end. -/
def runCalls (w : ℕ) : LCt → List Call → List (Outcome Unit) × LCt
  | x, [] => ([], x)
  | x, c :: cs => ((c.run w x).2 :: (runCalls w (c.run w x).1 cs).1, (runCalls w (c.run w x).1 cs).2)

/-- Every call of the history is careful at its time. -/
def CarefulAll (w l : ℕ) : LCt → List Call → Prop
  | _, [] => True
  | x, c :: cs => Careful l x c ∧ CarefulAll w l (c.run w x).1 cs

/-- The arguments of every call of the history fit the object it is made on (see `Fits`). -/
def FitsAll (w l : ℕ) : LCt → List Call → Prop
  | _, [] => True
  | x, c :: cs => Fits l x c ∧ FitsAll w l (c.run w x).1 cs

end Shell.Spec
