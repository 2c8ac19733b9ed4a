import Verif.Spec.Rns
import Verif.Model.StoreKeys
/-!
# When the arguments of a call on polynomials, ciphertexts and keys fit

Nothing is required of the values: words need not be reduced, polynomials may have any lengths and the polynomials of a
ciphertext different ones, scalars, powers, indices and serialized polynomials are arbitrary.
-/

namespace Shell.Spec
open Store
variable {E : Type} [Add E] [Mul E] [Div E] [NatCast E]

/-- The program has a polynomial `i`, and it satisfies `P`. -/
def HasPoly (m : Mem E) (i : ℕ) (P : List ℕ → Prop := fun _ => True) : Prop := ∃ v, m.polys[i]? = some v ∧ P v

/-- The program has a ciphertext `a`, and it satisfies `P`. -/
def HasCt (m : Mem E) (a : ℕ) (P : WordCt.Obj E → Prop := fun _ => True) : Prop := ∃ x, m.cts[a]? = some x ∧ P x

/-- The operands exist; the summand of a lazy sum has at least as many components as the pending sum. -/
def OpFits (m : Mem E) (x : WordCt.Obj E) : CtOp → Prop
  | .add b | .sub b => HasCt m b
  | .absorb i => HasPoly m i
  | .scale _ | .merge => True
  | .fused b i | .fusedConst b i => HasCt m b ∧ HasPoly m i
  | .lazily b i => HasCt m b (fun y => x.power = y.power → y.c ≠ [] → x.lazy.length ≤ y.c.length) ∧ HasPoly m i

/-- What a caller has to see to, if the NTT tables belong to the dimension `2^l`: the objects exist; a vector to be
transformed is not empty and not longer than the tables; a polynomial in which `X` is replaced is empty or has `2^l`
coefficients; the ciphertext has at least one component there, and the product of the powers is an `int`. -/
def CallFits (l : ℕ) (m : Mem E) : Store.Call E → Prop
  | .zero _ | .make _ | .parse _ _ => True
  | .ofCoeffs v => v ≠ [] ∧ v.length ≤ 2 ^ l
  | .copy i | .negate i | .negateIn i | .scale i _ | .scaleIn i _ => HasPoly m i
  | .binary _ i j | .binaryIn _ i j | .mulConstant i j | .mulConstantIn i j => HasPoly m i ∧ HasPoly m j
  | .fusedIn i j k | .fusedConstIn i j k => HasPoly m i ∧ HasPoly m j ∧ HasPoly m k
  | .substitute i _ => HasPoly m i fun v => v = [] ∨ v.length = 2 ^ l
  | .component a _ | .ctCopy a | .setError a _ => HasCt m a
  | .ctMake is _ _ => ∀ i ∈ is, HasPoly m i
  | .ctNew a op | .ctIn a op => HasCt m a fun x => OpFits m x op
  | .ctMul a b => HasCt m a ∧ HasCt m b
  | .ctSubstitute a k => HasCt m a fun x => x.c ≠ [] ∧ (∀ v ∈ x.c, v = [] ∨ v.length = 2 ^ l) ∧
      -2 ^ 31 ≤ x.power * k ∧ x.power * k < 2 ^ 31

/-- A key for the parameters of the program with at least one part; every part has a matrix with two rows of the same
length, not empty, and digits that are narrower than a word.  The error estimate of the key is defined. -/
structure KeyFits (e : Env E) (bR : ℕ → ℕ → Outcome E) (k : Word.RKey) : Prop where
  params : k.p = e.p
  tables : k.q = e.q
  some : k.parts ≠ []
  rows : ∀ m ∈ k.parts, m.row0 ≠ [] ∧ m.row1.length = m.row0.length
  base : ∀ m ∈ k.parts, m.logDecomp < max e.p.w 32
  estimate : ∀ u, bR k.parts.length k.logDecomp ≠ .ub u

/-- A key is applied to a ciphertext without empty polynomials and without polynomials that are longer than the
tables. -/
def KeyedFits (l : ℕ) (keys : List Word.RKey) (m : Mem E) : KeyedCall E → Prop
  | .plain c => CallFits l m c
  | .relinearize a r | .galois a r => r < keys.length ∧ HasCt m a fun x => ∀ v ∈ x.c, v ≠ [] ∧ v.length ≤ 2 ^ l

/-- The arguments of every call fit at the time of the call. -/
def KeyedFitsAll (l : ℕ) (e : Env E) (bR : ℕ → ℕ → Outcome E) (keys : List Word.RKey) :
    Mem E → List (KeyedCall E) → Prop
  | _, [] => True
  | m, c :: cs => KeyedFits l keys m c ∧ KeyedFitsAll l e bR keys (c.run e bR keys m).1 cs

end Shell.Spec
