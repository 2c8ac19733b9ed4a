import Verif.Spec.Rns
import Verif.Model.InPlace
/-!
# Rejected calls have no effect

The shapes of RNS polynomials and ciphertexts, and histories of calls on one ciphertext object.
-/

namespace Shell.Spec
open Rns

/-- The call whose result is `r` was made on the object `x`: if it returned an error, the object is as before. -/
def Unchanged {α : Type} (x : α) (r : Res α) : Prop := ∀ e, r.2 = .err e → r.1 = x

/-- A polynomial with `2^l` coefficients modulo each of `k` moduli, in NTT form iff `f`. -/
structure Shape (l k : ℕ) (f : Bool) (x : RPoly) : Prop where
  logN : x.logN = l
  moduli : x.coeffs.length = k
  len : ∀ v ∈ x.coeffs, v.length = 2 ^ l
  form : x.ntt = f

/-- A polynomial as the factory functions build it: its vectors have `2^log_n` elements. -/
def Rectangular (x : RPoly) : Prop := ∃ l k f, Shape l k f x

/-- All components have `2^l` coefficients, the same number of moduli and the same form. -/
def Uniform (l : ℕ) (x : RCt) : Prop := ∃ k f, ∀ c ∈ x.c, Shape l k f c

/-- A ciphertext object of a context with `w`-bit words and dimension `2^l`. -/
structure Usable (w l : ℕ) (x : LCt) : Prop where
  moduli : ∀ m ∈ x.ct.ms, GoodModulus w l m
  uniform : Uniform l x.ct
  lazyOne : x.lazy.length ≤ 1
  lazyLen : ∀ z ∈ x.lazy, ∀ v ∈ z.coeffs, v.length = 2 ^ l

/-- The arguments of a call on the ciphertext object `x`.  Polynomials are well-formed and other ciphertexts are
uniform; they may have any level, dimension and form, except that the summands of a lazy sum belong to the dimension
`2^l` and that a pad has the shape of the component it joins or replaces. -/
def Fits (l : ℕ) (x : LCt) : Call → Prop
  | .add y | .sub y => ∃ l', Uniform l' y
  | .addPlain pt | .subPlain pt | .absorb pt | .absorbSimple pt => Rectangular pt
  | .fusedAbsorbAdd y pt | .fusedAbsorbAddWithoutPad y pt => (∃ l', Uniform l' y) ∧ Rectangular pt
  | .fusedAbsorbLazily y pt => Uniform l y ∧ Rectangular pt
  | .setPad a => ∃ k f, Shape l k f a ∧ ∀ c ∈ x.ct.c, Shape l k f c
  | _ => True

/-- The object after a history of calls, whatever they returned. -/
def afterAll (w : ℕ) : LCt → List Call → LCt
  | x, [] => x
  | x, op :: ops => afterAll w (op.run w x).1 ops

/-- The calls of a history that did not return an error. -/
def accepted (w : ℕ) : LCt → List Call → List Call
  | _, [] => []
  | x, op :: ops =>
    match (op.run w x).2 with
    | .err _ => accepted w (op.run w x).1 ops
    | _ => op :: accepted w (op.run w x).1 ops

/-- The calls one after the other, each of them successful. -/
def allResults (w : ℕ) : LCt → List Call → Outcome LCt
  | x, [] => .ok x
  | x, op :: ops => do
    let y ← op.result w x
    allResults w y ops

/-- Every call of the history has arguments that fit the object it is made on, and none is undefined. -/
def Proper (w l : ℕ) : LCt → List Call → Prop
  | _, [] => True
  | x, op :: ops => Fits l x op ∧ (∀ u, (op.run w x).2 ≠ .ub u) ∧ Proper w l (op.run w x).1 ops

end Shell.Spec
