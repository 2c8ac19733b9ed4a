import Verif.Model.WordCt
import Verif.Model.ErrorTrack
import Verif.Spec.InPlace
import Verif.Spec.Poly
import Verif.Lemmas.LazyPolynomial
/-!
# What the operations on stored words are supposed to compute

The reference is `Verif/Model/ErrorTrack.lean`: ciphertexts over residues modulo `q` with their error estimate.
-/

namespace Shell.Spec
open Rns WordCt ErrorTrack
variable {C : Ctx}

/-- A lazily reduced accumulator with exact sums `S` of products of stored words stands for the residues that the
exported words have. -/
def LazyRep (p : MParams) (w N n : ℕ) (s : Lazy.LPoly) (F : Fin n → ZMod N) : Prop :=
  ∃ S, Lazy.Inv p w N n s S ∧ ∀ i : Fin n, (S i : ZMod N) * p.invR * p.invR = F i

/-- The object `x` holds the ciphertext `X`: its words represent the residues of `X`. -/
structure Carries (C : Ctx) (p : MParams) (x : Obj ℝ) (X : Tracked C) : Prop where
  c : List.Forall₂ (Poly.Rep p C.q C.n) x.c X.ct.c
  power : x.power = X.ct.power
  error : x.error = X.error
  lazy : List.Forall₂ (LazyRep p C.w C.q C.n) x.lazy X.ct.lazy

/-- The calls with residues for arguments. -/
inductive RCall (C : Ctx) where
  | add (Y : Tracked C)
  | sub (Y : Tracked C)
  | absorb (F : C.Poly)
  | absorbScalar (s : ZMod C.q)
  | fused (A : Tracked C) (F : C.Poly)
  | fusedLazily (A : Tracked C) (F : C.Poly)
  | merge

/-- Their meaning. -/
noncomputable def RCall.run (P : ErrorParams) (X : Tracked C) : RCall C → Outcome (Tracked C)
  | add Y => ErrorTrack.add X Y
  | sub Y => ErrorTrack.sub X Y
  | absorb F => .ok (ErrorTrack.absorb P X F)
  | absorbScalar s => .ok (ErrorTrack.absorbScalar X s)
  | fused A F => ErrorTrack.fusedAbsorbAdd P X A F
  | fusedLazily A F => ErrorTrack.fusedAbsorbAddLazily P X A F
  | merge => ErrorTrack.mergeLazy X

/-- The arguments of a call on words represent those of a call on residues.  The constant polynomial of
`FusedAbsorbConstantAddInPlace` is the precomputed form of a polynomial. -/
inductive Denotes (C : Ctx) (p : MParams) : Call ℝ → RCall C → Prop
  | add {y Y} : Carries C p y Y → Denotes C p (.add y) (.add Y)
  | sub {y Y} : Carries C p y Y → Denotes C p (.sub y) (.sub Y)
  | absorb {f F} : Poly.Rep p C.q C.n f F → Denotes C p (.absorb f) (.absorb F)
  | absorbScalar {s} : s ≤ C.q → Denotes C p (.absorbScalar s) (.absorbScalar (Mont.exportInt p s : ℕ))
  | fused {a A f F} : Carries C p a A → Poly.Rep p C.q C.n f F → Denotes C p (.fused a f) (.fused A F)
  | fusedConst {a A f F b} : Carries C p a A → Poly.Rep p C.q C.n f F → Poly.computeConstant p f = .ok b →
      Denotes C p (.fusedConst a b) (.fused A F)
  | fusedLazily {a A f F} : Carries C p a A → Poly.Rep p C.q C.n f F →
      Denotes C p (.fusedLazily a f) (.fusedLazily A F)
  | merge : Denotes C p .merge .merge

/-- A call on words has the same outcome as a call on residues, and the object after a successful call holds the
result. -/
def Agrees (C : Ctx) (p : MParams) (r : Res (Obj ℝ)) : Outcome (Tracked C) → Prop
  | .ok Y => r.2 = .ok () ∧ Carries C p r.1 Y
  | .err e => r.2 = .err e
  | .ub u => r.2 = .ub u

/-- The same for a function that returns a new object. -/
def AgreesNew (C : Ctx) (p : MParams) (r : Outcome (Obj ℝ)) : Outcome (Tracked C) → Prop
  | .ok Y => ∃ y, r = .ok y ∧ Carries C p y Y
  | .err e => r = .err e
  | .ub u => r = .ub u

/-- The object after a history of calls, whatever they returned. -/
def objAfter {E : Type} [Add E] [Mul E] [Div E] [NatCast E] (p : MParams) (B : E) : Obj E → List (Call E) → Obj E
  | x, [] => x
  | x, op :: ops => objAfter p B (op.run p B x).1 ops

/-- The ciphertext after a history of calls of which the failed ones had no effect. -/
noncomputable def ctAfter (P : ErrorParams) : Tracked C → List (RCall C) → Tracked C
  | X, [] => X
  | X, op :: ops =>
    match op.run P X with
    | .ok Y => ctAfter P Y ops
    | _ => ctAfter P X ops

/-- No call of a history is undefined. -/
def Defined (P : ErrorParams) : Tracked C → List (RCall C) → Prop
  | _, [] => True
  | X, op :: ops =>
    match op.run P X with
    | .ok Y => Defined P Y ops
    | .err _ => Defined P X ops
    | .ub _ => False

/-- All components have `n` words, all lazy components `m`. -/
structure Level {E : Type} (n m : ℕ) (x : Obj E) : Prop where
  c : ∀ v ∈ x.c, v.length = n
  lazy : ∀ s ∈ x.lazy, s.coeffs.length = m

/-- Arguments for which a rejected call leaves the object `x` with components of `n` words as it was: other
ciphertexts have components of one length, they do not make a sum of polynomials of different lengths longer, and a
lazy sum is only asked for with polynomials that fit. -/
def Harmless {E : Type} (n m : ℕ) (x : Obj E) : Call E → Prop
  | .add y | .sub y => ∃ n', (∀ v ∈ y.c, v.length = n') ∧ (n' = n ∨ y.c.length ≤ x.c.length)
  | .fused a _ | .fusedConst a _ => ∃ n', ∀ v ∈ a.c, v.length = n'
  | .fusedLazily a f => f.length = m ∧ ∀ v ∈ a.c, v.length = m
  | _ => True

/-! ### Programs -/

/-- A computation on the ciphertexts number 0, 1, ..., the plaintext polynomials number 0, 1, ... and integer
constants. -/
inductive Program where
  | input (i : ℕ)
  | add (u v : Program)
  | sub (u v : Program)
  | mul (u v : Program)
  | absorb (u : Program) (j : ℕ)
  | scale (u : Program) (c : ℕ)

/-- The operators `+`, `-`, `*` of the class (symmetric_encryption.h:111-116, 152-157, 212-217, 231-236, 408-435) on
stored words. -/
def Program.run {E : Type} [Add E] [Mul E] [Div E] [NatCast E] (p : MParams) (B : E) (x : ℕ → Obj E) (f : ℕ → List ℕ) :
    Program → Outcome (Obj E)
  | input i => .ok (x i)
  | add u v => do ((Call.add (← v.run p B x f)).run p B (← u.run p B x f)).value
  | sub u v => do ((Call.sub (← v.run p B x f)).run p B (← u.run p B x f)).value
  | mul u v => do WordCt.mul p (← u.run p B x f) (← v.run p B x f)
  | absorb u j => do ((Call.absorb (f j)).run p B (← u.run p B x f)).value
  | scale u c => do ((Call.absorbScalar (Mont.importInt p c)).run p B (← u.run p B x f)).value

/-- The computation on plaintext polynomials in `Z[X]/(X^n + 1)`. -/
def Program.eval {n : ℕ} (m g : ℕ → Fin n → ℤ) : Program → Fin n → ℤ
  | input i => m i
  | add u v => u.eval m g + v.eval m g
  | sub u v => u.eval m g - v.eval m g
  | mul u v => negMul (u.eval m g) (v.eval m g)
  | absorb u j => negMul (u.eval m g) (g j)
  | scale u c => fun i => c * u.eval m g i

/-- A bound on the coefficients of the result if those of the inputs are at most `B` and those of the plaintexts at
most `G`. -/
def Program.bound (n B G : ℕ) : Program → ℕ
  | input _ => B
  | add u v | sub u v => u.bound n B G + v.bound n B G
  | mul u v => n * (u.bound n B G * v.bound n B G)
  | absorb u _ => n * (u.bound n B G * G)
  | scale u c => c * u.bound n B G

/-- The constants of the computation fit a word. -/
def Program.Fits (w : ℕ) : Program → Prop
  | input _ => True
  | add u v | sub u v | mul u v => u.Fits w ∧ v.Fits w
  | absorb u _ => u.Fits w
  | scale u c => u.Fits w ∧ c < 2 ^ w

end Shell.Spec
