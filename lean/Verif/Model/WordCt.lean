import Mathlib.Algebra.Field.Rat
import Verif.Model.InPlace
import Verif.Model.Word
import Verif.Model.LazyPolynomial
import Verif.Model.Symmetric
/-!
# `SymmetricRlweCiphertext` on stored words

The homomorphic operations of symmetric_encryption.h on the stored words of the polynomials, which may have any
lengths, with the object as it is after a call that returned an error.  `error_` belongs to any type
with the arithmetic that the code uses: real or rational numbers, or numbers rounded like `double` (C96).  All ciphertexts of a computation share the pointer to their parameters.
-/

namespace Shell.WordCt
open Rns Rns.Res
variable {E : Type}

/-- `class SymmetricRlweCiphertext` (symmetric_encryption.h:585-607). -/
structure Obj (E : Type) where
  c : List (List ℕ)
  power : ℤ
  error : E
  lazy : List Lazy.LPoly := []
  deriving DecidableEq

/-- A `LazyPolynomial` operation, which reports errors before it changes anything
(opt/lazy_polynomial.h:92-113). -/
def lazyStep (p : MParams) (b : List ℕ) (s : Lazy.LPoly) (a : List ℕ) : Res Lazy.LPoly :=
  assign s (Lazy.fusedMulAdd p s a b)

/-- `for (i = 0; i < ys.size(); i++) RLWE_RETURN_IF_ERROR(f(cs[i], ys[i]))` (symmetric_encryption.h:112-300). -/
def forEach {α β : Type} (f : α → β → Res α) : List α → List β → Res (List α)
  | cs, [] => (cs, .ok ())
  | [], _ :: _ => ([], .ub .outOfBounds)
  | c :: cs, y :: ys =>
    match (f c y).2 with
    | .ok _ => let r := forEach f cs ys; ((f c y).1 :: r.1, r.2)
    | .err e => ((f c y).1 :: cs, .err e)
    | .ub u => ((f c y).1 :: cs, .ub u)

/-- `for (i = 0; i < cs.size() && i < ys.size(); i++) RLWE_RETURN_IF_ERROR(f(cs[i], ys[i]))`, followed by
`for (i = cs.size(); i < ys.size(); i++) cs.push_back(g(ys[i]))` where `g` may fail
(symmetric_encryption.h:112-190). -/
def forBoth {α β : Type} (f : α → β → Res α) (g : β → Outcome α) : List α → List β → Res (List α)
  | cs, [] => (cs, .ok ())
  | [], y :: ys =>
    match g y with
    | .ok z => let r := forBoth f g [] ys; (z :: r.1, r.2)
    | .err e => ([], .err e)
    | .ub u => ([], .ub u)
  | c :: cs, y :: ys =>
    match (f c y).2 with
    | .ok _ => let r := forBoth f g cs ys; ((f c y).1 :: r.1, r.2)
    | .err e => ((f c y).1 :: cs, .err e)
    | .ub u => ((f c y).1 :: cs, .ub u)

/-- The components of the object are changed (`c_`, symmetric_encryption.h:585-607). -/
def onC (x : Obj E) (r : Res (List (List ℕ))) : Res (Obj E) := ({ x with c := r.1 }, r.2)

/-- The lazy components of the object are changed (`lazy_c_`, symmetric_encryption.h:585-607). -/
def onLazy (x : Obj E) (r : Res (List Lazy.LPoly)) : Res (Obj E) := ({ x with lazy := r.1 }, r.2)

variable [Add E] [Mul E] [Div E] [NatCast E]

/-- `error_ = e` and `return OkStatus()` (`error_`, symmetric_encryption.h:585-607). -/
def done (e : E) (x : Obj E) : Res (Obj E) := ({ x with error := e }, .ok ())

/-- `Polynomial<ModularInt> zero(that.c_[0].Len()); c_.resize(that.c_.size(), zero)` if `that` is longer
(symmetric_encryption.h:124-127, 166-169). -/
def pad (cs ys : List (List ℕ)) : List (List ℕ) :=
  if cs.length < ys.length then
    cs ++ List.replicate (ys.length - cs.length) (List.replicate (ys.headD []).length 0)
  else cs

/-- `AddInPlace` (symmetric_encryption.h:118-136). -/
def addIn (p : MParams) (x y : Obj E) : Res (Obj E) :=
  if x.power ≠ y.power then reject x
  else
    (onC x (forEach (fun a b => vec (Poly.addInPlace p a b)) (pad x.c y.c) y.c)).andThen (done (x.error + y.error))

/-- `SubInPlace` (symmetric_encryption.h:160-178). -/
def subIn (p : MParams) (x y : Obj E) : Res (Obj E) :=
  if x.power ≠ y.power then reject x
  else
    (onC x (forEach (fun a b => vec (Poly.subInPlace p a b)) (pad x.c y.c) y.c)).andThen (done (x.error + y.error))

/-- `AbsorbInPlace(polynomial)` (symmetric_encryption.h:221-227); `B` is `error_params_->B_plaintext()`. -/
def absorbIn (p : MParams) (B : E) (x : Obj E) (f : List ℕ) : Res (Obj E) :=
  (onC x (Res.all (fun a => vec (Poly.mulInPlace p a f)) x.c)).andThen (done (x.error * B))

/-- `AbsorbInPlace(scalar)` (symmetric_encryption.h:238-244). -/
def absorbScalarIn (p : MParams) (x : Obj E) (s : ℕ) : Res (Obj E) :=
  (onC x (Res.all (fun a => vec (Poly.mulScalarInPlace p a s)) x.c)).andThen
    (done (x.error * (Mont.exportInt p s : E)))

/-- `FusedAbsorbAddInPlace` (symmetric_encryption.h:250-275). -/
def fusedIn (p : MParams) (B : E) (x a : Obj E) (b : List ℕ) : Res (Obj E) :=
  if x.power ≠ a.power then reject x
  else
    (onC x (forBoth (fun c y => vec (Poly.fusedMulAddInPlace p c y b)) (fun y => Poly.mul p y b) x.c a.c)).andThen
      (done (x.error + a.error * B))

/-- `FusedAbsorbConstantAddInPlace` (symmetric_encryption.h:364-391). -/
def fusedConstIn (p : MParams) (B : E) (x a : Obj E) (b : Poly.Const) : Res (Obj E) :=
  if x.power ≠ a.power then reject x
  else
    (onC x (forBoth (fun c y => vec (Poly.fusedMulConstantAddInPlace p c y b)) (fun y => Poly.mulConstant p y b)
      x.c a.c)).andThen (done (x.error + a.error * B))

/-- `lazy_.push_back(LazyPolynomial::Create(aj, bc))` for every component of `a` (symmetric_encryption.h:303-313). -/
def lazyCreate (p : MParams) (b : List ℕ) (x : Obj E) (as : List (List ℕ)) : Res (Obj E) :=
  onLazy x (forBoth (fun s _ => (s, .ok ())) (fun a => Lazy.create p a b) x.lazy as)

/-- `lazy_.resize(size_a, LazyPolynomial::CreateEmpty(a.c_[0].Len()))` if `a` is longer
(symmetric_encryption.h:321-326). -/
def lazyPad (p : MParams) (x : Obj E) (as : List (List ℕ)) : Res (Obj E) :=
  if as.length > x.lazy.length then
    withTemp x (Lazy.createEmpty p (as.headD []).length) fun z =>
      ({ x with lazy := x.lazy ++ List.replicate (as.length - x.lazy.length) z }, .ok ())
  else (x, .ok ())

/-- `for (j = 0; j < lazy_.size(); j++) lazy_[j].FusedMulAddInPlace(a.c_[j], bc)` (symmetric_encryption.h:329-332):
`a.c_` may be the shorter one. -/
def lazyLoop (p : MParams) (b : List ℕ) : List Lazy.LPoly → List (List ℕ) → Res (List Lazy.LPoly)
  | [], _ => ([], .ok ())
  | s :: ss, [] => (s :: ss, .ub .outOfBounds)
  | s :: ss, a :: as =>
    match (lazyStep p b s a).2 with
    | .ok _ => let r := lazyLoop p b ss as; ((lazyStep p b s a).1 :: r.1, r.2)
    | .err e => ((lazyStep p b s a).1 :: ss, .err e)
    | .ub u => ((lazyStep p b s a).1 :: ss, .ub u)

/-- `FusedAbsorbAddInPlaceLazily` (symmetric_encryption.h:285-335): `error_` is updated first. -/
def fusedLazilyIn (p : MParams) (B : E) (x a : Obj E) (b : List ℕ) : Res (Obj E) :=
  if x.power ≠ a.power then reject x
  else if a.c.length = 0 then (x, .ok ())
  else
    let x := { x with error := x.error + a.error * B }
    if x.lazy.length = 0 then lazyCreate p b x a.c
    else (lazyPad p x a.c).andThen fun x => onLazy x (lazyLoop p b x.lazy a.c)

/-- `MergeLazyOperations` (symmetric_encryption.h:340-362). -/
def mergeIn (p : MParams) (x : Obj E) : Res (Obj E) :=
  if x.lazy = [] then (x, .err .failedPrecondition)
  else
    (onC x (forBoth (fun c s => vec (Poly.addInPlace p c (Lazy.exportPoly p s))) (fun s => .ok (Lazy.exportPoly p s))
      x.c x.lazy)).andThen fun x => ({ x with lazy := [] }, .ok ())

/-- `operator*` of two ciphertexts (symmetric_encryption.h:408-435). -/
def mul (p : MParams) (x y : Obj E) : Outcome (Obj E) :=
  if x.power ≠ y.power then .err .invalidArgument
  else if x.c.length ≤ 0 ∨ y.c.length ≤ 0 then .err .invalidArgument
  else if (x.c.headD []).length ≤ 0 ∨ (y.c.headD []).length ≤ 0 then .err .invalidArgument
  else do
    let r ← loop x.c.length (fun i r =>
      loop y.c.length (fun j r => do
        let t ← rd r (i + j)
        let u ← rd x.c i
        let v ← rd y.c j
        let t ← Poly.copying (Poly.fusedMulAddInPlace p t u v)
        wr r (i + j) t) r)
      (List.replicate (x.c.length + y.c.length - 1) (List.replicate (x.c.headD []).length 0))
    return { c := r, power := x.power, error := x.error * y.error }

/-- `Substitute` (symmetric_encryption.h:517-532). -/
def substitute (q : Ntt.NttParams) (x : Obj E) (k : ℤ) : Outcome (Obj E) := do
  let c ← x.c.mapM (fun f => Poly.substitute q f k)
  let pr ← Transcription.int32 (x.power * k)
  if x.c.length = 0 then .ub .outOfBounds
  else
    let m ← Transcription.int32 (2 * ((x.c.headD []).length : ℤ))
    if m = 0 then .ub .divByZero
    else return { c := c, power := pr.tmod m, error := x.error }

/-- `SwitchModulus` (symmetric_encryption.h:442-507) from the parameters `p`, `q` to `p'`, `q'`; `bScale` is
`error_params_q->B_scale()`.  `DivAndTruncate` is exact division (C11); see `Sym.switchCoeff` for the arithmetic on
words. -/
def switchModulus (p p' : MParams) (q q' : Ntt.NttParams) (bScale : E) (x : Obj E) (t : ℕ) : Outcome (Obj E) :=
  if t = 0 then .ub .divByZero
  else if p.modulus % t ≠ p'.modulus % t then .err .invalidArgument
  else do
    let c ← x.c.mapM fun f => do
      let v ← Poly.inverseNtt p q f
      Poly.convertToNtt p' q' (v.map fun a =>
        Mont.importInt p' (Sym.switchCoeff p.w p.modulus p'.modulus t (Mont.exportInt p a)))
    return { c := c, power := x.power, error := p'.modulus / p.modulus * x.error + bScale }

/-- The calls on a ciphertext (the members of symmetric_encryption.h:112-330). -/
inductive Call (E : Type) where
  | add (y : Obj E)
  | sub (y : Obj E)
  | absorb (f : List ℕ)
  | absorbScalar (s : ℕ)
  | fused (a : Obj E) (b : List ℕ)
  | fusedConst (a : Obj E) (b : Poly.Const)
  | fusedLazily (a : Obj E) (b : List ℕ)
  | merge

/-- The object after the call and the returned status (dispatch on the members of symmetric_encryption.h:112-330). -/
def Call.run (p : MParams) (B : E) (x : Obj E) : Call E → Res (Obj E)
  | add y => addIn p x y
  | sub y => subIn p x y
  | absorb f => absorbIn p B x f
  | absorbScalar s => absorbScalarIn p x s
  | fused a b => fusedIn p B x a b
  | fusedConst a b => fusedConstIn p B x a b
  | fusedLazily a b => fusedLazilyIn p B x a b
  | merge => mergeIn p x

end Shell.WordCt
