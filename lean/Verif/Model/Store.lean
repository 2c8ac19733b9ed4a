import Verif.Model.WordSwitch
/-!
# Programs on polynomials and symmetric-key ciphertexts

A program holds any number of `Polynomial` and `SymmetricRlweCiphertext` objects over one modulus and calls their
members one after the other.  The operands of a call are objects of the program, and may be the object that the call
changes: that the members then compute with the values before the call is C77.
-/

namespace Shell.Store
open WordCt Rns Rns.Res
variable {E : Type} [Add E] [Mul E] [Div E] [NatCast E]

/-- The parameters that the program passes to all calls, and `error_params_->B_plaintext()` of its ciphertexts
(polynomial.h:56-79, symmetric_encryption.h:73-91). -/
structure Env (E : Type) where
  p : MParams
  q : Ntt.NttParams
  bPlain : E

/-- The objects of the program (polynomial.h:38, symmetric_encryption.h:67). -/
structure Mem (E : Type) where
  polys : List (List ℕ)
  cts : List (Obj E)
  deriving DecidableEq

/-- `Add`, `Sub` and `Mul` of polynomials (polynomial.h:139-151, 187-212). -/
inductive Bin where
  | add | sub | mul
  deriving DecidableEq

/-- The in-place operation (polynomial.h:148-151, 203-212). -/
def Bin.inPlace (p : MParams) (x y : List ℕ) : Bin → Poly.InPlace
  | add => Poly.addInPlace p x y
  | sub => Poly.subInPlace p x y
  | mul => Poly.mulInPlace p x y

/-- A member that changes a ciphertext; the numbers `b` and `i` select ciphertexts and polynomials of the program
(symmetric_encryption.h:112-391). -/
inductive CtOp where
  | add (b : ℕ)
  | sub (b : ℕ)
  | absorb (i : ℕ)
  | scale (s : ℕ)
  | fused (b i : ℕ)
  | fusedConst (b i : ℕ)
  | lazily (b i : ℕ)
  | merge

/-- The call with the values of its operands; the constant polynomial is computed with
`ComputeConstantRepresentation` (polynomial.h:312-327, symmetric_encryption.h:112-391). -/
def CtOp.operands (e : Env E) (m : Mem E) : CtOp → Outcome (WordCt.Call E)
  | add b => do return .add (← rd m.cts b)
  | sub b => do return .sub (← rd m.cts b)
  | absorb i => do return .absorb (← rd m.polys i)
  | scale s => .ok (.absorbScalar s)
  | fused b i => do return .fused (← rd m.cts b) (← rd m.polys i)
  | fusedConst b i => do return .fusedConst (← rd m.cts b) (← Poly.computeConstant e.p (← rd m.polys i))
  | lazily b i => do return .fusedLazily (← rd m.cts b) (← rd m.polys i)
  | merge => .ok .merge

/-- A call of a member of `Polynomial` or `SymmetricRlweCiphertext`.  The numbers `i`, `j`, `k` select polynomials of
the program, `a` and `b` ciphertexts (polynomial.h:49-344, symmetric_encryption.h:73-607). -/
inductive Call (E : Type) where
  | zero (len : ℕ)
  | make (v : List ℕ)
  | ofCoeffs (v : List ℕ)
  | parse (numCoeffs : ℤ) (bytes : List ℕ)
  | copy (i : ℕ)
  | negate (i : ℕ)
  | negateIn (i : ℕ)
  | binary (f : Bin) (i j : ℕ)
  | binaryIn (f : Bin) (i j : ℕ)
  | scale (i c : ℕ)
  | scaleIn (i c : ℕ)
  | mulConstant (i j : ℕ)
  | mulConstantIn (i j : ℕ)
  | fusedIn (i j k : ℕ)
  | fusedConstIn (i j k : ℕ)
  | substitute (i : ℕ) (power : ℤ)
  | component (a : ℕ) (index : ℤ)
  | ctMake (is : List ℕ) (power : ℤ) (error : E)
  | ctCopy (a : ℕ)
  | ctNew (a : ℕ) (op : CtOp)
  | ctIn (a : ℕ) (op : CtOp)
  | ctMul (a b : ℕ)
  | ctSubstitute (a : ℕ) (power : ℤ)
  | setError (a : ℕ) (error : E)

/-- A call that returns a new polynomial (for example `Substitute`, polynomial.h:216-250). -/
def newPoly (m : Mem E) (o : Outcome (List ℕ)) : Res (Mem E) :=
  withTemp m o fun v => ({ m with polys := m.polys ++ [v] }, .ok ())

/-- A call that returns a new ciphertext (for example `Substitute`, symmetric_encryption.h:517-532). -/
def newCt (m : Mem E) (o : Outcome (Obj E)) : Res (Mem E) :=
  withTemp m o fun x => ({ m with cts := m.cts ++ [x] }, .ok ())

/-- A call that changes the polynomial `i` (for example `AddInPlace`, polynomial.h:203-206). -/
def onPoly (m : Mem E) (i : ℕ) (f : List ℕ → Res (List ℕ)) : Res (Mem E) :=
  withTemp m (rd m.polys i) fun x => ({ m with polys := m.polys.set i (f x).1 }, (f x).2)

/-- A call that changes the ciphertext `a` (for example `AddInPlace`, symmetric_encryption.h:118-136). -/
def onCt (m : Mem E) (a : ℕ) (f : Obj E → Res (Obj E)) : Res (Mem E) :=
  withTemp m (rd m.cts a) fun x => ({ m with cts := m.cts.set a (f x).1 }, (f x).2)

/-- The objects after the call and the returned status (polynomial.h:49-344, symmetric_encryption.h:73-607).
`ctNew` are the operators `+`, `-` and `*` on copies (symmetric_encryption.h:111-116, 152-157, 212-217, 231-236). -/
def Call.run (e : Env E) (m : Mem E) : Call E → Res (Mem E)
  | zero len => newPoly m (.ok (List.replicate len (Mont.importZero e.p)))
  | make v => newPoly m (.ok v)
  | ofCoeffs v => newPoly m (Poly.convertToNtt e.p e.q v)
  | parse n bytes => newPoly m (Poly.deserialize e.p n bytes)
  | copy i => newPoly m (rd m.polys i)
  | negate i => withTemp m (rd m.polys i) fun x => newPoly m (.ok (Poly.negate e.p x))
  | negateIn i => onPoly m i fun x => (Poly.negate e.p x, .ok ())
  | binary f i j => withTemp m (rd m.polys i) fun x => withTemp m (rd m.polys j) fun y =>
      newPoly m (Poly.copying (f.inPlace e.p x y))
  | binaryIn f i j => withTemp m (rd m.polys j) fun y => onPoly m i fun x => vec (f.inPlace e.p x y)
  | scale i c => withTemp m (rd m.polys i) fun x => newPoly m (Poly.mulScalar e.p x c)
  | scaleIn i c => onPoly m i fun x => vec (Poly.mulScalarInPlace e.p x c)
  | mulConstant i j => withTemp m (rd m.polys i) fun x => withTemp m (rd m.polys j) fun y =>
      withTemp m (Poly.computeConstant e.p y) fun k => newPoly m (Poly.mulConstant e.p x k)
  | mulConstantIn i j => withTemp m (rd m.polys j) fun y => withTemp m (Poly.computeConstant e.p y) fun k =>
      onPoly m i fun x => vec (Poly.mulConstantInPlace e.p x k)
  | fusedIn i j k => withTemp m (rd m.polys j) fun y => withTemp m (rd m.polys k) fun z =>
      onPoly m i fun x => vec (Poly.fusedMulAddInPlace e.p x y z)
  | fusedConstIn i j k => withTemp m (rd m.polys j) fun y => withTemp m (rd m.polys k) fun z =>
      withTemp m (Poly.computeConstant e.p z) fun c => onPoly m i fun x => vec (Poly.fusedMulConstantAddInPlace e.p x y c)
  | substitute i power => withTemp m (rd m.polys i) fun x => newPoly m (Poly.substitute e.q x power)
  | component a index => withTemp m (rd m.cts a) fun x => newPoly m (WordCt.component x index)
  | ctMake is power error => newCt m (do
      let c ← is.mapM (rd m.polys)
      return { c := c, power := power, error := error })
  | ctCopy a => newCt m (rd m.cts a)
  | ctNew a op => withTemp m (rd m.cts a) fun x => withTemp m (op.operands e m) fun c =>
      newCt m (c.run e.p e.bPlain x).value
  | ctIn a op => withTemp m (op.operands e m) fun c => onCt m a fun x => c.run e.p e.bPlain x
  | ctMul a b => withTemp m (rd m.cts a) fun x => withTemp m (rd m.cts b) fun y => newCt m (WordCt.mul e.p x y)
  | ctSubstitute a power => withTemp m (rd m.cts a) fun x => newCt m (WordCt.substitute e.q x power)
  | setError a error => onCt m a fun x => ({ x with error := error }, .ok ())

/-- The statuses that the calls of a program return, and the objects at the end (polynomial.h:49-344,
symmetric_encryption.h:73-607). -/
def runAll (e : Env E) : Mem E → List (Call E) → List (Outcome Unit) × Mem E
  | m, [] => ([], m)
  | m, c :: cs => ((c.run e m).2 :: (runAll e (c.run e m).1 cs).1, (runAll e (c.run e m).1 cs).2)

end Shell.Store
