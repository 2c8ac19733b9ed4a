import Verif.Model.WordCt
import Verif.Model.Int256
/-!
# In-place operations on objects in memory, which may be the same object

The other model files pass the operands of an in-place operation by value.  Here the vectors of stored words live in
a memory, objects are locations in it, and every iteration of a loop reads its operands from the memory as the
earlier iterations left it.  So an operand may be the object that is being changed.
-/

namespace Shell.Alias
open Rns Rns.Res

/-- The `std::vector<MontgomeryInt>`s in memory, by location
(polynomial.h:348, rns/rns_polynomial.h:616-624: the vectors of polynomials). -/
abbrev Heap := List (List ℕ)

/-- `v[i]` of the vector at location `l` (montgomery.h:518-603: `in1[i]`, `in2[i]` in the batch operations). -/
def getAt (h : Heap) (l i : ℕ) : Outcome ℕ := do
  let v ← rd h l
  rd v i

/-- `v[i] = x` of the vector at location `l` (montgomery.h:518-603: `(*in1)[i] = ..` in the batch operations). -/
def putAt (h : Heap) (l i x : ℕ) : Outcome Heap := do
  let v ← rd h l
  let v ← wr v i x
  wr h l v

/-- `for (i = 0; i < n; i++) (*in1)[i] = g(i)` for the vector `in1` at location `d`, where `g` reads the memory
(the loops of the batch operations, montgomery.cc:194-413). -/
def pointwise (n d : ℕ) (g : ℕ → Heap → Outcome ℕ) (h : Heap) : Outcome Heap :=
  loop n (fun i h => do
    let x ← g i h
    putAt h d i x) h

/-- The batch operations on two vectors: the size check and the loop
(montgomery.cc:213-225, 259-270, 354-366). -/
def batch2 (f : ℕ → ℕ → ℕ) (d a : ℕ) (h : Heap) : Res Heap :=
  withTemp h (rd h d) fun x => withTemp h (rd h a) fun y =>
  if x.length ≠ y.length then reject h
  else assign h (pointwise x.length d (fun i h => do
    let s ← getAt h d i
    let t ← getAt h a i
    return f s t) h)

/-- `BatchAddInPlace` (montgomery.cc:213-225), the body of `Polynomial::AddInPlace` (polynomial.h:203-206). -/
def batchAdd (p : MParams) := batch2 (Mont.add p)

/-- `BatchSubInPlace` (montgomery.cc:259-270), the body of `Polynomial::SubInPlace` (polynomial.h:209-212). -/
def batchSub (p : MParams) := batch2 (Mont.sub p)

/-- `BatchMulInPlace` (montgomery.cc:354-366), the body of `Polynomial::MulInPlace` (polynomial.h:148-151). -/
def batchMul (p : MParams) := batch2 (Mont.mul p)

/-- `BatchFusedMulAddInPlace` (montgomery.cc:400-413), the body of `Polynomial::FusedMulAddInPlace`
(polynomial.h:154-158). -/
def batchFused (p : MParams) (d a b : ℕ) (h : Heap) : Res Heap :=
  withTemp h (rd h d) fun x => withTemp h (rd h a) fun y => withTemp h (rd h b) fun z =>
  if x.length ≠ y.length ∨ x.length ≠ z.length then reject h
  else assign h (pointwise x.length d (fun i h => do
    let s ← getAt h d i
    let t ← getAt h a i
    let u ← getAt h b i
    return Mont.fusedMulAdd p s t u) h)

/-- `BatchFusedMulConstantAddInPlace` (montgomery.cc:428-443), the body of
`Polynomial::FusedMulConstantAddInPlace` (polynomial.h:162-169).  The constants are other objects. -/
def batchFusedConstant (p : MParams) (d a : ℕ) (b : Poly.Const) (h : Heap) : Res Heap :=
  withTemp h (rd h d) fun x => withTemp h (rd h a) fun y =>
  if x.length ≠ y.length ∨ x.length ≠ b.c.length ∨ x.length ≠ b.cb.length then reject h
  else assign h (pointwise x.length d (fun i h => do
    let s ← getAt h d i
    let t ← getAt h a i
    let c ← rd b.c i
    let cb ← rd b.cb i
    return Mont.fusedMulConstantAdd p s t c cb) h)

/-- A reference `const MontgomeryInt&` (the parameter of montgomery.h:526, 542, 589). -/
inductive Ref where
  | value (x : ℕ)           -- an object outside of the vectors
  | element (l k : ℕ)       -- `v[k]` of the vector at location `l`

/-- The value that a reference refers to (montgomery.h:526, 542, 589). -/
def Ref.get (h : Heap) : Ref → Outcome ℕ
  | .value x => .ok x
  | .element l k => getAt h l k

/-- `BatchMulInPlace` with a scalar (montgomery.cc:378-387), the body of `Polynomial::MulInPlace(scalar)`
(polynomial.h:134-137): the lambda holds a reference to the scalar, which is read in every iteration. -/
def batchMulScalar (p : MParams) (d : ℕ) (r : Ref) (h : Heap) : Res Heap :=
  withTemp h (rd h d) fun x =>
  assign h (pointwise x.length d (fun i h => do
    let s ← getAt h d i
    let t ← r.get h
    return Mont.mul p s t) h)

/-- A loop over objects that changes the memory and stops at the first error; `bs` holds what the body needs for the
object of the same index (the loops of rns/rns_polynomial.h:226-389 and rns/rns_ciphertext.h:112-258). -/
def eachLoc {α β : Type} (f : α → β → Heap → Res Heap) : List α → List β → Heap → Res Heap
  | [], [], h => (h, .ok ())
  | x :: xs, b :: bs, h => (f x b h).andThen (eachLoc f xs bs)
  | _, _, h => (h, .ub .outOfBounds)

/-! ### `RnsPolynomial` -/

/-- An `RnsPolynomial` object: the locations of its vectors (rns/rns_polynomial.h:616-624). -/
structure RObj where
  logN : ℕ
  locs : List ℕ
  ntt : Bool
  deriving DecidableEq

/-- The polynomial that the object holds (rns/rns_polynomial.h:616-624). -/
def RObj.val (h : Heap) (x : RObj) : RPoly := ⟨x.logN, x.locs.map fun l => h.getD l [], x.ntt⟩

/-- `AddInPlace` (rns/rns_polynomial.h:188-205). -/
def rnsAdd (ms : List Modulus) (x y : RObj) (h : Heap) : Res Heap :=
  if y.locs.length ≠ x.locs.length then reject h
  else if ms.length ≠ x.locs.length then reject h
  else eachLoc (fun d (b : Modulus × ℕ) => batchAdd b.1.p d b.2) x.locs (ms.zip y.locs) h

/-- `SubInPlace` (rns/rns_polynomial.h:208-225). -/
def rnsSub (ms : List Modulus) (x y : RObj) (h : Heap) : Res Heap :=
  if y.locs.length ≠ x.locs.length then reject h
  else if ms.length ≠ x.locs.length then reject h
  else eachLoc (fun d (b : Modulus × ℕ) => batchSub b.1.p d b.2) x.locs (ms.zip y.locs) h

/-- `MulInPlace` (rns/rns_polynomial.h:294-320). -/
def rnsMul (ms : List Modulus) (x y : RObj) (h : Heap) : Res Heap :=
  if y.locs.length ≠ x.locs.length then reject h
  else if ms.length ≠ x.locs.length then reject h
  else if !x.ntt then reject h
  else if !y.ntt then reject h
  else eachLoc (fun d (b : Modulus × ℕ) => batchMul b.1.p d b.2) x.locs (ms.zip y.locs) h

/-- `FusedMulAddInPlace` (rns/rns_polynomial.h:324-359). -/
def rnsFused (ms : List Modulus) (x a b : RObj) (h : Heap) : Res Heap :=
  if a.locs.length ≠ x.locs.length then reject h
  else if b.locs.length ≠ x.locs.length then reject h
  else if ms.length ≠ x.locs.length then reject h
  else if !x.ntt then reject h
  else if !a.ntt then reject h
  else if !b.ntt then reject h
  else eachLoc (fun d (k : Modulus × ℕ × ℕ) => batchFused k.1.p d k.2.1 k.2.2) x.locs
    (ms.zip (a.locs.zip b.locs)) h

/-! ### `RnsRlweCiphertext` -/

/-- An `RnsRlweCiphertext` object (rns/rns_ciphertext.h:490-509). -/
structure CObj where
  c : List RObj
  ms : List Modulus
  power : ℤ

/-- The locations of the vectors of a ciphertext (rns/rns_ciphertext.h:490-509). -/
def CObj.locs (x : CObj) : List ℕ := x.c.flatMap RObj.locs

/-- The ciphertext that the object holds (rns/rns_ciphertext.h:490-509). -/
def CObj.val (h : Heap) (x : CObj) : RCt := ⟨x.c.map (RObj.val h), x.ms, x.power⟩

/-- The checks at the beginning of the operations on two ciphertexts
(rns/rns_ciphertext.h:112-121, 144-153, 239-247). -/
def CObj.check (x y : CObj) : Outcome Unit :=
  if x.c.length ≠ y.c.length then .err .invalidArgument
  else if x.ms.length ≠ y.ms.length then .err .invalidArgument
  else if x.power ≠ y.power then .err .invalidArgument
  else .ok ()

/-- `AddInPlace(ciphertext)` (rns/rns_ciphertext.h:111-128). -/
def ctAdd (x y : CObj) (h : Heap) : Res Heap :=
  withTemp h (x.check y) fun _ => eachLoc (rnsAdd x.ms) x.c y.c h

/-- `SubInPlace(ciphertext)` (rns/rns_ciphertext.h:143-160). -/
def ctSub (x y : CObj) (h : Heap) : Res Heap :=
  withTemp h (x.check y) fun _ => eachLoc (rnsSub x.ms) x.c y.c h

/-- `FusedAbsorbAddInPlace` (rns/rns_ciphertext.h:237-259). -/
def ctFused (x y : CObj) (pt : RObj) (h : Heap) : Res Heap :=
  withTemp h (x.check y) fun _ => eachLoc (fun u v => rnsFused x.ms u v pt) x.c y.c h

/-! ### `SymmetricRlweCiphertext` -/

/-- A `SymmetricRlweCiphertext` object (symmetric_encryption.h:585-607). -/
structure SObj (E : Type) where
  c : List ℕ
  power : ℤ
  error : E
  lazy : List Lazy.LPoly := []

variable {E : Type}

/-- The ciphertext that the object holds (symmetric_encryption.h:585-607). -/
def SObj.val (h : Heap) (x : SObj E) : WordCt.Obj E := ⟨x.c.map fun l => h.getD l [], x.power, x.error, x.lazy⟩

/-- `for (i = 0; i < ys.size(); i++) RLWE_RETURN_IF_ERROR(f(cs[i], ys[i]))` (symmetric_encryption.h:112-300). -/
def forEachLoc (f : ℕ → ℕ → Heap → Res Heap) : List ℕ → List ℕ → Heap → Res Heap
  | _, [], h => (h, .ok ())
  | [], _ :: _, h => (h, .ub .outOfBounds)
  | c :: cs, y :: ys, h => (f c y h).andThen (forEachLoc f cs ys)

variable [Add E] [Mul E] [Div E] [NatCast E]

/-- `c_.resize(that.c_.size(), zero)` with a polynomial of `that.c_[0].Len()` zeros if `that` is longer: new vectors
are put at the end of the memory (symmetric_encryption.h:124-127, 166-169). -/
def symPad (x y : SObj E) (h : Heap) : Heap × List ℕ :=
  if x.c.length < y.c.length then
    let k := y.c.length - x.c.length
    let n := ((y.c.map fun l => h.getD l []).headD []).length
    (h ++ List.replicate k (List.replicate n 0), x.c ++ (List.range k).map fun i => h.length + i)
  else (h, x.c)

/-- `AddInPlace` and `SubInPlace` (symmetric_encryption.h:118-136, 160-178): the memory and the object after the call.
The sizes of `that.c_` and `that.error_` are read from `that`, which may be the object itself. -/
def symOp (f : ℕ → ℕ → Heap → Res Heap) (x y : SObj E) (h : Heap) : Res (Heap × SObj E) :=
  if x.power ≠ y.power then reject (h, x)
  else
    let hp := symPad x y h
    let r := forEachLoc f hp.2 y.c hp.1
    match r.2 with
    | .ok _ => ((r.1, { x with c := hp.2, error := x.error + y.error }), .ok ())
    | .err e => ((r.1, { x with c := hp.2 }), .err e)
    | .ub u => ((r.1, { x with c := hp.2 }), .ub u)

/-- `AddInPlace` (symmetric_encryption.h:118-136). -/
def symAdd (p : MParams) (x y : SObj E) (h : Heap) : Res (Heap × SObj E) := symOp (batchAdd p) x y h

/-- `SubInPlace` (symmetric_encryption.h:160-178). -/
def symSub (p : MParams) (x y : SObj E) (h : Heap) : Res (Heap × SObj E) := symOp (batchSub p) x y h

/-! ### `uint256` -/

/-- The `uint256` variables in memory (int256.h:48-127). -/
abbrev Ints := List U256

/-- `hi_ = x` of the variable at `d` (int256.h:496, 503, 537). -/
def setHi (h : Ints) (d x : ℕ) : Outcome Ints := do
  let v ← rd h d
  wr h d { v with hi := x }

/-- `lo_ = x` of the variable at `d` (int256.h:498, 505, 538). -/
def setLo (h : Ints) (d x : ℕ) : Outcome Ints := do
  let v ← rd h d
  wr h d { v with lo := x }

/-- `operator+=` (int256.h:495-500), statement by statement. -/
def intAdd (d b : ℕ) (h : Ints) : Outcome Ints := do
  let h ← setHi h d (((← rd h d).hi + (← rd h b).hi) % U256.B)
  let h ← setHi h d (((← rd h d).hi +
    if ((← rd h d).lo + (← rd h b).lo) % U256.B < (← rd h d).lo then 1 else 0) % U256.B)
  setLo h d (((← rd h d).lo + (← rd h b).lo) % U256.B)

/-- `operator-=` (int256.h:502-507), statement by statement. -/
def intSub (d b : ℕ) (h : Ints) : Outcome Ints := do
  let h ← setHi h d (trunc 128 (((← rd h d).hi : ℤ) - (← rd h b).hi))
  let h ← setHi h d (trunc 128 (((← rd h d).hi : ℤ) -
    if (← rd h b).lo > (← rd h d).lo then 1 else 0))
  setLo h d (trunc 128 (((← rd h d).lo : ℤ) - (← rd h b).lo))

/-- `operator*=` (int256.h:509-544), statement by statement; the middle term is a local variable. -/
def intMul (d b : ℕ) (h : Ints) : Outcome Ints := do
  let a64 := (← rd h d).lo / 2 ^ 64
  let a00 := (← rd h d).lo % 2 ^ 64
  let b64 := (← rd h b).lo / 2 ^ 64
  let b00 := (← rd h b).lo % 2 ^ 64
  let h ← setHi h d (((← rd h d).hi * (← rd h b).lo + a64 * b64 + (← rd h d).lo * (← rd h b).hi) % U256.B)
  let h ← setLo h d ((a00 * b00) % U256.B)
  let middle := U256.add ⟨0, (a64 * b00) % U256.B⟩ ⟨0, (a00 * b64) % U256.B⟩
  wr h d (U256.add (← rd h d) (U256.shlLow middle 64))

end Shell.Alias
