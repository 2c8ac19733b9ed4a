import Verif.Model.Store
import Verif.Props.Polynomial
import Verif.Spec.Rlwe
import Mathlib.Data.Real.Basic
/-!
# Programs on encrypted polynomials

The machine that a program on polynomials and symmetric-key ciphertexts is meant to be.  Its objects are integer
polynomials modulo `X^n + 1`; a ciphertext is the polynomial that decryption recovers before it is reduced modulo the
plaintext modulus (the noisy plaintext), with the few things that decide whether calls are accepted.
-/

namespace Shell.Spec
open Store

/-- A ciphertext: the number of its components, the power `k` such that it is a ciphertext under `s(X^k)`, the noisy
plaintext, `Error()`, and the number of components and the noisy plaintext of the sum of products that
`MergeLazyOperations` is going to add. -/
structure IdealCt (n : ℕ) where
  size : ℕ
  power : ℕ
  value : Fin n → ℤ
  error : ℝ
  pendingSize : ℕ := 0
  pending : Fin n → ℤ := 0

/-- The objects of the machine. -/
structure IdealMem (n : ℕ) where
  polys : List (Fin n → ℤ)
  cts : List (IdealCt n)

/-- A call.  `ctMake` makes a ciphertext of polynomials; the scalar of `CtOp.scale` is an integer here. -/
inductive IdealCall (n : ℕ) where
  | zero
  | ofCoeffs (f : Fin n → ℤ)
  | copy (i : ℕ)
  | negate (i : ℕ)
  | negateIn (i : ℕ)
  | binary (f : Bin) (i j : ℕ)
  | binaryIn (f : Bin) (i j : ℕ)
  | scale (i c : ℕ)
  | scaleIn (i c : ℕ)
  | mulConstant (i j : ℕ)
  | mulConstantIn (i j : ℕ)
  | fusedIn (i j k : ℕ)
  | fusedConstIn (i j k : ℕ)
  | substitute (i : ℕ) (power : ℤ)
  | ctMake (is : List ℕ) (power : ℕ) (error : ℝ)
  | ctCopy (a : ℕ)
  | ctNew (a : ℕ) (op : CtOp)
  | ctIn (a : ℕ) (op : CtOp)
  | ctMul (a b : ℕ)
  | ctSubstitute (a : ℕ) (power : ℤ)
  | setError (a : ℕ) (error : ℝ)

/-- Integers are imported. -/
def importOp (p : MParams) : CtOp → CtOp
  | .scale c => .scale (Mont.importInt p c)
  | op => op

variable {n : ℕ}

/-- The call of the library for the modulus `N`. -/
def IdealCall.call (p : MParams) (N : ℕ) : IdealCall n → Store.Call ℝ
  | zero => .zero n
  | ofCoeffs f => .ofCoeffs (List.ofFn fun i => Mont.importInt p (f i % N).toNat)
  | copy i => .copy i
  | negate i => .negate i
  | negateIn i => .negateIn i
  | binary f i j => .binary f i j
  | binaryIn f i j => .binaryIn f i j
  | scale i c => .scale i (Mont.importInt p c)
  | scaleIn i c => .scaleIn i (Mont.importInt p c)
  | mulConstant i j => .mulConstant i j
  | mulConstantIn i j => .mulConstantIn i j
  | fusedIn i j k => .fusedIn i j k
  | fusedConstIn i j k => .fusedConstIn i j k
  | substitute i power => .substitute i power
  | ctMake is power error => .ctMake is power error
  | ctCopy a => .ctCopy a
  | ctNew a op => .ctNew a (importOp p op)
  | ctIn a op => .ctIn a (importOp p op)
  | ctMul a b => .ctMul a b
  | ctSubstitute a power => .ctSubstitute a power
  | setError a error => .setError a error

/-- The object number `i`. -/
def object {α : Type} (l : List α) (i : ℕ) : Except Status α :=
  match l[i]? with
  | some x => .ok x
  | none => .error .internal

/-- `c_0 + c_1 s + c_2 s^2 + ...` modulo `X^n + 1`. -/
def horner (s : Fin n → ℤ) : List (Fin n → ℤ) → Fin n → ℤ
  | [] => 0
  | c :: cs => c + negMul s (horner s cs)

/-- Sum, difference and product modulo `X^n + 1`. -/
def binary (f : Bin) (x y : Fin n → ℤ) : Fin n → ℤ :=
  match f with
  | .add => x + y
  | .sub => x - y
  | .mul => negMul x y

/-- What a call does to the ciphertext `X`, or the error it returns; `B` is the factor of the estimate for a plaintext
and `N` the modulus. -/
noncomputable def idealOp (B : ℝ) (N : ℕ) (M : IdealMem n) (X : IdealCt n) : CtOp → Except Status (IdealCt n)
  | .add b => do
      let Y ← object M.cts b
      if X.power ≠ Y.power then .error .invalidArgument
      else .ok { X with size := max X.size Y.size, value := X.value + Y.value, error := X.error + Y.error }
  | .sub b => do
      let Y ← object M.cts b
      if X.power ≠ Y.power then .error .invalidArgument
      else .ok { X with size := max X.size Y.size, value := X.value - Y.value, error := X.error + Y.error }
  | .absorb i => do
      let F ← object M.polys i
      .ok { X with value := negMul X.value F, error := X.error * B }
  | .scale c => .ok { X with value := fun i => c * X.value i, error := X.error * (c % N : ℕ) }
  | .fused b i | .fusedConst b i => do
      let Y ← object M.cts b
      let F ← object M.polys i
      if X.power ≠ Y.power then .error .invalidArgument
      else .ok { X with size := max X.size Y.size, value := X.value + negMul Y.value F, error := X.error + Y.error * B }
  | .lazily b i => do
      let Y ← object M.cts b
      let F ← object M.polys i
      if X.power ≠ Y.power then .error .invalidArgument
      else if Y.size = 0 then .ok X
      else .ok { X with pendingSize := Y.size, pending := X.pending + negMul Y.value F, error := X.error + Y.error * B }
  | .merge =>
      if X.pendingSize = 0 then .error .failedPrecondition
      else .ok { X with size := max X.size X.pendingSize, value := X.value + X.pending, pendingSize := 0, pending := 0 }

/-- Powers that can be substituted. -/
def Admissible (n : ℕ) (power : ℤ) : Prop := 0 ≤ power ∧ power % 2 = 1 ∧ power < 2 * n

instance (n : ℕ) (power : ℤ) : Decidable (Admissible n power) := inferInstanceAs (Decidable (_ ∧ _))

/-- What a call does to the machine, or the error it returns; `σ` is the secret key. -/
noncomputable def IdealCall.ideal (σ : Fin n → ℤ) (B : ℝ) (N : ℕ) (M : IdealMem n) :
    IdealCall n → Except Status (IdealMem n)
  | zero => .ok { M with polys := M.polys ++ [0] }
  | ofCoeffs f => .ok { M with polys := M.polys ++ [f] }
  | copy i => do .ok { M with polys := M.polys ++ [← object M.polys i] }
  | negate i => do .ok { M with polys := M.polys ++ [-(← object M.polys i)] }
  | negateIn i => do .ok { M with polys := M.polys.set i (-(← object M.polys i)) }
  | binary f i j => do .ok { M with polys := M.polys ++ [Spec.binary f (← object M.polys i) (← object M.polys j)] }
  | binaryIn f i j => do .ok { M with polys := M.polys.set i (Spec.binary f (← object M.polys i) (← object M.polys j)) }
  | scale i c => do
      let f ← object M.polys i
      .ok { M with polys := M.polys ++ [fun k => c * f k] }
  | scaleIn i c => do
      let f ← object M.polys i
      .ok { M with polys := M.polys.set i fun k => c * f k }
  | mulConstant i j => do .ok { M with polys := M.polys ++ [negMul (← object M.polys i) (← object M.polys j)] }
  | mulConstantIn i j => do .ok { M with polys := M.polys.set i (negMul (← object M.polys i) (← object M.polys j)) }
  | fusedIn i j k | fusedConstIn i j k => do
      let f ← object M.polys i
      .ok { M with polys := M.polys.set i (f + negMul (← object M.polys j) (← object M.polys k)) }
  | substitute i power => do
      let f ← object M.polys i
      if Admissible n power then .ok { M with polys := M.polys ++ [substPow power.toNat f] }
      else .error .invalidArgument
  | ctMake is power error => do
      let fs ← is.mapM (object M.polys)
      .ok { M with cts := M.cts ++ [⟨is.length, power, horner (substPow power σ) fs, error, 0, 0⟩] }
  | ctCopy a => do .ok { M with cts := M.cts ++ [← object M.cts a] }
  | ctNew a op => do
      let X ← object M.cts a
      .ok { M with cts := M.cts ++ [← idealOp B N M X op] }
  | ctIn a op => do
      let X ← object M.cts a
      .ok { M with cts := M.cts.set a (← idealOp B N M X op) }
  | ctMul a b => do
      let X ← object M.cts a
      let Y ← object M.cts b
      if X.power ≠ Y.power ∨ X.size = 0 ∨ Y.size = 0 then .error .invalidArgument
      else .ok { M with cts := M.cts ++
        [⟨X.size + Y.size - 1, X.power, negMul X.value Y.value, X.error * Y.error, 0, 0⟩] }
  | ctSubstitute a power => do
      let X ← object M.cts a
      if Admissible n power then
        .ok { M with cts := M.cts ++
          [⟨X.size, X.power * power.toNat % (2 * n), substPow power.toNat X.value, X.error, 0, 0⟩] }
      else .error .invalidArgument
  | setError a error => do
      let X ← object M.cts a
      .ok { M with cts := M.cts.set a { X with error := error } }

/-- The statuses that the calls return, and the objects at the end; a rejected call changes nothing. -/
noncomputable def idealRun (σ : Fin n → ℤ) (B : ℝ) (N : ℕ) :
    IdealMem n → List (IdealCall n) → List (Outcome Unit) × IdealMem n
  | M, [] => ([], M)
  | M, c :: cs =>
    match c.ideal σ B N M with
    | .ok M' => (.ok () :: (idealRun σ B N M' cs).1, (idealRun σ B N M' cs).2)
    | .error e => (.err e :: (idealRun σ B N M cs).1, (idealRun σ B N M cs).2)

/-! ### What the library leaves to the caller -/

/-- The objects exist, integers fit a word, and a lazily absorbed ciphertext is not shorter than those absorbed
before (else the code reads outside a vector, see `c22_shrinking_witness`). -/
def OpProper (w : ℕ) (M : IdealMem n) (X : IdealCt n) : CtOp → Prop
  | .add b | .sub b => b < M.cts.length
  | .absorb i => i < M.polys.length
  | .scale c => c < 2 ^ w
  | .fused b i | .fusedConst b i => b < M.cts.length ∧ i < M.polys.length
  | .lazily b i => i < M.polys.length ∧ ∃ Y, M.cts[b]? = some Y ∧
      (X.power = Y.power → Y.size ≠ 0 → X.pendingSize ≤ Y.size)
  | .merge => True

/-- The objects exist, integers fit a word, ciphertexts are made for a power of the secret that exists, and for
substitutions the ciphertext has a component and the product of the powers is an `int` (as it always is for
`n ≤ 2^14`; see `c25_power_overflow_witness`). -/
def IdealCall.Proper (w : ℕ) (M : IdealMem n) : IdealCall n → Prop
  | zero | ofCoeffs _ => True
  | copy i | negate i | negateIn i | substitute i _ => i < M.polys.length
  | scale i c | scaleIn i c => i < M.polys.length ∧ c < 2 ^ w
  | binary _ i j | binaryIn _ i j | mulConstant i j | mulConstantIn i j => i < M.polys.length ∧ j < M.polys.length
  | fusedIn i j k | fusedConstIn i j k => i < M.polys.length ∧ j < M.polys.length ∧ k < M.polys.length
  | ctMake is power _ => (∀ i ∈ is, i < M.polys.length) ∧ Admissible n power
  | ctCopy a | setError a _ => a < M.cts.length
  | ctNew a op | ctIn a op => ∃ X, M.cts[a]? = some X ∧ OpProper w M X op
  | ctMul a b => a < M.cts.length ∧ b < M.cts.length
  | ctSubstitute a power => ∃ X, M.cts[a]? = some X ∧ X.size ≠ 0 ∧ X.power * power < 2 ^ 31

/-- Every call of the program is proper at its time. -/
def IdealProper (σ : Fin n → ℤ) (B : ℝ) (N w : ℕ) : IdealMem n → List (IdealCall n) → Prop
  | _, [] => True
  | M, c :: cs => c.Proper w M ∧
    match c.ideal σ B N M with
    | .ok M' => IdealProper σ B N w M' cs
    | .error _ => IdealProper σ B N w M cs

/-! ### Objects of the library -/

/-- The words `v` are a polynomial with the coefficients `f` modulo `N`. -/
def HoldsPoly (p : MParams) (q : Ntt.NttParams) (N n : ℕ) (v : List ℕ) (f : Fin n → ℤ) : Prop :=
  ValidPoly N n v ∧ HasCoeffs p q N n v (modq N f)

/-- The ciphertext `x` is one of `X` under the secret `σ`: its components are `c_0, c_1, ...` with
`c_0 + c_1 σ' + c_2 σ'^2 + ... = X.value` modulo `N`, for `σ' = σ(X^power)`. -/
structure HoldsCt (p : MParams) (q : Ntt.NttParams) (N : ℕ) (σ : Fin n → ℤ) (x : WordCt.Obj ℝ) (X : IdealCt n) :
    Prop where
  comps : ∃ cs, List.Forall₂ (HoldsPoly p q N n) x.c cs ∧ modq N (horner (substPow X.power σ) cs) = modq N X.value
  size : x.c.length = X.size
  power : x.power = X.power
  error : x.error = X.error
  pending : x.lazy.length = X.pendingSize

end Shell.Spec
