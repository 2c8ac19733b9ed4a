import Verif.Model.DoubleError
/-!
# Specification of the accuracy of the error estimates
-/

namespace Shell.Spec
open DoubleError

/-- `d` is what is left of the number `r ≥ 0` after `k` roundings, each with a relative error of at most `2^-53`. -/
def Within (k : ℕ) (r d : ℝ) : Prop := 0 ≤ r ∧ r * (1 - 1 / 2 ^ 53) ^ k ≤ d ∧ d ≤ r * (1 + 1 / 2 ^ 53) ^ k

/-- A conversion of integers to `double`s that rounds `c` times, and not at all if the integer is below `2^53`. -/
def Converts (c : ℕ) (cast : ℕ → ℝ) : Prop := (∀ n < 2 ^ 53, cast n = n) ∧ ∀ n : ℕ, Within c n (cast n)

/-- The number of roundings that went into an estimate. -/
structure Count (c : ℕ) where
  n : ℕ
  deriving DecidableEq

section
variable {c : ℕ}

/-- A sum is at least as accurate as its least accurate term, up to one rounding. -/
instance : Add (Count c) := ⟨fun a b => ⟨max a.n b.n + 1⟩⟩
/-- The relative errors of the factors add up. -/
instance : Mul (Count c) := ⟨fun a b => ⟨a.n + b.n + 1⟩⟩
/-- `1 / (1 - u) ≤ (1 + u) ^ 2`: roundings of the divisor count twice. -/
instance : Div (Count c) := ⟨fun a b => ⟨a.n + 2 * b.n + 1⟩⟩
instance : NatCast (Count c) := ⟨fun n => ⟨if n < 2 ^ 53 then 0 else c⟩⟩
/-- A square root is at least as accurate as its argument, up to one rounding. -/
instance : Sqrt (Count c) := ⟨fun a => ⟨a.n + 1⟩⟩
instance : Zero (Count c) := ⟨⟨0⟩⟩

end

end Shell.Spec

/-! ### The same objects and programs with other estimates -/

namespace Shell
variable {E F : Type}

def WordCt.Obj.map (f : E → F) (x : Obj E) : Obj F := ⟨x.c, x.power, f x.error, x.lazy⟩

namespace Store

def Env.map (f : E → F) (e : Store.Env E) : Store.Env F := ⟨e.p, e.q, f e.bPlain⟩

def Mem.map (f : E → F) (m : Mem E) : Mem F := ⟨m.polys, m.cts.map (WordCt.Obj.map f)⟩

/-- The estimates in a program are the arguments of the constructor and of `SetError`. -/
def Call.map (f : E → F) : Call E → Call F
  | zero len => .zero len
  | make v => .make v
  | ofCoeffs v => .ofCoeffs v
  | parse n bytes => .parse n bytes
  | copy i => .copy i
  | negate i => .negate i
  | negateIn i => .negateIn i
  | binary g i j => .binary g i j
  | binaryIn g i j => .binaryIn g i j
  | scale i c => .scale i c
  | scaleIn i c => .scaleIn i c
  | mulConstant i j => .mulConstant i j
  | mulConstantIn i j => .mulConstantIn i j
  | fusedIn i j k => .fusedIn i j k
  | fusedConstIn i j k => .fusedConstIn i j k
  | substitute i power => .substitute i power
  | component a index => .component a index
  | ctMake is power error => .ctMake is power (f error)
  | ctCopy a => .ctCopy a
  | ctNew a op => .ctNew a op
  | ctIn a op => .ctIn a op
  | ctMul a b => .ctMul a b
  | ctSubstitute a power => .ctSubstitute a power
  | setError a error => .setError a (f error)

def KeyedCall.map (f : E → F) : KeyedCall E → KeyedCall F
  | plain c => .plain (c.map f)
  | relinearize a r => .relinearize a r
  | galois a r => .galois a r

end Store

def WordExpand.Env.map (f : E → F) (e : WordExpand.Env E) : WordExpand.Env F := ⟨e.p, e.q, f e.bPlain⟩

end Shell

namespace Shell.Spec
open DoubleError WordCt
variable {c : ℕ} {cast : ℕ → ℝ}

/-- The ciphertext `y` with a `double` estimate equals `x` but for the estimate, which was rounded as often as `n`
says. -/
def Rounded (n : Obj (Count c)) (x : Obj ℝ) (y : Obj (Dbl cast)) : Prop :=
  y.c = x.c ∧ y.power = x.power ∧ y.lazy = x.lazy ∧ Within n.error.n x.error y.error.val

/-- The same for calls that return a ciphertext: all three return the same status. -/
def RoundedOutcome : Outcome (Obj (Count c)) → Outcome (Obj ℝ) → Outcome (Obj (Dbl cast)) → Prop
  | .ok n, .ok x, .ok y => Rounded n x y
  | .err e, .err e', .err e'' => e = e' ∧ e' = e''
  | .ub u, .ub u', .ub u'' => u = u' ∧ u' = u''
  | _, _, _ => False

/-- The same for lists of ciphertexts. -/
def RoundedAll : List (Obj (Count c)) → List (Obj ℝ) → List (Obj (Dbl cast)) → Prop
  | [], [], [] => True
  | n :: ns, x :: xs, y :: ys => Rounded n x y ∧ RoundedAll ns xs ys
  | _, _, _ => False

/-- The same for functions that return an estimate. -/
def WithinOutcome (k : ℕ) : Outcome ℝ → Outcome (Dbl cast) → Prop
  | .ok r, .ok d => Within k r d.val
  | .err e, .err e' => e = e'
  | .ub u, .ub u' => u = u'
  | _, _ => False

/-! ### Programs whose estimates come from error_params.h -/

/-- The names of the constants of error_params.h. -/
inductive Constant where
  | plaintext
  | encryption
  | publicKey (variance z : ℕ)
  | relinearize (numComponents numDigits m : ℕ)

/-- The constants for polynomials of length `n`. -/
def Constant.eval {E : Type} [Add E] [Mul E] [Div E] [NatCast E] [Sqrt E] (P : ErrorTrack.ErrorParams) (n : ℕ) :
    Constant → E
  | plaintext => bPlaintext P n
  | encryption => bEncryption P n
  | publicKey variance z => publicKeyValue P n variance z
  | relinearize numComponents numDigits m => relinearizeValue P n numComponents numDigits m

/-- The call is not the product of two ciphertexts. -/
def NotMul {E : Type} (c : Store.KeyedCall E) : Prop := ∀ a b, c ≠ .plain (.ctMul a b)

end Shell.Spec
