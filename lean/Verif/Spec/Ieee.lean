import Verif.Spec.RnsEstimate
import Verif.Model.Ieee
/-!
# Specification of the range of the error estimates
-/

namespace Shell.Spec
open DoubleError RnsEstimate RnsCtStore Ieee

/-- An estimate far inside the range of a `double`: zero, or between `2^-900` and `2^1000`. -/
def Ordinary (x : ℝ) : Prop := x = 0 ∨ 1 / 2 ^ 900 ≤ x ∧ x ≤ 2 ^ 1000

/-- A `double` whose exponent is in the range of IEEE 754, as a `double` of IEEE 754. -/
def _root_.Shell.Ieee.lift {cast : ℕ → ℝ} (d : Dbl cast) : Val cast := .fin d.val

/-- The parameters of rns/rns_error_params.h with `double`s of IEEE 754. -/
def ieeeParams {cast : ℕ → ℝ} (P : RParams (Dbl cast)) : RParams (Val cast) := ⟨P.logN, P.logT, .fin P.sigma.val⟩

/-- Parameters that a user could choose: the first two are `int`s, and the standard deviation is zero or between `2^-100`
and `2^100`. -/
def ChosenParams {cast : ℕ → ℝ} (P : RParams (Dbl cast)) : Prop :=
  P.logN < 31 ∧ P.logT < 2 ^ 31 ∧ (P.sigma.val = 0 ∨ 1 / 2 ^ 100 ≤ P.sigma.val ∧ P.sigma.val ≤ 2 ^ 100)

/-- The state of a program: the estimates are ordinary, and the numbers of components are `int`s. -/
def OrdinaryState {cast : ℕ → ℝ} (m : Mem) (es : List (Dbl cast)) : Prop :=
  (∀ e ∈ es, Ordinary e.val) ∧ ∀ x ∈ m.cts, x.c.length < 2 ^ 31

/-- The dimensions of the gadgets of the keys are `int`s. -/
def IntDimensions (v : Given) : Prop :=
  (∀ lev, (v.relin lev).gadget.dimension < 2 ^ 31) ∧ ∀ lev p, (v.galois lev p).gadget.dimension < 2 ^ 31

/-- The scalars of a BGV program have at most 256 bits. -/
def BgvScalars (cs : List RnsCtStore.Call) : Prop :=
  ∀ a z, .opNew a (.scale z) ∈ cs ∨ .opIn a (.scale z) ∈ cs → z < 2 ^ 256

/-- The scalars of a BFV program have at most 256 bits. -/
def BfvScalars (cs : List RnsBfvStore.Call) : Prop :=
  ∀ a z, .opNew a (.scale z) ∈ cs ∨ .opIn a (.scale z) ∈ cs → z < 2 ^ 256

/-! ### The size of an estimate -/

/-- What is known about an estimate: it is zero or between `2^-s` and `2^s`, and, if `pos` is true, not zero. -/
structure Mag where
  s : ℕ
  pos : Bool
  deriving DecidableEq

instance : Add Mag := ⟨fun a b => ⟨max a.s b.s + 2, a.pos || b.pos⟩⟩
instance : Mul Mag := ⟨fun a b => ⟨a.s + b.s + 1, a.pos && b.pos⟩⟩
/-- A quotient whose divisor could be zero has no bound: it counts as larger than any `double`. -/
instance : Div Mag := ⟨fun a b => ⟨a.s + b.s + if b.pos then 1 else 2000, a.pos && b.pos⟩⟩
instance : NatCast Mag := ⟨fun n => ⟨Nat.log 2 n + 2, n ≠ 0⟩⟩
instance : Sqrt Mag := ⟨fun a => ⟨a.s + 1, a.pos⟩⟩
instance : Zero Mag := ⟨⟨0, false⟩⟩

/-- The size `a` describes the number `x`. -/
def Mag.Has (a : Mag) (x : ℝ) : Prop := (x = 0 ∧ a.pos = false) ∨ 1 / 2 ^ a.s ≤ x ∧ x ≤ 2 ^ a.s

end Shell.Spec

namespace Shell.Spec

/-- The finite numbers of the format binary64 of IEEE 754: 53 bits, and an exponent of the last one from -1074 to 971. -/
def Representable (x : ℝ) : Prop := ∃ m e : ℤ, |m| < 2 ^ 53 ∧ -1074 ≤ e ∧ e ≤ 971 ∧ x = m * 2 ^ e

end Shell.Spec

namespace Shell.Spec
open Ieee RnsEstimate

/-- A `double` that is neither infinite nor a NaN. -/
def IsFinite {cast : ℕ → ℝ} (v : Val cast) : Prop := ∃ x, v = .fin x

/-- The ciphertexts whose estimates go into the one of a BGV call. -/
def bgvOperands : RnsCtStore.Call → List ℕ
  | .encode _ _ | .input _ | .received _ => []
  | .copy a | .substitute a _ | .relin a _ | .galois a _ _ => [a]
  | .mul a b => [a, b]
  | .opNew a op | .opIn a op =>
    match op with
    | .add b | .sub b | .fused b _ => [a, b]
    | _ => [a]

/-- The ciphertexts whose estimates go into the one of a BFV call. -/
def bfvOperands : RnsBfvStore.Call → List ℕ
  | .encode _ _ _ | .input _ | .received _ => []
  | .copy a | .substitute a _ | .relin a _ | .galois a _ _ => [a]
  | .mul a b => [a, b]
  | .opNew a op | .opIn a op =>
    match op with
    | .add b | .sub b | .fused b _ => [a, b]
    | _ => [a]

/-- The estimate that a call computes. -/
def newEstimate {E : Type} : Effect E → Option E
  | .push (.ok e) | .set _ (.ok e) => some e
  | _ => none

end Shell.Spec
