import Verif.Model.Loop
import Mathlib.Data.Int.ModEq
/-!
# `FiniteFieldEncoder::WrapSigned` and `UnwrapToSigned` (rns/finite_field_encoder.h:209-242)

`SignedInteger` is a signed type of `sw` bits, `Integer` an unsigned type of `w` bits.  Mixed expressions are
computed after the usual arithmetic conversions: in the unsigned type when it is at least as wide as the signed
one and as `int`, otherwise in a signed type of `max sw 32` bits.
-/

namespace Shell.Signed

/-- Whether a mixed expression is computed in the unsigned type
(C++ semantics; used for example at rns/finite_field_encoder.h:221, 239). -/
def inUnsigned (sw w : ℕ) : Bool := max sw 32 ≤ w

/-- An operand converted to the common type (the value is unchanged in a signed common type, which is wider
than both types) (C++ semantics; used for example at rns/finite_field_encoder.h:221, 239). -/
def conv (sw w : ℕ) (x : ℤ) : ℤ := if inUnsigned sw w then x % 2 ^ w else x

/-- The result of an addition or subtraction in the common type
(C++ semantics; used for example at rns/finite_field_encoder.h:221, 239). -/
def arith (sw w : ℕ) (x : ℤ) : Outcome ℤ :=
  if inUnsigned sw w then .ok (x % 2 ^ w)
  else if -2 ^ (max sw 32 - 1) ≤ x ∧ x < 2 ^ (max sw 32 - 1) then .ok x
  else .ub .signedOverflow

/-- The loop body of `WrapSigned` (rns/finite_field_encoder.h:217-222). -/
def wrap1 (sw w t : ℕ) (m : ℤ) : Outcome ℕ := do
  let u ← (if m < 0 then arith sw w (conv sw w m + conv sw w t) else .ok (conv sw w m) : Outcome ℤ)
  return (u % 2 ^ w).toNat

/-- `WrapSigned` (rns/finite_field_encoder.h:209-224). -/
def wrapSigned (sw w t : ℕ) (messages : List ℤ) : Outcome (List ℕ) := messages.mapM (wrap1 sw w t)

/-- Conversion to `SignedInteger`, modulo `2^sw` (rns/finite_field_encoder.h:236). -/
def toSigned (sw : ℕ) (x : ℤ) : ℤ := Int.bmod x (2 ^ sw)

/-- The loop body of `UnwrapToSigned` (rns/finite_field_encoder.h:235-240), with `t_half = t / 2`. -/
def unwrap1 (sw w t : ℕ) (m : ℕ) : Outcome ℤ := do
  let s := toSigned sw m
  let u ← (if conv sw w s > conv sw w (t / 2 : ℕ) then arith sw w (conv sw w s - conv sw w t)
    else .ok (conv sw w s) : Outcome ℤ)
  return toSigned sw u

/-- `UnwrapToSigned` (rns/finite_field_encoder.h:226-242). -/
def unwrapToSigned (sw w t : ℕ) (messages : List ℕ) : Outcome (List ℤ) := messages.mapM (unwrap1 sw w t)

end Shell.Signed
