import Mathlib.Data.Nat.Notation
import Mathlib.Data.Int.Notation
/-!
# Outcomes and machine words

Shared vocabulary of the model.

* `Status` mirrors the `absl::StatusCode`s used by the library (messages are not modelled).
* `Outcome α` is the result of a C++ call returning `rlwe::StatusOr<α>` / `absl::Status`, with
  undefined behaviour as a third, distinct outcome.
* `trunc w x` is the conversion `static_cast<UintW>(x)` of an integer to a `w`-bit unsigned word.
-/

namespace Shell

/-- `absl::StatusCode` values returned by the modelled code (messages are dropped)
(statusor.h:30; the codes of `absl::Status` the library returns). -/
inductive Status where
  | invalidArgument
  | failedPrecondition
  | internal
  | unknown
  deriving DecidableEq, Repr

/-- Kinds of undefined (or process-terminating, or non-returning) behaviour distinguished by the
model (no code: the ways in which a C++ expression has no defined result, and `LOG(FATAL)`, int256.cc:97). -/
inductive UB where
  | signedOverflow
  | outOfBounds
  | divByZero
  | badShift
  | nullDeref
  | fatal
  /-- The call has not returned: a loop without a bound is still running after the number of
  iterations (`fuel`) that was granted to it. -/
  | diverge
  deriving DecidableEq, Repr

/-- Result of a modelled C++ call: a value, an error status, or undefined behaviour
(`StatusOr`, statusor.h:30, and its propagation, status_macros.h:27-52). -/
inductive Outcome (α : Type) where
  | ok (a : α)
  | err (s : Status)
  | ub (u : UB)
  deriving DecidableEq, Repr

namespace Outcome

variable {α β : Type}

/-- Sequencing: the `RLWE_ASSIGN_OR_RETURN` / `RLWE_RETURN_IF_ERROR` macros
(shell_encryption/status_macros.h:22-52); undefined behaviour also stops the computation. -/
@[inline] def bind (x : Outcome α) (f : α → Outcome β) : Outcome β :=
  match x with
  | ok a => f a
  | err s => err s
  | ub u => ub u

instance : Monad Outcome where
  pure := ok
  bind := bind

@[simp] theorem pure_eq (a : α) : (pure a : Outcome α) = ok a := rfl
@[simp] theorem bind_ok (a : α) (f : α → Outcome β) : (ok a >>= f) = f a := rfl
@[simp] theorem bind_err (s : Status) (f : α → Outcome β) : ((err s : Outcome α) >>= f) = err s := rfl
@[simp] theorem bind_ub (u : UB) (f : α → Outcome β) : ((ub u : Outcome α) >>= f) = ub u := rfl
@[simp] theorem map_ok (a : α) (f : α → β) : (f <$> (ok a : Outcome α)) = ok (f a) := rfl
@[simp] theorem map_err (s : Status) (f : α → β) : (f <$> (err s : Outcome α)) = err s := rfl
@[simp] theorem map_ub (u : UB) (f : α → β) : (f <$> (ub u : Outcome α)) = ub u := rfl

instance : LawfulMonad Outcome := LawfulMonad.mk'
  (id_map := by intro α x; cases x <;> rfl)
  (pure_bind := by intros; rfl)
  (bind_assoc := by intro α β γ x f g; cases x <;> rfl)

theorem bind_eq_ok {x : Outcome α} {f : α → Outcome β} {b : β} :
    (x >>= f) = ok b ↔ ∃ a, x = ok a ∧ f a = ok b := by
  cases x <;> simp

end Outcome

/-- Conversion of an integer expression to a `w`-bit unsigned word (`static_cast<UintW>`):
reduction modulo `2^w` (C++ semantics; used for example at montgomery.h:134-141). -/
def trunc (w : ℕ) (x : ℤ) : ℕ := (x % (2 ^ w : ℤ)).toNat

end Shell
