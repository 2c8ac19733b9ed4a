import Verif.Spec.RnsEncoder
import Mathlib.Data.ZMod.Basic
import Mathlib.Algebra.BigOperators.Group.Finset.Basic
/-!
# The slots of a plaintext polynomial
-/

namespace Shell.Spec
open Finset Rns

/-- The exponent of the evaluation point of slot `i` of `2^l`: `5^i` in the first half of the slots and
`-5^(i - 2^(l-1))`, modulo `2 * 2^l`, in the second. -/
def slotPower (l i : ℕ) : ℕ :=
  if i < 2 ^ (l - 1) then 5 ^ i else (2 * 2 ^ l - 1) * 5 ^ (i - 2 ^ (l - 1))

/-- The value in slot `i` of the polynomial `F`: its value at `zeta^(slotPower i)`. -/
def slotValue {N : ℕ} (zeta : ZMod N) (l : ℕ) (F : Fin (2 ^ l) → ZMod N) (i : ℕ) : ZMod N :=
  ∑ j : Fin (2 ^ l), F j * (zeta ^ slotPower l i) ^ (j : ℕ)

/-- The value in slot `i` of the integer polynomial `F`, modulo the plaintext modulus. -/
def slotsOf {N : ℕ} (zeta : ZMod N) (l : ℕ) (F : Fin (2 ^ l) → ℤ) (i : ℕ) : ZMod N :=
  slotValue zeta l (fun j => (F j : ZMod N)) i

/-- The root of unity in the tables of the transform of length `2^l` modulo `m`. -/
def nttRoot (l : ℕ) (m : Modulus) : ZMod m.N :=
  (Mont.exportInt m.p (m.q.psisBitrev.getD (2 ^ (l - 1)) 0) : ZMod m.N)

/-- An encoder created from a good context with a prime plaintext modulus. -/
structure GoodEncoder (w l : ℕ) (e : FFEncoder) : Prop where
  created : ffCreate e.ctx = .ok e
  ctx : GoodCtx w l e.ctx
  modT : e.ctx.modT = some e.mt
  mt : GoodModulus w l e.mt
  N : e.mt.N = e.ctx.t

/-- The slot from which slot `i` comes after a rotation by `k`: the two halves rotate separately. -/
def rotateSlot (l k i : ℕ) : ℕ :=
  if i < 2 ^ (l - 1) then (i + k) % 2 ^ (l - 1)
  else 2 ^ (l - 1) + (i - 2 ^ (l - 1) + k) % 2 ^ (l - 1)

/-- Slot `i` with the two halves exchanged. -/
def swapSlot (l i : ℕ) : ℕ := if i < 2 ^ (l - 1) then i + 2 ^ (l - 1) else i - 2 ^ (l - 1)

end Shell.Spec
