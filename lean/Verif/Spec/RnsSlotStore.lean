import Verif.Model.RnsSlotStore
import Verif.Spec.RnsCtStore
import Verif.Spec.Slots
/-!
# Programs on RNS BGV ciphertexts with packed plaintexts

The machine that such a program is meant to be.  The objects are those of the machine for polynomials, but their values are
vectors of `2^l` slots: sums, differences and products are slot by slot, and substitutions move slots.
-/

namespace Shell.Spec
open Rns
open RnsCtStore (Op)
variable {l t : ℕ}

/-- The slot from which slot `i` comes when `X^k` is substituted for `X`: slot `j` is the value at
`zeta^(slotPower l j)`, and `slotPower l j` is `k` times `slotPower l i` modulo `2 * 2^l`.  For the powers of 5 this is
`rotateSlot` (`c99_source_rotate`), and for `2 * 2^l - 1` it is `swapSlot` (`c99_source_swap`). -/
def slotSource (l k : ℕ) (i : Fin (2 ^ l)) : Fin (2 ^ l) :=
  ((List.finRange (2 ^ l)).find? fun j : Fin (2 ^ l) =>
    decide (slotPower l j % (2 * 2 ^ l) = slotPower l i * k % (2 * 2 ^ l))).getD i

/-- What a call does to the ciphertext `X`, or the error it returns: products with plaintexts are slot by slot. -/
def idealSlotOp (P : LParams) (M : IdealBgvMem l t) (X : IdealBgvCt l t) : Op → Except Status (IdealBgvCt l t)
  | .absorb i => do
      let F ← bgvObject M.pts i
      if X.level = F.level then
        .ok { X with noise := 2 ^ l * X.noise * (t / 2), value := fun i => X.value i * F.value i }
      else .error .invalidArgument
  | .fused b i => do
      let Y ← bgvObject M.cts b
      let F ← bgvObject M.pts i
      if SameKind X Y ∧ X.level = F.level then
        .ok { X with
          noise := X.noise + 2 ^ l * Y.noise * (t / 2), value := fun i => X.value i + Y.value i * F.value i }
      else .error .invalidArgument
  | op => idealBgvOp P M X op

/-- What a call does to the machine, or the error it returns: encodings of slots, products and substitutions are as
described, the slots of a polynomial are its values at the odd powers of `zeta`, and other calls are those of the machine
for polynomials. -/
def idealSlotCall (P : LParams) (zeta : ZMod t) (f g : ℕ → Fin (2 ^ l) → ZMod t) (M : IdealBgvMem l t) :
    RnsSlotStore.Call → Except Status (IdealBgvMem l t)
  | .encodeSlots m lev =>
      if m.length ≤ 2 ^ l ∧ 0 < lev then
        .ok { M with pts := M.pts ++ [⟨lev, fun i => (m.getD i 0 : ℕ)⟩] }
      else .error .invalidArgument
  | .call (.encode m lev) =>
      if m.length ≤ 2 ^ l ∧ 0 < lev then
        .ok { M with pts := M.pts ++ [⟨lev, fun i => slotValue zeta l (fun j => (m.getD j 0 : ℕ)) i⟩] }
      else .error .invalidArgument
  | .call (.opNew a op) => do
      let X ← bgvObject M.cts a
      .ok { M with cts := M.cts ++ [← idealSlotOp P M X op] }
  | .call (.opIn a op) => do
      let X ← bgvObject M.cts a
      .ok { M with cts := M.cts.set a (← idealSlotOp P M X op) }
  | .call (.mul a b) => do
      let X ← bgvObject M.cts a
      let Y ← bgvObject M.cts b
      if X.level = Y.level ∧ X.power = Y.power then
        .ok { M with cts := M.cts ++ [⟨X.level, X.comps + Y.comps - 1, X.power, 2 ^ l * X.noise * Y.noise,
          fun i => X.value i * Y.value i⟩] }
      else .error .invalidArgument
  | .call (.substitute a k) => do
      let X ← bgvObject M.cts a
      if 0 ≤ k ∧ k % 2 = 1 ∧ k < 2 * 2 ^ l then
        .ok { M with cts := M.cts ++ [{ X with
          power := X.power * k.toNat % (2 * 2 ^ l), value := fun i => X.value (slotSource l k.toNat i) }] }
      else .error .invalidArgument
  | .call c => idealBgvCall P f g M c

/-- The statuses that the calls return, and the objects at the end; a rejected call changes nothing. -/
def idealSlotRun (P : LParams) (zeta : ZMod t) (f g : ℕ → Fin (2 ^ l) → ZMod t) :
    IdealBgvMem l t → List RnsSlotStore.Call → List (Outcome Unit) × IdealBgvMem l t
  | M, [] => ([], M)
  | M, c :: cs =>
    match idealSlotCall P zeta f g M c with
    | .ok M' => (.ok () :: (idealSlotRun P zeta f g M' cs).1, (idealSlotRun P zeta f g M' cs).2)
    | .error e => (.err e :: (idealSlotRun P zeta f g M cs).1, (idealSlotRun P zeta f g M cs).2)

/-- What the library leaves to the caller: as for polynomials; messages fit a word. -/
def SlotProper (P : LParams) (M : IdealBgvMem l t) : RnsSlotStore.Call → Prop
  | .encodeSlots m lev => (∀ a ∈ m, a < 2 ^ P.w) ∧ lev ≤ P.qs.length
  | .call c => BgvProper P M c

/-- Every call of the program is proper at its time. -/
def SlotProgram (P : LParams) (zeta : ZMod t) (f g : ℕ → Fin (2 ^ l) → ZMod t) :
    IdealBgvMem l t → List RnsSlotStore.Call → Prop
  | _, [] => True
  | M, c :: cs => SlotProper P M c ∧
    match idealSlotCall P zeta f g M c with
    | .ok M' => SlotProgram P zeta f g M' cs
    | .error _ => SlotProgram P zeta f g M cs

/-- What the program is given is what a session has. -/
def slotEnv (v : RnsSlotStore.Given) : LEnv := ⟨v.e, v.x, v.y, v.relin, v.galois⟩

end Shell.Spec
