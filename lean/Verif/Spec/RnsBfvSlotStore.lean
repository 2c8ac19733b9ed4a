import Verif.Model.RnsBfvSlotStore
import Verif.Spec.RnsBfvStore
import Verif.Spec.RnsSlotStore
/-!
# Programs on RNS BFV ciphertexts with packed plaintexts

The machine that such a program is meant to be.  The objects are those of the machine for polynomials, but their values are
vectors of `2^l` slots: sums, differences and products are slot by slot, and substitutions move slots.
-/

namespace Shell.Spec
open Rns
open RnsBfvStore (Op)
variable {l t : ℕ}

/-- What a call does to the ciphertext `X`, or the error it returns: products with plaintexts are slot by slot. -/
def idealBfvSlotOp (P : VParams) (M : IdealBfvMem l t) (X : IdealBgvCt l t) : Op → Except Status (IdealBgvCt l t)
  | .absorb i => do
      let F ← bgvObject M.pts i
      if X.level = P.qs.length ∧ X.level = F.level then
        .ok { X with
          noise := P.product (P.growth X.comps) 1 (P.growth X.comps) X.noise F.noise
          value := fun i => X.value i * F.seen i }
      else .error .invalidArgument
  | .absorbSimple i => do
      let F ← bgvObject M.pts i
      if X.level = F.level then .ok { X with noise := 2 ^ l * X.noise * t, value := fun i => X.value i * F.value i }
      else .error .invalidArgument
  | .fused b i => do
      let Y ← bgvObject M.cts b
      let F ← bgvObject M.pts i
      if SameKind X Y ∧ X.level = F.level then
        .ok { X with noise := X.noise + 2 ^ l * Y.noise * t, value := fun i => X.value i + Y.value i * F.value i }
      else .error .invalidArgument
  | op => idealBfvOp P M X op

/-- What a call does to the machine, or the error it returns: encodings of slots, products and substitutions are as
described, the slots of a polynomial are its values at the odd powers of `zeta`, and other calls are those of the machine
for polynomials. -/
def idealBfvSlotCall (P : VParams) (zeta : ZMod t) (f g : ℕ → Fin (2 ^ l) → ZMod t) (M : IdealBfvMem l t) :
    RnsBfvSlotStore.Call → Except Status (IdealBfvMem l t)
  | .encodeSlots m lev scaled =>
      if m.length ≤ 2 ^ l ∧ 0 < lev ∧ (scaled = true → lev = P.qs.length) then
        .ok { M with pts := M.pts ++ [⟨lev, scaled, fun i => (m.getD i 0 : ℕ)⟩] }
      else .error .invalidArgument
  | .call (.encode m lev scaled) =>
      if m.length ≤ 2 ^ l ∧ 0 < lev ∧ (scaled = true → lev = P.qs.length) then
        .ok { M with pts := M.pts ++ [⟨lev, scaled, fun i => slotValue zeta l (fun j => (m.getD j 0 : ℕ)) i⟩] }
      else .error .invalidArgument
  | .call (.opNew a op) => do
      let X ← bgvObject M.cts a
      .ok { M with cts := M.cts ++ [← idealBfvSlotOp P M X op] }
  | .call (.opIn a op) => do
      let X ← bgvObject M.cts a
      .ok { M with cts := M.cts.set a (← idealBfvSlotOp P M X op) }
  | .call (.mul a b) => do
      let X ← bgvObject M.cts a
      let Y ← bgvObject M.cts b
      if X.level = P.qs.length ∧ X.level = Y.level ∧ X.power = Y.power then
        .ok { M with cts := M.cts ++ [⟨X.level, X.comps + Y.comps - 1, X.power,
          P.product (P.growth X.comps) (P.growth Y.comps) (P.growth (X.comps + Y.comps - 1)) X.noise Y.noise,
          fun i => X.value i * Y.value i⟩] }
      else .error .invalidArgument
  | .call (.substitute a k) => do
      let X ← bgvObject M.cts a
      if 0 ≤ k ∧ k % 2 = 1 ∧ k < 2 * 2 ^ l then
        .ok { M with cts := M.cts ++ [{ X with
          power := X.power * k.toNat % (2 * 2 ^ l), value := fun i => X.value (slotSource l k.toNat i) }] }
      else .error .invalidArgument
  | .call c => idealBfvCall P f g M c

/-- The statuses that the calls return, and the objects at the end; a rejected call changes nothing. -/
def idealBfvSlotRun (P : VParams) (zeta : ZMod t) (f g : ℕ → Fin (2 ^ l) → ZMod t) :
    IdealBfvMem l t → List RnsBfvSlotStore.Call → List (Outcome Unit) × IdealBfvMem l t
  | M, [] => ([], M)
  | M, c :: cs =>
    match idealBfvSlotCall P zeta f g M c with
    | .ok M' => (.ok () :: (idealBfvSlotRun P zeta f g M' cs).1, (idealBfvSlotRun P zeta f g M' cs).2)
    | .error e => (.err e :: (idealBfvSlotRun P zeta f g M cs).1, (idealBfvSlotRun P zeta f g M cs).2)

/-- What the library leaves to the caller: as for polynomials; messages fit a word. -/
def BfvSlotProper (P : VParams) (M : IdealBfvMem l t) : RnsBfvSlotStore.Call → Prop
  | .encodeSlots m lev _ => lev ≤ P.qs.length ∧ ∀ a ∈ m, a < 2 ^ P.w
  | .call c => BfvProper P M c

/-- Every call of the program is proper at its time. -/
def BfvSlotProgram (P : VParams) (zeta : ZMod t) (f g : ℕ → Fin (2 ^ l) → ZMod t) :
    IdealBfvMem l t → List RnsBfvSlotStore.Call → Prop
  | _, [] => True
  | M, c :: cs => BfvSlotProper P M c ∧
    match idealBfvSlotCall P zeta f g M c with
    | .ok M' => BfvSlotProgram P zeta f g M' cs
    | .error _ => BfvSlotProgram P zeta f g M cs

end Shell.Spec
