import Verif.Model.RnsCtStore
import Verif.Spec.RnsPolySession
/-!
# Programs on RNS BGV ciphertexts

The machine that a program on plaintexts, BGV ciphertexts and keys is meant to be.  A ciphertext is a polynomial modulo `t`
and `X^n + 1`, `n = 2^l`, with the few things that decide whether calls are accepted, and a bound on its noise.
-/

namespace Shell.Spec
open Rns
open RnsCtStore hiding Call

/-- A plaintext: the number of moduli for which it was encoded, and its coefficients. -/
structure IdealBgvPt (l t : ℕ) where
  level : ℕ
  value : Fin (2 ^ l) → ZMod t

/-- A ciphertext: the numbers of its moduli and components, the power `k` such that it is a ciphertext under `s(X^k)`, a
bound on the noisy plaintext, and the message. -/
structure IdealBgvCt (l t : ℕ) where
  level : ℕ
  comps : ℕ
  power : ℕ
  noise : ℚ
  value : Fin (2 ^ l) → ZMod t

/-- The objects of the machine. -/
structure IdealBgvMem (l t : ℕ) where
  pts : List (IdealBgvPt l t)
  cts : List (IdealBgvCt l t)

/-- The object number `i`. -/
def bgvObject {α : Type} (xs : List α) (i : ℕ) : Except Status α :=
  match xs[i]? with
  | some x => .ok x
  | none => .error .internal

variable {l t : ℕ}

/-- Sums need the same number of components, the same moduli and the same power. -/
def SameKind (X Y : IdealBgvCt l t) : Prop := X.comps = Y.comps ∧ X.level = Y.level ∧ X.power = Y.power

instance (X Y : IdealBgvCt l t) : Decidable (SameKind X Y) := inferInstanceAs (Decidable (_ ∧ _))

/-- What a call does to the ciphertext `X`, or the error it returns. -/
def idealBgvOp (P : LParams) (M : IdealBgvMem l t) (X : IdealBgvCt l t) : Op → Except Status (IdealBgvCt l t)
  | .negate => .ok { X with value := fun i => -X.value i }
  | .add b => do
      let Y ← bgvObject M.cts b
      if SameKind X Y then .ok { X with noise := X.noise + Y.noise, value := fun i => X.value i + Y.value i }
      else .error .invalidArgument
  | .sub b => do
      let Y ← bgvObject M.cts b
      if SameKind X Y then .ok { X with noise := X.noise + Y.noise, value := fun i => X.value i - Y.value i }
      else .error .invalidArgument
  | .addPlain i => do
      let F ← bgvObject M.pts i
      if X.level = F.level then .ok { X with noise := X.noise + t / 2, value := fun i => X.value i + F.value i }
      else .error .invalidArgument
  | .subPlain i => do
      let F ← bgvObject M.pts i
      if X.level = F.level then .ok { X with noise := X.noise + t / 2, value := fun i => X.value i - F.value i }
      else .error .invalidArgument
  | .absorb i => do
      let F ← bgvObject M.pts i
      if X.level = F.level then .ok { X with noise := 2 ^ l * X.noise * (t / 2), value := negMul X.value F.value }
      else .error .invalidArgument
  | .scale c => .ok { X with noise := c * X.noise, value := fun i => c * X.value i }
  | .fused b i => do
      let Y ← bgvObject M.cts b
      let F ← bgvObject M.pts i
      if SameKind X Y ∧ X.level = F.level then
        .ok { X with
          noise := X.noise + 2 ^ l * Y.noise * (t / 2), value := fun i => X.value i + negMul Y.value F.value i }
      else .error .invalidArgument
  | .reduce =>
      if X.level ≤ 1 then .error .failedPrecondition
      else
        let q := P.qs.getD (X.level - 1) 1
        .ok { X with
          level := X.level - 1
          noise := (q % t : ℕ) * X.noise / q + t / 2 * ∑ j ∈ Finset.range X.comps, P.secret ^ j }

/-- What a call does to the machine, or the error it returns; `f i` and `g i` are the messages of the ciphertexts that were
encrypted with the secret and with the public key. -/
def idealBgvCall (P : LParams) (f g : ℕ → Fin (2 ^ l) → ZMod t) (M : IdealBgvMem l t) :
    RnsCtStore.Call → Except Status (IdealBgvMem l t)
  | .encode m lev =>
      if m.length ≤ 2 ^ l ∧ 0 < lev then
        .ok { M with pts := M.pts ++ [⟨lev, fun i => (m.getD i 0 : ℕ)⟩] }
      else .error .invalidArgument
  | .input i => .ok { M with cts := M.cts ++ [⟨P.qs.length, 2, 1, P.fresh, f i⟩] }
  | .received i => .ok { M with cts := M.cts ++ [⟨P.qs.length, 2, 1, P.sent, g i⟩] }
  | .copy a => do .ok { M with cts := M.cts ++ [← bgvObject M.cts a] }
  | .opNew a op => do
      let X ← bgvObject M.cts a
      .ok { M with cts := M.cts ++ [← idealBgvOp P M X op] }
  | .opIn a op => do
      let X ← bgvObject M.cts a
      .ok { M with cts := M.cts.set a (← idealBgvOp P M X op) }
  | .mul a b => do
      let X ← bgvObject M.cts a
      let Y ← bgvObject M.cts b
      if X.level = Y.level ∧ X.power = Y.power then
        .ok { M with cts := M.cts ++ [⟨X.level, X.comps + Y.comps - 1, X.power, 2 ^ l * X.noise * Y.noise,
          negMul X.value Y.value⟩] }
      else .error .invalidArgument
  | .substitute a k => do
      let X ← bgvObject M.cts a
      if 0 ≤ k ∧ k % 2 = 1 ∧ k < 2 * 2 ^ l then
        .ok { M with cts := M.cts ++ [{ X with
          power := X.power * k.toNat % (2 * 2 ^ l), value := substPow k.toNat X.value }] }
      else .error .invalidArgument
  | .relin a lev => do
      let X ← bgvObject M.cts a
      if X.comps ≤ 3 ∧ X.level = lev ∧ X.power = 1 then
        .ok { M with cts := M.cts ++ [{ X with
          comps := 2, noise := X.noise + (X.comps - 2 : ℕ) * P.switch lev }] }
      else .error .invalidArgument
  | .galois a lev p => do
      let X ← bgvObject M.cts a
      if X.comps = 2 ∧ X.level = lev ∧ X.power = p then
        .ok { M with cts := M.cts ++ [{ X with power := 1, noise := X.noise + P.switch lev }] }
      else .error .invalidArgument

/-- The statuses that the calls return, and the objects at the end; a rejected call changes nothing. -/
def idealBgvRun (P : LParams) (f g : ℕ → Fin (2 ^ l) → ZMod t) :
    IdealBgvMem l t → List RnsCtStore.Call → List (Outcome Unit) × IdealBgvMem l t
  | M, [] => ([], M)
  | M, c :: cs =>
    match idealBgvCall P f g M c with
    | .ok M' => (.ok () :: (idealBgvRun P f g M' cs).1, (idealBgvRun P f g M' cs).2)
    | .error e => (.err e :: (idealBgvRun P f g M cs).1, (idealBgvRun P f g M cs).2)

/-! ### What the library leaves to the caller -/

/-- The objects exist and integers fit a word. -/
def BgvOpProper (P : LParams) (M : IdealBgvMem l t) : Op → Prop
  | .negate | .reduce => True
  | .add b | .sub b => b < M.cts.length
  | .addPlain i | .subPlain i | .absorb i => i < M.pts.length
  | .scale c => c < 2 ^ P.w
  | .fused b i => b < M.cts.length ∧ i < M.pts.length

/-- The objects and keys exist, integers fit a word, plaintexts are not encoded for more moduli than there are, and for
substitutions by admissible powers the product of the powers is an `int` (as it always is for `n ≤ 2^14`,
`c97_substitute_proper`; see `c56_substitute_overflow`). -/
def BgvProper (P : LParams) (M : IdealBgvMem l t) : RnsCtStore.Call → Prop
  | .encode _ lev => lev ≤ P.qs.length
  | .input _ | .received _ => True
  | .copy a => a < M.cts.length
  | .opNew a op | .opIn a op => a < M.cts.length ∧ BgvOpProper P M op
  | .mul a b => a < M.cts.length ∧ b < M.cts.length
  | .substitute a k => ∃ X, M.cts[a]? = some X ∧ (0 ≤ k → k < 2 * 2 ^ l → X.power * k < 2 ^ 31)
  | .relin a lev => a < M.cts.length ∧ lev ∈ P.relins
  | .galois a lev p => a < M.cts.length ∧ (lev, p) ∈ P.galois

/-- Every call of the program is proper at its time. -/
def BgvProgram (P : LParams) (f g : ℕ → Fin (2 ^ l) → ZMod t) : IdealBgvMem l t → List RnsCtStore.Call → Prop
  | _, [] => True
  | M, c :: cs => BgvProper P M c ∧
    match idealBgvCall P f g M c with
    | .ok M' => BgvProgram P f g M' cs
    | .error _ => BgvProgram P f g M cs

/-- What the program is given is what a session has. -/
def givenEnv (v : Given) : PEnv := ⟨v.c, v.x, v.y, v.relin, v.galois⟩

end Shell.Spec
