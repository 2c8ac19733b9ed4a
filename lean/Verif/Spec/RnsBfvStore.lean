import Verif.Model.RnsBfvStore
import Verif.Spec.RnsCtStore
import Verif.Spec.RnsBfvPolySession
/-!
# The machine that programs on RNS BFV ciphertexts refer to

The ciphertexts of the machine are those of `Spec/RnsCtStore`: level, components, power, noise bound and polynomial.  A
plaintext is scaled or not.  A product in place of a reduced ciphertext with a plaintext is rejected, but the ciphertext
is damaged; programs must not do it (on a copy it is harmless).
-/

namespace Shell.Spec
open Rns
open RnsBfvStore hiding Call
variable {l t : ℕ}

/-- A plaintext: the number of moduli, whether it is scaled, and the polynomial. -/
structure IdealBfvPt (l t : ℕ) where
  level : ℕ
  scaled : Bool
  value : Fin (2 ^ l) → ZMod t

/-- What a call that expects a scaled plaintext takes it for: an unscaled plaintext is a multiple of zero with noise. -/
def IdealBfvPt.seen (F : IdealBfvPt l t) : Fin (2 ^ l) → ZMod t := if F.scaled then F.value else fun _ => 0

/-- The noise of the plaintext for a call that expects a scaled one. -/
def IdealBfvPt.noise (F : IdealBfvPt l t) : ℚ := if F.scaled then t else t * t

/-- The objects of the machine. -/
structure IdealBfvMem (l t : ℕ) where
  pts : List (IdealBfvPt l t)
  cts : List (IdealBgvCt l t)

/-- What a member that changes a ciphertext makes of it, or the error it returns.  Products with scaled plaintexts are
possible with all moduli only. -/
def idealBfvOp (P : VParams) (M : IdealBfvMem l t) (X : IdealBgvCt l t) : Op → Except Status (IdealBgvCt l t)
  | .negate => .ok { X with value := fun i => -X.value i }
  | .add b => do
      let Y ← bgvObject M.cts b
      if SameKind X Y then .ok { X with noise := X.noise + Y.noise, value := fun i => X.value i + Y.value i }
      else .error .invalidArgument
  | .sub b => do
      let Y ← bgvObject M.cts b
      if SameKind X Y then .ok { X with noise := X.noise + Y.noise, value := fun i => X.value i - Y.value i }
      else .error .invalidArgument
  | .addPlain i => do
      let F ← bgvObject M.pts i
      if X.level = F.level then .ok { X with noise := X.noise + F.noise, value := fun i => X.value i + F.seen i }
      else .error .invalidArgument
  | .subPlain i => do
      let F ← bgvObject M.pts i
      if X.level = F.level then .ok { X with noise := X.noise + F.noise, value := fun i => X.value i - F.seen i }
      else .error .invalidArgument
  | .absorb i => do
      let F ← bgvObject M.pts i
      if X.level = P.qs.length ∧ X.level = F.level then
        .ok { X with
          noise := P.product (P.growth X.comps) 1 (P.growth X.comps) X.noise F.noise
          value := negMul X.value F.seen }
      else .error .invalidArgument
  | .absorbSimple i => do
      let F ← bgvObject M.pts i
      if X.level = F.level then .ok { X with noise := 2 ^ l * X.noise * t, value := negMul X.value F.value }
      else .error .invalidArgument
  | .scale c => .ok { X with noise := c * X.noise, value := fun i => c * X.value i }
  | .fused b i => do
      let Y ← bgvObject M.cts b
      let F ← bgvObject M.pts i
      if SameKind X Y ∧ X.level = F.level then
        .ok { X with noise := X.noise + 2 ^ l * Y.noise * t, value := fun i => X.value i + negMul Y.value F.value i }
      else .error .invalidArgument
  | .reduce =>
      if X.level ≤ 1 then .error .failedPrecondition
      else .ok { X with
        level := X.level - 1, noise := X.noise / P.qs.getD (X.level - 1) 1 + t / 2 * P.growth X.comps }

/-- What a call does to the machine, or the error it returns; `f i` and `g i` are the messages of the ciphertexts that were
encrypted with the secret and with the public key. -/
def idealBfvCall (P : VParams) (f g : ℕ → Fin (2 ^ l) → ZMod t) (M : IdealBfvMem l t) :
    RnsBfvStore.Call → Except Status (IdealBfvMem l t)
  | .encode m lev scaled =>
      if m.length ≤ 2 ^ l ∧ 0 < lev ∧ (scaled = true → lev = P.qs.length) then
        .ok { M with pts := M.pts ++ [⟨lev, scaled, fun i => (m.getD i 0 : ℕ)⟩] }
      else .error .invalidArgument
  | .input i => .ok { M with cts := M.cts ++ [⟨P.qs.length, 2, 1, P.fresh, f i⟩] }
  | .received i => .ok { M with cts := M.cts ++ [⟨P.qs.length, 2, 1, P.sent, g i⟩] }
  | .copy a => do .ok { M with cts := M.cts ++ [← bgvObject M.cts a] }
  | .opNew a op => do
      let X ← bgvObject M.cts a
      .ok { M with cts := M.cts ++ [← idealBfvOp P M X op] }
  | .opIn a op => do
      let X ← bgvObject M.cts a
      .ok { M with cts := M.cts.set a (← idealBfvOp P M X op) }
  | .mul a b => do
      let X ← bgvObject M.cts a
      let Y ← bgvObject M.cts b
      if X.level = P.qs.length ∧ X.level = Y.level ∧ X.power = Y.power then
        .ok { M with cts := M.cts ++ [⟨X.level, X.comps + Y.comps - 1, X.power,
          P.product (P.growth X.comps) (P.growth Y.comps) (P.growth (X.comps + Y.comps - 1)) X.noise Y.noise,
          negMul X.value Y.value⟩] }
      else .error .invalidArgument
  | .substitute a k => do
      let X ← bgvObject M.cts a
      if 0 ≤ k ∧ k % 2 = 1 ∧ k < 2 * 2 ^ l then
        .ok { M with cts := M.cts ++ [{ X with
          power := X.power * k.toNat % (2 * 2 ^ l), value := substPow k.toNat X.value }] }
      else .error .invalidArgument
  | .relin a lev => do
      let X ← bgvObject M.cts a
      if X.comps ≤ 3 ∧ X.level = lev ∧ X.power = 1 then
        .ok { M with cts := M.cts ++ [{ X with
          comps := 2, noise := X.noise + (X.comps - 2 : ℕ) * P.switch lev }] }
      else .error .invalidArgument
  | .galois a lev p => do
      let X ← bgvObject M.cts a
      if X.comps = 2 ∧ X.level = lev ∧ X.power = p then
        .ok { M with cts := M.cts ++ [{ X with power := 1, noise := X.noise + P.switch lev }] }
      else .error .invalidArgument

/-- The statuses that the calls return, and the objects at the end; a rejected call changes nothing. -/
def idealBfvRun (P : VParams) (f g : ℕ → Fin (2 ^ l) → ZMod t) :
    IdealBfvMem l t → List RnsBfvStore.Call → List (Outcome Unit) × IdealBfvMem l t
  | M, [] => ([], M)
  | M, c :: cs =>
    match idealBfvCall P f g M c with
    | .ok M' => (.ok () :: (idealBfvRun P f g M' cs).1, (idealBfvRun P f g M' cs).2)
    | .error e => (.err e :: (idealBfvRun P f g M cs).1, (idealBfvRun P f g M cs).2)

/-! ### What the library leaves to the caller -/

/-- The objects exist and integers fit a word; calls without scaling get unscaled plaintexts. -/
def BfvOpProper (P : VParams) (M : IdealBfvMem l t) : Op → Prop
  | .negate | .reduce => True
  | .add b | .sub b => b < M.cts.length
  | .addPlain i | .subPlain i | .absorb i => i < M.pts.length
  | .absorbSimple i => ∃ F, M.pts[i]? = some F ∧ F.scaled = false
  | .scale c => c < 2 ^ P.w
  | .fused b i => b < M.cts.length ∧ ∃ F, M.pts[i]? = some F ∧ F.scaled = false

/-- A product in place with a plaintext for the moduli of the ciphertext is for all moduli: on a reduced ciphertext it
would fail and leave the ciphertext damaged (`c67_bfv_level_violated`). -/
def BfvInPlaceProper (P : VParams) (M : IdealBfvMem l t) (a : ℕ) : Op → Prop
  | .absorb i => ∀ X F, M.cts[a]? = some X → M.pts[i]? = some F → X.level = F.level → X.level = P.qs.length
  | _ => True

/-- The objects and keys exist, integers fit a word, plaintexts are not encoded for more moduli than there are, and for
substitutions by admissible powers the product of the powers is an `int`. -/
def BfvProper (P : VParams) (M : IdealBfvMem l t) : RnsBfvStore.Call → Prop
  | .encode m lev _ => lev ≤ P.qs.length ∧ ∀ a ∈ m, a < 2 ^ P.w
  | .input _ | .received _ => True
  | .copy a => a < M.cts.length
  | .opNew a op => a < M.cts.length ∧ BfvOpProper P M op
  | .opIn a op => a < M.cts.length ∧ BfvOpProper P M op ∧ BfvInPlaceProper P M a op
  | .mul a b => a < M.cts.length ∧ b < M.cts.length
  | .substitute a k => ∃ X, M.cts[a]? = some X ∧ (0 ≤ k → k < 2 * 2 ^ l → X.power * k < 2 ^ 31)
  | .relin a lev => a < M.cts.length ∧ lev ∈ P.relins
  | .galois a lev p => a < M.cts.length ∧ (lev, p) ∈ P.galois

/-- Every call of the program is proper at its time. -/
def BfvProgram (P : VParams) (f g : ℕ → Fin (2 ^ l) → ZMod t) : IdealBfvMem l t → List RnsBfvStore.Call → Prop
  | _, [] => True
  | M, c :: cs => BfvProper P M c ∧
    match idealBfvCall P f g M c with
    | .ok M' => BfvProgram P f g M' cs
    | .error _ => BfvProgram P f g M cs

end Shell.Spec
