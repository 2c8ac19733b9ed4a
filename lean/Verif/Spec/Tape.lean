import Verif.Model.Word
import Verif.Spec.WordCt
import Verif.Spec.Rlwe
import Mathlib.Data.Real.Basic
import Mathlib.Algebra.BigOperators.Fin
import Mathlib.Data.Fintype.Pi
/-!
# Uniformly random bytes

A generator that hands out the bytes of a given tape, and the probability of an event when the bytes of the tape are
independent and uniformly distributed.
-/

namespace Shell.Spec

/-- A generator that returns given bytes one after the other; a 64-bit word consists of eight bytes, the least
significant one first (C36). -/
def bytesSource : Gen (List (Fin 256)) where
  rand8 t := match t with
    | b :: t => .ok (b, t)
    | [] => .err .internal
  rand64 t := match t with
    | b0 :: b1 :: b2 :: b3 :: b4 :: b5 :: b6 :: b7 :: t =>
      .ok (b0 + 2 ^ 8 * b1 + 2 ^ 16 * b2 + 2 ^ 24 * b3 + 2 ^ 32 * b4 + 2 ^ 40 * b5 + 2 ^ 48 * b6 + 2 ^ 56 * b7, t)
    | _ => .err .internal

open Classical in
/-- The probability of an event, for a tape of `L` independent and uniformly distributed bytes. -/
noncomputable def bytesProbability (L : ℕ) (event : List (Fin 256) → Prop) : ℝ :=
  ((Finset.univ : Finset (Fin L → Fin 256)).filter fun t => event (List.ofFn t)).card / 256 ^ L

open Classical in
/-- The probability of an event, for three tapes of `L₁`, `L₂` and `L₃` independent and uniformly distributed bytes. -/
noncomputable def bytesProbability₃ (L₁ L₂ L₃ : ℕ) (event : List (Fin 256) → List (Fin 256) → List (Fin 256) → Prop) :
    ℝ :=
  ((Finset.univ : Finset ((Fin L₁ → Fin 256) × (Fin L₂ → Fin 256) × (Fin L₃ → Fin 256))).filter fun t =>
    event (List.ofFn t.1) (List.ofFn t.2.1) (List.ofFn t.2.2)).card / 256 ^ (L₁ + L₂ + L₃)

/-- Generators whose seed is the tape they read. -/
def tapeRng : Word.Rng (List (Fin 256)) where
  create _ seed := .ok (seed.map (Fin.ofNat 256))
  gen _ := bytesSource

/-- The stored words of a polynomial as signed integers: the residues between `-N/2` and `N/2`. -/
def signedCoeffs (p : MParams) (N n : ℕ) (cs : List ℕ) : Fin n → ℤ :=
  fun i => centered N (Mont.exportInt p (cs.getD i 0) : ℕ)

/-- Encrypt one plaintext after the other. -/
def encryptAll {σ : Type} (G : Gen σ) (fuel : ℕ) (k : Word.Key) (bits : ℕ) : List (List ℕ) → σ → Outcome (List Word.Ct × σ)
  | [], s => .ok ([], s)
  | m :: ms, s => do
    let (x, s) ← Word.encrypt G fuel k m bits s
    let (xs, s) ← encryptAll G fuel k bits ms s
    .ok (x :: xs, s)

/-- The program has `r` inputs, and its constants are below `N`. -/
def Program.Within (r N : ℕ) : Program → Prop
  | .input i => i < r
  | .add u v | .sub u v | .mul u v => u.Within r N ∧ v.Within r N
  | .absorb u _ => u.Within r N
  | .scale u c => u.Within r N ∧ c < N

end Shell.Spec
