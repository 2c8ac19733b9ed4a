import Verif.Spec.BfvKeyNoise
/-! # Programs on BFV ciphertexts with modulus reductions in between -/

namespace Shell.Spec
open Rns RnsErrorTrack
variable {ι κ ν : Type} {l : ℕ}

/-- Programs with BFV ciphertexts on several levels. A program that switches keys comes first; its results can be reduced
to fewer moduli, rotated there with one of the Galois keys in `ν`, negated, added and subtracted. -/
inductive BfvLevelProgram (ι κ ν : Type) where
  | start : BfvSwitchProgram ι κ → BfvLevelProgram ι κ ν
  | reduce : BfvLevelProgram ι κ ν → BfvLevelProgram ι κ ν
  | rotate : ν → BfvLevelProgram ι κ ν → BfvLevelProgram ι κ ν
  | neg : BfvLevelProgram ι κ ν → BfvLevelProgram ι κ ν
  | add : BfvLevelProgram ι κ ν → BfvLevelProgram ι κ ν → BfvLevelProgram ι κ ν
  | sub : BfvLevelProgram ι κ ν → BfvLevelProgram ι κ ν → BfvLevelProgram ι κ ν

namespace BfvLevelProgram

/-- Run the program with the library. -/
noncomputable def run (P : RErrorParams) (est : Estimate) (c : Rns.Ctx) (x : ι → RTracked) (galois : κ → RGalois)
    (low : ν → RGalois) : BfvLevelProgram ι κ ν → Outcome RTracked
  | start u => u.run P est c x galois
  | reduce a => do (← run P est c x galois low a).modReduceBfv c
  | rotate k a => do applyGalois P (low k) (← (← run P est c x galois low a).substitute (low k).power)
  | neg a => do (← run P est c x galois low a).negate
  | add a b => do (← run P est c x galois low a).add (← run P est c x galois low b)
  | sub a b => do (← run P est c x galois low a).sub (← run P est c x galois low b)

/-- What the program computes on vectors of slots: reductions have no effect. -/
def eval {R : Type} [CommRing R] (f : ι → Fin (2 ^ l) → R) (m : RPoly → Fin (2 ^ l) → R) (power : κ → ℕ) (lowPower : ν → ℕ) :
    BfvLevelProgram ι κ ν → Fin (2 ^ l) → R
  | start u => u.eval f m power
  | reduce a => eval f m power lowPower a
  | rotate k a => fun i => eval f m power lowPower a (slotSource l (lowPower k) i)
  | neg a => fun i => -eval f m power lowPower a i
  | add a b => fun i => eval f m power lowPower a i + eval f m power lowPower b i
  | sub a b => fun i => eval f m power lowPower a i - eval f m power lowPower b i

/-- The program starts with `top` moduli and ends with the given number of moduli; operands have the same number of moduli,
and so have the keys (`level`). -/
def AtLevel (top : ℕ) (level : ν → ℕ) : BfvLevelProgram ι κ ν → ℕ → Prop
  | start _, n => n = top
  | reduce a, n => 0 < n ∧ AtLevel top level a (n + 1)
  | rotate k a, n => level k = n ∧ AtLevel top level a n
  | neg a, n => AtLevel top level a n
  | add a b, n | sub a b, n => AtLevel top level a n ∧ AtLevel top level b n

/-- The conditions on the programs at the start. -/
def Linear (P : RErrorParams) (l t : ℕ) (ms : List Modulus) (N : RPoly → Fin (2 ^ l) → ℤ) (ρ : RPoly → ℝ) :
    BfvLevelProgram ι κ ν → Prop
  | start u => u.Linear P l t ms N ρ
  | reduce a | rotate _ a | neg a => Linear P l t ms N ρ a
  | add a b | sub a b => Linear P l t ms N ρ a ∧ Linear P l t ms N ρ b

/-- What the estimate of the result lacks: the noise `ρ` of the encodings of the plaintexts that are added. -/
noncomputable def lacking (P : RErrorParams) (ρ : RPoly → ℝ) : BfvLevelProgram ι κ ν → ℝ
  | start u => u.lacking P ρ
  | reduce a | rotate _ a | neg a => lacking P ρ a
  | add a b | sub a b => lacking P ρ a + lacking P ρ b

/-- Every ciphertext that is reduced has an `Error()` (with what it lacks) of at least `1 + s`. -/
def Noisy (s : ℝ) (P : RErrorParams) (ρ : RPoly → ℝ) (est : Estimate) (c : Rns.Ctx) (x : ι → RTracked) (galois : κ → RGalois)
    (low : ν → RGalois) : BfvLevelProgram ι κ ν → Prop
  | start _ => True
  | reduce a => Noisy s P ρ est c x galois low a ∧ ∀ y, run P est c x galois low a = .ok y →
      1 + s ≤ y.error + lacking P ρ a
  | rotate _ a | neg a => Noisy s P ρ est c x galois low a
  | add a b | sub a b => Noisy s P ρ est c x galois low a ∧ Noisy s P ρ est c x galois low b

end BfvLevelProgram
end Shell.Spec
