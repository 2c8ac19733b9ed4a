import Verif.Props.RnsBfvErrorTrack
import Verif.Spec.KeyNoise
/-!
# Programs on BFV ciphertexts that switch keys
-/

namespace Shell.Spec
open Rns RnsErrorTrack
variable {ι κ : Type} {l : ℕ}

/-- Programs on BFV ciphertexts with Galois keys. A computation without key switching comes first; its results can be
rotated, negated, added and subtracted. -/
inductive BfvSwitchProgram (ι κ : Type) where
  | compute : BCircuit ι → BfvSwitchProgram ι κ
  | rotate : κ → BfvSwitchProgram ι κ → BfvSwitchProgram ι κ
  | neg : BfvSwitchProgram ι κ → BfvSwitchProgram ι κ
  | add : BfvSwitchProgram ι κ → BfvSwitchProgram ι κ → BfvSwitchProgram ι κ
  | sub : BfvSwitchProgram ι κ → BfvSwitchProgram ι κ → BfvSwitchProgram ι κ

namespace BfvSwitchProgram

/-- Run the program with the library: a rotation is `Substitute` by the power of the key, followed by the key. -/
noncomputable def run (P : RErrorParams) (est : Estimate) (c : Rns.Ctx) (x : ι → RTracked) (galois : κ → RGalois) :
    BfvSwitchProgram ι κ → Outcome RTracked
  | compute u => u.runTracked P est c x
  | rotate k a => do applyGalois P (galois k) (← (← run P est c x galois a).substitute (galois k).power)
  | neg a => do (← run P est c x galois a).negate
  | add a b => do (← run P est c x galois a).add (← run P est c x galois b)
  | sub a b => do (← run P est c x galois a).sub (← run P est c x galois b)

/-- What the program computes on vectors of slots: a rotation permutes them. -/
def eval {R : Type} [CommRing R] (f : ι → Fin (2 ^ l) → R) (m : RPoly → Fin (2 ^ l) → R) (power : κ → ℕ) :
    BfvSwitchProgram ι κ → Fin (2 ^ l) → R
  | compute u => fun i => u.eval (fun j => f j i) fun p => m p i
  | rotate k a => fun i => eval f m power a (slotSource l (power k) i)
  | neg a => fun i => -eval f m power a i
  | add a b => fun i => eval f m power a i + eval f m power b i
  | sub a b => fun i => eval f m power a i - eval f m power b i

/-- The computations have no products of ciphertexts, and their plaintexts are as in `BCircuit.Linear`. -/
def Linear (P : RErrorParams) (l t : ℕ) (ms : List Modulus) (N : RPoly → Fin (2 ^ l) → ℤ) (ρ : RPoly → ℝ) :
    BfvSwitchProgram ι κ → Prop
  | compute u => u.Linear P l t ms N ρ
  | rotate _ a | neg a => Linear P l t ms N ρ a
  | add a b | sub a b => Linear P l t ms N ρ a ∧ Linear P l t ms N ρ b

/-- What the estimate of the result lacks: the noise `ρ` of the encodings of the plaintexts that are added. -/
noncomputable def lacking (P : RErrorParams) (ρ : RPoly → ℝ) : BfvSwitchProgram ι κ → ℝ
  | compute u => u.lacking P ρ
  | rotate _ a | neg a => lacking P ρ a
  | add a b | sub a b => lacking P ρ a + lacking P ρ b

end BfvSwitchProgram
end Shell.Spec
