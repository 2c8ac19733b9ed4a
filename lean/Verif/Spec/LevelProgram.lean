import Verif.Spec.KeyNoise
/-! # Programs with modulus reductions in between -/

namespace Shell.Spec
open Rns RnsErrorTrack
variable {ι κ ν : Type} {l : ℕ}

/-- Programs with BGV ciphertexts on several levels. A program that switches keys comes first; its results can be reduced
to fewer moduli, rotated there with one of the Galois keys in `ν`, negated, added and subtracted. -/
inductive LevelProgram (ι κ ν : Type) where
  | start : SwitchProgram ι κ → LevelProgram ι κ ν
  | reduce : LevelProgram ι κ ν → LevelProgram ι κ ν
  | rotate : ν → LevelProgram ι κ ν → LevelProgram ι κ ν
  | neg : LevelProgram ι κ ν → LevelProgram ι κ ν
  | add : LevelProgram ι κ ν → LevelProgram ι κ ν → LevelProgram ι κ ν
  | sub : LevelProgram ι κ ν → LevelProgram ι κ ν → LevelProgram ι κ ν

namespace LevelProgram

/-- Run the program with the library, with the plaintext modulus and the inverses of the context for reductions. -/
noncomputable def run (ctx : Rns.Ctx) (P : RErrorParams) (x : ι → RTracked) (relin : RRelin) (galois : κ → RGalois)
    (low : ν → RGalois) : LevelProgram ι κ ν → Outcome RTracked
  | start u => u.run P x relin galois
  | reduce a => do
    let y ← run ctx P x relin galois low a
    let row ← rd ctx.primeQInvs (y.ct.ms.length - 1)
    y.modReduce ctx.t (row.take (y.ct.ms.length - 1))
  | rotate k a => do applyGalois P (low k) (← (← run ctx P x relin galois low a).substitute (low k).power)
  | neg a => do (← run ctx P x relin galois low a).negate
  | add a b => do (← run ctx P x relin galois low a).add (← run ctx P x relin galois low b)
  | sub a b => do (← run ctx P x relin galois low a).sub (← run ctx P x relin galois low b)

/-- What the program computes on vectors of slots: reductions have no effect. -/
def eval {R : Type} [CommRing R] (f : ι → Fin (2 ^ l) → R) (m : RPoly → Fin (2 ^ l) → R) (power : κ → ℕ) (lowPower : ν → ℕ) :
    LevelProgram ι κ ν → Fin (2 ^ l) → R
  | start u => u.eval f m power
  | reduce a => eval f m power lowPower a
  | rotate k a => fun i => eval f m power lowPower a (slotSource l (lowPower k) i)
  | neg a => fun i => -eval f m power lowPower a i
  | add a b => fun i => eval f m power lowPower a i + eval f m power lowPower b i
  | sub a b => fun i => eval f m power lowPower a i - eval f m power lowPower b i

/-- The program starts with `top` moduli and ends with the given number of moduli; operands have the same number of moduli,
and so have the keys (`level`). -/
def AtLevel (top : ℕ) (level : ν → ℕ) : LevelProgram ι κ ν → ℕ → Prop
  | start _, n => n = top
  | reduce a, n => 0 < n ∧ AtLevel top level a (n + 1)
  | rotate k a, n => level k = n ∧ AtLevel top level a n
  | neg a, n => AtLevel top level a n
  | add a b, n | sub a b, n => AtLevel top level a n ∧ AtLevel top level b n

/-- The conditions on plaintexts. -/
def PlainsOk (w l : ℕ) (ms : List Modulus) (P : RErrorParams) (M : RPoly → Fin (2 ^ l) → ℤ) : LevelProgram ι κ ν → Prop
  | start u => u.PlainsOk w l ms M ∧ u.Within P M
  | reduce a | rotate _ a | neg a => PlainsOk w l ms P M a
  | add a b | sub a b => PlainsOk w l ms P M a ∧ PlainsOk w l ms P M b

/-- Every ciphertext that is reduced has an `Error()` of at least `t (1 + s + s ^ 2 + ..)`, with a term for each
component. -/
def Noisy (s : ℝ) (ctx : Rns.Ctx) (P : RErrorParams) (x : ι → RTracked) (relin : RRelin) (galois : κ → RGalois)
    (low : ν → RGalois) : LevelProgram ι κ ν → Prop
  | start _ => True
  | reduce a => Noisy s ctx P x relin galois low a ∧ ∀ y, run ctx P x relin galois low a = .ok y →
      ctx.t * ∑ j ∈ Finset.range y.ct.c.length, s ^ j ≤ y.error
  | rotate _ a | neg a => Noisy s ctx P x relin galois low a
  | add a b | sub a b => Noisy s ctx P x relin galois low a ∧ Noisy s ctx P x relin galois low b

end LevelProgram
end Shell.Spec
