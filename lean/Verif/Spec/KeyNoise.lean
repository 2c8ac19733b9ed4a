import Verif.Props.RnsErrorTrack
import Verif.Spec.RnsSlotStore
import Verif.Spec.Tape
/-!
# Key switching within the error estimates

Galois keys and relinearization keys that add no more noise than the error estimates say, programs that use such keys,
and the probability of an event for several independent tapes of random bytes.
-/

namespace Shell.Spec
open Rns RnsErrorTrack
variable {ι κ : Type} {l : ℕ}

/-- Under the secret key `S`, the Galois key turns every ciphertext for its power that stands for `Φ` into one that
stands for `Φ` plus a multiple of `t`, and every coefficient of that multiple is at most the increase of `Error()`. -/
def QuietGalois (l : ℕ) (S : Fin (2 ^ l) → ℤ) (P : RErrorParams) (t : ℕ) (key : RGalois) : Prop :=
  ∀ (x : RTracked) (Φ : Fin (2 ^ l) → ℤ), x.ct.ms = key.ms → x.ct.power = key.power → x.ct.c.length = 2 →
    Encrypts l S x.ct Φ → ∃ (r : RTracked) (R : Fin (2 ^ l) → ℤ), applyGalois P key x = .ok r ∧ r.ct.ms = key.ms ∧
      r.ct.power = 1 ∧ r.ct.c.length = 2 ∧ Encrypts l S r.ct (fun i => Φ i + t * R i) ∧
      ∀ i, |((t * R i : ℤ) : ℝ)| ≤ r.error - x.error

/-- Under the secret key `S`, the relinearization key turns every ciphertext of two or three components that stands for
`Φ` into one of two components that stands for `Φ` plus a multiple of `t`, and every coefficient of that multiple is at
most the increase of `Error()`. -/
def QuietRelin (l : ℕ) (S : Fin (2 ^ l) → ℤ) (P : RErrorParams) (t : ℕ) (key : RRelin) : Prop :=
  ∀ (x : RTracked) (Φ : Fin (2 ^ l) → ℤ), x.ct.ms = key.ms → x.ct.power = 1 → 2 ≤ x.ct.c.length →
    x.ct.c.length ≤ 3 → Encrypts l S x.ct Φ → ∃ (r : RTracked) (R : Fin (2 ^ l) → ℤ), applyRelin P key x = .ok r ∧
      r.ct.ms = key.ms ∧ r.ct.power = 1 ∧ r.ct.c.length = 2 ∧ Encrypts l S r.ct (fun i => Φ i + t * R i) ∧
      ∀ i, |((t * R i : ℤ) : ℝ)| ≤ r.error - x.error

/-- Programs that switch keys. A computation without key switching comes first; its results can be relinearized,
rotated with one of the Galois keys, negated, added and subtracted. -/
inductive SwitchProgram (ι κ : Type) where
  | compute : RCircuit ι → SwitchProgram ι κ
  | relinearize : SwitchProgram ι κ → SwitchProgram ι κ
  | rotate : κ → SwitchProgram ι κ → SwitchProgram ι κ
  | neg : SwitchProgram ι κ → SwitchProgram ι κ
  | add : SwitchProgram ι κ → SwitchProgram ι κ → SwitchProgram ι κ
  | sub : SwitchProgram ι κ → SwitchProgram ι κ → SwitchProgram ι κ

namespace SwitchProgram

/-- Run the program with the library: a rotation is `Substitute` by the power of the key, followed by the key. -/
noncomputable def run (P : RErrorParams) (x : ι → RTracked) (relin : RRelin) (galois : κ → RGalois) :
    SwitchProgram ι κ → Outcome RTracked
  | compute u => u.runTracked P x
  | relinearize a => do applyRelin P relin (← run P x relin galois a)
  | rotate k a => do applyGalois P (galois k) (← (← run P x relin galois a).substitute (galois k).power)
  | neg a => do (← run P x relin galois a).negate
  | add a b => do (← run P x relin galois a).add (← run P x relin galois b)
  | sub a b => do (← run P x relin galois a).sub (← run P x relin galois b)

/-- What the program computes on vectors of slots: relinearization has no effect, and a rotation permutes the slots. -/
def eval {R : Type} [CommRing R] (f : ι → Fin (2 ^ l) → R) (m : RPoly → Fin (2 ^ l) → R) (power : κ → ℕ) :
    SwitchProgram ι κ → Fin (2 ^ l) → R
  | compute u => fun i => u.eval (fun j => f j i) fun p => m p i
  | relinearize a => eval f m power a
  | rotate k a => fun i => eval f m power a (slotSource l (power k) i)
  | neg a => fun i => -eval f m power a i
  | add a b => fun i => eval f m power a i + eval f m power b i
  | sub a b => fun i => eval f m power a i - eval f m power b i

/-- The plaintexts that the program uses are representations of the polynomials `M`. -/
def PlainsOk (w l : ℕ) (ms : List Modulus) (M : RPoly → Fin (2 ^ l) → ℤ) : SwitchProgram ι κ → Prop
  | compute u => u.PlainsOk w l ms M
  | relinearize a | rotate _ a | neg a => PlainsOk w l ms M a
  | add a b | sub a b => PlainsOk w l ms M a ∧ PlainsOk w l ms M b

/-- The plaintexts that the program absorbs have the size that the estimates assume; no plaintexts are added and no
scalars are absorbed. -/
def Within (P : RErrorParams) (M : RPoly → Fin (2 ^ l) → ℤ) : SwitchProgram ι κ → Prop
  | compute u => u.Within P M
  | relinearize a | rotate _ a | neg a => Within P M a
  | add a b | sub a b => Within P M a ∧ Within P M b

end SwitchProgram

open Classical in
/-- The probability of an event, for a family of tapes of `L i` independent and uniformly distributed bytes. -/
noncomputable def tapesProbability [Fintype ι] (L : ι → ℕ) (event : (ι → List (Fin 256)) → Prop) : ℝ :=
  ((Finset.univ : Finset (∀ i, Fin (L i) → Fin 256)).filter fun t => event fun i => List.ofFn (t i)).card /
    256 ^ ∑ i, L i

end Shell.Spec
