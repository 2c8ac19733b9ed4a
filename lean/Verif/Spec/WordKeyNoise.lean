import Verif.Props.WordSwitch
import Verif.Spec.KeyNoise
/-!
# Key switching of symmetric ciphertexts within the error estimates

Relinearization keys and Galois keys, as stored words, that add no more noise than the error estimates say, and circuits
in which no products are formed after keys were switched.
-/

namespace Shell.Spec
open Rns WordCt ErrorTrack

/-- Under the secret key `S`, the relinearization key turns every ciphertext of `parts` components that stands for `φ` into
one of two components that stands for `φ` plus a multiple of `t`, and every coefficient of that multiple is at most the
increase of `Error()`. -/
def QuietWordRelin (C : Ctx) (p : MParams) (S : C.Poly) (P : ErrorParams) (t parts : ℕ) (rk : Word.RKey) : Prop :=
  ∀ x φ, Sound C p S x φ parts → ∃ (y : Obj ℝ) (R : Fin C.n → ℤ), WordCt.relinearize rk (P.bRelinearize C.n) x = .ok y ∧
    Sound C p S y (fun i => φ i + t * R i) 2 ∧ ∀ i, |((t * R i : ℤ) : ℝ)| ≤ y.error - x.error

/-- Under the secret key `S`, `Substitute` by the odd power `pw` followed by the Galois key turns every ciphertext of two
components that stands for `φ` into one that stands for `φ(X^pw)` plus a multiple of `t`, and every coefficient of that
multiple is at most the increase of `Error()`. -/
def QuietWordGalois (C : Ctx) (p : MParams) (q : Ntt.NttParams) (S : C.Poly) (P : ErrorParams) (t pw : ℕ)
    (gk : Word.RKey) : Prop :=
  pw % 2 = 1 ∧ ∀ x φ, Sound C p S x φ 2 → ∃ (y : Obj ℝ) (R : Fin C.n → ℤ),
    substituteAndSwitch q (P.bRelinearize C.n) gk x = .ok y ∧
    Sound C p S y (fun i => substPow pw φ i + t * R i) 2 ∧ ∀ i, |((t * R i : ℤ) : ℝ)| ≤ y.error - x.error

namespace WordCircuit

/-- No keys are switched. -/
def Switchless : WordCircuit → Prop
  | input _ => True
  | add u v | sub u v | mul u v => u.Switchless ∧ v.Switchless
  | absorb u _ | scale u _ => u.Switchless
  | relin _ | rotate _ _ => False

/-- No products of ciphertexts or with plaintext polynomials are formed after a key was switched; sums, differences and
products with constants are. -/
def SwitchesLast : WordCircuit → Prop
  | input _ => True
  | add u v | sub u v => u.SwitchesLast ∧ v.SwitchesLast
  | mul u v => u.Switchless ∧ v.Switchless
  | absorb u _ => u.Switchless
  | scale u _ | relin u | rotate u _ => u.SwitchesLast

/-- The circuit has `r` inputs and `g` Galois keys, and its constants are below `N`. -/
def Within (r g N : ℕ) : WordCircuit → Prop
  | input i => i < r
  | add u v | sub u v | mul u v => u.Within r g N ∧ v.Within r g N
  | absorb u _ | relin u => u.Within r g N
  | scale u c => u.Within r g N ∧ c < N
  | rotate u i => u.Within r g N ∧ i < g

end WordCircuit

end Shell.Spec
