import Verif.Spec.Rns
import Verif.Spec.Poly
import Verif.Model.RnsKeys
/-!
# What an RNS ciphertext stands for

A ciphertext `(c_0, c_1, .., c_d)` decrypts under the secret polynomial `s` to the integer polynomial
`c_0 + c_1 s + .. + c_d s^d` modulo `X^n + 1`, known modulo the product of the moduli.
-/

namespace Shell.Spec
open Rns

/-- `c_0 + s * (c_1 + s * (c_2 + ..))` modulo `X^n + 1`. -/
def innerProduct {n : ℕ} (S : Fin n → ℤ) : List (Fin n → ℤ) → Fin n → ℤ
  | [] => 0
  | c :: cs => c + negMul S (innerProduct S cs)

/-- Coefficient-wise congruence modulo `Q`. -/
def CongMod {n : ℕ} (Q : ℕ) (F G : Fin n → ℤ) : Prop := ∀ i, (Q : ℤ) ∣ F i - G i

/-- The components of `x` are in NTT form and represent the integer polynomials `Cs`. -/
def Components (l : ℕ) (x : RCt) (Cs : List (Fin (2 ^ l) → ℤ)) : Prop :=
  List.Forall₂ (fun c C => c.ntt = true ∧ Represents l x.ms c C) x.c Cs

/-- The ciphertext `x`, with respect to the secret `S`, stands for the integer polynomial `Φ` modulo the
product of its moduli. -/
def Phase (l : ℕ) (S : Fin (2 ^ l) → ℤ) (x : RCt) (Φ : Fin (2 ^ l) → ℤ) : Prop :=
  ∃ Cs, Components l x Cs ∧ CongMod (modulusProd x.ms) (innerProduct S Cs) Φ

/-- Under the secret `S`, the ciphertext stands for `Φ`: it is to be decrypted with `S(X^power)`. -/
def Encrypts (l : ℕ) (S : Fin (2 ^ l) → ℤ) (x : RCt) (Φ : Fin (2 ^ l) → ℤ) : Prop :=
  0 ≤ x.power ∧ Phase l (substPow x.power.toNat S) x Φ

/-- Same moduli and power of the secret. -/
def Like (x r : RCt) : Prop := r.ms = x.ms ∧ r.power = x.power

/-- The key object `k` holds the secret polynomial `S`. -/
def KeyIs (l : ℕ) (k : RKey) (S : Fin (2 ^ l) → ℤ) : Prop :=
  k.key.ntt = true ∧ Represents l k.ms k.key S

end Shell.Spec
