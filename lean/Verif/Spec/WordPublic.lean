import Verif.Model.WordPublic
import Verif.Spec.WordSwitch
/-!
# What public-key encryption on stored words is supposed to compute
-/

namespace Shell.Spec
open Rns WordCt ErrorTrack
variable {C : Ctx}

/-- The words of the public key `pk` hold the public key `PK` over residues. -/
structure HoldsPublic (C : Ctx) (p : MParams) (q : Ntt.NttParams) (pk : Word.PKey) (PK : Pub.PKey C) : Prop where
  params : pk.p = p
  ntt : pk.q = q
  a : Poly.Rep p C.q C.n pk.a PK.a
  b : Poly.Rep p C.q C.n pk.b PK.b
  tLe : pk.tMod ≤ C.q
  t : (Mont.exportInt p pk.tMod : ZMod C.q) = PK.t

/-- The error of a public-key encryption: secret key, error of the public key and randomness of the encryption have
coefficients of at most `S`, `K` and `B`. -/
def publicNoise (n S K B : ℕ) : ℕ := n * K * B + B + n * B * S

/-- The object `x` is a fresh encryption of the plaintext with words `pt`, under the secret key `k` or under the public
key `pk` with a variance of at most `V`. -/
inductive EncryptionOf {τ : Type} (G : Gen τ) (fuel : ℕ) (k : Word.Key) (pk : Word.PKey) (V : ℕ)
    (bPub : ℕ → ℤ → Outcome ℝ) (pt : List ℕ) : Obj ℝ → Prop
  | secret {bits : ℕ} {t t' : τ} {x : Word.Ct} (error : ℝ) : Word.encrypt G fuel k pt bits t = .ok (x, t') →
      EncryptionOf G fuel k pk V bPub pt ⟨x.c, x.power, error, []⟩
  | withPublic {variance : ℤ} {t : Option τ} {t' : τ} {x : Obj ℝ} : variance ≤ V →
      pk.encrypt G pt variance bPub t = .ok (x, t') → EncryptionOf G fuel k pk V bPub pt x

end Shell.Spec
