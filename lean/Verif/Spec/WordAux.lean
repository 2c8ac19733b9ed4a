import Verif.Model.WordAux
import Verif.Spec.WordSwitch
/-!
# What key switching with an auxiliary modulus on stored words is supposed to compute
-/

namespace Shell.Spec
open Rns WordCt ErrorTrack
variable {C : Ctx}

/-- The words of a key component hold one over residues modulo `q` and modulo `m`. -/
structure HoldsComp (C : Ctx) (p pAux : MParams) (m : ℕ) (c : Word.Comp) (K : AuxKey.Comp C m) : Prop where
  bMain : Poly.Rep p C.q C.n c.bMain K.bMain
  aMain : Poly.Rep p C.q C.n c.aMain K.aMain
  bAux : Poly.Rep pAux m C.n c.bAux K.bAux
  aAux : Poly.Rep pAux m C.n c.aAux K.aAux

/-- The words of a key with auxiliary modulus `m` hold one over residues. -/
structure HoldsAux (C : Ctx) (p : MParams) (q : Ntt.NttParams) (pAux : MParams) (qAux : Ntt.NttParams) (m : ℕ)
    (ak : Word.AKey) (AK : AuxKey.AKey C m) : Prop where
  params : ak.p = p
  ntt : ak.q = q
  paramsAux : ak.pAux = pAux
  nttAux : ak.qAux = qAux
  t : ak.t = AK.t
  tLt : AK.t < 2 ^ C.w
  power : ak.power = AK.power
  keys : List.Forall₂ (HoldsComp C p pAux m) ak.keys AK.keys

/-- The noise that a key with auxiliary modulus `m` for `parts` components adds, if the sampled errors are at most `B`
and the coefficients of the secret key at most `S`: `parts * n * B * q/2` divided by `m`, and the rounding of two
polynomials of which one is multiplied by the secret key. -/
def auxNoise (n t parts q m B S : ℕ) : ℕ := t * (parts * (n * B * (q / 2)) + m / 2 + n * S * (m / 2)) / m

/-- A key for switching to the secret key, of either kind. -/
inductive SwitchKey where
  | gadget (rk : Word.RKey)
  | aux (ak : Word.AKey)

/-- `ApplyTo` of a relinearization key. -/
noncomputable def SwitchKey.relin (P : ErrorParams) (n N : ℕ) : SwitchKey → Obj ℝ → Outcome (Obj ℝ)
  | .gadget rk => WordCt.relinearize rk (P.bRelinearize n)
  | .aux ak => auxApply ak N (some (P.bAux n))

/-- `Substitute`, and `ApplyTo` of a Galois key. -/
noncomputable def SwitchKey.rotate (P : ErrorParams) (q : Ntt.NttParams) (n N : ℕ) : SwitchKey → Obj ℝ →
    Outcome (Obj ℝ)
  | .gadget gk => substituteAndSwitch q (P.bRelinearize n) gk
  | .aux ak => fun x => do auxGaloisApply ak N (some (P.bAux n)) (← WordCt.substitute q x ak.power)

/-- Auxiliary parameters for the number of coefficients `2^l` and a prime modulus `m` other than `N` that does not
divide `t`. -/
structure AuxParams (w N l t m : ℕ) (pAux : MParams) (qAux : Ntt.NttParams) : Prop where
  params : MParams.create w m = .ok pAux
  ntt : Ntt.initNtt pAux l = .ok qAux
  prime : m.Prime
  ne : m ≠ N
  ndvd : ¬ m ∣ t

/-- `sk` was created from `k` to relinearize ciphertexts of `parts` components; it adds at most the last argument to
the noise. -/
inductive RelinKey {ρ : Type} (R : Word.Rng ρ) (fuel : ℕ) (k : Word.Key) (w N l t variance parts : ℕ) :
    SwitchKey → ℕ → Prop
  | gadget {prng b seed seedE rk} : b < 31 → Word.RKey.create R fuel k prng parts b 1 seed seedE = .ok rk →
      RelinKey R fuel k w N l t variance parts (.gadget rk)
        (switchNoise (2 ^ l) t (parts - 2) ((k.p.logModulus + (b - 1)) / b) b (2 * variance))
  | aux {prng m pAux qAux seed seedE ak} : AuxParams w N l t m pAux qAux →
      Word.AKey.create R fuel k prng (parts - 1 : ℤ) pAux qAux 1 seed seedE = .ok ak →
      RelinKey R fuel k w N l t variance parts (.aux ak)
        (auxNoise (2 ^ l) t (parts - 2) N m (2 * variance) (2 * variance))

/-- `sk` was created from `k` for the automorphism `X -> X^pw`; it adds at most the last argument to the noise. -/
inductive RotateKey {ρ : Type} (R : Word.Rng ρ) (fuel : ℕ) (k : Word.Key) (w N l t variance pw : ℕ) :
    SwitchKey → ℕ → Prop
  | gadget {prng b seed seedE gk} : b < 31 → Word.galoisCreate R fuel k prng pw b seed seedE = .ok gk →
      RotateKey R fuel k w N l t variance pw (.gadget gk)
        (switchNoise (2 ^ l) t 1 ((k.p.logModulus + (b - 1)) / b) b (2 * variance))
  | aux {prng m pAux qAux seed seedE ak} : AuxParams w N l t m pAux qAux →
      auxGaloisCreate R fuel k prng pAux qAux pw seed seedE = .ok ak →
      RotateKey R fuel k w N l t variance pw (.aux ak)
        (auxNoise (2 ^ l) t 1 N m (2 * variance) (2 * variance))

end Shell.Spec
