import Verif.Spec.Tape
import Verif.Props.Polynomial
import Verif.Spec.RnsScheme
/-!
# The distributions that sampling is meant to have (C87)
-/

namespace Shell.Spec

/-- The probability of `e` as the difference of two sums of `2 v` fair bits each: the centered binomial distribution of
variance `v`. -/
noncomputable def binomialLaw (v : ℕ) (e : ℤ) : ℝ :=
  if |e| ≤ 2 * v then ((4 * v).choose (2 * v + e).toNat : ℝ) / 2 ^ (4 * v) else 0

/-- The probability of each residue modulo `N` when numbers of `b` bits are drawn, at most `tries` times, until one is
below `N`: nearly `1 / N`. -/
noncomputable def residueLaw (N b tries : ℕ) : ℝ := (1 - (1 - (N : ℝ) / 2 ^ b) ^ tries) / N

/-- The ciphertext consists of the polynomials `m + t e + a S` and `-a` modulo `N` and `X^n + 1`. -/
def FreshWith (p : MParams) (q : Ntt.NttParams) (N n : ℕ) (x : Word.Ct) (m : Fin n → ℕ) (t : ℕ) (e : Fin n → ℤ)
    (a S : Fin n → ZMod N) : Prop :=
  ∃ c₀ c₁, x.c = [c₀, c₁] ∧ HasCoeffs p q N n c₀ (fun i => m i + t * e i + negMul a S i) ∧
    HasCoeffs p q N n c₁ (fun i => -a i)

open Classical in
/-- The probability of an event, for two tapes of `L₁` and `L₂` independent and uniformly distributed bytes. -/
noncomputable def bytesProbability₂ (L₁ L₂ : ℕ) (event : List (Fin 256) → List (Fin 256) → Prop) : ℝ :=
  ((Finset.univ : Finset ((Fin L₁ → Fin 256) × (Fin L₂ → Fin 256))).filter fun t =>
    event (List.ofFn t.1) (List.ofFn t.2)).card / 256 ^ (L₁ + L₂)

open Rns in
/-- The probability of each polynomial of `2^l` coefficients modulo the moduli `ms`. -/
noncomputable def rnsResidueLaw (ms : List Modulus) (l tries : ℕ) : ℝ :=
  (ms.map fun m => residueLaw m.N m.p.logModulus tries ^ 2 ^ l).prod

open Rns in
/-- Two polynomials in NTT form that hold `M + t E + A S` and `-A` modulo the moduli `ms` and `X^n + 1`. -/
def PairHolds (l : ℕ) (ms : List Modulus) (c₀ c₁ : RPoly) (M : Fin (2 ^ l) → ℤ) (t : ℕ) (E A S : Fin (2 ^ l) → ℤ) :
    Prop :=
  c₀.ntt = true ∧ c₁.ntt = true ∧ Represents l ms c₀ (fun i => M i + t * E i + negMul A S i) ∧
    Represents l ms c₁ (-A)

end Shell.Spec
