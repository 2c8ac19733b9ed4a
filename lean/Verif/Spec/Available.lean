import Verif.Spec.RnsPolySession
/-!
# When calls succeed (C85)
-/

namespace Shell.Spec
open Rns
variable {σ α : Type}

/-- Every request for random bytes is answered. -/
def Delivers (G : Gen σ) : Prop := ∀ s, (∃ r, G.rand8 s = .ok r) ∧ ∃ r, G.rand64 s = .ok r

/-- From every state, the rejection sampling of a residue modulo any of the moduli ends within `fuel` draws. -/
def Accepts (G : Gen σ) (fuel : ℕ) (ms : List Modulus) : Prop :=
  ∀ m ∈ ms, ∀ s, ∃ r, Sampler.importRandom G m.p fuel s = .ok r

/-- The call succeeds; only if `d` holds it may instead not have ended. -/
def OkUnless (d : Prop) (x : Outcome α) : Prop := (∃ a, x = .ok a) ∨ d ∧ x = .ub .diverge

/-- The parameters are in the ranges that the constructors check: the moduli have two bits to spare and are one modulo
`2 n`, with `2 ≤ n ≤ 2^15`; the variance is positive and at most 256; Galois keys are for odd powers below `2 n`. -/
structure SchemeChoice.Usable (C : SchemeChoice) : Prop where
  qs : C.qs ≠ []
  t : 0 < C.t
  logN : 1 ≤ C.l ∧ C.l ≤ 15 ∧ C.l + 1 < C.w
  moduli : ∀ q ∈ C.qs ++ C.ps, q % 2 = 1 ∧ q < 2 ^ (C.w - 2) ∧ q % 2 ^ (C.l + 1) = 1
  variance : 0 < C.v ∧ C.v ≤ 256
  powers : ∀ a ∈ C.galois, a.2 % 2 = 1 ∧ a.2 < 2 * 2 ^ C.l

/-- Also the plaintext modulus is odd, as BFV contexts require. -/
structure SchemeChoice.UsableBfv (C : SchemeChoice) : Prop extends C.Usable where
  odd : C.t % 2 = 1
  plain : 1 < C.t ∧ C.t < 2 ^ (C.w - 2)

/-- `c` is the context created for BGV or for BFV. -/
def SchemeChoice.Context (C : SchemeChoice) (c : Rns.Ctx) : Prop :=
  createCtx C.w C.l C.qs C.ps C.t = .ok c ∨ createForBfv C.w C.l C.qs C.ps C.t = .ok c

/-- `k lev` is the sampled secret key, reduced to the first `lev` moduli. -/
structure KeyLevels (G : Gen σ) (C : SchemeChoice) (c : Rns.Ctx) (k : ℕ → RKey) : Prop where
  secret : ∃ s s', RKey.sample G C.l C.v c.qs s = .ok (k c.qs.length, s')
  reduced : ∀ lev, 0 < lev → lev < c.qs.length → (k (lev + 1)).modReduce = .ok (k lev)

end Shell.Spec
