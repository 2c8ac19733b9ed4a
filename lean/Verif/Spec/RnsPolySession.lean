import Verif.Spec.RnsSession
import Verif.Spec.Poly
/-!
# Levelled computations on encrypted polynomials

A computation on encrypted polynomials modulo `t` and `X^n + 1`, with the coefficient encoder, and the calls by which a
user of the library obtains what it needs.  `t` need not be prime.
-/

namespace Shell.Spec
open Rns
variable {σ τ : Type}

/-- A computation on encrypted polynomials: `input` are encryptions with the secret key, `received` with the
public key; a plaintext polynomial is the list of its coefficients. -/
inductive PCircuit where
  | input (i : ℕ)
  | received (i : ℕ)
  | neg (u : PCircuit)
  | add (u v : PCircuit)
  | sub (u v : PCircuit)
  | mul (u v : PCircuit)
  | addPoly (u : PCircuit) (m : List ℕ)
  | subPoly (u : PCircuit) (m : List ℕ)
  | mulPoly (u : PCircuit) (m : List ℕ)
  | scale (u : PCircuit) (c : ℕ)
  | relin (u : PCircuit)
  | subst (u : PCircuit) (p : ℕ)
  | reduce (u : PCircuit)

/-- What the computation is run with: a context, ciphertexts, and the keys for every number of moduli (and every
substitution power). -/
structure PEnv where
  c : Rns.Ctx
  x : ℕ → RCt
  y : ℕ → RCt
  relin : ℕ → RRelin
  galois : ℕ → ℕ → RGalois

/-- The library calls of the computation: plaintexts are encoded for the moduli of the ciphertext and converted to NTT
form, keys are chosen by its level, `Substitute` precedes the Galois key, and `ModReduce` is given the constants of the
context. -/
def PCircuit.run (v : PEnv) : PCircuit → Outcome RCt
  | input i => .ok (v.x i)
  | received i => .ok (v.y i)
  | neg a => do (← a.run v).negate
  | add a b => do (← a.run v).add (← b.run v)
  | sub a b => do (← a.run v).sub (← b.run v)
  | mul a b => do (← a.run v).mul (← b.run v)
  | addPoly a m => do
    let r ← a.run v
    r.addPlain (← toNtt r.ms (← encodeBgv v.c m r.ms))
  | subPoly a m => do
    let r ← a.run v
    r.subPlain (← toNtt r.ms (← encodeBgv v.c m r.ms))
  | mulPoly a m => do
    let r ← a.run v
    r.absorb (← toNtt r.ms (← encodeBgv v.c m r.ms))
  | scale a c => do (← a.run v).absorbInt c
  | relin a => do
    let r ← a.run v
    (v.relin r.ms.length).applyTo r
  | subst a p => do
    let r ← a.run v
    (v.galois r.ms.length p).applyTo (← r.substitute p)
  | reduce a => do
    let r ← a.run v
    let row ← rd v.c.primeQInvs (r.ms.length - 1)
    r.modReduceBgv v.c.t (row.take (r.ms.length - 1))

/-- The computation in `R[X]/(X^n + 1)`, `n = 2^l`. -/
def PCircuit.eval {R : Type} [CommRing R] {l : ℕ} (f g : ℕ → Fin (2 ^ l) → R) : PCircuit → Fin (2 ^ l) → R
  | input i => f i
  | received i => g i
  | neg a => fun i => -a.eval f g i
  | add a b => fun i => a.eval f g i + b.eval f g i
  | sub a b => fun i => a.eval f g i - b.eval f g i
  | mul a b => negMul (a.eval f g) (b.eval f g)
  | addPoly a m => fun i => a.eval f g i + (m.getD i 0 : ℕ)
  | subPoly a m => fun i => a.eval f g i - (m.getD i 0 : ℕ)
  | mulPoly a m => negMul (a.eval f g) fun i => (m.getD i 0 : ℕ)
  | scale a c => fun i => c * a.eval f g i
  | relin a => a.eval f g
  | subst a p => substPow p (a.eval f g)
  | reduce a => a.eval f g

/-- The analysis of a computation, as for slots; a substitution needs a Galois key for its power. -/
def PCircuit.analyse (P : LParams) : PCircuit → Option LInfo
  | input _ => some ⟨P.qs.length, 2, P.fresh⟩
  | received _ => some ⟨P.qs.length, 2, P.sent⟩
  | neg a => a.analyse P
  | add a b | sub a b => do
    let x ← a.analyse P
    let y ← b.analyse P
    if x.level = y.level ∧ x.comps = y.comps then some ⟨x.level, x.comps, x.noise + y.noise⟩ else none
  | mul a b => do
    let x ← a.analyse P
    let y ← b.analyse P
    if x.level = y.level then
      some ⟨x.level, x.comps + y.comps - 1, 2 ^ P.l * x.noise * y.noise⟩ else none
  | addPoly a m | subPoly a m => do
    let x ← a.analyse P
    if m.length ≤ 2 ^ P.l then some ⟨x.level, x.comps, x.noise + P.t / 2⟩ else none
  | mulPoly a m => do
    let x ← a.analyse P
    if m.length ≤ 2 ^ P.l then some ⟨x.level, x.comps, 2 ^ P.l * x.noise * (P.t / 2)⟩ else none
  | scale a c => do
    let x ← a.analyse P
    if c < 2 ^ P.w then some ⟨x.level, x.comps, c * x.noise⟩ else none
  | relin a => do
    let x ← a.analyse P
    if x.comps ≤ 3 ∧ x.level ∈ P.relins then
      some ⟨x.level, 2, x.noise + (x.comps - 2 : ℕ) * P.switch x.level⟩ else none
  | subst a p => do
    let x ← a.analyse P
    P.galoisInfo p x
  | reduce a => do
    let x ← a.analyse P
    if 1 < x.level then
      let q := P.qs.getD (x.level - 1) 1
      some ⟨x.level - 1, x.comps, (q % P.t : ℕ) * x.noise / q +
        P.t / 2 * ∑ j ∈ Finset.range x.comps, P.secret ^ j⟩ else none

/-- The moduli are distinct primes that do not divide `t`, with room for the errors, and digits have fewer than 31
bits. -/
structure SchemeChoice.ValidPoly (C : SchemeChoice) : Prop where
  word : C.w ≤ 128
  prime : ∀ q ∈ C.qs ++ C.ps, q.Prime
  distinct : (C.qs ++ C.ps).Nodup
  small : C.t < 2 ^ C.w
  first : ∀ q ∈ C.qs.head?, C.t ≤ q ∧ 2 * C.v ≤ q
  other : ∀ q ∈ C.qs ++ C.ps, ¬q ∣ C.t
  level : ∀ a, a ∈ C.relins ∨ a ∈ C.galois.map (·.1) → 0 < a ∧ a ≤ C.qs.length ∧ (C.logBs a).length = a ∧
    ∀ b ∈ C.logBs a, 0 < b ∧ b < 31 ∧ b < C.w

/-- Keys: `k lev` is the secret key for the first `lev` moduli; relinearization keys of degree 2 and Galois keys. -/
structure KeyCalls (G : Gen σ) (Gp : Gen τ) (fuel : ℕ) (C : SchemeChoice) (z : ℕ) (c : Rns.Ctx) (k : ℕ → RKey)
    (relins : ℕ → RRelin) (galois : ℕ → ℕ → RGalois) : Prop where
  secret : ∃ s s', RKey.sample G C.l C.v c.qs s = .ok (k c.qs.length, s')
  reduced : ∀ lev, 0 < lev → lev < c.qs.length → (k (lev + 1)).modReduce = .ok (k lev)
  relin : ∀ lev ∈ C.relins, ∃ g prng sp s, C.Gadget c lev g ∧
    RRelin.create Gp G fuel (k lev) 2 C.v g prng z sp s = .ok (relins lev)
  galois : ∀ a ∈ C.galois, ∃ g prng sp s, C.Gadget c a.1 g ∧
    RGalois.create Gp G fuel (k a.1) a.2 C.v g prng z sp s = .ok (galois a.1 a.2)

/-- The results of the calls for BGV: a context, keys, and ciphertexts `v.x i` that encrypt the polynomials `m i` with
the secret key, and `v.y i` that encrypt `m' i` with the public key `pk`. -/
structure BgvPolySession (G : Gen σ) (Gp : Gen τ) (fuel : ℕ) (est : Estimate) (C : SchemeChoice) (k : ℕ → RKey)
    (pk : RPub) (v : PEnv) (m m' : ℕ → List ℕ) : Prop where
  context : createCtx C.w C.l C.qs C.ps C.t = .ok v.c
  keys : KeyCalls G Gp fuel C C.t v.c k v.relin v.galois
  pub : ∃ sp s, RPub.create Gp G fuel (k v.c.qs.length) C.v C.t sp s = .ok pk
  messages : ∀ i, (m i).length ≤ 2 ^ C.l ∧ (m' i).length ≤ 2 ^ C.l
  encrypt : ∀ i, ∃ s s', (k v.c.qs.length).encryptBgv G fuel (coefficientEncoder est v.c) (m i) s = .ok (v.x i, s')
  receive : ∀ i, ∃ s s', pk.encryptBgv G (coefficientEncoder est v.c) (m' i) s = .ok (v.y i, s')

end Shell.Spec
