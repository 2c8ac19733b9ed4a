import Verif.Spec.RnsPolySession
import Verif.Spec.RnsBfvLevelled
/-!
# Levelled computations on encrypted polynomials with the RNS BFV scheme
-/

namespace Shell.Spec
open Rns
variable {σ τ : Type}

/-- A computation on encrypted polynomials: `mulPoly` multiplies by a scaled plaintext and `mulSimple` by an unscaled
one. -/
inductive QCircuit where
  | input (i : ℕ)
  | received (i : ℕ)
  | neg (u : QCircuit)
  | add (u v : QCircuit)
  | sub (u v : QCircuit)
  | mul (u v : QCircuit)
  | addPoly (u : QCircuit) (m : List ℕ)
  | subPoly (u : QCircuit) (m : List ℕ)
  | mulPoly (u : QCircuit) (m : List ℕ)
  | mulSimple (u : QCircuit) (m : List ℕ)
  | scale (u : QCircuit) (a : ℕ)
  | relin (u : QCircuit)
  | subst (u : QCircuit) (p : ℕ)
  | reduce (u : QCircuit)

/-- The library calls of the computation (compare rns/rns_bfv_ciphertext_test.cc). -/
def QCircuit.run (est : Estimate) (v : PEnv) : QCircuit → Outcome RCt
  | input i => .ok (v.x i)
  | received i => .ok (v.y i)
  | neg a => do (← a.run est v).negate
  | add a b => do (← a.run est v).add (← b.run est v)
  | sub a b => do (← a.run est v).sub (← b.run est v)
  | mul a b => do RCt.mulBfv est v.c (← a.run est v) (← b.run est v)
  | addPoly a m => do
    let r ← a.run est v
    r.addPlain (← encodeBfv v.c m r.ms true)
  | subPoly a m => do
    let r ← a.run est v
    r.subPlain (← encodeBfv v.c m r.ms true)
  | mulPoly a m => do
    let r ← a.run est v
    RCt.absorbBfv est v.c r (← encodeBfv v.c m r.ms true)
  | mulSimple a m => do
    let r ← a.run est v
    r.absorbSimple (← encodeBfv v.c m r.ms false)
  | scale a c => do (← a.run est v).absorbInt c
  | relin a => do
    let r ← a.run est v
    (v.relin r.ms.length).applyTo r
  | subst a p => do
    let r ← a.run est v
    (v.galois r.ms.length p).applyTo (← r.substitute p)
  | reduce a => do (← a.run est v).modReduceBfv v.c

/-- The computation in `R[X]/(X^n + 1)`, `n = 2^l`. -/
def QCircuit.eval {R : Type} [CommRing R] {l : ℕ} (f g : ℕ → Fin (2 ^ l) → R) : QCircuit → Fin (2 ^ l) → R
  | input i => f i
  | received i => g i
  | neg a => fun i => -a.eval f g i
  | add a b => fun i => a.eval f g i + b.eval f g i
  | sub a b => fun i => a.eval f g i - b.eval f g i
  | mul a b => negMul (a.eval f g) (b.eval f g)
  | addPoly a m => fun i => a.eval f g i + (m.getD i 0 : ℕ)
  | subPoly a m => fun i => a.eval f g i - (m.getD i 0 : ℕ)
  | mulPoly a m | mulSimple a m => negMul (a.eval f g) fun i => (m.getD i 0 : ℕ)
  | scale a c => fun i => c * a.eval f g i
  | relin a => a.eval f g
  | subst a p => substPow p (a.eval f g)
  | reduce a => a.eval f g

/-- The analysis of a computation, as for slots. -/
def QCircuit.analyse (P : VParams) : QCircuit → Option LInfo
  | input _ => some ⟨P.qs.length, 2, P.fresh⟩
  | received _ => some ⟨P.qs.length, 2, P.sent⟩
  | neg a => a.analyse P
  | add a b | sub a b => do
    let x ← a.analyse P
    let y ← b.analyse P
    if x.level = y.level ∧ x.comps = y.comps then some ⟨x.level, x.comps, x.noise + y.noise⟩ else none
  | mul a b => do
    let x ← a.analyse P
    let y ← b.analyse P
    let d := x.comps + y.comps - 1
    if x.level = P.qs.length ∧ y.level = P.qs.length then
      some ⟨x.level, d, P.product (P.growth x.comps) (P.growth y.comps) (P.growth d) x.noise y.noise⟩ else none
  | addPoly a m | subPoly a m => do
    let x ← a.analyse P
    if P.vecOk m ∧ x.level = P.qs.length then some ⟨x.level, x.comps, x.noise + P.t⟩ else none
  | mulPoly a m => do
    let x ← a.analyse P
    if P.vecOk m ∧ x.level = P.qs.length then
      some ⟨x.level, x.comps, P.product (P.growth x.comps) 1 (P.growth x.comps) x.noise P.t⟩ else none
  | mulSimple a m => do
    let x ← a.analyse P
    if P.vecOk m then some ⟨x.level, x.comps, 2 ^ P.l * x.noise * P.t⟩ else none
  | scale a c => do
    let x ← a.analyse P
    if c < 2 ^ P.w then some ⟨x.level, x.comps, c * x.noise⟩ else none
  | relin a => do
    let x ← a.analyse P
    if x.comps ≤ 3 ∧ x.level ∈ P.relins then
      some ⟨x.level, 2, x.noise + (x.comps - 2 : ℕ) * P.switch x.level⟩ else none
  | subst a p => do
    let x ← a.analyse P
    P.galoisInfo p x
  | reduce a => do
    let x ← a.analyse P
    if 1 < x.level then
      some ⟨x.level - 1, x.comps, x.noise / P.qs.getD (x.level - 1) 1 + P.t / 2 * P.growth x.comps⟩ else none

/-- The results of the calls for BFV; one or two generators are used to encrypt. -/
structure BfvPolySession (G : Gen σ) (Gp : Gen τ) (fuel : ℕ) (est : Estimate) (C : SchemeChoice) (k : ℕ → RKey)
    (pk : RPub) (v : PEnv) (m m' : ℕ → List ℕ) : Prop where
  context : createForBfv C.w C.l C.qs C.ps C.t = .ok v.c
  keys : KeyCalls G Gp fuel C 1 v.c k v.relin v.galois
  pub : ∃ sp s, RPub.create Gp G fuel (k v.c.qs.length) C.v 1 sp s = .ok pk
  messages : ∀ i, C.Messages (m i) ∧ C.Messages (m' i)
  encrypt : ∀ i,
    (∃ s s', (k v.c.qs.length).encryptBfv1 G fuel (coefficientEncoder est v.c) (m i) s = .ok (v.x i, s')) ∨
    ∃ s sp s', (k v.c.qs.length).encryptBfv G Gp fuel (coefficientEncoder est v.c) (m i) s sp = .ok (v.x i, s')
  receive : ∀ i, ∃ s s', pk.encryptBfv G (coefficientEncoder est v.c) (m' i) s = .ok (v.y i, s')

end Shell.Spec
