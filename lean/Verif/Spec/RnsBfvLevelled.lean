import Verif.Spec.RnsSession
import Verif.Spec.RnsBfv
/-!
# Levelled computations with the RNS BFV scheme
-/

namespace Shell.Spec
open Rns
variable {σ τ : Type}

/-- A computation on encrypted vectors: `mulVec` multiplies by a scaled plaintext and `mulSimple` by an unscaled one. -/
inductive VCircuit where
  | input (i : ℕ)
  | received (i : ℕ)
  | neg (u : VCircuit)
  | add (u v : VCircuit)
  | sub (u v : VCircuit)
  | mul (u v : VCircuit)
  | addVec (u : VCircuit) (m : List ℕ)
  | subVec (u : VCircuit) (m : List ℕ)
  | mulVec (u : VCircuit) (m : List ℕ)
  | mulSimple (u : VCircuit) (m : List ℕ)
  | scale (u : VCircuit) (c : ℕ)
  | relin (u : VCircuit)
  | rotate (u : VCircuit) (k : ℕ)
  | swap (u : VCircuit)
  | reduce (u : VCircuit)

/-- The library calls of the computation (compare rns/rns_bfv_ciphertext_test.cc). -/
def VCircuit.run (est : Estimate) (l : ℕ) (v : LEnv) : VCircuit → Outcome RCt
  | input i => .ok (v.x i)
  | received i => .ok (v.y i)
  | neg a => do (← a.run est l v).negate
  | add a b => do (← a.run est l v).add (← b.run est l v)
  | sub a b => do (← a.run est l v).sub (← b.run est l v)
  | mul a b => do RCt.mulBfv est v.e.ctx (← a.run est l v) (← b.run est l v)
  | addVec a m => do
    let r ← a.run est l v
    r.addPlain (← ffEncodeBfv v.e m r.ms true)
  | subVec a m => do
    let r ← a.run est l v
    r.subPlain (← ffEncodeBfv v.e m r.ms true)
  | mulVec a m => do
    let r ← a.run est l v
    RCt.absorbBfv est v.e.ctx r (← ffEncodeBfv v.e m r.ms true)
  | mulSimple a m => do
    let r ← a.run est l v
    r.absorbSimple (← ffEncodeBfv v.e m r.ms false)
  | scale a c => do (← a.run est l v).absorbInt c
  | relin a => do
    let r ← a.run est l v
    (v.relin r.ms.length).applyTo r
  | rotate a k => do
    let r ← a.run est l v
    (v.galois r.ms.length (rotatePower l k)).applyTo (← r.substitute (rotatePower l k))
  | swap a => do
    let r ← a.run est l v
    (v.galois r.ms.length (swapPower l)).applyTo (← r.substitute (swapPower l))
  | reduce a => do (← a.run est l v).modReduceBfv v.e.ctx

/-- The computation on vectors of slots. -/
def VCircuit.eval {R : Type} [CommRing R] (l : ℕ) (f g : ℕ → ℕ → R) : VCircuit → ℕ → R
  | input i => f i
  | received i => g i
  | neg a => fun i => -a.eval l f g i
  | add a b => fun i => a.eval l f g i + b.eval l f g i
  | sub a b => fun i => a.eval l f g i - b.eval l f g i
  | mul a b => fun i => a.eval l f g i * b.eval l f g i
  | addVec a m => fun i => a.eval l f g i + (m.getD i 0 : ℕ)
  | subVec a m => fun i => a.eval l f g i - (m.getD i 0 : ℕ)
  | mulVec a m => fun i => a.eval l f g i * (m.getD i 0 : ℕ)
  | mulSimple a m => fun i => a.eval l f g i * (m.getD i 0 : ℕ)
  | scale a c => fun i => c * a.eval l f g i
  | relin a => a.eval l f g
  | rotate a k => fun i => a.eval l f g (rotateSlot l k i)
  | swap a => fun i => a.eval l f g (swapSlot l i)
  | reduce a => a.eval l f g

/-- What an analysis of the noise starts from: the auxiliary moduli and the error `h` of roundings besides. -/
structure VParams extends LParams where
  ps : List ℕ
  h : ℚ

/-- The growth of `d` components under the secret. -/
def VParams.growth (P : VParams) (d : ℕ) : ℚ := ∑ j ∈ Finset.range d, P.secret ^ j

/-- The noise of a product of ciphertexts or plaintexts that grow by `gx`, `gy`, `gr`. -/
def VParams.product (P : VParams) (gx gy gr vx vy : ℚ) : ℚ :=
  bfvMulNoise (2 ^ P.l) P.t P.qs.prod P.ps.prod P.h gx gy gr vx vy

/-- The analysis of a computation; `none` if it is not supported.  Scaled plaintexts and products need all moduli. -/
def VCircuit.analyse (P : VParams) : VCircuit → Option LInfo
  | input _ => some ⟨P.qs.length, 2, P.fresh⟩
  | received _ => some ⟨P.qs.length, 2, P.sent⟩
  | neg a => a.analyse P
  | add a b | sub a b => do
    let x ← a.analyse P
    let y ← b.analyse P
    if x.level = y.level ∧ x.comps = y.comps then some ⟨x.level, x.comps, x.noise + y.noise⟩ else none
  | mul a b => do
    let x ← a.analyse P
    let y ← b.analyse P
    let d := x.comps + y.comps - 1
    if x.level = P.qs.length ∧ y.level = P.qs.length then
      some ⟨x.level, d, P.product (P.growth x.comps) (P.growth y.comps) (P.growth d) x.noise y.noise⟩ else none
  | addVec a m | subVec a m => do
    let x ← a.analyse P
    if P.vecOk m ∧ x.level = P.qs.length then some ⟨x.level, x.comps, x.noise + P.t⟩ else none
  | mulVec a m => do
    let x ← a.analyse P
    if P.vecOk m ∧ x.level = P.qs.length then
      some ⟨x.level, x.comps, P.product (P.growth x.comps) 1 (P.growth x.comps) x.noise P.t⟩ else none
  | mulSimple a m => do
    let x ← a.analyse P
    if P.vecOk m then some ⟨x.level, x.comps, 2 ^ P.l * x.noise * P.t⟩ else none
  | scale a c => do
    let x ← a.analyse P
    if c < 2 ^ P.w then some ⟨x.level, x.comps, c * x.noise⟩ else none
  | relin a => do
    let x ← a.analyse P
    if x.comps ≤ 3 ∧ x.level ∈ P.relins then
      some ⟨x.level, 2, x.noise + (x.comps - 2 : ℕ) * P.switch x.level⟩ else none
  | rotate a k => do
    let x ← a.analyse P
    P.galoisInfo (rotatePower P.l k) x
  | swap a => do
    let x ← a.analyse P
    P.galoisInfo (swapPower P.l) x
  | reduce a => do
    let x ← a.analyse P
    if 1 < x.level then
      some ⟨x.level - 1, x.comps, x.noise / P.qs.getD (x.level - 1) 1 + P.t / 2 * P.growth x.comps⟩ else none

/-- The results of the calls for BFV; one or two generators are used to encrypt. -/
structure BfvSession (G : Gen σ) (Gp : Gen τ) (fuel : ℕ) (est : Estimate) (C : SchemeChoice) (c : Rns.Ctx)
    (k : ℕ → RKey) (pk : RPub) (v : LEnv) (m m' : ℕ → List ℕ) : Prop where
  context : createForBfvFiniteField C.w C.l C.qs C.ps C.t = .ok c
  keys : KeySession G Gp fuel C 1 c k v
  pub : ∃ sp s, RPub.create Gp G fuel (k c.qs.length) C.v 1 sp s = .ok pk
  messages : ∀ i, C.Messages (m i) ∧ C.Messages (m' i)
  encrypt : ∀ i, (∃ s s', (k c.qs.length).encryptBfv1 G fuel (finiteFieldEncoder est v.e) (m i) s = .ok (v.x i, s')) ∨
    ∃ s sp s', (k c.qs.length).encryptBfv G Gp fuel (finiteFieldEncoder est v.e) (m i) s sp = .ok (v.x i, s')
  receive : ∀ i, ∃ s s', pk.encryptBfv G (finiteFieldEncoder est v.e) (m' i) s = .ok (v.y i, s')

/-- The start of the analysis; `ε` is the error of the floating point estimates. -/
def SchemeChoice.bfvParams (C : SchemeChoice) (ε : ℚ) : VParams where
  toLParams := { C.params with
    fresh := C.t * (2 * C.v + 1)
    sent := C.t * (2 * C.v * (2 ^ C.l * (2 * C.v) + 1 + 2 ^ C.l * (2 * C.v)) + 1) }
  ps := C.ps
  h := 1 / 2 + ε

end Shell.Spec
