import Verif.Spec.RnsGadget
import Verif.Spec.Slots
import Verif.Model.RnsEncoder
/-!
# Levelled computations with the RNS BGV scheme

A computation on encrypted vectors of slots: the arithmetic of the ciphertext class, plaintext vectors,
relinearization, rotations of the slots with Galois keys, and modulus reduction.
-/

namespace Shell.Spec
open Rns

/-- A computation on encrypted vectors: `input` are encryptions with the secret key, `received` with the
public key. -/
inductive LCircuit where
  | input (i : ℕ)
  | received (i : ℕ)
  | neg (u : LCircuit)
  | add (u v : LCircuit)
  | sub (u v : LCircuit)
  | mul (u v : LCircuit)
  | addVec (u : LCircuit) (m : List ℕ)
  | subVec (u : LCircuit) (m : List ℕ)
  | mulVec (u : LCircuit) (m : List ℕ)
  | scale (u : LCircuit) (c : ℕ)
  | relin (u : LCircuit)
  | rotate (u : LCircuit) (k : ℕ)
  | swap (u : LCircuit)
  | reduce (u : LCircuit)

/-- The substitution power that rotates by `k`. -/
def rotatePower (l k : ℕ) : ℕ := 5 ^ k % (2 * 2 ^ l)

/-- The substitution power that exchanges the halves. -/
def swapPower (l : ℕ) : ℕ := 2 * 2 ^ l - 1

/-- What the computation is run with: an encoder, ciphertexts, and the keys for every number of moduli (and
every substitution power). -/
structure LEnv where
  e : FFEncoder
  x : ℕ → RCt
  y : ℕ → RCt
  relin : ℕ → RRelin
  galois : ℕ → ℕ → RGalois

/-- The library calls of the computation: plaintexts are encoded for the moduli of the ciphertext, keys are chosen
by its level, `Substitute` precedes the Galois key, and `ModReduce` is given the constants of the context
(compare rns/rns_bgv_ciphertext_test.cc). -/
def LCircuit.run (l : ℕ) (v : LEnv) : LCircuit → Outcome RCt
  | input i => .ok (v.x i)
  | received i => .ok (v.y i)
  | neg a => do (← a.run l v).negate
  | add a b => do (← a.run l v).add (← b.run l v)
  | sub a b => do (← a.run l v).sub (← b.run l v)
  | mul a b => do (← a.run l v).mul (← b.run l v)
  | addVec a m => do
    let r ← a.run l v
    r.addPlain (← ffEncodeBgv v.e m r.ms)
  | subVec a m => do
    let r ← a.run l v
    r.subPlain (← ffEncodeBgv v.e m r.ms)
  | mulVec a m => do
    let r ← a.run l v
    r.absorb (← ffEncodeBgv v.e m r.ms)
  | scale a c => do (← a.run l v).absorbInt c
  | relin a => do
    let r ← a.run l v
    (v.relin r.ms.length).applyTo r
  | rotate a k => do
    let r ← a.run l v
    (v.galois r.ms.length (rotatePower l k)).applyTo (← r.substitute (rotatePower l k))
  | swap a => do
    let r ← a.run l v
    (v.galois r.ms.length (swapPower l)).applyTo (← r.substitute (swapPower l))
  | reduce a => do
    let r ← a.run l v
    let row ← rd v.e.ctx.primeQInvs (r.ms.length - 1)
    r.modReduceBgv v.e.ctx.t (row.take (r.ms.length - 1))

/-- The computation on vectors of slots: arithmetic slot by slot, and rotations within the two halves. -/
def LCircuit.eval {R : Type} [CommRing R] (l : ℕ) (f g : ℕ → ℕ → R) : LCircuit → ℕ → R
  | input i => f i
  | received i => g i
  | neg a => fun i => -a.eval l f g i
  | add a b => fun i => a.eval l f g i + b.eval l f g i
  | sub a b => fun i => a.eval l f g i - b.eval l f g i
  | mul a b => fun i => a.eval l f g i * b.eval l f g i
  | addVec a m => fun i => a.eval l f g i + (m.getD i 0 : ℕ)
  | subVec a m => fun i => a.eval l f g i - (m.getD i 0 : ℕ)
  | mulVec a m => fun i => a.eval l f g i * (m.getD i 0 : ℕ)
  | scale a c => fun i => c * a.eval l f g i
  | relin a => a.eval l f g
  | rotate a k => fun i => a.eval l f g (rotateSlot l k i)
  | swap a => fun i => a.eval l f g (swapSlot l i)
  | reduce a => a.eval l f g

/-- What an analysis of the noise starts from. -/
structure LParams where
  /-- The ring has dimension `2^l`, words have `w` bits, the plaintext modulus is `t`. -/
  l : ℕ
  w : ℕ
  t : ℕ
  /-- The main moduli. -/
  qs : List ℕ
  /-- Bounds on encryptions with the secret and the public key. -/
  fresh : ℚ
  sent : ℚ
  /-- A bound on the sum of the absolute values of the coefficients of the secret. -/
  secret : ℚ
  /-- What key switching adds, for every number of moduli. -/
  switch : ℕ → ℚ
  /-- The numbers of moduli for which there are relinearization keys, and those, with the substitution power, for
  which there are Galois keys. -/
  relins : List ℕ
  galois : List (ℕ × ℕ)

/-- The number of moduli and of components of a ciphertext, and a bound on its noisy plaintext. -/
structure LInfo where
  level : ℕ
  comps : ℕ
  noise : ℚ

/-- The messages fit words and the ring. -/
def LParams.vecOk (P : LParams) (m : List ℕ) : Bool := m.all (· < 2 ^ P.w) && m.length ≤ 2 ^ P.l

/-- What key switching of the power `p` does to a ciphertext of two components. -/
def LParams.galoisInfo (P : LParams) (p : ℕ) (x : LInfo) : Option LInfo :=
  if x.comps = 2 ∧ (x.level, p) ∈ P.galois then some ⟨x.level, 2, x.noise + P.switch x.level⟩ else none

/-- The analysis of a computation; `none` if it is not supported: operands of different levels, sums of ciphertexts
with different numbers of components, relinearization of more than three components, rotation of more than two, a
missing key, or no modulus left to drop. -/
def LCircuit.analyse (P : LParams) : LCircuit → Option LInfo
  | input _ => some ⟨P.qs.length, 2, P.fresh⟩
  | received _ => some ⟨P.qs.length, 2, P.sent⟩
  | neg a => a.analyse P
  | add a b | sub a b => do
    let x ← a.analyse P
    let y ← b.analyse P
    if x.level = y.level ∧ x.comps = y.comps then some ⟨x.level, x.comps, x.noise + y.noise⟩ else none
  | mul a b => do
    let x ← a.analyse P
    let y ← b.analyse P
    if x.level = y.level then
      some ⟨x.level, x.comps + y.comps - 1, 2 ^ P.l * x.noise * y.noise⟩ else none
  | addVec a m | subVec a m => do
    let x ← a.analyse P
    if P.vecOk m then some ⟨x.level, x.comps, x.noise + P.t / 2⟩ else none
  | mulVec a m => do
    let x ← a.analyse P
    if P.vecOk m then some ⟨x.level, x.comps, 2 ^ P.l * x.noise * (P.t / 2)⟩ else none
  | scale a c => do
    let x ← a.analyse P
    if c < 2 ^ P.w then some ⟨x.level, x.comps, c * x.noise⟩ else none
  | relin a => do
    let x ← a.analyse P
    if x.comps ≤ 3 ∧ x.level ∈ P.relins then
      some ⟨x.level, 2, x.noise + (x.comps - 2 : ℕ) * P.switch x.level⟩ else none
  | rotate a k => do
    let x ← a.analyse P
    P.galoisInfo (rotatePower P.l k) x
  | swap a => do
    let x ← a.analyse P
    P.galoisInfo (swapPower P.l) x
  | reduce a => do
    let x ← a.analyse P
    if 1 < x.level then
      let q := P.qs.getD (x.level - 1) 1
      some ⟨x.level - 1, x.comps, (q % P.t : ℕ) * x.noise / q +
        P.t / 2 * ∑ j ∈ Finset.range x.comps, P.secret ^ j⟩ else none

/-- The noise of switching with digits of `logs` bits, if the errors in the key are at most `B`. -/
def digitNoise (l t : ℕ) (B : ℤ) (logs : List ℕ) : ℚ := t * (2 ^ l * B * (logs.map fun b => (2 : ℚ) ^ b).sum)

end Shell.Spec
