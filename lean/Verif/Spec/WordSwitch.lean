import Verif.Model.WordSwitch
import Verif.Spec.WordCt
/-!
# What key switching on stored words is supposed to compute
-/

namespace Shell.Spec
open Rns WordCt ErrorTrack
variable {C : Ctx}

/-- The words of the secret key `k` hold the secret key `K` over residues. -/
structure HoldsKey (C : Ctx) (p : MParams) (q : Ntt.NttParams) (k : Word.Key) (K : Sym.Key C) : Prop where
  params : k.p = p
  ntt : k.q = q
  key : Poly.Rep p C.q C.n k.key K.key
  variance : k.variance = K.variance
  tLe : k.tMod ≤ C.q
  t : (Mont.exportInt p k.tMod : ZMod C.q) = K.tUnderQ

/-- The words of a key part hold one over residues. -/
structure HoldsPart (C : Ctx) (p : MParams) (b : ℕ) (m : Word.Part) (M : Relin.Part C) : Prop where
  row0 : List.Forall₂ (Poly.Rep p C.q C.n) m.row0 M.row0
  row1 : List.Forall₂ (Poly.Rep p C.q C.n) m.row1 M.row1
  same : m.row0.length = m.row1.length
  pos : 0 < m.row0.length
  logDecomp : m.logDecomp = b

/-- The words of a relinearization (or Galois) key hold one over residues. -/
structure HoldsSwitch (C : Ctx) (p : MParams) (q : Ntt.NttParams) (rk : Word.RKey) (RK : Relin.RKey C) : Prop where
  params : rk.p = p
  ntt : rk.q = q
  numParts : rk.numParts = RK.numParts
  logDecomp : rk.logDecomp = RK.logDecomp
  power : rk.power = RK.power
  parts : List.Forall₂ (HoldsPart C p RK.logDecomp) rk.parts RK.parts

/-! ### Circuits with key switching -/

/-- A computation on ciphertexts, plaintexts and constants, with relinearizations and with automorphisms
`X -> X^e` for the Galois keys number 0, 1, .... -/
inductive WordCircuit where
  | input (i : ℕ)
  | add (u v : WordCircuit)
  | sub (u v : WordCircuit)
  | mul (u v : WordCircuit)
  | absorb (u : WordCircuit) (j : ℕ)
  | scale (u : WordCircuit) (c : ℕ)
  | relin (u : WordCircuit)
  | rotate (u : WordCircuit) (i : ℕ)

/-- What the circuit is run with: the input ciphertexts `x` and plaintexts `f`, and what relinearization and the
automorphisms do. -/
structure Env (E : Type) where
  p : MParams
  bPlain : E
  relin : Obj E → Outcome (Obj E)
  rotate : ℕ → Obj E → Outcome (Obj E)
  x : ℕ → Obj E
  f : ℕ → List ℕ

/-- `Substitute` followed by `GaloisKey::ApplyTo` (see galois_key.h:29-34). -/
def substituteAndSwitch {E : Type} [Add E] [Mul E] [Div E] [NatCast E] (q : Ntt.NttParams) (bR : ℕ → ℕ → Outcome E) (gk : Word.RKey) (x : Obj E) :
    Outcome (Obj E) := do
  WordCt.galoisApply gk bR (← WordCt.substitute q x gk.power)

/-- The circuit on stored words, with the operators of the ciphertext class. -/
def WordCircuit.run {E : Type} [Add E] [Mul E] [Div E] [NatCast E] (e : Env E) : WordCircuit → Outcome (Obj E)
  | input i => .ok (e.x i)
  | add u v => do ((Call.add (← v.run e)).run e.p e.bPlain (← u.run e)).value
  | sub u v => do ((Call.sub (← v.run e)).run e.p e.bPlain (← u.run e)).value
  | mul u v => do WordCt.mul e.p (← u.run e) (← v.run e)
  | absorb u j => do ((Call.absorb (e.f j)).run e.p e.bPlain (← u.run e)).value
  | scale u c => do ((Call.absorbScalar (Mont.importInt e.p c)).run e.p e.bPlain (← u.run e)).value
  | relin u => do e.relin (← u.run e)
  | rotate u i => do e.rotate i (← u.run e)

/-- The computation on plaintext polynomials in `Z[X]/(X^n + 1)`; `pw i` is the power of Galois key `i`. -/
def WordCircuit.eval {n : ℕ} (pw : ℕ → ℕ) (m g : ℕ → Fin n → ℤ) : WordCircuit → Fin n → ℤ
  | input i => m i
  | add u v => u.eval pw m g + v.eval pw m g
  | sub u v => u.eval pw m g - v.eval pw m g
  | mul u v => negMul (u.eval pw m g) (v.eval pw m g)
  | absorb u j => negMul (u.eval pw m g) (g j)
  | scale u c => fun i => c * u.eval pw m g i
  | relin u => u.eval pw m g
  | rotate u i => substPow (pw i) (u.eval pw m g)

/-- The number of components. -/
def WordCircuit.len : WordCircuit → ℕ
  | input _ | relin _ | rotate _ _ => 2
  | add u v | sub u v => max u.len v.len
  | mul u v => u.len + v.len - 1
  | absorb u _ | scale u _ => u.len

/-- A bound on the coefficients of the noisy result if those of the inputs are at most `B`, those of the plaintexts
at most `G`, and key switching adds at most `R`, respectively `A i`. -/
def WordCircuit.bound (n B G R : ℕ) (A : ℕ → ℕ) : WordCircuit → ℕ
  | input _ => B
  | add u v | sub u v => u.bound n B G R A + v.bound n B G R A
  | mul u v => n * (u.bound n B G R A * v.bound n B G R A)
  | absorb u _ => n * (u.bound n B G R A * G)
  | scale u c => c * u.bound n B G R A
  | relin u => u.bound n B G R A + R
  | rotate u i => u.bound n B G R A + A i

/-- The constants fit a word, ciphertexts are relinearized when they have exactly the `parts` components the key is
made for, and automorphisms are applied to ciphertexts of two components. -/
def WordCircuit.Fits (w parts : ℕ) : WordCircuit → Prop
  | input _ => True
  | add u v | sub u v | mul u v => u.Fits w parts ∧ v.Fits w parts
  | absorb u _ => u.Fits w parts
  | scale u c => u.Fits w parts ∧ c < 2 ^ w
  | relin u => u.Fits w parts ∧ u.len = parts
  | rotate u _ => u.Fits w parts ∧ u.len = 2

/-- The noise a key with `parts` parts of `digits` columns of base `2^b` adds, if the sampled errors are at most
`B`. -/
def switchNoise (n t parts digits b B : ℕ) : ℕ := t * (parts * digits * (n * (2 ^ b - 1) * B))

end Shell.Spec
