import Verif.Spec.DoubleError
import Verif.Model.RnsEstimate
/-!
# Specification of the estimates of programs on RNS ciphertexts
-/

namespace Shell.Spec
open DoubleError RnsEstimate RnsErrorTrack

/-- The constants of rns/rns_error_params.h in exact arithmetic, which are those of C66. -/
noncomputable def exactConsts {cast : ℕ → ℝ} (P : RParams (Dbl cast)) : Consts ℝ :=
  let Q : RErrorParams := ⟨P.logN, P.logT, P.sigma.val⟩
  ⟨Q.bPlaintext, Q.bSecretKey, Q.bPublicKey, Q.boundOnKeySwitching⟩

/-- The gadget of a key can be used: there is a base, and its power of two is an `int`. -/
def UsableGadget (g : Rns.RGadget) : Prop := g.logBs ≠ [] ∧ ∀ b ∈ g.logBs, b < 31

/-- The keys of the calls of a BGV program can be used. -/
def BgvUsable (v : RnsCtStore.Given) (cs : List RnsCtStore.Call) : Prop :=
  (∀ a lev, .relin a lev ∈ cs → UsableGadget (v.relin lev).gadget) ∧
  ∀ a lev p, .galois a lev p ∈ cs → UsableGadget (v.galois lev p).gadget

/-- The keys of the calls of a BFV program can be used. -/
def BfvUsable (v : RnsCtStore.Given) (cs : List RnsBfvStore.Call) : Prop :=
  (∀ a lev, .relin a lev ∈ cs → UsableGadget (v.relin lev).gadget) ∧
  ∀ a lev p, .galois a lev p ∈ cs → UsableGadget (v.galois lev p).gadget

/-- No call is the product of two ciphertexts. -/
def BgvNoMul (cs : List RnsCtStore.Call) : Prop := ∀ a b, .mul a b ∉ cs

/-- No call is the product of two ciphertexts. -/
def BfvNoMul (cs : List RnsBfvStore.Call) : Prop := ∀ a b, .mul a b ∉ cs

/-- The estimates `D` in `double` arithmetic of the estimates `R` in exact arithmetic, after `ℓ` calls; without
products of ciphertexts the relative error grows linearly. -/
def SameEstimates {cast : ℕ → ℝ} (c ℓ : ℕ) (noMul : Prop) (R : List ℝ) (D : List (Dbl cast)) : Prop :=
  D.length = R.length ∧ ∀ (a : ℕ) (r : ℝ), R[a]? = some r → ∃ d : Dbl cast, D[a]? = some d ∧ Within (2 ^ ℓ * (12 * c + 22)) r d.val ∧
    (noMul → (6 * c + 12) * (ℓ + 1) ≤ 2 ^ 52 → |d.val - r| ≤ r * ((12 * c + 24) * (ℓ + 1) / 2 ^ 53))

end Shell.Spec

/-! ### The operations of C66 -/

namespace Shell.Spec
open Rns RnsErrorTrack

/-- The member of C66 that the operation of a BGV program is, on ciphertexts that carry their estimates. -/
noncomputable def bgvTrackedOp (P : RErrorParams) (v : RnsCtStore.Given) (pts : List RPoly) (cts : List RTracked)
    (x : RTracked) : RnsCtStore.Op → Outcome RTracked
  | .negate => x.negate
  | .add b => do x.add (← rd cts b)
  | .sub b => do x.sub (← rd cts b)
  | .addPlain i => do x.addPlain (← rd pts i)
  | .subPlain i => do x.subPlain (← rd pts i)
  | .absorb i => do x.absorb P (← rd pts i)
  | .scale c => x.absorbInt c
  | .fused b i => do x.fusedAbsorbAdd P (← rd cts b) (← rd pts i)
  | .reduce => do
      let row ← rd v.c.primeQInvs (x.ct.ms.length - 1)
      x.modReduce v.c.t (row.take (x.ct.ms.length - 1))

/-- The new ciphertext of a call of a BGV program (`encode` makes none), after C66. -/
noncomputable def bgvTrackedNew (P : RErrorParams) (v : RnsCtStore.Given) (pts : List RPoly) (cts : List RTracked) :
    RnsCtStore.Call → Option (Outcome RTracked)
  | .encode _ _ => none
  | .input i => some (.ok ⟨v.x i, P.bSecretKey⟩)
  | .received i => some (.ok ⟨v.y i, P.bPublicKey⟩)
  | .copy a => some (rd cts a)
  | .opNew a op => some (do bgvTrackedOp P v pts cts (← rd cts a) op)
  | .opIn _ _ => none
  | .mul a b => some (do (← rd cts a).mul (← rd cts b))
  | .substitute a k => some (do (← rd cts a).substitute k)
  | .relin a lev => some (do applyRelin P (v.relin lev) (← rd cts a))
  | .galois a lev p => some (do applyGalois P (v.galois lev p) (← rd cts a))

/-- The member of C66 that the operation of a BFV program is, on ciphertexts that carry their estimates. -/
noncomputable def bfvTrackedOp (P : RErrorParams) (est : Estimate) (v : RnsCtStore.Given) (pts : List RPoly)
    (cts : List RTracked) (x : RTracked) : RnsBfvStore.Op → Outcome RTracked
  | .negate => x.negate
  | .add b => do x.add (← rd cts b)
  | .sub b => do x.sub (← rd cts b)
  | .addPlain i => do x.addPlain (← rd pts i)
  | .subPlain i => do x.subPlain (← rd pts i)
  | .absorb i => do x.absorbBfv P est v.c (← rd pts i)
  | .absorbSimple i => do x.absorbSimple P (← rd pts i)
  | .scale c => x.absorbInt c
  | .fused b i => do x.fusedAbsorbAdd P (← rd cts b) (← rd pts i)
  | .reduce => x.modReduceBfv v.c

/-- The new ciphertext of a call of a BFV program (`encode` makes none), after C66. -/
noncomputable def bfvTrackedNew (P : RErrorParams) (est : Estimate) (v : RnsCtStore.Given) (pts : List RPoly)
    (cts : List RTracked) : RnsBfvStore.Call → Option (Outcome RTracked)
  | .encode _ _ _ => none
  | .input i => some (.ok ⟨v.x i, P.bSecretKey⟩)
  | .received i => some (.ok ⟨v.y i, P.bPublicKey⟩)
  | .copy a => some (rd cts a)
  | .opNew a op => some (do bfvTrackedOp P est v pts cts (← rd cts a) op)
  | .opIn _ _ => none
  | .mul a b => some (do (← rd cts a).mulBfv est v.c (← rd cts b))
  | .substitute a k => some (do (← rd cts a).substitute k)
  | .relin a lev => some (do applyRelin P (v.relin lev) (← rd cts a))
  | .galois a lev p => some (do applyGalois P (v.galois lev p) (← rd cts a))

end Shell.Spec
