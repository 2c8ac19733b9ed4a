import Verif.Model.WordCt
import Verif.Model.Relin
/-!
# `RelinearizationKey::ApplyTo` and `GaloisKey::ApplyTo` on stored words

`Create` and the serialization of these keys on stored words are in `Verif/Model/Word.lean`.
-/

namespace Shell.WordCt
variable {E : Type}

/-- `MatrixMultiply` (relinearization_key.cc:76-96). -/
def matrixMultiply (p : MParams) (q : Ntt.NttParams) (digits : List (List ℕ)) (m : Word.Part) :
    Outcome (List ℕ × List ℕ) := do
  let d0 ← rd digits 0
  loop m.row0.length (fun i (r : List ℕ × List ℕ) => do
    let d ← rd digits i
    let d ← Poly.convertToNtt p q d
    let a ← rd m.row0 i
    let r0 ← Poly.copying (Poly.fusedMulAddInPlace p r.1 d a)
    let b ← rd m.row1 i
    let r1 ← Poly.copying (Poly.fusedMulAddInPlace p r.2 d b)
    return (r0, r1)) (List.replicate d0.length 0, List.replicate d0.length 0)

/-- `RelinearizationKeyPart::ApplyPartTo` (relinearization_key.cc:144-162). -/
def applyPart (p : MParams) (q : Ntt.NttParams) (m : Word.Part) (c : List ℕ) : Outcome (List ℕ × List ℕ) := do
  let v ← Poly.inverseNtt p q c
  let digits ← Gadget.baseDecompose p v m.logDecomp m.row0.length
  matrixMultiply p q digits m

/-- `SymmetricRlweCiphertext::Component` (symmetric_encryption.h:574-579). -/
def component (x : Obj E) (i : ℤ) : Outcome (List ℕ) :=
  if 0 > i ∨ i ≥ x.c.length then .err .invalidArgument else rd x.c i.toNat

/-- The loop over the following parts in `ApplyTo` (relinearization_key.cc:313-324). -/
def applyRest (p : MParams) (q : Ntt.NttParams) (x : Obj E) (first : ℕ) :
    List Word.Part → ℕ → List ℕ × List ℕ → Outcome (List ℕ × List ℕ)
  | [], _, r => .ok r
  | m :: ms, i, r => do
    let c ← component x (i + first : ℕ)
    let rp ← applyPart p q m c
    let r0 ← Poly.copying (Poly.addInPlace p r.1 rp.1)
    let r1 ← Poly.copying (Poly.addInPlace p r.2 rp.2)
    applyRest p q x first ms (i + 1) (r0, r1)

variable [Add E] [Mul E] [Div E] [NatCast E]

/-- `RelinearizationKey::ApplyTo` (relinearization_key.cc:288-344); `bR` is
`ciphertext.ErrorParams()->B_relinearize`. -/
def relinearize (rk : Word.RKey) (bR : ℕ → ℕ → Outcome E) (x : Obj E) : Outcome (Obj E) :=
  if (x.c.length : ℤ) > rk.numParts then .err .invalidArgument
  else do
    let first := Relin.firstKeyIndex rk.power
    let c1 ← component x first
    let m0 ← rd rk.parts 0
    let r ← applyPart rk.p rk.q m0 c1
    let r ← applyRest rk.p rk.q x first (rk.parts.drop 1) 1 r
    let c0 ← component x 0
    let r0 ← Poly.copying (Poly.addInPlace rk.p r.1 c0)
    let r1 ← (if rk.power = 1 then do
        let c1 ← component x 1
        Poly.copying (Poly.addInPlace rk.p r.2 c1)
      else .ok r.2 : Outcome (List ℕ))
    let b ← bR rk.parts.length rk.logDecomp
    return { c := [r0, r1], power := 1, error := x.error + b }

/-- `GaloisKey::ApplyTo` (galois_key.h:66-75). -/
def galoisApply (rk : Word.RKey) (bR : ℕ → ℕ → Outcome E) (x : Obj E) : Outcome (Obj E) :=
  if x.power ≠ rk.power then .err .invalidArgument else relinearize rk bR x

end Shell.WordCt
