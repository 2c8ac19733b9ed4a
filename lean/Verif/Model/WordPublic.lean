import Verif.Model.WordCt
import Verif.Model.PublicKey
/-!
# `PublicRlweKey::Encrypt` on stored words

`Create` and the serialization of public keys on stored words are in `Verif/Model/Word.lean`.
-/

namespace Shell.Word
open Sampler
variable {σ E : Type}

/-- `PublicRlweKey::Encrypt` (public_key_encryption.cc:117-168) with the plaintext `m` in NTT form: `s` is the state
of the generator, `none` for a null pointer; `bPub` is `error_params.B_publickey_encryption`. -/
def PKey.encrypt (G : Gen σ) (pk : PKey) (m : List ℕ) (variance : ℤ) (bPub : ℕ → ℤ → Outcome E) (s : Option σ) :
    Outcome (WordCt.Obj E × σ) :=
  if variance ≤ 0 then .err .invalidArgument
  else
    match s with
    | none => .err .invalidArgument
    | some s => do
      let (v, s) ← sampleError G pk.p pk.a.length variance.toNat s
      let v ← Poly.convertToNtt pk.p pk.q v
      let (e0, s) ← sampleError G pk.p pk.a.length variance.toNat s
      let (e1, s) ← sampleError G pk.p pk.a.length variance.toNat s
      let c0 ← Poly.convertToNtt pk.p pk.q e0
      let c0 ← Poly.copying (Poly.mulScalarInPlace pk.p c0 pk.tMod)
      let c0 ← Poly.copying (Poly.fusedMulAddInPlace pk.p c0 pk.b v)
      let c0 ← Poly.copying (Poly.addInPlace pk.p c0 m)
      let c1 ← Poly.convertToNtt pk.p pk.q e1
      let c1 ← Poly.copying (Poly.mulScalarInPlace pk.p c1 pk.tMod)
      let c1 ← Poly.copying (Poly.fusedMulAddInPlace pk.p c1 pk.a v)
      let error ← bPub pk.a.length variance
      .ok (⟨[c0, c1], 1, error, []⟩, s)

end Shell.Word
