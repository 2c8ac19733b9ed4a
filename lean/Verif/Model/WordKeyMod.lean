import Verif.Model.Word
import Verif.Model.Symmetric
/-! # `SymmetricRlweKey::SwitchModulus` on stored words -/

namespace Shell.Word

/-- `SymmetricRlweKey::SwitchModulus` (symmetric_encryption.h:704-744).  Simplified: both moduli have the word size of
`p'`. -/
def Key.switchModulus (k : Key) (p' : MParams) (q' : Ntt.NttParams) : Outcome Key := do
  let t ← Sym.plaintextModulus p'.w k.logT
  if t = 0 then .ub .divByZero
  else if k.p.modulus % t ≠ p'.modulus % t then .err .invalidArgument
  else do
    let v ← Poly.inverseNtt k.p k.q k.key
    let key ← Poly.convertToNtt p' q' (v.map fun a =>
      Mont.importInt p' (Sym.switchKeyCoeff k.p.w k.p.modulus p'.modulus (Mont.exportInt k.p a)))
    return ⟨p', q', key, k.variance, k.logT, p', Mont.importInt p' t⟩

end Shell.Word
