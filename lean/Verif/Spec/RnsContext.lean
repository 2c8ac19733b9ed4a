import Verif.Spec.Rns
import Verif.Model.RnsContext
/-!
# What the constants of an `RnsContext` are

`Q_l` is the product of the first `l + 1` main moduli, `Q` of all of them, `P` of the auxiliary moduli.
-/

namespace Shell.Spec
open Rns

/-- The constants that are residues. -/
structure Residues (c : Rns.Ctx) : Prop where
  /-- `MainPrimeModulusResidues()[i]` is `q_i` modulo all `q_j`. -/
  primeQs : List.Forall₂ (fun m row => RnsIntIs c.qs row m.N) c.qs c.primeQs
  /-- `MainPrimeModulusComplements(level)[i]` is `Q_l / q_i` modulo `q_i`. -/
  complements : ∀ level : ℕ, level < c.qs.length → ∃ a, c.complements level = .ok a ∧
    List.Forall₂ (fun m x => x ≤ m.N ∧ (Mont.exportInt m.p x : ℤ) =
      ((modulusProd (c.qs.take (level + 1)) / m.N : ℕ) : ℤ) % m.N) (c.qs.take (level + 1)) a
  /-- `MainPrimeModulusComplementResidues(level)[i]` is `Q_l / q_i` modulo all `p_j`. -/
  complementResidues : ∀ level : ℕ, level < c.qs.length → ∃ a, c.complementResidues level = .ok a ∧
    HatResidues (c.qs.take (level + 1)) c.ps a
  /-- `MainLeveledModulusAuxResidues(level)` is `Q_l` modulo all `p_j`. -/
  leveled : ∀ level : ℕ, level < c.qs.length → ∃ a, c.leveledAuxResidues level = .ok a ∧
    RnsIntIs c.ps a (modulusProd (c.qs.take (level + 1)))
  /-- `AuxPrimeModulusComplementResidues()[j]` is `P / p_j` modulo all `q_i`. -/
  primePHatModQs : HatResidues c.ps c.qs c.primePHatModQs
  /-- `AuxModulusResidues()[i]` is `P` modulo `q_i`. -/
  pModQs : RnsIntIs c.qs c.pModQs (modulusProd c.ps)
  /-- `PlaintextModulusMainResidues()[i]` is `t` modulo `q_i`. -/
  tModQs : RnsIntIs c.qs c.tModQs c.t
  /-- `MainModulusPlaintextResidue()` and `AuxModulusPlaintextResidue()`. -/
  qModT : 1 < c.t → c.qModT = modulusProd c.qs % c.t
  pModT : 1 < c.t → c.pModT = modulusProd c.ps % c.t

/-- The constants that are inverses. -/
structure Inverses (c : Rns.Ctx) : Prop where
  /-- `MainPrimeModulusInverseResidues()[l].Prefix(l)` is `q_l^-1` modulo `q_0, .., q_{l-1}`. -/
  primeQInvs : ∀ level m, c.qs[level]? = some m → ∃ row, c.primeQInvs[level]? = some row ∧
    InverseIs (c.qs.take level) (row.take level) m.N
  /-- `MainPrimeModulusInverseAuxResidues()[j]` are the `q_i^-1` modulo `p_j`. -/
  primeQInvModPs : InvRows c.qs c.ps c.primeQInvModPs
  /-- `MainPrimeModulusCrtFactors(level)[i]` is the inverse of `Q_l / q_i` modulo `q_i`. -/
  crtFactors : ∀ level : ℕ, level < c.qs.length → ∃ a, c.crtFactors level = .ok a ∧
    HatInvs (c.qs.take (level + 1)) a
  /-- `AuxPrimeModulusCrtFactors()[j]` is the inverse of `P / p_j` modulo `p_j`. -/
  primePHatInvs : HatInvs c.ps c.primePHatInvs
  /-- `AuxModulusInverseResidues()[i]` is `P^-1` modulo `q_i`. -/
  pInvModQs : InverseIs c.qs c.pInvModQs (modulusProd c.ps)
  /-- `PlaintextModulusInverseMainResidues()[i]` is `t^-1` modulo `q_i`. -/
  tInvModQs : InverseIs c.qs c.tInvModQs c.t
  /-- `PlaintextModulusInverseAuxResidues()[j]` is `t^-1` modulo `p_j`. -/
  tInvModPs : InverseIs c.ps c.tInvModPs c.t

/-- What a user needs of a context: its moduli are distinct primes with transforms of length `2^l`, none of
which divides `t`, and its constants are right. -/
structure GoodCtx (w l : ℕ) (c : Rns.Ctx) : Prop where
  logN : c.logN = l
  qs : ∀ m ∈ c.qs, GoodModulus w l m
  ps : ∀ m ∈ c.ps, GoodModulus w l m
  nodup : (c.qs.map (·.N) ++ c.ps.map (·.N)).Nodup
  pos : 0 < c.t
  word : c.t < 2 ^ w
  coprime : ∀ m ∈ c.qs ++ c.ps, Nat.Coprime m.N c.t
  residues : Residues c
  inverses : Inverses c

/-- The additional constants of a context for BFV; `mt` are the parameters of `t`. -/
structure BfvConstants (c : Rns.Ctx) (mt : Modulus) : Prop where
  modT : c.modT = some mt
  /-- `MainPrimeModulusPlaintextResidues()[i]` is `q_i` modulo `t`. -/
  qsModT : List.Forall₂ (fun m a => a ≤ mt.N ∧ (Mont.exportInt mt.p a : ℤ) = (m.N : ℤ) % mt.N)
    c.qs c.qsModT
  /-- `MainPrimeModulusInversePlaintextResidues()[i]` is `q_i^-1` modulo `t`. -/
  qInvsModT : List.Forall₂ (fun m a => a ≤ mt.N ∧
    (mt.N : ℤ) ∣ Mont.exportInt mt.p a * m.N - 1) c.qs c.qInvsModT
  /-- `MainLeveledModulusInversePlaintextResidue()[l]` is `Q_l^-1` modulo `t`. -/
  qlInvsModT : ∀ level < c.qs.length, ∃ a, c.qlInvsModT[level]? = some a ∧ a ≤ mt.N ∧
    (mt.N : ℤ) ∣ Mont.exportInt mt.p a * modulusProd (c.qs.take (level + 1)) - 1

end Shell.Spec
