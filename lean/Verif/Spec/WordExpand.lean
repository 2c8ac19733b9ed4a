import Verif.Model.WordExpand
import Verif.Spec.WordSwitch
/-!
# What oblivious expansion on stored words is supposed to compute
-/

namespace Shell.Spec
open Rns WordCt ErrorTrack

/-- The object holds the ciphertext `X`, whatever its estimate. -/
def Bears (C : Ctx) (p : MParams) (x : Obj ℝ) (X : Sym.Ct C) : Prop := Carries C p x ⟨X, x.error⟩

/-- The words hold a Galois key over residues, whose base is below `2^31`. -/
structure HoldsGalois (C : Ctx) (p : MParams) (q : Ntt.NttParams) (rk : Word.RKey) (RK : Relin.RKey C) : Prop where
  holds : HoldsSwitch C p q rk RK
  word : RK.logDecomp < C.w
  pos : 0 < RK.logDecomp
  small : RK.logDecomp < 31

/-- The two computations return the same error, are undefined alike, or return related values. -/
def SameOutcome {α β : Type} (R : α → β → Prop) : Outcome α → Outcome β → Prop
  | .ok a, .ok b => R a b
  | .err e, .err e' => e = e'
  | .ub u, .ub u' => u = u'
  | _, _ => False

/-- The estimate after `j` levels of expansion of a ciphertext with estimate `e`, if the substitution of level `i`
adds `B i`: every level adds a ciphertext and its substitution. -/
def expandEstimate {E : Type} [Field E] (B : ℕ → E) (e : E) : ℕ → E
  | 0 => e
  | j + 1 => 2 * expandEstimate B e j + B j

end Shell.Spec
