import Verif.Spec.WordCt
import Verif.Spec.RnsPolySession
import Verif.Model.Constants
/-!
# Arithmetic expressions of bounded degree (C84)
-/

namespace Shell.Spec
open Shell.Constants

/-- The degree of the expression in its inputs and plaintexts. -/
def Program.degree : Program → ℕ
  | input _ => 1
  | add u v | sub u v => max u.degree v.degree
  | mul u v => u.degree + v.degree
  | absorb u _ => u.degree + 1
  | scale u _ => u.degree

/-- The number of products that the expression has when multiplied out, counting multiplicities. -/
def Program.terms : Program → ℕ
  | input _ => 1
  | add u v | sub u v => u.terms + v.terms
  | mul u v => u.terms * v.terms
  | absorb u _ => u.terms
  | scale u c => c * u.terms

/-- The parameters of a context, and a degree and number of terms. -/
structure Capacity where
  width : ℕ
  modulus : ℕ
  logN : ℕ
  logT : ℕ
  variance : ℕ
  degree : ℕ
  terms : ℕ

/-- The contexts of testing/parameters.h:74-127 with the moduli of constants.h, and what they support. -/
def capacities : List Capacity :=
  [⟨16, kNewhopeModulus, 10, 1, 8, 1, 122⟩,
   ⟨32, kModulus25, 10, 1, 8, 2, 6⟩,
   ⟨32, kModulus29, 11, 5, 8, 1, 413560⟩,
   ⟨64, kModulus59, 11, 10, 8, 2, 267277⟩,
   ⟨128, kModulus80, 11, 11, 8, 3, 1822⟩]

/-- Parameters of an RNS context with a relinearization key for all moduli, and a number of products. -/
structure RnsCapacity where
  choice : SchemeChoice
  products : ℕ

/-- Error variance 8, digits of `b` bits, and a relinearization key for all moduli. -/
def rnsChoice (w l : ℕ) (qs ps : List ℕ) (t b : ℕ) : SchemeChoice :=
  ⟨w, l, qs, ps, t, 8, fun lev => List.replicate lev b, [qs.length], []⟩

/-- The RNS parameters of rns/testing/parameters.h:47-71 for words of 32, 64 and 128 bits, and those of
rns/constants.h:33-43, and how many products they support. -/
def rnsCapacities : List RnsCapacity :=
  [⟨rnsChoice 32 10 [995329, 921601] [1032193] 9 5, 20308⟩,
   ⟨rnsChoice 64 11 [1073442817, 1073184769, 1072705537] [1073479681] 9 10, 13681101912939290602⟩,
   ⟨rnsChoice 128 12 [1180591620717410131969, 1099510824961, 1099510456321]
      [1099508981761, 1099508760577, 1099508391937] 9 10, 7900520764461088603187613803013153804⟩,
   ⟨rnsChoice 32 k60Bit.logN k60Bit.qs k60Bit.ps k60Bit.t 5, 2316⟩,
   ⟨rnsChoice 32 k59Bit.logN k59Bit.qs k59Bit.ps k59Bit.t 5, 1⟩]

/-- The sum of the products of the encryptions with the given indices. -/
def productSum : ℕ × ℕ → List (ℕ × ℕ) → PCircuit
  | p, [] => .mul (.input p.1) (.input p.2)
  | p, q :: r => .add (.mul (.input p.1) (.input p.2)) (productSum q r)

end Shell.Spec
