import Verif.Spec.Store
/-!
# Selecting entries of a database with an expanded query

A server holds `total` polynomials and `total` ciphertexts of an expanded query.  It multiplies the first ciphertext by
the first polynomial and adds the products of the others to the result.
-/

namespace Shell.Spec
open Store
variable {n : ℕ}

/-- How a product is added: with `FusedAbsorbAddInPlace`, with its variant for the constant representation of the
polynomial, or with `FusedAbsorbAddInPlaceLazily`. -/
inductive AddMode where
  | eager | const | lazily
  deriving DecidableEq

/-- Add the product of the ciphertext and the polynomial number `i` to the ciphertext `a`. -/
def addProduct (mode : ℕ → AddMode) (a i : ℕ) : IdealCall n :=
  .ctIn a (match mode i with
    | .eager => .fused i i
    | .const => .fusedConst i i
    | .lazily => .lazily i i)

/-- The calls of the server; the result is the ciphertext number `total`.  `MergeLazyOperations` is called if a
product was added lazily. -/
def selectCalls (total : ℕ) (mode : ℕ → AddMode) : List (IdealCall n) :=
  .ctNew 0 (.absorb 0) :: (List.range' 1 (total - 1)).map (addProduct mode total) ++
    if (List.range' 1 (total - 1)).any (fun i => mode i = .lazily) then [.ctIn total .merge] else []

/-- Ciphertexts of two components under the secret itself, with values `V` and the estimates of `rs`. -/
def bearing (rs : List (WordCt.Obj ℝ)) (V : ℕ → Fin n → ℤ) : List (IdealCt n) :=
  rs.mapIdx fun i y => ⟨2, 1, V i, y.error, 0, 0⟩

/-- `1` if `i` is one of the indices and `0` if not, as a polynomial. -/
def oneHot (indices : List ℤ) (i : ℕ) : Fin n → ℤ := fun c => if (c : ℕ) = 0 ∧ (i : ℤ) ∈ indices then 1 else 0

/-- Every program on the polynomials `fs` and the ciphertexts `rs` returns the statuses that the machine returns on `gs`
and the values `V`, and its ciphertexts decrypt to the values of the machine modulo `t`, as long as the machine's value
stays below half the modulus when it starts with `W`. -/
def ComputesOn (e : Store.Env ℝ) (k : Word.Key) (N w t : ℕ) (σ : Fin n → ℤ) (fs : List (List ℕ))
    (gs : List (Fin n → ℤ)) (rs : List (WordCt.Obj ℝ)) (V W : ℕ → Fin n → ℤ) : Prop :=
  ∀ cs : List (IdealCall n), IdealProper σ e.bPlain N w ⟨gs, bearing rs V⟩ cs →
    (Store.runAll e ⟨fs, rs⟩ (cs.map (·.call e.p N))).1 = (idealRun σ e.bPlain N ⟨gs, bearing rs V⟩ cs).1 ∧
    ∀ (a : ℕ) (Y Z : IdealCt n),
      (idealRun σ e.bPlain N ⟨gs, bearing rs V⟩ cs).2.cts[a]? = some Y →
      (idealRun σ e.bPlain N ⟨gs, bearing rs W⟩ cs).2.cts[a]? = some Z →
      Y.power = 1 → (∀ j, 2 * |Z.value j| < (N : ℤ)) →
      ∃ y, (Store.runAll e ⟨fs, rs⟩ (cs.map (·.call e.p N))).2.cts[a]? = some y ∧
      ∀ error, Word.decrypt k ⟨y.c, y.power, error⟩ = .ok (List.ofFn fun j => (Y.value j % t).toNat)

end Shell.Spec
