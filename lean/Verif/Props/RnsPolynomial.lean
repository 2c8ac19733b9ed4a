import Verif.Lemmas.RnsCreate
import Mathlib.Tactic.NormNum.Prime
/-!
# Properties C43 and C44: RNS polynomials

`Represents l ms x F` (`Verif/Spec/Rns.lean`) says that the numbers exported from the coefficient form of
`x` are the remainders of the integer vector `F` modulo every prime of `ms`.
-/

namespace Shell
open Spec Rns MParams

/-- C43: the operations on RNS polynomials of the same form are the ring operations of
`Z[X]/(X^n + 1)` modulo every prime, for every list of moduli; products need NTT form. -/
theorem c43_operations {w l : ℕ} {ms : List Modulus} {x y z : RPoly} {F G H : Fin (2 ^ l) → ℤ}
    (hg : ∀ m ∈ ms, GoodModulus w l m) (hx : Represents l ms x F) (hy : Represents l ms y G)
    (hz : Represents l ms z H) (hxy : x.ntt = y.ntt) :
    (∃ r, Rns.add ms x y = .ok r ∧ r.ntt = x.ntt ∧ Represents l ms r (F + G)) ∧
    (∃ r, Rns.sub ms x y = .ok r ∧ r.ntt = x.ntt ∧ Represents l ms r (F - G)) ∧
    (∃ r, Rns.negate ms x = .ok r ∧ r.ntt = x.ntt ∧ Represents l ms r (-F)) ∧
    (∀ c < 2 ^ w, ∃ r, mulInt ms x c = .ok r ∧ r.ntt = x.ntt ∧
      Represents l ms r (fun i => c * F i)) ∧
    (∀ c k, RnsIntIs ms c k → ∃ r, mulRns ms x c = .ok r ∧ r.ntt = x.ntt ∧
      Represents l ms r (fun i => k * F i)) ∧
    (x.ntt = true → ∃ r, Rns.mul ms x y = .ok r ∧ r.ntt = true ∧ Represents l ms r (negMul F G)) ∧
    (x.ntt = true → z.ntt = true → ∃ r, Rns.fusedMulAdd ms z x y = .ok r ∧ r.ntt = true ∧
      Represents l ms r (H + negMul F G)) :=
  ⟨repr_add hg hx hy hxy, repr_sub hg hx hy hxy, repr_negate hg hx,
    fun _ hc => repr_mulInt hg hx hc, fun _ _ hc => repr_mulRns hg hx hc,
    fun h => repr_mul hg hx hy h (hxy ▸ h),
    fun h h' => repr_fusedMulAdd hg hz hx hy h' h (hxy ▸ h)⟩

/-- C43: the conversions between the two forms keep the represented polynomial. -/
theorem c43_forms {w l : ℕ} {ms : List Modulus} {x : RPoly} {F : Fin (2 ^ l) → ℤ}
    (hg : ∀ m ∈ ms, GoodModulus w l m) (hx : Represents l ms x F) :
    (x.ntt = false → (∃ r, Rns.toNtt ms x = .ok r ∧ r.ntt = true ∧ Represents l ms r F) ∧
      toCoeff ms x = .err .invalidArgument) ∧
    (x.ntt = true → (∃ r, toCoeff ms x = .ok r ∧ r.ntt = false ∧ Represents l ms r F) ∧
      Rns.toNtt ms x = .err .invalidArgument) :=
  ⟨fun h => ⟨repr_toNtt hg hx h, by unfold toCoeff; simp [h]⟩,
    fun h => ⟨repr_toCoeff hg hx h, by unfold Rns.toNtt; simp [h]⟩⟩

/-- C43: the constructors.  `ConvertFromPolynomialCoeffs` takes the representatives in `[0, q)` and its
balanced variant those in `(-q/2, q/2]`. -/
theorem c43_create {w l q : ℕ} {ms : List Modulus} {pq : MParams} (hg : ∀ m ∈ ms, GoodModulus w l m)
    (hne : ms ≠ []) (hq : MParams.create w q = .ok pq) (v : List ℕ) (hv : ValidPoly q (2 ^ l) v)
    (b : Bool) :
    (∃ r, createZero l ms b = .ok r ∧ r.ntt = b ∧ Represents l ms r 0) ∧
    (∃ r, createOne l ms = .ok r ∧ r.ntt = true ∧
      Represents l ms r (fun i => if (i : ℕ) = 0 then 1 else 0)) ∧
    (∃ r, convertFrom v pq ms = .ok r ∧ r.ntt = true ∧
      Represents l ms r (fun i => (Mont.exportInt pq (v.getD i 0) : ℤ))) ∧
    (∃ r, convertBalancedFrom v pq ms = .ok r ∧ r.ntt = true ∧
      Represents l ms r (fun i => balanced q (Mont.exportInt pq (v.getD i 0)))) := by
  have g := good_of_create hq
  have hr := hv.rep (p := pq)
  have he : ∀ i : Fin (2 ^ l), Mont.exportInt pq (v.getD i 0) = (res pq q (v.getD i 0)).val :=
    fun i => export_eq_val g (hr.le i i.2)
  refine ⟨repr_createZero hg hne b, repr_createOne hg hne, ?_, ?_⟩
  · simp only [he]; exact repr_convertFrom hq hg hne hr
  · simp only [he, balanced_val]; exact repr_convertBalancedFrom hq hg hne hr

/-- C43: for pairwise coprime moduli an RNS polynomial determines the represented polynomial modulo the
product of the moduli. -/
theorem c43_unique {w l : ℕ} {ms : List Modulus} {x : RPoly} {F G : Fin (2 ^ l) → ℤ}
    (hg : ∀ m ∈ ms, GoodModulus w l m) (hc : (ms.map (·.N)).Pairwise Nat.Coprime)
    (h1 : Represents l ms x F) (h2 : Represents l ms x G) :
    ∀ i, (modulusProd ms : ℤ) ∣ F i - G i :=
  repr_unique hg hc h1 h2

/-- C43: operands with another number of residue vectors than moduli, or than the other operand, are
rejected with an error by all operations except `Negate`; multiplication rejects coefficient form. -/
theorem c43_rejects_partial (ms : List Modulus) (x y z : RPoly) (c : ℕ) (cs : List ℕ) (k : ℤ) :
    (ms.length ≠ x.coeffs.length →
      Rns.add ms x y = .err .invalidArgument ∧ Rns.sub ms x y = .err .invalidArgument ∧
      Rns.mul ms x y = .err .invalidArgument ∧ Rns.fusedMulAdd ms x y z = .err .invalidArgument ∧
      mulInt ms x c = .err .invalidArgument ∧ mulRns ms x cs = .err .invalidArgument ∧
      negateInPlace ms x = .err .invalidArgument ∧ Rns.toNtt ms x = .err .invalidArgument ∧
      toCoeff ms x = .err .invalidArgument) ∧
    (y.coeffs.length ≠ x.coeffs.length →
      Rns.add ms x y = .err .invalidArgument ∧ Rns.sub ms x y = .err .invalidArgument ∧
      Rns.mul ms x y = .err .invalidArgument ∧ Rns.fusedMulAdd ms x y z = .err .invalidArgument ∧
      Rns.fusedMulAdd ms x z y = .err .invalidArgument) ∧
    (cs.length ≠ x.coeffs.length → mulRns ms x cs = .err .invalidArgument) ∧
    (x.ntt = false ∨ y.ntt = false → Rns.mul ms x y = .err .invalidArgument) ∧
    (x.ntt = false ∨ y.ntt = false ∨ z.ntt = false →
      Rns.fusedMulAdd ms x y z = .err .invalidArgument) := by
  refine ⟨fun h => ?_, fun h => ?_, fun h => ?_, fun h => ?_, fun h => ?_⟩
  · simp [Rns.add, Rns.sub, Rns.mul, Rns.fusedMulAdd, mulInt, mulRns, negateInPlace, Rns.toNtt,
      toCoeff, h]
  · simp [Rns.add, Rns.sub, Rns.mul, Rns.fusedMulAdd, h]
  · simp [mulRns, h]
  · unfold Rns.mul
    split_ifs with h1 h2 h3 h4 <;> first | rfl | (simp_all)
  · unfold Rns.fusedMulAdd
    split_ifs with h1 h2 h3 h4 h5 h6 <;> first | rfl | (simp_all)

/-- C43: `Create` accepts vectors of one common length that is a power of two, and nothing else. -/
theorem c43_create_iff (vs : List (List ℕ)) (b : Bool) :
    (∀ l, vs ≠ [] → (∀ v ∈ vs, v.length = 2 ^ l) → Rns.create vs b = .ok ⟨l, vs, b⟩) ∧
    ((vs = [] ∨ ¬ ∃ l, ∀ v ∈ vs, v.length = 2 ^ l) → Rns.create vs b = .err .invalidArgument) := by
  constructor
  · intro l hne h
    cases vs with
    | nil => exact absurd rfl hne
    | cons v vs =>
      unfold Rns.create
      dsimp only
      rw [h v List.mem_cons_self, isNotPowerOfTwo_false, if_neg (by simp), if_neg, Nat.log2_two_pow]
      simp only [List.any_eq_true, bne_iff_ne, ne_eq, not_exists, not_and, not_not]
      exact h
  · intro h
    cases vs with
    | nil => rfl
    | cons v vs =>
      unfold Rns.create
      dsimp only
      by_cases hp : isNotPowerOfTwo v.length = true
      · rw [if_pos hp]
      · rw [if_neg hp, if_pos]
        have : v.length.isPowerOfTwo := by
          rw [← Nat.ne_zero_and_sub_one_eq_zero_iff_isPowerOfTwo]
          unfold isNotPowerOfTwo at hp
          simpa using hp
        obtain ⟨k, hk⟩ := this
        by_contra hc
        rcases h with h | h
        · cases h
        · refine h ⟨k, fun u hu => ?_⟩
          rw [← hk]
          simp only [List.any_eq_true, bne_iff_ne, ne_eq, not_exists, not_and, not_not] at hc
          exact hc u hu

/-- C43: constants need a positive `log_n` and at least one modulus. -/
theorem c43_create_rejects (logN : ℤ) (ms : List Modulus) (b : Bool) (h : logN ≤ 0 ∨ ms = []) :
    createZero logN ms b = .err .invalidArgument ∧ createOne logN ms = .err .invalidArgument := by
  unfold createZero createOne createConst
  by_cases h0 : logN ≤ 0
  · simp [h0]
  · simp [h0, h.resolve_left h0]

/-- C43: operands of different ring dimensions are rejected. -/
theorem c43_rejects_dimension (ms : List Modulus) (x y : RPoly) {n n' : ℕ} (hn : n ≠ n')
    (hne : x.coeffs ≠ []) (hx : ∀ v ∈ x.coeffs, v.length = n) (hy : ∀ v ∈ y.coeffs, v.length = n') :
    Rns.add ms x y = .err .invalidArgument ∧ Rns.sub ms x y = .err .invalidArgument ∧
      Rns.mul ms x y = .err .invalidArgument := by
  obtain ⟨lx, cx, bx⟩ := x
  obtain ⟨ly, cy, bY⟩ := y
  cases cx with
  | nil => exact absurd rfl hne
  | cons u us =>
    have hu := hx u (by simp)
    cases cy with
    | nil => simp [Rns.add, Rns.sub, Rns.mul]
    | cons v vs =>
      have hv := hy v (by simp)
      have huv : u.length ≠ v.length := by omega
      have h1 : ∀ p, Poly.add p u v = .err .invalidArgument := fun p => by
        simp [Poly.add, Poly.addInPlace, Poly.copying, huv]
      have h2 : ∀ p, Poly.sub p u v = .err .invalidArgument := fun p => by
        simp [Poly.sub, Poly.subInPlace, Poly.copying, huv]
      have h3 : ∀ p, Poly.mul p u v = .err .invalidArgument := fun p => by
        simp [Poly.mul, Poly.mulInPlace, Poly.copying, huv]
      cases ms with
      | nil => simp [Rns.add, Rns.sub, Rns.mul]
      | cons m ms =>
        refine ⟨?_, ?_, ?_⟩
        · simp only [Rns.add, List.zip_cons_cons, perModulus, h1, Outcome.bind_err]
          split_ifs <;> rfl
        · simp only [Rns.sub, List.zip_cons_cons, perModulus, h2, Outcome.bind_err]
          split_ifs <;> rfl
        · simp only [Rns.mul, List.zip_cons_cons, perModulus, h3, Outcome.bind_err]
          split_ifs <;> rfl

/-- C43 violated: `Negate` ignores the status of `NegateInPlace`: with a wrong number of moduli it
returns the unchanged polynomial as its negation instead of an error. -/
theorem c43_negate_ignores_mismatch (ms : List Modulus) (x : RPoly)
    (h : ms.length ≠ x.coeffs.length) : Rns.negate ms x = .ok x := by
  simp [Rns.negate, negateInPlace, h]

/-- C44: substitution maps `f(X)` to `f(X^k)` modulo every prime, although the index into the table of
powers is carried over from one modulus to the next. -/
theorem c44_substitute {w l : ℕ} {ms : List Modulus} {x : RPoly} {F : Fin (2 ^ l) → ℤ}
    (hg : ∀ m ∈ ms, GoodModulus w l m) (hne : ms ≠ []) (hx : Represents l ms x F)
    (hn : x.ntt = true) (k : ℕ) (hk : k % 2 = 1) (hk2 : k < 2 * 2 ^ l) :
    ∃ r, Rns.substitute ms x k = .ok r ∧ r.ntt = true ∧ Represents l ms r (substPow k F) := by
  obtain ⟨m0, hm0⟩ := List.exists_mem_of_ne_nil ms hne
  have := (hg m0 hm0).l15
  exact repr_substitute (by omega) hg hx hn hk hk2

/-- C44: any other power, coefficient form and a wrong number of moduli are rejected. -/
theorem c44_rejects (ms : List Modulus) (x : RPoly) (hl : x.logN ≤ 15) (k : ℤ)
    (h : k < 0 ∨ k % 2 = 0 ∨ 2 * 2 ^ x.logN ≤ k ∨ ms.length ≠ x.coeffs.length ∨ x.ntt = false) :
    Rns.substitute ms x k = .err .invalidArgument := by
  have h2 : 2 ^ x.logN ≤ 2 ^ 15 := Nat.pow_le_pow_right (by norm_num) hl
  unfold Rns.substitute shl1
  rw [if_pos (by omega), Outcome.bind_ok]
  by_cases h0 : k < 0 ∨ k.tmod 2 = 0
  · rw [if_pos h0]
  · have t1 : k.tmod 2 = k % 2 := Int.tmod_eq_emod_of_nonneg (by omega)
    rw [if_neg h0, if_neg (by omega)]
    by_cases h3 : k ≥ 2 * (2 ^ x.logN : ℕ)
    · rw [if_pos h3]
    · rw [if_neg h3]
      push_cast at h3
      by_cases h4 : ms.length ≠ x.coeffs.length
      · rw [if_pos h4]
      · rw [if_neg h4]
        rcases h with h | h | h | h | h
        · omega
        · omega
        · omega
        · exact absurd h h4
        · rw [if_pos (by simp [h])]

/-! ### Concrete instances -/

/-- The modulus `N` with `w`-bit words and dimension `2^l`, for examples. -/
def exampleModulus (w l N : ℕ) : Modulus :=
  ⟨make w N, match Ntt.initNtt (make w N) l with
    | .ok q => q
    | _ => ⟨0, 0, [], [], [], [], []⟩⟩

theorem exampleModulus_of {w l N : ℕ} (hp : N.Prime) (hc : MParams.create w N = .ok (make w N))
    (hi : (match Ntt.initNtt (make w N) l with | .ok _ => true | _ => false) = true) :
    GoodModulus w l (exampleModulus w l N) := by
  have hN : (exampleModulus w l N).N = N := (good_of_create hc).hN
  refine ⟨by rw [hN]; exact hp, by rw [hN]; exact hc, ?_⟩
  show Ntt.initNtt (make w N) l = .ok (match Ntt.initNtt (make w N) l with
    | .ok q => q
    | _ => ⟨0, 0, [], [], [], [], []⟩)
  cases h : Ntt.initNtt (make w N) l with
  | ok q => rfl
  | err e => rw [h] at hi; cases hi
  | ub e => rw [h] at hi; cases hi

theorem exampleModulus_good : GoodModulus 16 2 (exampleModulus 16 2 97) ∧
    GoodModulus 16 2 (exampleModulus 16 2 193) :=
  ⟨exampleModulus_of (by norm_num) (by decide +kernel) (by decide +kernel),
    exampleModulus_of (by norm_num) (by decide +kernel) (by decide +kernel)⟩

/-- The hypotheses of C43 and C44 are met by two primes and a polynomial obtained from the API. -/
example : ∃ ms, ms.length = 2 ∧ (∀ m ∈ ms, GoodModulus 16 2 m) ∧
    (ms.map (·.N)).Pairwise Nat.Coprime ∧
    ∃ x F, Represents 2 ms x F ∧ x.ntt = true ∧ F ≠ 0 := by
  refine ⟨[exampleModulus 16 2 97, exampleModulus 16 2 193], rfl, ?_, by decide +kernel, ?_⟩
  · simp [exampleModulus_good]
  · obtain ⟨r, _, h2, h3⟩ := repr_createOne (w := 16) (l := 2)
      (ms := [exampleModulus 16 2 97, exampleModulus 16 2 193]) (by simp [exampleModulus_good]) (by simp)
    exact ⟨r, _, h3, h2, fun h => by have := congrFun h 0; simp at this⟩

/-- `1 + 2X + 3X^2 + 4X^3` squared and substituted, coefficients by `ExportInt`. -/
example :
    let ms := [exampleModulus 16 2 97, exampleModulus 16 2 193]
    let pq := make 16 97
    (do let x ← convertFrom ([1, 2, 3, 4].map (Mont.importInt pq)) pq ms
        let y ← Rns.mul ms x x
        let y ← Rns.substitute ms y 3
        let y ← toCoeff ms y
        return (ms.zip y.coeffs).map fun (mv : Modulus × List ℕ) => mv.2.map (Mont.exportInt mv.1.p) :
      Outcome (List (List ℕ))) = .ok [[73, 20, 6, 77], [169, 20, 6, 173]] := by
  decide +kernel

/-- C43 violated: adding a polynomial in coefficient form to one in NTT form is accepted, and the result
is not the sum: `1` plus `X` modulo 97 here is not `1 + X`. -/
theorem c43_add_mixed_forms_witness :
    let ms := [exampleModulus 16 2 97]
    let one : RPoly := ⟨2, [[1, 1, 1, 1].map (Mont.importInt (make 16 97))], true⟩
    let x : RPoly := ⟨2, [[0, 1, 0, 0].map (Mont.importInt (make 16 97))], false⟩
    let F : Fin 4 → ℤ := fun i => if (i : ℕ) = 0 then 1 else 0
    let G : Fin 4 → ℤ := fun i => if (i : ℕ) = 1 then 1 else 0
    Represents 2 ms one F ∧ Represents 2 ms x G ∧
      ∃ r, Rns.add ms one x = .ok r ∧ ¬ Represents 2 ms r (F + G) := by
  intro ms one x F G
  refine ⟨⟨rfl, .cons ⟨rfl, by decide +kernel, [61, 0, 0, 0], by decide +kernel, ?_⟩ .nil⟩,
    ⟨rfl, .cons ?_ .nil⟩, ⟨2, [[61, 25, 61, 61]], true⟩, by decide +kernel, ?_⟩
  · unfold CoeffsAre; decide +kernel
  · show CoeffsAre _ _ _ _
    unfold CoeffsAre; decide +kernel
  · rintro ⟨_, h⟩
    replace h := (List.forall₂_cons.mp h).1
    obtain ⟨-, -, r, h1, -, -, h3⟩ := h
    have h4 : Ntt.inverse (exampleModulus 16 2 97).p (exampleModulus 16 2 97).q [61, 25, 61, 61] =
      .ok [52, 35, 4, 6] := by decide +kernel
    rw [h4] at h1
    cases h1
    have h5 := h3 (2 : Fin 4)
    revert h5
    decide +kernel

end Shell
