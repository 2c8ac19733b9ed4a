import Verif.Model.LazyPolynomial
import Verif.Lemmas.Polynomial
import Verif.Lemmas.Bits
import Verif.Lemmas.Tactics
/-! The invariant of a lazily reduced accumulator. -/

namespace Shell.Lazy
variable {p : MParams} {w N : ℕ}

/-- `2 * log_modulus` bits suffice for a product of stored words. -/
structure LogGood (p : MParams) (w N : ℕ) : Prop where
  lt : N < 2 ^ p.logModulus
  le : p.logModulus ≤ w - 2
  w2 : 2 ≤ w

theorem logGood_of_create (h : MParams.create w N = .ok p) (hw : w ≤ 128) : LogGood p w N := by
  obtain ⟨h1, h2, h3⟩ := (create_ok_iff w N p).mp h
  have h128 : N < 2 ^ 128 := lt_of_lt_of_le h1 (Nat.pow_le_pow_right (by norm_num) (by omega))
  obtain ⟨L, e1, e2, e3⟩ := Bits.exists_len N
  have hN : N ≠ 0 := by omega
  have hb : p.logModulus = L := by rw [h3]; exact Bits.bitLength_eq N L h128 e1 e2 e3
  have h4 := (good_of_create h).lt
  have hw2 : 2 ≤ w := by
    by_contra hc
    have : 2 ^ w ≤ 2 ^ 1 := Nat.pow_le_pow_right (by norm_num) (by omega)
    have : 1 ≤ N := by omega
    omega
  refine ⟨by rw [hb]; exact e1, ?_, hw2⟩
  rw [hb]
  by_contra hc
  have : 2 ^ (w - 2) ≤ 2 ^ (L - 1) := Nat.pow_le_pow_right (by norm_num) (by omega)
  have := e2 hN
  omega

theorem logMaxLevel_ok (hw : p.w = w) (h : LogGood p w N) :
    logMaxLevel p = .ok (2 * w - 1 - 2 * p.logModulus) := by
  have h1 := h.le
  have h2 := h.w2
  unfold logMaxLevel
  simp only [hw]
  rw [if_neg (by omega)]
  congr 1
  omega

theorem bound (h : LogGood p w N) {k c : ℕ} (hk : k ≤ 2 ^ (2 * w - 1 - 2 * p.logModulus))
    (hk1 : 1 ≤ k) (hc : c ≤ k * N ^ 2) : c < 2 ^ (2 * w - 1) := by
  have h1 := h.le
  have h2 := h.w2
  have hlt := h.lt
  have e : 2 ^ (2 * w - 1) = 2 ^ (2 * w - 1 - 2 * p.logModulus) * (2 ^ p.logModulus) ^ 2 := by
    rw [← pow_mul, ← pow_add]; congr 1; omega
  rw [e]
  refine lt_of_le_of_lt hc ?_
  have h3 : N ^ 2 < (2 ^ p.logModulus) ^ 2 := Nat.pow_lt_pow_left hlt (by norm_num)
  calc k * N ^ 2 < k * (2 ^ p.logModulus) ^ 2 := Nat.mul_lt_mul_of_pos_left h3 hk1
    _ ≤ _ := Nat.mul_le_mul_right _ hk

/-- Invariant of a reachable lazy polynomial of `n` coefficients with exact accumulated sums `S`. -/
structure Inv (p : MParams) (w N n : ℕ) (s : LPoly) (S : ℕ → ℕ) : Prop where
  len : s.coeffs.length = n
  max : s.maxLevel = 2 ^ (2 * w - 1 - 2 * p.logModulus)
  lvl : s.level ≤ s.maxLevel
  le : ∀ i < n, s.coeffs.getD i 0 ≤ s.level * N ^ 2
  cong : ∀ i < n, s.coeffs.getD i 0 % N = S i % N

variable {n : ℕ} {s : LPoly} {S : ℕ → ℕ}

theorem max_lt (h : LogGood p w N) :
    2 ^ (2 * w - 1 - 2 * p.logModulus) < 2 ^ (2 * w) := by
  have := h.w2
  exact Nat.pow_lt_pow_right (by norm_num) (by omega)

theorem max_ge (h : LogGood p w N) : 2 ≤ 2 ^ (2 * w - 1 - 2 * p.logModulus) := by
  have h1 := h.w2
  have h2 := h.le
  calc 2 = 2 ^ 1 := rfl
    _ ≤ _ := Nat.pow_le_pow_right (by norm_num) (by omega)

theorem Inv.coeff_lt (h : LogGood p w N) (I : Inv p w N n s S) {i : ℕ} (hi : i < n) :
    s.coeffs.getD i 0 < 2 ^ (2 * w - 1) := by
  have h1 := I.le i hi
  have h2 := I.lvl
  rw [I.max] at h2
  by_cases h0 : s.level = 0
  · rw [h0, zero_mul] at h1; have : 0 < 2 ^ (2 * w - 1) := by positivity
    omega
  · exact bound h h2 (by omega) h1

/-- The state the products are added to. -/
def ready (p : MParams) (s : LPoly) : LPoly := if s.level = s.maxLevel then refresh p s else s

theorem Inv.ready (g : Good p w N) (h : LogGood p w N) (I : Inv p w N n s S) :
    Inv p w N n (ready p s) S ∧ (Lazy.ready p s).level < s.maxLevel := by
  unfold Lazy.ready
  have hm := max_ge h
  by_cases hl : s.level = s.maxLevel
  · rw [if_pos hl]
    refine ⟨⟨by simp [refresh, I.len], by simp [refresh, I.max], ?_, ?_, ?_⟩, ?_⟩
    · simp only [refresh]; rw [I.max]; omega
    · intro i hi
      simp only [refresh]
      rw [Poly.getD_map' _ (by rw [I.len]; exact hi), barrettReduceBigInt_eq g _ (I.coeff_lt h hi)]
      have := Nat.mod_lt (s.coeffs.getD i 0) g.pos
      have hN := g.pos
      nlinarith
    · intro i hi
      simp only [refresh]
      rw [Poly.getD_map' _ (by rw [I.len]; exact hi), barrettReduceBigInt_eq g _ (I.coeff_lt h hi),
        Nat.mod_mod, I.cong i hi]
    · simp only [refresh]; rw [I.max]; omega
  · rw [if_neg hl]
    exact ⟨I, lt_of_le_of_ne I.lvl hl⟩

theorem pow_split (h : LogGood p w N) : 2 ^ (2 * w) = 2 * 2 ^ (2 * w - 1) := by
  have := h.w2
  rw [← pow_succ']; congr 1; omega

theorem prod_eq (hw : p.w = w) (h : LogGood p w N) {a b : ℕ} (ha : a ≤ N) (hb : b ≤ N) :
    prod p a b = a * b ∧ a * b ≤ N ^ 2 := by
  have h1 : a * b ≤ N ^ 2 := by rw [pow_two]; exact Nat.mul_le_mul ha hb
  refine ⟨?_, h1⟩
  unfold prod
  rw [hw, Nat.mod_eq_of_lt]
  have := bound h (k := 1) (c := a * b) (by have := max_ge h; omega) le_rfl (by omega)
  have := pow_split h
  omega

/-- One accumulation keeps the invariant; the additions before it do not wrap. -/
theorem Inv.step (g : Good p w N) (h : LogGood p w N) (I : Inv p w N n s S) {a b : List ℕ}
    (ha : a.length = n) (hb : b.length = n) (ha' : ∀ i < n, a.getD i 0 ≤ N)
    (hb' : ∀ i < n, b.getD i 0 ≤ N) :
    (∃ s', fusedMulAdd p s a b = .ok s' ∧
      Inv p w N n s' (fun i => S i + a.getD i 0 * b.getD i 0)) ∧
    ∀ i < n, (Lazy.ready p s).coeffs.getD i 0 + a.getD i 0 * b.getD i 0 < 2 ^ (2 * w - 1) := by
  obtain ⟨R, hlt⟩ := I.ready g h
  have hRm := R.max
  have hno : ∀ i < n, (Lazy.ready p s).coeffs.getD i 0 + a.getD i 0 * b.getD i 0 ≤
      ((Lazy.ready p s).level + 1) * N ^ 2 := by
    intro i hi
    have h1 := R.le i hi
    have h2 := (prod_eq g.hw h (ha' i hi) (hb' i hi)).2
    rw [Nat.add_mul]; omega
  have hno' : ∀ i < n, (Lazy.ready p s).coeffs.getD i 0 + a.getD i 0 * b.getD i 0 <
      2 ^ (2 * w - 1) := fun i hi =>
    bound h (by rw [I.max] at hlt; omega) (by omega) (hno i hi)
  refine ⟨?_, hno'⟩
  have e : fusedMulAdd p s a b = .ok { Lazy.ready p s with
      coeffs := List.zipWith (fun c ab => (c + prod p ab.1 ab.2) % 2 ^ (2 * p.w))
        (Lazy.ready p s).coeffs (a.zip b)
      level := ((Lazy.ready p s).level + 1) % 2 ^ (2 * p.w) } := by
    unfold fusedMulAdd
    rw [if_neg (by rw [I.len]; omega)]
    rfl
  refine ⟨_, e, ?_⟩
  have hml := max_lt h
  have hlev : ((Lazy.ready p s).level + 1) % 2 ^ (2 * p.w) = (Lazy.ready p s).level + 1 := by
    rw [g.hw, Nat.mod_eq_of_lt]; rw [I.max] at hlt; omega
  have hget : ∀ i < n, (List.zipWith (fun c (ab : ℕ × ℕ) => (c + prod p ab.1 ab.2) % 2 ^ (2 * p.w))
        (Lazy.ready p s).coeffs (a.zip b)).getD i 0 =
        (Lazy.ready p s).coeffs.getD i 0 + a.getD i 0 * b.getD i 0 := by
    intro i hi
    rw [Poly.getD_zipWith' (0, 0) _ (by rw [R.len]; exact hi) (by simp; omega)]
    have : (a.zip b).getD i (0, 0) = (a.getD i 0, b.getD i 0) := by
      rw [List.getD_eq_getElem _ _ (by simp; omega), List.getElem_zip,
        List.getD_eq_getElem _ _ (by omega), List.getD_eq_getElem _ _ (by omega)]
    rw [this]
    dsimp only
    rw [(prod_eq g.hw h (ha' i hi) (hb' i hi)).1, g.hw, Nat.mod_eq_of_lt]
    have := hno' i hi
    have := pow_split h
    omega
  refine ⟨by simp [R.len, ha, hb], hRm, ?_, ?_, ?_⟩
  · dsimp only; rw [hlev, R.max, ← I.max]; omega
  · intro i hi
    dsimp only
    rw [hget i hi, hlev]; exact hno i hi
  · intro i hi
    dsimp only
    rw [hget i hi, Nat.add_mod, R.cong i hi, ← Nat.add_mod]

theorem Inv.export (g : Good p w N) (h : LogGood p w N) (I : Inv p w N n s S) :
    (exportPoly p s).length = n ∧
    ∀ i < n, (exportPoly p s).getD i 0 = (S i * p.invR) % N := by
  refine ⟨by simp [exportPoly, I.len], fun i hi => ?_⟩
  unfold exportPoly
  have h4 := g.lt
  have hm := Nat.mod_lt (s.coeffs.getD i 0) g.pos
  rw [Poly.getD_map' _ (by rw [I.len]; exact hi), barrettReduceBigInt_eq g _ (I.coeff_lt h hi),
    exportInt_eq g _ (by omega) (Or.inr hm.le), I.cong i hi, Nat.mod_mul_mod]

theorem inv_empty (g : Good p w N) (h : LogGood p w N) (n : ℕ) :
    ∃ s, createEmpty p n = .ok s ∧ Inv p w N n s (fun _ => 0) := by
  have hml := max_lt h
  refine ⟨⟨List.replicate n 0, 0, 2 ^ (2 * w - 1 - 2 * p.logModulus) % 2 ^ (2 * w)⟩, ?_, ?_⟩
  · unfold createEmpty; rw [logMaxLevel_ok g.hw h]; simp [g.hw]
  · refine ⟨by simp, Nat.mod_eq_of_lt hml, by simp, ?_, ?_⟩ <;> intro i hi <;> simp [hi]

theorem inv_create (g : Good p w N) (h : LogGood p w N) {a b : List ℕ}
    (ha : a.length = n) (hb : b.length = n) (ha' : ∀ i < n, a.getD i 0 ≤ N)
    (hb' : ∀ i < n, b.getD i 0 ≤ N) :
    ∃ s, create p a b = .ok s ∧ Inv p w N n s (fun i => a.getD i 0 * b.getD i 0) := by
  have hml := max_lt h
  have hmg := max_ge h
  refine ⟨⟨List.zipWith (prod p) a b, 1, 2 ^ (2 * w - 1 - 2 * p.logModulus) % 2 ^ (2 * w)⟩, ?_, ?_⟩
  · unfold create; rw [if_neg (by omega), logMaxLevel_ok g.hw h]; simp [g.hw]
  · have hget : ∀ i < n, (List.zipWith (prod p) a b).getD i 0 = a.getD i 0 * b.getD i 0 := by
      intro i hi
      rw [Poly.getD_zipWith' 0 _ (by omega) (by omega),
        (prod_eq g.hw h (ha' i hi) (hb' i hi)).1]
    refine ⟨by simp; omega, Nat.mod_eq_of_lt hml, ?_, ?_, ?_⟩
    · dsimp only; rw [Nat.mod_eq_of_lt hml]; omega
    · intro i hi
      dsimp only
      rw [hget i hi, one_mul]; exact (prod_eq g.hw h (ha' i hi) (hb' i hi)).2
    · intro i hi
      dsimp only
      rw [hget i hi]

end Shell.Lazy
