import Verif.Model.LazyRns
import Verif.Lemmas.LazyPolynomial
import Verif.Lemmas.RnsKeySwitch
/-! Lazily reduced RNS polynomials. -/

namespace Shell.Rns
open Spec Poly NttRing Ntt MParams

variable {w l : ℕ} {ms : List Modulus} {F G H : Fin (2 ^ l) → ℤ} {m : Modulus}

/-- The accumulated words `v` of one modulus: at most `k` products, and their value. -/
structure LHolds (w l : ℕ) (m : Modulus) (k : ℕ) (v : List ℕ) (F : Fin (2 ^ l) → ℤ) : Prop where
  len : v.length = 2 ^ l
  le : ∀ i < 2 ^ l, v.getD i 0 ≤ k * m.N ^ 2
  val : ∀ psi : ZMod m.N, Tables m.p w m.N l psi m.q → ∀ i : Fin (2 ^ l),
    (v.getD i 0 : ZMod m.N) * m.p.invR * m.p.invR = enc psi l true F i

theorem LHolds.lt {k : ℕ} {v : List ℕ} (h : LHolds w l m k v F) (lg : Lazy.LogGood m.p w m.N)
    (hk : k ≤ 2 ^ (2 * w - 1 - 2 * m.p.logModulus)) {i : ℕ} (hi : i < 2 ^ l) : v.getD i 0 < 2 ^ (2 * w - 1) := by
  have h1 := h.le i hi
  by_cases h0 : k = 0
  · rw [h0, zero_mul] at h1
    have : 0 < 2 ^ (2 * w - 1) := by positivity
    omega
  · exact Lazy.bound lg hk (by omega) h1

theorem LHolds.refresh (hm : GoodModulus w l m) {k : ℕ} {v : List ℕ} (h : LHolds w l m k v F)
    (lg : Lazy.LogGood m.p w m.N) (hk : k ≤ 2 ^ (2 * w - 1 - 2 * m.p.logModulus)) :
    LHolds w l m 1 (v.map m.p.barrettReduceBigInt) F := by
  have g := hm.good
  haveI : NeZero m.N := ⟨by have := g.pos; omega⟩
  refine ⟨by simp [h.len], fun i hi => ?_, fun psi t i => ?_⟩
  · rw [getD_map' _ (by rw [h.len]; exact hi), barrettReduceBigInt_eq g _ (h.lt lg hk hi)]
    have := Nat.mod_lt (v.getD i 0) g.pos
    have := g.pos
    nlinarith
  · rw [getD_map' _ (by rw [h.len]; exact i.2), barrettReduceBigInt_eq g _ (h.lt lg hk i.2), ZMod.natCast_mod]
    exact h.val psi t i

theorem LHolds.export (hm : GoodModulus w l m) {k : ℕ} {v : List ℕ} (h : LHolds w l m k v F)
    (lg : Lazy.LogGood m.p w m.N) (hk : k ≤ 2 ^ (2 * w - 1 - 2 * m.p.logModulus)) :
    Holds l m true (v.map fun c => m.p.exportInt (m.p.barrettReduceBigInt c)) F := by
  have g := hm.good
  haveI : NeZero m.N := ⟨by have := g.pos; omega⟩
  obtain ⟨psi, t⟩ := hm.tables
  rw [holds_iff hm t]
  have e : ∀ i < 2 ^ l, (v.map fun c => m.p.exportInt (m.p.barrettReduceBigInt c)).getD i 0 =
      v.getD i 0 * m.p.invR % m.N := by
    intro i hi
    have hmod := Nat.mod_lt (v.getD i 0) g.pos
    have h4 := g.lt
    rw [getD_map' _ (by rw [h.len]; exact hi), barrettReduceBigInt_eq g _ (h.lt lg hk hi),
      exportInt_eq g _ (by omega) (Or.inr hmod.le), Nat.mod_mul_mod]
  refine ⟨by simp [h.len], fun i hi => ?_, fun i => ?_⟩
  · rw [e i hi]
    exact (Nat.mod_lt _ g.pos).le
  · rw [e i i.2]
    unfold res
    rw [ZMod.natCast_mod, Nat.cast_mul]
    exact h.val psi t i

theorem firstN_ok {v : List ℕ} {n : ℕ} (h : v.length = n) : LRns.firstN v n = .ok v := by
  unfold LRns.firstN
  rw [if_neg (by omega), List.take_of_length_le (by omega)]

theorem holds_prod (hm : GoodModulus w l m) (lg : Lazy.LogGood m.p w m.N) {a b : List ℕ}
    (ha : Holds l m true a F) (hb : Holds l m true b G) {i : ℕ} (hi : i < 2 ^ l) :
    Lazy.prod m.p (a.getD i 0) (b.getD i 0) = a.getD i 0 * b.getD i 0 ∧
      a.getD i 0 * b.getD i 0 ≤ m.N ^ 2 := by
  have h1 := ha.le (a.getD i 0) (by
    rw [List.getD_eq_getElem _ _ (by rw [ha.len]; exact hi)]; exact List.getElem_mem _)
  have h2 := hb.le (b.getD i 0) (by
    rw [List.getD_eq_getElem _ _ (by rw [hb.len]; exact hi)]; exact List.getElem_mem _)
  exact Lazy.prod_eq hm.good.hw lg h1 h2

theorem holds_prod_val (hm : GoodModulus w l m) {a b : List ℕ}
    (ha : Holds l m true a F) (hb : Holds l m true b G) {psi : ZMod m.N} (t : Tables m.p w m.N l psi m.q)
    (i : Fin (2 ^ l)) :
    ((a.getD i 0 * b.getD i 0 : ℕ) : ZMod m.N) * m.p.invR * m.p.invR = enc psi l true (negMul F G) i := by
  rw [holds_iff hm t] at ha hb
  have h1 := ha.val i
  have h2 := hb.val i
  unfold res at h1 h2
  rw [enc_negMul t, Pi.mul_apply, ← h1, ← h2, Nat.cast_mul]
  ring

theorem products_ok (hm : GoodModulus w l m) (lg : Lazy.LogGood m.p w m.N) {a b : List ℕ}
    (ha : Holds l m true a F) (hb : Holds l m true b G) :
    ∃ r, LRns.products (2 ^ l) m (a, b) = .ok r ∧ LHolds w l m 1 r (negMul F G) := by
  refine ⟨List.zipWith (Lazy.prod m.p) a b, ?_, ?_⟩
  · unfold LRns.products
    rw [firstN_ok ha.len, Outcome.bind_ok, firstN_ok hb.len]
    rfl
  · have e : ∀ i < 2 ^ l, (List.zipWith (Lazy.prod m.p) a b).getD i 0 = a.getD i 0 * b.getD i 0 := fun i hi => by
      rw [getD_zipWith' 0 _ (by rw [ha.len]; exact hi) (by rw [hb.len]; exact hi), (holds_prod hm lg ha hb hi).1]
    refine ⟨by simp [ha.len, hb.len], fun i hi => ?_, fun psi t i => ?_⟩
    · rw [e i hi, one_mul]
      exact (holds_prod hm lg ha hb hi).2
    · rw [e i i.2]
      exact holds_prod_val hm ha hb t i

theorem addProducts_ok (hm : GoodModulus w l m) (lg : Lazy.LogGood m.p w m.N) {c a b : List ℕ} {k : ℕ}
    (hc : LHolds w l m k c H) (hk : k + 1 ≤ 2 ^ (2 * w - 1 - 2 * m.p.logModulus))
    (ha : Holds l m true a F) (hb : Holds l m true b G) :
    (∃ r, LRns.addProducts (2 ^ l) m (c, a, b) = .ok r ∧ LHolds w l m (k + 1) r (H + negMul F G)) ∧
      ∀ i < 2 ^ l, c.getD i 0 + a.getD i 0 * b.getD i 0 < 2 ^ (2 * w - 1) := by
  have hle : ∀ i < 2 ^ l, c.getD i 0 + a.getD i 0 * b.getD i 0 ≤ (k + 1) * m.N ^ 2 := fun i hi => by
    have h1 := hc.le i hi
    have h2 := (holds_prod hm lg ha hb hi).2
    rw [Nat.add_mul]
    omega
  have hlt : ∀ i < 2 ^ l, c.getD i 0 + a.getD i 0 * b.getD i 0 < 2 ^ (2 * w - 1) := fun i hi =>
    Lazy.bound lg hk (by omega) (hle i hi)
  refine ⟨⟨List.zipWith (fun c (ab : ℕ × ℕ) => (c + Lazy.prod m.p ab.1 ab.2) % 2 ^ (2 * m.p.w)) c (a.zip b), ?_, ?_⟩,
    hlt⟩
  · unfold LRns.addProducts
    dsimp only
    rw [firstN_ok hc.len, Outcome.bind_ok, firstN_ok ha.len, Outcome.bind_ok, firstN_ok hb.len]
    rfl
  · have e : ∀ i < 2 ^ l, (List.zipWith (fun c (ab : ℕ × ℕ) => (c + Lazy.prod m.p ab.1 ab.2) % 2 ^ (2 * m.p.w)) c
        (a.zip b)).getD i 0 = c.getD i 0 + a.getD i 0 * b.getD i 0 := fun i hi => by
      have la := ha.len
      have lb := hb.len
      rw [getD_zipWith' (0, 0) _ (by rw [hc.len]; exact hi) (by simp; omega),
        getD_zip' 0 0 (by omega) (by omega)]
      dsimp only
      rw [(holds_prod hm lg ha hb hi).1, hm.good.hw, Nat.mod_eq_of_lt]
      have := hlt i hi
      have := Lazy.pow_split lg
      omega
    refine ⟨by simp [hc.len, ha.len, hb.len], fun i hi => ?_, fun psi t i => ?_⟩
    · rw [e i hi]
      exact hle i hi
    · rw [e i i.2, enc_add, Pi.add_apply, ← hc.val psi t i, ← holds_prod_val hm ha hb t i]
      push_cast
      ring

/-! ### The whole polynomial -/

/-- A maximal level that suits all moduli. -/
def MaxOk (w : ℕ) (ms : List Modulus) (mx : ℕ) : Prop :=
  2 ≤ mx ∧ mx < 2 ^ (2 * w) ∧ ∀ m ∈ ms, mx ≤ 2 ^ (2 * w - 1 - 2 * m.p.logModulus)

theorem goodLog (hg : ∀ m ∈ ms, GoodModulus w l m) (hw : w ≤ 128) : ∀ m ∈ ms, Lazy.LogGood m.p w m.N :=
  fun m hm => Lazy.logGood_of_create (hg m hm).create hw

theorem logMaxLoop_ok (hg : ∀ m ∈ ms, GoodModulus w l m) (hw : w ≤ 128) : ∀ {acc : ℤ}, 1 ≤ acc →
    ∃ L : ℤ, LRns.logMaxLoop acc ms = .ok L ∧ 1 ≤ L ∧ L ≤ acc ∧
      ∀ m ∈ ms, L ≤ ((2 * w - 1 - 2 * m.p.logModulus : ℕ) : ℤ) := by
  induction ms with
  | nil => intro acc h; exact ⟨acc, rfl, h, le_rfl, by simp⟩
  | cons m ms ih =>
    intro acc h
    have lg := goodLog hg hw m (by simp)
    have h1 := lg.le
    have h2 := lg.w2
    have hpw := (hg m (by simp)).good.hw
    obtain ⟨L, e, l1, l2, l3⟩ := ih (fun m hm => hg m (by simp [hm]))
      (acc := if (2 * (m.p.w : ℤ) - 1 - 2 * m.p.logModulus) < acc then 2 * (m.p.w : ℤ) - 1 - 2 * m.p.logModulus
        else acc) (by split <;> omega)
    refine ⟨L, ?_, l1, ?_, ?_⟩
    · unfold LRns.logMaxLoop
      simp only
      rw [if_neg (by omega)]
      exact e
    · split at l2 <;> omega
    · intro m' hm'
      rcases List.mem_cons.mp hm' with rfl | hm'
      · split at l2 <;> omega
      · exact l3 m' hm'

theorem four_le (hm : GoodModulus w l m) : 4 ≤ w := by
  have h3 : 3 ≤ m.N := by
    have h2 := hm.prime.two_le
    have := hm.good.odd
    omega
  have h4 := hm.good.lt
  by_contra hc
  have : 2 ^ w ≤ 2 ^ 3 := Nat.pow_le_pow_right (by norm_num) (by omega)
  omega

theorem maxLevelOf_ok (hg : ∀ m ∈ ms, GoodModulus w l m) (hne : ms ≠ []) (hw : w ≤ 128) :
    ∃ mx, LRns.maxLevelOf w ms = .ok mx ∧ MaxOk w ms mx := by
  obtain ⟨m0, hm0⟩ := List.exists_mem_of_ne_nil ms hne
  have h4 := four_le (hg m0 hm0)
  obtain ⟨L, e, l1, l2, l3⟩ := logMaxLoop_ok hg hw (acc := (w : ℤ) - 2) (by omega)
  have hlt : 2 ^ L.toNat < 2 ^ (2 * w) := Nat.pow_lt_pow_right (by norm_num) (by omega)
  refine ⟨2 ^ L.toNat, ?_, ?_, hlt, fun m hm => Nat.pow_le_pow_right (by norm_num) (by have := l3 m hm; omega)⟩
  · unfold LRns.maxLevelOf
    rw [e, Outcome.bind_ok, Nat.mod_eq_of_lt hlt]
    rfl
  · calc 2 = 2 ^ 1 := rfl
      _ ≤ _ := Nat.pow_le_pow_right (by norm_num) (by omega)

/-- The state of a lazy polynomial with the exact value `F`. -/
structure LInv (w l : ℕ) (ms : List Modulus) (s : LRns) (F : Fin (2 ^ l) → ℤ) : Prop where
  max : MaxOk w ms s.maxLevel
  lvl : s.level ≤ s.maxLevel
  coeffs : List.Forall₂ (fun m v => LHolds w l m s.level v F) ms s.coeffs

theorem forall₂_and_mem {α β : Type} {R : α → β → Prop} {P : α → Prop} {as : List α} {bs : List β}
    (h : List.Forall₂ R as bs) (hP : ∀ a ∈ as, P a) : List.Forall₂ (fun a b => P a ∧ R a b) as bs := by
  induction h with
  | nil => exact .nil
  | cons h1 _ ih => exact .cons ⟨hP _ (by simp), h1⟩ (ih fun a ha => hP a (by simp [ha]))

variable {a b : RPoly}

/-- What is known of each modulus. -/
def Suits (w l : ℕ) (mx : ℕ) (m : Modulus) : Prop :=
  GoodModulus w l m ∧ Lazy.LogGood m.p w m.N ∧ mx ≤ 2 ^ (2 * w - 1 - 2 * m.p.logModulus)

theorem MaxOk.suits {mx : ℕ} (h : MaxOk w ms mx) (hg : ∀ m ∈ ms, GoodModulus w l m) (hw : w ≤ 128) :
    ∀ m ∈ ms, Suits w l mx m := fun m hm => ⟨hg m hm, goodLog hg hw m hm, h.2.2 m hm⟩

theorem linv_create (hg : ∀ m ∈ ms, GoodModulus w l m) (hne : ms ≠ []) (hw : w ≤ 128)
    (ha : Comp l ms a F) (hb : Comp l ms b G) :
    ∃ s, LRns.create w ms a b = .ok s ∧ LInv w l ms s (negMul F G) := by
  obtain ⟨mx, e, hmx⟩ := maxLevelOf_ok hg hne hw
  have h1 := ha.2.2
  have h2 := hb.2.2
  rw [ha.1] at h1
  rw [hb.1] at h2
  obtain ⟨rs, r1, r2⟩ := perModulus_ok (f := LRns.products (2 ^ l))
    (R := fun m v => LHolds w l m 1 v (negMul F G))
    (fun m v h => by
      obtain ⟨⟨s, h1⟩, h2⟩ := h
      exact products_ok s.1 s.2.1 h1 h2) (forall₂_zip (forall₂_and_mem h1 (hmx.suits hg hw)) h2)
  refine ⟨⟨rs, 1, mx⟩, ?_, hmx, by have := hmx.1; show 1 ≤ mx; omega, r2⟩
  unfold LRns.create
  rw [if_neg (by simp [ha.1, hb.1]), if_neg (by rw [ha.2.1, hb.2.1]; simp),
    if_neg (by rw [← h1.length_eq, ← h2.length_eq]; simp), e, Outcome.bind_ok, ha.2.1, r1]
  rfl

theorem linv_zero (hg : ∀ m ∈ ms, GoodModulus w l m) (hne : ms ≠ []) (hw : w ≤ 128) (hl : 0 < l) :
    ∃ s, LRns.createZero w l ms = .ok s ∧ LInv w l ms s 0 := by
  obtain ⟨mx, e, hmx⟩ := maxLevelOf_ok hg hne hw
  obtain ⟨m0, hm0⟩ := List.exists_mem_of_ne_nil ms hne
  have h15 := (hg m0 hm0).l15
  refine ⟨⟨ms.map fun _ => List.replicate (2 ^ l) 0, 0, mx⟩, ?_, hmx, by simp, ?_⟩
  · unfold LRns.createZero shl1
    rw [if_neg (by omega), if_neg (by simpa using hne), Int.toNat_natCast, if_pos (by omega), Outcome.bind_ok, e]
    rfl
  · rw [List.forall₂_map_right_iff, List.forall₂_same]
    intro m hm
    have g0 : ∀ i, (List.replicate (2 ^ l) 0).getD i 0 = 0 := fun i => by
      by_cases h : i < 2 ^ l
      · rw [List.getD_eq_getElem _ _ (by simpa using h)]; simp
      · rw [List.getD_eq_default _ _ (by simpa using h)]
    refine ⟨by simp, fun i hi => by rw [g0]; simp, fun psi t i => ?_⟩
    rw [g0]
    have : enc psi l true (0 : Fin (2 ^ l) → ℤ) = 0 := by
      have := enc_add (m := m) (psi := psi) (l := l) (b := true) (F := 0) (G := 0)
      simpa using this
    rw [this]
    simp

theorem linv_ready (hg : ∀ m ∈ ms, GoodModulus w l m) (hw : w ≤ 128) {s : LRns} (I : LInv w l ms s H) :
    ∃ s', (if s.level = s.maxLevel then LRns.refresh ms s else .ok s : Outcome LRns) = .ok s' ∧
      LInv w l ms s' H ∧ s'.level < s'.maxLevel := by
  by_cases h : s.level = s.maxLevel
  · obtain ⟨rs, r1, r2⟩ := perModulus_ok (f := fun m (v : List ℕ) => Outcome.ok (v.map m.p.barrettReduceBigInt))
      (R := fun m v => LHolds w l m 1 v H)
      (fun m v h => ⟨_, rfl, h.2.refresh h.1.1 h.1.2.1 (I.lvl.trans h.1.2.2)⟩)
      (forall₂_and_mem I.coeffs (I.max.suits hg hw))
    refine ⟨⟨rs, 1, s.maxLevel⟩, ?_, ⟨I.max, by have := I.max.1; show 1 ≤ s.maxLevel; omega, r2⟩,
      by have := I.max.1; show 1 < s.maxLevel; omega⟩
    rw [if_pos h]
    unfold LRns.refresh
    rw [r1]
    rfl
  · exact ⟨s, by rw [if_neg h], I, lt_of_le_of_ne I.lvl h⟩

theorem linv_step (hg : ∀ m ∈ ms, GoodModulus w l m) (hne : ms ≠ []) (hw : w ≤ 128) {s : LRns}
    (I : LInv w l ms s H) (ha : Comp l ms a F) (hb : Comp l ms b G) :
    ∃ s', LRns.fusedMulAdd w ms s a b = .ok s' ∧ LInv w l ms s' (H + negMul F G) := by
  obtain ⟨s1, e1, I1, hlt⟩ := linv_ready hg hw I
  have h1 := ha.2.2
  have h2 := hb.2.2
  rw [ha.1] at h1
  rw [hb.1] at h2
  obtain ⟨rs, r1, r2⟩ := perModulus_ok (f := LRns.addProducts (2 ^ l))
    (R := fun m v => LHolds w l m (s1.level + 1) v (H + negMul F G))
    (fun m v h => by
      obtain ⟨⟨s, h1⟩, h2, h3⟩ := h
      exact (addProducts_ok s.1 s.2.1 h1 ((Nat.succ_le_of_lt hlt).trans s.2.2) h2 h3).1)
    (forall₂_zip (forall₂_and_mem I1.coeffs (I1.max.suits hg hw)) (forall₂_zip h1 h2))
  have hc0 : ∃ c0, rd s.coeffs 0 = .ok c0 ∧ c0.length = 2 ^ l := by
    have hco := I.coeffs
    cases hs : s.coeffs with
    | nil => exact absurd (List.eq_nil_of_length_eq_zero (by rw [hco.length_eq, hs]; rfl)) hne
    | cons c cs =>
      rw [hs] at hco
      obtain ⟨_, _, h, _, _⟩ := List.forall₂_cons_right_iff.mp hco
      exact ⟨c, rfl, h.len⟩
  obtain ⟨c0, c01, c02⟩ := hc0
  have hlev : (s1.level + 1) % 2 ^ (2 * w) = s1.level + 1 :=
    Nat.mod_eq_of_lt (lt_of_le_of_lt (Nat.succ_le_of_lt hlt) I1.max.2.1)
  refine ⟨⟨rs, s1.level + 1, s1.maxLevel⟩, ?_, I1.max, hlt, r2⟩
  unfold LRns.fusedMulAdd
  rw [if_neg (by simp [ha.1, hb.1]),
    if_neg (by rw [← h1.length_eq, ← h2.length_eq, ← I.coeffs.length_eq]; simp), c01, Outcome.bind_ok,
    if_neg (by rw [ha.2.1, hb.2.1, c02]; simp), e1, Outcome.bind_ok, c02, r1, Outcome.bind_ok, hlev]
  rfl

theorem linv_export (hg : ∀ m ∈ ms, GoodModulus w l m) (hne : ms ≠ []) (hw : w ≤ 128) {s : LRns}
    (I : LInv w l ms s F) : ∃ r, LRns.exportPoly ms s = .ok r ∧ Comp l ms r F := by
  obtain ⟨rs, r1, r2⟩ := perModulus_ok
    (f := fun m (v : List ℕ) => Outcome.ok (v.map fun c => m.p.exportInt (m.p.barrettReduceBigInt c)))
    (R := fun m v => Holds l m true v F)
    (fun m v h => ⟨_, rfl, h.2.export h.1.1 h.1.2.1 (I.lvl.trans h.1.2.2)⟩)
    (forall₂_and_mem I.coeffs (I.max.suits hg hw))
  have hlen : ∀ v ∈ rs, v.length = 2 ^ l := fun v hv => by

    obtain ⟨i, hi, rfl⟩ := List.mem_iff_getElem.mp hv
    exact ((List.forall₂_iff_get.mp r2).2 i (by rw [r2.length_eq]; exact hi) hi).len
  have hrs : rs ≠ [] := fun h => hne (List.eq_nil_of_length_eq_zero (by rw [r2.length_eq, h]; rfl))
  refine ⟨⟨l, rs, true⟩, ?_, rfl, rfl, r2⟩
  unfold LRns.exportPoly
  rw [if_neg (by rw [I.coeffs.length_eq]; simp)]
  cases hs : s.coeffs with
  | nil => exact absurd (List.eq_nil_of_length_eq_zero (by rw [I.coeffs.length_eq, hs]; rfl)) hne
  | cons c cs =>
    rw [show rd (c :: cs) 0 = .ok c from rfl, Outcome.bind_ok, ← hs, r1, Outcome.bind_ok, create_ok' hrs hlen]

end Shell.Rns
