import Verif.Props.RnsErrorTail
import Verif.Props.RnsRelin
import Verif.Spec.KeyNoise
/-! The errors of key-switching keys. -/

namespace Shell.Rns
open Spec Real RnsErrorTrack
variable {σ τ : Type} {w l : ℕ} {ms : List Modulus} {S S' : Fin (2 ^ l) → ℤ}

/-! ### Moments -/

theorem times_exp_le {α : Type} (T : Tree α) (f : α → ℝ) {M : ℝ} (hM : 0 ≤ M) (h : T.expect (fun x => exp (f x)) ≤ M)
    (d : α) (n : ℕ) : (T.times n).expect (fun xs => exp (∑ i ∈ Finset.range n, f (xs.getD i d))) ≤ M ^ n := by
  induction n with
  | zero => simp [Tree.times, Tree.expect]
  | succ n ih =>
    show (T.bind fun x => (T.times n).bind fun xs => .ret (.ok (x :: xs))).expect _ ≤ _
    rw [Tree.expect_bind]
    have e1 : ∀ x, ((T.times n).bind fun xs => .ret (.ok (x :: xs))).expect
        (fun xs => exp (∑ i ∈ Finset.range (n + 1), f (xs.getD i d))) ≤ M ^ n * exp (f x) := by
      intro x
      rw [Tree.expect_bind]
      have : ∀ xs : List α, (Tree.ret (.ok (x :: xs))).expect
          (fun xs => exp (∑ i ∈ Finset.range (n + 1), f (xs.getD i d))) =
          exp (f x) * exp (∑ i ∈ Finset.range n, f (xs.getD i d)) := by
        intro xs
        show exp _ = _
        rw [Finset.sum_range_succ', ← Real.exp_add, add_comm]
        rfl
      rw [show (fun xs => _) = _ from funext this, Tree.expect_mul, mul_comm]
      exact mul_le_mul_of_nonneg_right ih (Real.exp_pos _).le
    refine (T.expect_mono e1).trans ?_
    rw [Tree.expect_mul, pow_succ]
    exact mul_le_mul_of_nonneg_left h (pow_nonneg hM n)

/-- The sum of a function over the entries of a list, for a fixed number of entries. -/
theorem times_sum_exp {α : Type} (T : Tree α) (f : α → ℝ) {M : ℝ} (hM : 0 ≤ M) (h : T.expect (fun x => exp (f x)) ≤ M)
    (n : ℕ) : (T.times n).expect (fun xs => exp (xs.map f).sum) ≤ M ^ n := by
  induction n with
  | zero => simp [Tree.times, Tree.expect]
  | succ n ih =>
    show (T.bind fun x => (T.times n).bind fun xs => .ret (.ok (x :: xs))).expect _ ≤ _
    rw [Tree.expect_bind]
    have e1 : ∀ x, ((T.times n).bind fun xs => .ret (.ok (x :: xs))).expect
        (fun xs => exp (xs.map f).sum) ≤ M ^ n * exp (f x) := by
      intro x
      rw [Tree.expect_bind]
      have : ∀ xs : List α, (Tree.ret (.ok (x :: xs))).expect (fun xs => exp (xs.map f).sum) =
          exp (f x) * exp (xs.map f).sum := by
        intro xs
        show exp _ = _
        rw [List.map_cons, List.sum_cons, Real.exp_add]
      rw [show (fun xs => _) = _ from funext this, Tree.expect_mul, mul_comm]
      exact mul_le_mul_of_nonneg_right ih (Real.exp_pos _).le
    refine (T.expect_mono e1).trans ?_
    rw [Tree.expect_mul, pow_succ]
    exact mul_le_mul_of_nonneg_left h (pow_nonneg hM n)

theorem coeff_abs_mean (v : ℕ) (a : ℝ) :
    (coeffTree v).expect (fun ps => exp (a * |((coeffOf v ps : ℤ) : ℝ)|)) ≤ 2 * exp (v * a ^ 2 / 2) := by
  have h1 := coeff_mean v a
  have h2 := coeff_mean v (-a)
  rw [neg_sq] at h2
  refine ((coeffTree v).expect_mono (ψ := fun ps => exp (a * (coeffOf v ps : ℤ)) + exp (-a * (coeffOf v ps : ℤ)))
    fun ps => ?_).trans ?_
  · rcases abs_cases ((coeffOf v ps : ℤ) : ℝ) with ⟨e, -⟩ | ⟨e, -⟩ <;> rw [e]
    · exact le_add_of_nonneg_right (exp_pos _).le
    · rw [mul_neg, ← neg_mul]
      exact le_add_of_nonneg_left (exp_pos _).le
  · rw [Tree.expect_add]
    linarith

/-- The polynomial that is sampled with the words `pss`. -/
def drawnPoly (l : ℕ) (v : ℤ) (pss : List (List (ℕ × ℕ))) : Fin (2 ^ l) → ℤ := fun i => coeffOf v.toNat (pss.getD i [])

/-- The words of an error polynomial. -/
def errTree (l : ℕ) (v : ℤ) : Tree (List (List (ℕ × ℕ))) := (coeffTree v.toNat).times (2 ^ l)

open Classical in
/-- The sum of the absolute values of all coefficients of `d` errors rarely exceeds `8 / sqrt 3` deviations per
coefficient. -/
theorem errors_tail {v : ℤ} (hv : 0 < v) (d : ℕ) :
    ((errTree l v).times d).expect (fun psss =>
      if 8 / √3 * √v * 2 ^ l * d < (psss.map fun pss => ((norm1 (drawnPoly l v pss) : ℤ) : ℝ)).sum then 1 else 0) ≤
      exp (-(9 * 2 ^ l * d)) := by
  have hvR : (0 : ℝ) < v := by exact_mod_cast hv
  have hvn : ((v.toNat : ℕ) : ℝ) = (v : ℝ) := by
    have : ((v.toNat : ℕ) : ℤ) = v := Int.toNat_of_nonneg hv.le
    exact_mod_cast this
  set a : ℝ := 8 / (√3 * √v) with ha
  have hs : 0 < √(v : ℝ) := Real.sqrt_pos.mpr hvR
  have h3 : 0 < √(3 : ℝ) := by positivity
  have ha0 : 0 ≤ a := by positivity
  have hs2 : √(v : ℝ) * √v = v := Real.mul_self_sqrt hvR.le
  have h32 : √(3 : ℝ) * √3 = 3 := Real.mul_self_sqrt (by norm_num)
  have ha2 : (v : ℝ) * a ^ 2 / 2 = 32 / 3 := by
    rw [ha, div_pow, mul_pow, Real.sq_sqrt hvR.le, Real.sq_sqrt (by norm_num)]
    field_simp
    norm_num
  have hac : a * (8 / √3 * √v) = 64 / 3 := by
    rw [ha]
    have : √(3 : ℝ) ^ 2 = 3 := Real.sq_sqrt (by norm_num)
    field_simp
    rw [this]
    norm_num
  set M : ℝ := 2 * exp (32 / 3) with hM
  have hM0 : 0 ≤ M := by positivity
  have hM1 : M ≤ exp (35 / 3) := by
    have : (2 : ℝ) ≤ exp 1 := by have := Real.add_one_le_exp (1 : ℝ); linarith
    calc M ≤ exp 1 * exp (32 / 3) := mul_le_mul_of_nonneg_right this (exp_pos _).le
      _ = _ := by rw [← Real.exp_add]; norm_num
  have hc : (coeffTree v.toNat).expect (fun ps => exp (a * |((coeffOf v.toNat ps : ℤ) : ℝ)|)) ≤ M := by
    have := coeff_abs_mean v.toNat a
    rwa [hvn, ha2] at this
  have hp : (errTree l v).expect (fun pss => exp (a * (norm1 (drawnPoly l v pss) : ℤ))) ≤ M ^ 2 ^ l := by
    refine le_trans (le_of_eq ?_) (times_exp_le _ _ hM0 hc [] (2 ^ l))
    unfold errTree
    congr 1
    funext pss
    congr 1
    unfold norm1 drawnPoly
    push_cast
    rw [Finset.mul_sum, ← Fin.sum_univ_eq_sum_range (fun i => a * |((coeffOf v.toNat (pss.getD i []) : ℤ) : ℝ)|) (2 ^ l)]
  have hd := times_sum_exp _ _ (pow_nonneg hM0 _) hp d
  have e1 : ∀ psss : List (List (List (ℕ × ℕ))),
      (if 8 / √3 * √v * 2 ^ l * d < (psss.map fun pss => ((norm1 (drawnPoly l v pss) : ℤ) : ℝ)).sum then (1 : ℝ) else 0) ≤
      exp (-(a * (8 / √3 * √v * 2 ^ l * d))) *
        exp (psss.map fun pss => a * ((norm1 (drawnPoly l v pss) : ℤ) : ℝ)).sum := by
    intro psss
    rw [← Real.exp_add, List.sum_map_mul_left]
    split_ifs with h1
    · refine Real.one_le_exp ?_
      nlinarith
    · exact (Real.exp_pos _).le
  refine (Tree.expect_mono _ e1).trans ?_
  rw [Tree.expect_mul]
  refine (mul_le_mul_of_nonneg_left (hd.trans (pow_le_pow_left₀ (pow_nonneg hM0 _)
    (pow_le_pow_left₀ hM0 hM1 _) _)) (exp_pos _).le).trans ?_
  rw [← Real.exp_nat_mul, ← Real.exp_nat_mul, ← Real.exp_add, Real.exp_le_exp]
  have e2 : a * (8 / √3 * √v * 2 ^ l * d) = 64 / 3 * (2 ^ l * d) := by rw [← hac]; ring
  rw [e2]
  push_cast
  have : (0 : ℝ) ≤ 2 ^ l * d := by positivity
  nlinarith

/-! ### Creation -/

theorem keyEntry_drawn {k : RKey} (hk : GoodKey w l k S) (hne : k.ms ≠ []) {v : ℤ} (hv0 : 0 < v) (hv : v ≤ 256)
    (hN : ∀ m ∈ k.ms.head?, 4 * v < m.N) {t : ℕ} (ht : t < 2 ^ w) {source pad : RPoly} {g : List ℕ}
    {A : Fin (2 ^ l) → ℤ} {z : ℤ} (hs : Comp l k.ms source S') (hp : Comp l k.ms pad A) (hz : RnsIntIs k.ms g z)
    {s s' : List (Fin 256)} {b : RPoly} (h : keyEntry bytesSource k v t source pad g s = .ok (b, s')) :
    ∃ pss, (errTree l v).run s = .ok (pss, s') ∧ ∃ B : Fin (2 ^ l) → ℤ, Comp l k.ms b B ∧
      B + negMul A S = (fun i => (t : ℤ) * drawnPoly l v pss i) + (fun i => z * S' i) := by
  have hg := hk.good
  have hlog : k.key.logN = l := hk.key.2.1
  have hv2 : ∀ m ∈ k.ms.head?, 2 * v ≤ m.N := fun m hm => by have := hN m hm; omega
  unfold keyEntry at h
  obtain ⟨x, x1, x2, x3⟩ := repr_mulRns hg hs.2 hz
  obtain ⟨u, u1, u2, u3⟩ := repr_negate hg hp.2
  rw [x1, Outcome.bind_ok, u1, Outcome.bind_ok] at h
  obtain ⟨⟨e, s1⟩, he, h⟩ := Outcome.bind_eq_ok.mp h
  rw [hlog] at he
  obtain ⟨e1, -⟩ := sampleErr_ok bytesSource bytesSource_words hg hv2 he
  obtain ⟨pss, p1, e2⟩ := err_drawn hg hv0 hv hne hN he
  dsimp only at h
  obtain ⟨y, y1, y2, y3⟩ := repr_mulInt hg e2 ht
  obtain ⟨y', z1, z2, z3⟩ := repr_add hg y3 x3 (by rw [y2, e1, x2, hs.1])
  obtain ⟨r, r1, r2, r3⟩ := repr_fusedMulAdd hg z3 u3 hk.key.2 (by rw [z2, y2, e1]) (by rw [u2, hp.1])
    hk.key.1
  rw [y1, Outcome.bind_ok, z1, Outcome.bind_ok, r1] at h
  cases h
  refine ⟨pss, p1, _, ⟨r2, r3⟩, ?_⟩
  have : negMul (-A) S = -negMul A S := by
    rw [NR.negMul_comm, negMul_neg_comm]
  rw [this]
  unfold drawnPoly
  abel

theorem keyEntries_drawn {k : RKey} (hk : GoodKey w l k S) (hne : k.ms ≠ []) {v : ℤ} (hv0 : 0 < v) (hv : v ≤ 256)
    (hN : ∀ m ∈ k.ms.head?, 4 * v < m.N) {t : ℕ} (ht : t < 2 ^ w) {source : RPoly}
    (hs : Comp l k.ms source S') : ∀ {gs : List (List ℕ)} {Gs : List ℤ} {pads rest bs : List RPoly}
    {s s' : List (Fin 256)}, List.Forall₂ (RnsIntIs k.ms) gs Gs → (∀ a ∈ pads, ∃ A, Comp l k.ms a A) →
    keyEntries bytesSource k v t source gs pads s = .ok (bs, rest, s') →
    ∃ (as : List RPoly) (psss : List (List (List (ℕ × ℕ)))), pads = as ++ rest ∧
      ((errTree l v).times gs.length).run s = .ok (psss, s') ∧
      KeyColumns l k.ms t S (gadgetMultiples Gs S') as bs (psss.map (drawnPoly l v)) := by
  intro gs
  induction gs with
  | nil =>
    intro Gs pads rest bs s s' hz _ h
    cases hz
    cases h
    exact ⟨[], [], rfl, rfl, trivial⟩
  | cons g gs ih =>
    intro Gs pads rest bs s s' hz hp h
    cases hz with
    | @cons _ z _ Gs hz hzs =>
      cases pads with
      | nil => cases h
      | cons pad pads =>
        unfold keyEntries at h
        obtain ⟨⟨b, s1⟩, h1, h⟩ := Outcome.bind_eq_ok.mp h
        obtain ⟨⟨bs', pads', s2⟩, h2, h⟩ := Outcome.bind_eq_ok.mp h
        cases h
        obtain ⟨A, hA⟩ := hp pad List.mem_cons_self
        obtain ⟨pss, p1, B, b1, b2⟩ := keyEntry_drawn hk hne hv0 hv hN ht hs hA hz h1
        obtain ⟨as, psss, a1, a2, a3⟩ := ih hzs (fun x hx => hp x (List.mem_cons_of_mem _ hx)) h2
        refine ⟨pad :: as, pss :: psss, by rw [a1]; rfl, ?_, ⟨⟨A, B, hA.1, hA.2, b1.1, b1.2, b2⟩, a3⟩⟩
        show ((errTree l v).bind fun x => ((errTree l v).times gs.length).bind fun xs => .ret (.ok (x :: xs))).run s = _
        rw [Tree.run_bind, p1, Outcome.bind_ok, Tree.run_bind, a2, Outcome.bind_ok]
        rfl

theorem galois_drawn (Gp : Gen τ) {fuel : ℕ} {k : RKey} (hk : GoodKey w l k S) (hne : k.ms ≠ []) {g : RGadget}
    {Gs : List ℤ} {logs : List ℕ} (hgad : GadgetFor l k.ms g Gs logs) {power v : ℤ} (hv : v ≤ 256)
    (hN : ∀ m ∈ k.ms.head?, 4 * v < m.N) {prng : PrngType} {t : ℕ} (ht : t < 2 ^ w) {sp : τ} {s : List (Fin 256)}
    {key : RGalois} (h : RGalois.create Gp bytesSource fuel k power v g prng t sp s = .ok key) :
    key.power = power ∧ key.ms = k.ms ∧ key.gadget = g ∧ 0 ≤ power ∧ power % 2 = 1 ∧ power < 2 * 2 ^ l ∧ 0 < v ∧
      ∃ psss s', ((errTree l v).times g.dimension).run s = .ok (psss, s') ∧
        KeyColumns l k.ms t S (gadgetMultiples Gs (substPow power.toNat S)) key.as key.bs
          (psss.map (drawnPoly l v)) := by
  have hlog : k.key.logN = l := hk.key.2.1
  unfold RGalois.create at h
  obtain ⟨_, h⟩ | ⟨_, h⟩ := ite_eq_iff.mp h
  · cases h
  obtain ⟨⟨pads, sp'⟩, h1, h⟩ := Outcome.bind_eq_ok.mp h
  rw [hlog] at h1
  obtain ⟨p1, p2⟩ := samplePads_ok Gp hk.good hk.coprime h1
  dsimp only at h
  unfold RGalois.createWithPad at h
  obtain ⟨n, h2, h⟩ := Outcome.bind_eq_ok.mp h
  have hn : n = 2 ^ l ∧ l < 31 := by
    unfold shl1 at h2
    obtain ⟨hl, h2⟩ | ⟨_, h2⟩ := ite_eq_iff.mp h2
    · rw [hlog] at h2 hl
      exact ⟨(Outcome.ok.inj h2).symm, hl⟩
    · cases h2
  obtain ⟨rfl, hl31⟩ := hn
  obtain ⟨_, h⟩ | ⟨c1, h⟩ := ite_eq_iff.mp h
  · cases h
  obtain ⟨_, h⟩ | ⟨c2, h⟩ := ite_eq_iff.mp h
  · cases h
  obtain ⟨_, h⟩ | ⟨c3, h⟩ := ite_eq_iff.mp h
  · cases h
  obtain ⟨_, h⟩ | ⟨c4, h⟩ := ite_eq_iff.mp h
  · cases h
  obtain ⟨_, h⟩ | ⟨c5, h⟩ := ite_eq_iff.mp h
  · cases h
  have hl29 : l ≤ 29 := by
    by_contra hc
    have : (2 : ℕ) ^ 30 ≤ 2 ^ l := Nat.pow_le_pow_right (by norm_num) (by omega)
    omega
  have hpos : 0 ≤ power := by omega
  obtain ⟨p, rfl⟩ := Int.eq_ofNat_of_zero_le hpos
  have hodd : p % 2 = 1 := by
    have : ¬ ((p : ℤ).tmod 2 = 0) := fun hh => c1 (Or.inr hh)
    rw [Int.tmod_eq_emod_of_nonneg hpos] at this
    omega
  have hlt : p < 2 * 2 ^ l := by
    have : (p : ℤ) < ((2 * 2 ^ l : ℕ) : ℤ) := by push_cast; push_cast at c3; omega
    exact_mod_cast this
  obtain ⟨src, s1, s2, s3⟩ := repr_substitute hl29 hk.good hk.key.2 hk.key.1 hodd hlt
  rw [s1, Outcome.bind_ok, if_neg (by rw [hgad.dim]; omega), List.take_of_length_le (by rw [hgad.dim]),
    Outcome.bind_ok] at h
  obtain ⟨⟨bs, rest, s'⟩, h3, h⟩ := Outcome.bind_eq_ok.mp h
  cases h
  have hv0 : 0 < v := by omega
  obtain ⟨as, psss, a1, a2, a3⟩ := keyEntries_drawn hk hne hv0 hv hN ht ⟨s2, s3⟩ hgad.comps p2 h3
  obtain ⟨_, _, _, _, l1, _, _, _⟩ := keyColumns_polys a3
  have hrest : rest = [] := by
    have e1 := congrArg List.length a1
    rw [p1, List.length_append, l1, gadgetMultiples, List.length_map, ← hgad.comps.length_eq, hgad.dim] at e1
    exact List.length_eq_zero_iff.mp (by omega)
  rw [hrest, List.append_nil] at a1
  subst a1
  rw [hgad.dim] at a2
  exact ⟨rfl, rfl, rfl, hpos, by omega, by exact_mod_cast hlt, hv0, psss, s', a2, a3⟩

theorem relin_drawn (Gp : Gen τ) {fuel : ℕ} {k : RKey} (hk : GoodKey w l k S) (hne : k.ms ≠ []) {g : RGadget}
    {Gs : List ℤ} {logs : List ℕ} (hgad : GadgetFor l k.ms g Gs logs) {degree v : ℤ} (hv : v ≤ 256)
    (hN : ∀ m ∈ k.ms.head?, 4 * v < m.N) {prng : PrngType} {t : ℕ} (ht : t < 2 ^ w) {sp : τ} {s : List (Fin 256)}
    {key : RRelin} (h : RRelin.create Gp bytesSource fuel k degree v g prng t sp s = .ok key) :
    key.degree = degree ∧ key.ms = k.ms ∧ key.gadget = g ∧ 2 ≤ degree ∧ 0 < v ∧
      ∃ psss s' Es, ((errTree l v).times g.dimension).run s = .ok (psss, s') ∧ psss.length = g.dimension ∧
        KeyColumns l k.ms t S (relinTargets Gs S degree.toNat) key.as key.bs (psss.map (drawnPoly l v) ++ Es) := by
  have hlog : k.key.logN = l := hk.key.2.1
  have hv2 : ∀ m ∈ k.ms.head?, 2 * v ≤ m.N := fun m hm => by have := hN m hm; omega
  obtain ⟨q1, q2, q3, q4, q5⟩ := c52_relin_create Gp bytesSource bytesSource_words hk hgad hv2 ht h
  unfold RRelin.create at h
  obtain ⟨_, h⟩ | ⟨hd, h⟩ := ite_eq_iff.mp h
  · cases h
  obtain ⟨_, h⟩ | ⟨_, h⟩ := ite_eq_iff.mp h
  · cases h
  obtain ⟨pads, h1, h⟩ := Outcome.bind_eq_ok.mp h
  unfold RRelin.samplePad at h1
  obtain ⟨_, h1⟩ | ⟨_, h1⟩ := ite_eq_iff.mp h1
  · cases h1
  obtain ⟨_, h1⟩ | ⟨_, h1⟩ := ite_eq_iff.mp h1
  · cases h1
  obtain ⟨_, h1⟩ | ⟨_, h1⟩ := ite_eq_iff.mp h1
  · cases h1
  obtain ⟨_, h1⟩ | ⟨_, h1⟩ := ite_eq_iff.mp h1
  · cases h1
  obtain ⟨⟨pads', sp'⟩, h2, h1⟩ := Outcome.bind_eq_ok.mp h1
  cases h1
  rw [hlog] at h2
  obtain ⟨p1, p2⟩ := samplePads_ok Gp hk.good hk.coprime h2
  unfold RRelin.createWithPad at h
  obtain ⟨_, h⟩ | ⟨hvpos, h⟩ := ite_eq_iff.mp h
  · cases h
  rw [if_neg (by rw [hgad.dim]; omega), List.take_of_length_le (by rw [hgad.dim]), Outcome.bind_ok] at h
  obtain ⟨bs, h3, h⟩ := Outcome.bind_eq_ok.mp h
  cases h
  have hd2 : 2 ≤ degree := q1 ▸ q5.degree
  obtain ⟨cnt, hcnt⟩ : ∃ c, (degree - 1).toNat = c + 1 := ⟨(degree - 1).toNat - 1, by omega⟩
  rw [hcnt] at h3
  unfold relinBlocks at h3
  obtain ⟨r, r1, r2, r3⟩ := repr_mul hk.good hk.key.2 hk.key.2 hk.key.1 hk.key.1
  have hr : Comp l k.ms r (polyPow S (0 + 2)) := by
    refine ⟨r2, ?_⟩
    show Represents l k.ms r (negMul (polyPow S 1) S)
    rw [polyPow_one]
    exact r3
  rw [r1, Outcome.bind_ok] at h3
  obtain ⟨⟨bs1, pads1, s1⟩, h4, h3⟩ := Outcome.bind_eq_ok.mp h3
  obtain ⟨bs2, h5, h3⟩ := Outcome.bind_eq_ok.mp h3
  cases h3
  obtain ⟨as, psss, a1, a2, a3⟩ := keyEntries_drawn hk hne q4 hv hN ht hr hgad.comps p2 h4
  obtain ⟨as', rest, Es', b1, b2, -⟩ := relinBlocks_ok bytesSource bytesSource_words hk hv2 ht hgad.comps (i := 1) hr
    (fun x hx => p2 x (a1 ▸ List.mem_append_right _ hx)) h5
  obtain ⟨_, _, _, _, l1, _, l3, _⟩ := keyColumns_polys a3
  have a4 := keyColumns_append a3 b2
  obtain ⟨_, _, _, _, l2, _, _, _⟩ := keyColumns_polys a4
  have ht' : gadgetMultiples Gs (polyPow S (0 + 2)) ++
      ((List.range' 1 cnt).flatMap fun i => gadgetMultiples Gs (polyPow S (i + 2))) = relinTargets Gs S degree.toNat := by
    unfold relinTargets
    rw [show degree.toNat - 1 = cnt + 1 by omega, List.range_eq_range', List.range'_succ, List.flatMap_cons]
  rw [ht'] at a4 l2
  have hrest : rest = [] := by
    have e1 := congrArg List.length a1
    have e0 := congrArg List.length b1
    have e2 : (relinTargets Gs S degree.toNat).length = (degree - 1).toNat * g.dimension := by
      unfold relinTargets
      rw [List.length_flatMap, show degree.toNat - 1 = (degree - 1).toNat by omega]
      simp [gadgetMultiples, ← hgad.comps.length_eq, hgad.dim]
    have e3 : ((g.dimension : ℤ) * (degree - 1)).toNat = (degree - 1).toNat * g.dimension := by
      obtain ⟨n, hn⟩ := Int.eq_ofNat_of_zero_le (show 0 ≤ degree - 1 by omega)
      rw [hn, ← Nat.cast_mul, Int.toNat_natCast, Int.toNat_natCast, mul_comm]
    rw [p1, List.length_append, e3] at e1
    rw [List.length_append] at e0
    rw [List.length_append, e2] at l2
    exact List.length_eq_zero_iff.mp (by omega)
  rw [hrest, List.append_nil] at b1
  subst b1
  subst a1
  rw [hgad.dim] at a2
  refine ⟨rfl, rfl, rfl, hd2, q4, psss, s1, Es', a2, ?_, a4⟩
  rw [List.length_map, gadgetMultiples, List.length_map, ← hgad.comps.length_eq, hgad.dim] at l3
  exact l3

/-! ### Use -/

theorem norm1_nonneg' {n : ℕ} (F : Fin n → ℤ) : 0 ≤ norm1 F := Finset.sum_nonneg fun _ _ => abs_nonneg _

theorem sumMul_norm {n : ℕ} {b : ℕ} : ∀ {Ds Es : List (Fin n → ℤ)}, (∀ D ∈ Ds, ∀ i, |D i| < 2 ^ b) →
    ∀ j, |sumMul Ds Es j| ≤ 2 ^ b * ((Es.take Ds.length).map norm1).sum := by
  intro Ds
  induction Ds with
  | nil => intro Es _ j; cases Es <;> simp [sumMul]
  | cons D Ds ih =>
    intro Es h j
    cases Es with
    | nil => simp [sumMul]
    | cons E Es =>
      show |negMul D E j + sumMul Ds Es j| ≤ 2 ^ b * (norm1 E + ((Es.take Ds.length).map norm1).sum)
      rw [mul_add]
      refine (abs_add_le _ _).trans (add_le_add ?_ (ih (fun D' hD => h D' (List.mem_cons_of_mem _ hD)) j))
      have : NeZero n := ⟨by have := j.2; omega⟩
      rw [NR.negMul_comm, mul_comm]
      exact negMul_bound E D (2 ^ b) (by positivity) (fun i => (h D List.mem_cons_self i).le) j

theorem digitLogs_le {b : ℕ} : ∀ {bs ks : List ℕ}, (∀ b' ∈ bs, b' ≤ b) → ∀ c ∈ digitLogs bs ks, c ≤ b
  | [], ks, _ => by simp [digitLogs]
  | _ :: _, [], _ => by simp [digitLogs]
  | b' :: bs, k :: ks, h => by
    intro c hc
    rcases List.mem_append.mp hc with hc | hc
    · rw [(List.mem_replicate.mp hc).2]; exact h b' List.mem_cons_self
    · exact digitLogs_le (fun d hd => h d (List.mem_cons_of_mem _ hd)) c hc

theorem digits_lt {n b : ℕ} : ∀ {logs : List ℕ} {Ds : List (Fin n → ℤ)}, (∀ c ∈ logs, c ≤ b) →
    List.Forall₂ (fun b (D : Fin n → ℤ) => ∀ i, |D i| < 2 ^ b) logs Ds → ∀ D ∈ Ds, ∀ i, |D i| < 2 ^ b := by
  intro logs
  induction logs with
  | nil => intro Ds _ h; cases h; simp
  | cons c logs ih =>
    intro Ds hc h
    cases h with
    | cons h hs =>
      intro D hD i
      rcases List.mem_cons.mp hD with rfl | hD
      · exact (h i).trans_le (pow_le_pow_right₀ (by norm_num) (hc c List.mem_cons_self))
      · exact ih (fun d hd => hc d (List.mem_cons_of_mem _ hd)) hs D hD i

end Shell.Rns
