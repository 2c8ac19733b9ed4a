import Verif.Props.Law
import Verif.Props.RnsSchemeExample
/-!
# Property C87 for RNS polynomials

The residues modulo the different moduli are drawn independently; the error is drawn once and converted to all moduli.
-/

namespace Shell
open Spec Rns NttRing
variable {w l : ℕ} {ms : List Modulus}

namespace Tree
variable {α β γ : Type}

/-- Two independent computations. -/
theorem expect_pair (T : Tree α) (U : Tree β) (f : α → β → γ) {φ : γ → ℝ} {a : α → ℝ} {b : β → ℝ}
    (h : ∀ x y, φ (f x y) = a x * b y) :
    (T.bind fun x => U.bind fun y => .ret (.ok (f x y))).expect φ = T.expect a * U.expect b := by
  rw [expect_bind, mul_comm, ← expect_mul]
  congr 1
  funext x
  rw [expect_bind, mul_comm, ← expect_mul]
  congr 1
  funext y
  exact h x y

end Tree

/-! ## Uniform polynomials -/

/-- Residues modulo all moduli. -/
def uniformTree (fuel n : ℕ) : List Modulus → Tree (List (List ℕ))
  | [] => .ret (.ok [])
  | m :: ms => ((residueTree m.N m.p.logModulus fuel).times n).bind fun v =>
      (uniformTree fuel n ms).bind fun vs => .ret (.ok (v :: vs))

theorem uniformTree_is (hw : w = 16 ∨ w = 32 ∨ w = 64 ∨ w = 128) (hg : ∀ m ∈ ms, GoodModulus w l m) (fuel : ℕ) {n : ℕ}
    (hn : 0 < n) : (uniformTree fuel n ms).Is (uniformVectors bytesSource fuel n ms) := by
  induction ms with
  | nil => exact fun t => rfl
  | cons m ms ih =>
    have h1 := samplePolynomial_is (hg m (by simp)).create hw fuel hn
    have h2 : Sampler.samplePolynomial bytesSource m.p fuel (n : ℤ) = fun t =>
        loop n (fun _ (r : List ℕ × List (Fin 256)) => do
          let (c, s) ← Sampler.importRandom bytesSource m.p fuel r.2
          .ok (r.1 ++ [c], s)) ([], t) := by
      funext t
      unfold Sampler.samplePolynomial
      rw [if_neg (by omega), Int.toNat_natCast]
    rw [h2] at h1
    exact h1.bind fun v => (ih fun m hm => hg m (List.mem_cons_of_mem _ hm)).bind fun vs => fun t => rfl

theorem uniform_within (fuel n : ℕ) (ms : List Modulus) :
    (uniformTree fuel n ms).Within (16 * fuel * n * ms.length) := by
  induction ms with
  | nil => exact Tree.within_ret _ _
  | cons m ms ih =>
    rw [List.length_cons, show 16 * fuel * n * (ms.length + 1) = n * (16 * fuel) + (16 * fuel * n * ms.length + 0) by ring]
    exact ((residue_within _ _ _).times n).bind fun v => ih.bind fun vs => Tree.within_ret _ _

open Classical in
theorem holds_expect (hw : w ≤ 128) {m : Modulus} (hm : GoodModulus w l m) (fuel : ℕ) (A : Fin (2 ^ l) → ℤ) :
    ((residueTree m.N m.p.logModulus fuel).times (2 ^ l)).expect (fun v => if Holds l m true v A then 1 else 0) =
      residueLaw m.N m.p.logModulus fuel ^ 2 ^ l := by
  obtain ⟨psi, tb⟩ := hm.tables
  rw [← residue_expect hm.create hw fuel (2 ^ l) (ntt psi l (modq m.N A))]
  refine Tree.expect_congr_returns _ fun v hv => if_congr ?_ rfl rfl
  have hlen := Tree.times_length hv
  have hlt := Tree.times_all (P := fun x => x < m.N) (fun x hx => residue_lt hx) hv
  rw [holds_iff hm tb]
  unfold enc
  rw [if_pos rfl]
  exact ⟨fun h i => h.val i, fun h => ⟨hlen, fun i hi => (forall_getD hlt i (by omega)).le, h⟩⟩

open Classical in
theorem uniform_expect (hw : w ≤ 128) (hg : ∀ m ∈ ms, GoodModulus w l m) (fuel : ℕ) (A : Fin (2 ^ l) → ℤ) :
    (uniformTree fuel (2 ^ l) ms).expect
      (fun vs => if List.Forall₂ (fun m v => Holds l m true v A) ms vs then 1 else 0) = rnsResidueLaw ms l fuel := by
  induction ms with
  | nil => simp [uniformTree, Tree.expect, rnsResidueLaw]
  | cons m ms ih =>
    have h1 := holds_expect hw (hg m (by simp)) fuel A
    have h2 := ih fun m hm => hg m (List.mem_cons_of_mem _ hm)
    unfold rnsResidueLaw at h2 ⊢
    rw [List.map_cons, List.prod_cons, ← h1, ← h2]
    refine Tree.expect_pair _ _ _ fun v vs => ?_
    simp only [List.forall₂_cons]
    by_cases a1 : Holds l m true v A <;>
      by_cases a2 : List.Forall₂ (fun m v => Holds l m true v A) ms vs <;> simp [a1, a2]

theorem shl1_ok {l : ℕ} (h : l ≤ 15) : shl1 l = .ok (2 ^ l) := by
  unfold shl1
  rw [if_pos (by omega)]

theorem sampleUniform_iff (hw : w = 16 ∨ w = 32 ∨ w = 64 ∨ w = 128) (hg : ∀ m ∈ ms, GoodModulus w l m) (hne : ms ≠ [])
    (fuel : ℕ) (t : List (Fin 256)) (a : RPoly) (s : List (Fin 256)) :
    sampleUniform bytesSource fuel l ms t = .ok (a, s) ↔
      a.logN = l ∧ a.ntt = true ∧ (uniformTree fuel (2 ^ l) ms).run t = .ok (a.coeffs, s) := by
  obtain ⟨m, ms', rfl⟩ := List.exists_cons_of_ne_nil hne
  obtain ⟨psi, tb⟩ := (hg m (by simp)).tables
  have h1 := tb.l1
  have h15 := tb.l15
  unfold sampleUniform
  rw [if_neg (by omega), if_neg (by simp), Int.toNat_natCast, shl1_ok h15, Outcome.bind_ok,
    uniformTree_is hw hg fuel (by positivity) t]
  constructor
  · intro h
    obtain ⟨⟨vs, s1⟩, h3, h⟩ := Outcome.bind_eq_ok.mp h
    cases h
    exact ⟨rfl, rfl, h3⟩
  · rintro ⟨b1, b2, b3⟩
    rw [b3, Outcome.bind_ok]
    obtain ⟨logN, coeffs, ntt⟩ := a
    cases b1
    cases b2
    rfl

open Classical in
/-- C87: `SampleUniform` returns every polynomial with the same probability. -/
theorem c87_uniform (hw : w = 16 ∨ w = 32 ∨ w = 64 ∨ w = 128) (hg : ∀ m ∈ ms, GoodModulus w l m) (hne : ms ≠ [])
    (fuel : ℕ) (A : Fin (2 ^ l) → ℤ) (L : ℕ) (hL : 16 * fuel * 2 ^ l * ms.length ≤ L) :
    bytesProbability L (fun t => ∃ a s, sampleUniform bytesSource fuel l ms t = .ok (a, s) ∧ Represents l ms a A) =
      rnsResidueLaw ms l fuel := by
  rw [Tree.probability_eq (uniformTree fuel (2 ^ l) ms)
    (good := fun vs => List.Forall₂ (fun m v => Holds l m true v A) ms vs) (uniform_within fuel (2 ^ l) ms) hL]
  · convert uniform_expect (by omega) hg fuel A
  intro t
  constructor
  · rintro ⟨a, s, h1, h2⟩
    obtain ⟨b1, b2, b3⟩ := (sampleUniform_iff hw hg hne fuel t a s).mp h1
    have := h2.2
    rw [b2] at this
    exact ⟨a.coeffs, s, b3, this⟩
  · rintro ⟨vs, s, h1, h2⟩
    exact ⟨⟨l, vs, true⟩, s, (sampleUniform_iff hw hg hne fuel t _ s).mpr ⟨rfl, rfl, h1⟩, rfl, h2⟩

/-! ## Errors -/

/-- What `SampleError` returns, read off the tape. -/
theorem sampleErr_tape (hg : ∀ m ∈ ms, GoodModulus w l m) {v : ℤ} (hv0 : 0 < v) (hv : v ≤ 256) (hne : ms ≠ [])
    (hN : ∀ m ∈ ms.head?, 4 * v < m.N) (t s : List (Fin 256)) :
    (∀ x, sampleErr bytesSource l v ms t = .ok (x, s) → ∃ pss, ((coeffTree v.toNat).times (2 ^ l)).run t = .ok (pss, s)) ∧
    ∀ pss, ((coeffTree v.toNat).times (2 ^ l)).run t = .ok (pss, s) →
      ∃ x, sampleErr bytesSource l v ms t = .ok (x, s) ∧ x.ntt = true ∧
        Represents l ms x fun i => coeffOf v.toNat (pss.getD i []) := by
  obtain ⟨m, ms', rfl⟩ := List.exists_cons_of_ne_nil hne
  have hm := hg m (by simp)
  have hNm := hN m (by simp)
  obtain ⟨psi, tb⟩ := hm.tables
  have h1 := tb.l1
  have h15 := tb.l15
  have g := good_of_create hm.create
  haveI : NeZero m.N := ⟨hm.prime.ne_zero⟩
  have e0 : sampleErr bytesSource l v (m :: ms') t = Sampler.sampleError bytesSource m.p (2 ^ l) v.toNat t >>= fun r =>
      convertBalancedFrom r.1 m.p (m :: ms') >>= fun x => .ok (x, r.2) := by
    unfold sampleErr
    rw [if_neg (by omega), if_neg (by omega), Int.toNat_natCast, shl1_ok h15]
    rfl
  rw [e0]
  constructor
  · intro x h
    obtain ⟨⟨cs, s1⟩, h2, h⟩ := Outcome.bind_eq_ok.mp h
    obtain ⟨y, h3, h⟩ := Outcome.bind_eq_ok.mp h
    cases h
    obtain ⟨pss, r1, -⟩ := sampleError_tape hm.create (by omega) h2
    exact ⟨pss, r1⟩
  · intro pss h
    obtain ⟨cs, r1, r2⟩ := sampleError_run hm.create (by omega) (by omega) h
    obtain ⟨e, e1, e2⟩ := Word.error_rep bytesSource bytesSource_words hm.create _ _ (by omega) t s cs r1
    have hs : ∀ i, 2 * |e i| < m.N := fun i => by have := e1 i; omega
    rw [signed_rep g e2 hs] at r2
    obtain ⟨x, x1, x2, x3⟩ := repr_convertBalancedFrom hm.create hg (by simp) e2
    refine ⟨x, ?_, x2, ?_⟩
    · rw [r1, Outcome.bind_ok]
      show convertBalancedFrom cs m.p (m :: ms') >>= _ = _
      rw [x1, Outcome.bind_ok]
    · convert x3 using 1
      funext i
      rw [← congrFun r2 i]
      have h3 := hs i
      have h4 := le_abs_self (e i)
      have h5 := neg_abs_le (e i)
      exact (centered_eq m.N (e i) (by omega) (by omega)).symm

theorem repr_iff (hg : ∀ m ∈ ms, GoodModulus w l m) (hc : (ms.map (·.N)).Pairwise Nat.Coprime) {x : RPoly}
    {F G : Fin (2 ^ l) → ℤ} (h : Represents l ms x F) : Represents l ms x G ↔ CongMod (modulusProd ms) F G :=
  ⟨fun h' i => repr_unique hg hc h h' i, fun h' => repr_congr h h'⟩

/-- A small polynomial is determined by its residues. -/
theorem repr_small (hg : ∀ m ∈ ms, GoodModulus w l m) (hc : (ms.map (·.N)).Pairwise Nat.Coprime) {x : RPoly}
    {F G : Fin (2 ^ l) → ℤ} (h : Represents l ms x F) {m : Modulus} (hm : m ∈ ms) (hF : ∀ i, 2 * |F i| < m.N)
    (hG : ∀ i, 2 * |G i| < m.N) : Represents l ms x G ↔ ∀ i, F i = G i := by
  rw [repr_iff hg hc h]
  constructor
  · intro hh i
    have hd : (m.N : ℤ) ∣ modulusProd ms := by
      unfold modulusProd
      exact_mod_cast List.dvd_prod (List.mem_map.mpr ⟨m, hm, rfl⟩)
    have := Int.eq_zero_of_abs_lt_dvd (hd.trans (hh i)) (by
      have := abs_sub (F i) (G i)
      have := hF i
      have := hG i
      omega)
    omega
  · intro hh i
    rw [hh i, sub_self]
    exact dvd_zero _

theorem coeffOf_bound (v : ℕ) (ps : List (ℕ × ℕ)) : |coeffOf v ps| ≤ 2 * v := by
  obtain ⟨b1, b2⟩ := Sampler.noise_bound (Sampler.sizes (2 * v)) ps
  rw [Sampler.sizes_sum] at b1 b2
  refine abs_le.mpr ⟨?_, ?_⟩
  · show -(2 * (v : ℤ)) ≤ noise (Sampler.sizes (2 * v)) ps
    push_cast at b1
    linarith
  · show noise (Sampler.sizes (2 * v)) ps ≤ 2 * (v : ℤ)
    push_cast at b2
    linarith

theorem sampleErr_iff (hg : ∀ m ∈ ms, GoodModulus w l m) (hc : (ms.map (·.N)).Pairwise Nat.Coprime) {v : ℤ} (hv0 : 0 < v)
    (hv : v ≤ 256) (hne : ms ≠ []) (hN : ∀ m ∈ ms.head?, 4 * v < m.N) {E : Fin (2 ^ l) → ℤ}
    (hE : ∀ m ∈ ms.head?, ∀ i, 2 * |E i| < m.N) (t s : List (Fin 256)) :
    (∃ x, sampleErr bytesSource l v ms t = .ok (x, s) ∧ Represents l ms x E) ↔
      ∃ pss, ((coeffTree v.toNat).times (2 ^ l)).run t = .ok (pss, s) ∧
        ∀ i : Fin (2 ^ l), coeffOf v.toNat (pss.getD i []) = E i := by
  obtain ⟨h1, h2⟩ := sampleErr_tape hg hv0 hv hne hN t s
  obtain ⟨m, ms', rfl⟩ := List.exists_cons_of_ne_nil hne
  have hNm := hN m (by simp)
  have small : ∀ pss : List (List (ℕ × ℕ)), ∀ i : Fin (2 ^ l), 2 * |coeffOf v.toNat (pss.getD i [])| < m.N := fun pss i => by
    have := coeffOf_bound v.toNat (pss.getD i [])
    omega
  constructor
  · rintro ⟨x, hx, hr⟩
    obtain ⟨pss, hp⟩ := h1 x hx
    obtain ⟨x', y1, y2, y3⟩ := h2 pss hp
    rw [hx] at y1
    cases y1
    exact ⟨pss, hp, (repr_small hg hc y3 (by simp) (small pss) (hE m (by simp))).mp hr⟩
  · rintro ⟨pss, hp, hE'⟩
    obtain ⟨x, y1, y2, y3⟩ := h2 pss hp
    exact ⟨x, y1, (repr_small hg hc y3 (by simp) (small pss) (hE m (by simp))).mpr hE'⟩

open Classical in
/-- C87: the coefficients of the polynomial that `SampleError` returns are independent and follow the centered binomial
distribution. -/
theorem c87_rns_error (hg : ∀ m ∈ ms, GoodModulus w l m) (hc : (ms.map (·.N)).Pairwise Nat.Coprime) {v : ℤ} (hv0 : 0 < v)
    (hv : v ≤ 256) (hne : ms ≠ []) (hN : ∀ m ∈ ms.head?, 4 * v < m.N) {E : Fin (2 ^ l) → ℤ}
    (hE : ∀ m ∈ ms.head?, ∀ i, 2 * |E i| < m.N) (L : ℕ) (hL : 4 * v.toNat * 2 ^ l ≤ L) :
    bytesProbability L (fun t => ∃ e s, sampleErr bytesSource l v ms t = .ok (e, s) ∧ Represents l ms e E) =
      ∏ i, binomialLaw v.toNat (E i) := by
  rw [Tree.probability_eq ((coeffTree v.toNat).times (2 ^ l))
    (good := fun pss => ∀ i : Fin (2 ^ l), coeffOf v.toNat (pss.getD i []) = E i) ((coeff_within _).times _)
    (by rw [mul_comm]; exact hL), error_expect]
  intro t
  constructor
  · rintro ⟨x, s, h1, h2⟩
    obtain ⟨pss, p1, p2⟩ := (sampleErr_iff hg hc hv0 hv hne hN hE t s).mp ⟨x, h1, h2⟩
    exact ⟨pss, s, p1, p2⟩
  · rintro ⟨pss, s, h1, h2⟩
    obtain ⟨x, p1, p2⟩ := (sampleErr_iff hg hc hv0 hv hne hN hE t s).mpr ⟨pss, h1, h2⟩
    exact ⟨x, s, p1, p2⟩

open Classical in
/-- C87: the coefficients of a key returned by `RnsRlweSecretKey::Sample` are independent and follow the centered
binomial distribution. -/
theorem c87_rns_key (hg : ∀ m ∈ ms, GoodModulus w l m) (hc : (ms.map (·.N)).Pairwise Nat.Coprime) {v : ℤ} (hv0 : 0 < v)
    (hv : v ≤ 256) (hne : ms ≠ []) (hN : ∀ m ∈ ms.head?, 4 * v < m.N) {S : Fin (2 ^ l) → ℤ}
    (hS : ∀ m ∈ ms.head?, ∀ i, 2 * |S i| < m.N) (L : ℕ) (hL : 4 * v.toNat * 2 ^ l ≤ L) :
    bytesProbability L (fun t => ∃ k s, RKey.sample bytesSource l v ms t = .ok (k, s) ∧ KeyIs l k S) =
      ∏ i, binomialLaw v.toNat (S i) := by
  rw [← c87_rns_error hg hc hv0 hv hne hN hS L hL]
  congr 1
  funext t
  obtain ⟨m, ms', rfl⟩ := List.exists_cons_of_ne_nil hne
  obtain ⟨psi, tb⟩ := (hg m (by simp)).tables
  have h1 := tb.l1
  have e0 : RKey.sample bytesSource l v (m :: ms') t = sampleErr bytesSource l v (m :: ms') t >>= fun r =>
      .ok (⟨r.1, m :: ms', v⟩, r.2) := by
    unfold RKey.sample
    rw [if_neg (by omega), if_neg (by omega), if_neg (by simp)]
    rfl
  rw [e0]
  refine propext ⟨?_, ?_⟩
  · rintro ⟨k, s, hk, -, hS⟩
    obtain ⟨⟨e, s1⟩, he, hk⟩ := Outcome.bind_eq_ok.mp hk
    cases hk
    exact ⟨e, _, he, hS⟩
  · rintro ⟨e, s, he, hS⟩
    obtain ⟨pss, hp⟩ := (sampleErr_tape hg hv0 hv hne hN t s).1 e he
    obtain ⟨x, x1, x2, -⟩ := (sampleErr_tape hg hv0 hv hne hN t s).2 pss hp
    rw [he] at x1
    cases x1
    exact ⟨_, s, by rw [he, Outcome.bind_ok], x2, hS⟩

/-! ## Ciphertexts -/

/-- The mask and the error are determined by what they are used for. -/
theorem pair_iff (hg : ∀ m ∈ ms, GoodModulus w l m) (hc : (ms.map (·.N)).Pairwise Nat.Coprime) {t : ℕ}
    (ht : Nat.Coprime t (modulusProd ms)) {a e c₀ c₁ : RPoly} {A' E' A E M S : Fin (2 ^ l) → ℤ}
    (ha : Represents l ms a A') (he : Represents l ms e E') (n₀ : c₀.ntt = true) (n₁ : c₁.ntt = true)
    (h₀ : Represents l ms c₀ (fun i => M i + t * E' i + negMul A' S i)) (h₁ : Represents l ms c₁ (-A')) :
    PairHolds l ms c₀ c₁ M t E A S ↔ Represents l ms a A ∧ Represents l ms e E := by
  unfold PairHolds
  rw [repr_iff hg hc h₀, repr_iff hg hc h₁, repr_iff hg hc ha, repr_iff hg hc he]
  have hA : CongMod (modulusProd ms) (-A') (-A) ↔ CongMod (modulusProd ms) A' A := by
    refine forall_congr' fun i => ?_
    rw [show (-A') i - (-A) i = -(A' i - A i) by simp only [Pi.neg_apply]; ring, dvd_neg]
  rw [hA]
  have hE : CongMod (modulusProd ms) A' A →
      (CongMod (modulusProd ms) (fun i => M i + t * E' i + negMul A' S i) (fun i => M i + t * E i + negMul A S i) ↔
        CongMod (modulusProd ms) E' E) := by
    intro hAA
    have hm := hAA.mul (CongMod.refl S)
    refine forall_congr' fun i => ?_
    rw [show M i + t * E' i + negMul A' S i - (M i + t * E i + negMul A S i) =
      t * (E' i - E i) + (negMul A' S i - negMul A S i) by ring, dvd_add_left (hm i)]
    exact ⟨fun h => (Int.isCoprime_iff_gcd_eq_one.mpr (by simpa using ht.symm)).dvd_of_dvd_mul_left h,
      fun h => h.mul_left _⟩
  constructor
  · rintro ⟨-, -, z1, z2⟩
    exact ⟨z2, (hE z2).mp z1⟩
  · rintro ⟨z1, z2⟩
    exact ⟨n₀, n₁, (hE z1).mpr z2, z1⟩

open Classical in
/-- The mask and the error, drawn one after the other. -/
theorem draws_law (hw : w = 16 ∨ w = 32 ∨ w = 64 ∨ w = 128) (hg : ∀ m ∈ ms, GoodModulus w l m)
    (hc : (ms.map (·.N)).Pairwise Nat.Coprime) {v : ℤ} (hv0 : 0 < v) (hv : v ≤ 256) (hne : ms ≠ [])
    (hN : ∀ m ∈ ms.head?, 4 * v < m.N) {A E : Fin (2 ^ l) → ℤ} (hE : ∀ m ∈ ms.head?, ∀ i, 2 * |E i| < m.N) (fuel L : ℕ)
    (hL : 16 * fuel * 2 ^ l * ms.length + 4 * v.toNat * 2 ^ l ≤ L) {event : List (Fin 256) → Prop}
    (h : ∀ t, event t ↔ ∃ a t₁ e s, sampleUniform bytesSource fuel l ms t = .ok (a, t₁) ∧
      sampleErr bytesSource l v ms t₁ = .ok (e, s) ∧ Represents l ms a A ∧ Represents l ms e E) :
    bytesProbability L event = rnsResidueLaw ms l fuel * ∏ i, binomialLaw v.toNat (E i) := by
  rw [Tree.probability_eq ((uniformTree fuel (2 ^ l) ms).bind fun vs =>
      ((coeffTree v.toNat).times (2 ^ l)).bind fun pss => .ret (.ok (vs, pss)))
    (good := fun r => List.Forall₂ (fun m v => Holds l m true v A) ms r.1 ∧
      ∀ i : Fin (2 ^ l), coeffOf v.toNat (r.2.getD i []) = E i)
    ((uniform_within _ _ _).bind (d' := 2 ^ l * (4 * v.toNat) + 0) fun a =>
      ((coeff_within _).times _).bind fun pss => Tree.within_ret _ _)
    (by rw [mul_comm (2 ^ l) (4 * v.toNat)]; omega), ← uniform_expect (by omega) hg fuel A, ← error_expect]
  · refine Tree.expect_pair _ _ _ fun vs pss => ?_
    by_cases a1 : List.Forall₂ (fun m v => Holds l m true v A) ms vs <;>
      by_cases a2 : ∀ i : Fin (2 ^ l), coeffOf v.toNat (pss.getD i []) = E i
    · rw [if_pos a1, if_pos a2, if_pos ⟨a1, a2⟩, one_mul]
    · rw [if_neg a2, if_neg fun x => a2 x.2, mul_zero]
    · rw [if_neg a1, if_neg fun x => a1 x.1, zero_mul]
    · rw [if_neg a1, if_neg fun x => a1 x.1, zero_mul]
  · intro t
    rw [h t]
    constructor
    · rintro ⟨a, t₁, e, s, h1, h2, h3, h4⟩
      obtain ⟨b1, b2, b3⟩ := (sampleUniform_iff hw hg hne fuel t a t₁).mp h1
      obtain ⟨pss, p1, p2⟩ := (sampleErr_iff hg hc hv0 hv hne hN hE t₁ s).mp ⟨e, h2, h4⟩
      have := h3.2
      rw [b2] at this
      refine ⟨(a.coeffs, pss), s, ?_, this, p2⟩
      rw [Tree.run_bind, b3, Outcome.bind_ok]
      show Tree.run (Tree.bind _ _) t₁ = _
      rw [Tree.run_bind, p1, Outcome.bind_ok]
      rfl
    · rintro ⟨⟨vs, pss⟩, s, hr, z1, z2⟩
      rw [Tree.run_bind] at hr
      obtain ⟨⟨vs', t₁⟩, ha, hr⟩ := Outcome.bind_eq_ok.mp hr
      rw [Tree.run_bind] at hr
      obtain ⟨⟨pss', t₂⟩, hps, hr⟩ := Outcome.bind_eq_ok.mp hr
      cases hr
      obtain ⟨e, p1, p2⟩ := (sampleErr_iff hg hc hv0 hv hne hN hE t₁ _).mpr ⟨_, hps, z2⟩
      exact ⟨⟨l, _, true⟩, t₁, e, _, (sampleUniform_iff hw hg hne fuel t _ _).mpr ⟨rfl, rfl, ha⟩, p1, ⟨rfl, z1⟩, p2⟩

/-- The plaintext in NTT form. -/
theorem plainNtt_ok (hg : ∀ m ∈ ms, GoodModulus w l m) {pt : RPoly} {M : Fin (2 ^ l) → ℤ} (hpt : Represents l ms pt M) :
    ∃ p, plainNtt ms pt = .ok p ∧ p.ntt = true ∧ Represents l ms p M := by
  unfold plainNtt
  cases hb : pt.ntt with
  | true => exact ⟨pt, by simp, hb, hpt⟩
  | false =>
    obtain ⟨r, r1, r2, r3⟩ := repr_toNtt hg hpt hb
    exact ⟨r, by simpa using r1, r2, r3⟩

/-- What the theorems on fresh encryptions assume of a key: the modulus sizes leave room for the errors. -/
structure RoomyKey (w l : ℕ) (k : RKey) (S : Fin (2 ^ l) → ℤ) : Prop where
  good : GoodKey w l k S
  words : w = 16 ∨ w = 32 ∨ w = 64 ∨ w = 128
  nonempty : k.ms ≠ []
  positive : 0 < k.variance
  atMost : k.variance ≤ 256
  room : ∀ m ∈ k.ms.head?, 4 * k.variance < m.N

section
variable {k : RKey} {S M A E : Fin (2 ^ l) → ℤ} {pt : RPoly} {enc : Encoder} {msgs : List ℕ}

open Classical in
/-- C87: for uniformly distributed bytes, every secret key and every message, `EncryptBgv` returns
`(m + t e + a s, -a)` with `a` uniformly distributed and, independently, the coefficients of `e` independent with the
centered binomial distribution. -/
theorem c87_bgv (hk : RoomyKey w l k S) (hE : ∀ m ∈ k.ms.head?, ∀ i, 2 * |E i| < m.N)
    (henc : enc.encodeBgv msgs k.ms = .ok pt) (hpt : Represents l k.ms pt M) (ht : enc.t < 2 ^ w)
    (hct : Nat.Coprime enc.t (modulusProd k.ms)) (fuel L : ℕ)
    (hL : 16 * fuel * 2 ^ l * k.ms.length + 4 * k.variance.toNat * 2 ^ l ≤ L) :
    bytesProbability L (fun t => ∃ x s, k.encryptBgv bytesSource fuel enc msgs t = .ok (x, s) ∧
      ∃ c₀ c₁, x.c = [c₀, c₁] ∧ PairHolds l k.ms c₀ c₁ M enc.t E A S) =
      rnsResidueLaw k.ms l fuel * ∏ i, binomialLaw k.variance.toNat (E i) := by
  have hg := hk.good.good
  have hc := hk.good.coprime
  refine draws_law (A := A) hk.words hg hc hk.positive hk.atMost hk.nonempty hk.room hE fuel L hL fun t => ?_
  have hlog : k.key.logN = l := hk.good.key.2.1
  obtain ⟨p, p1, p2, p3⟩ := plainNtt_ok hg hpt
  have e0 : k.encryptBgv bytesSource fuel enc msgs t = k.encryptPolynomialBgv bytesSource fuel p enc.t t := by
    unfold RKey.encryptBgv
    rw [henc, Outcome.bind_ok, p1, Outcome.bind_ok]
  have key : ∀ a t₁ e s, sampleUniform bytesSource fuel l k.ms t = .ok (a, t₁) →
      sampleErr bytesSource l k.variance k.ms t₁ = .ok (e, s) → ∃ c₀ c₁,
        k.encryptBgv bytesSource fuel enc msgs t = .ok (⟨[c₀, c₁], k.ms, 1⟩, s) ∧
        (PairHolds l k.ms c₀ c₁ M enc.t E A S ↔ Represents l k.ms a A ∧ Represents l k.ms e E) := by
    intro a t₁ e s ha he
    obtain ⟨a1, A', a2⟩ := sampleUniform_ok bytesSource hg hc ha
    obtain ⟨e1, E', e2, -⟩ := sampleErr_ok bytesSource bytesSource_words hg hk.good.variance he
    obtain ⟨u, u1, u2, u3⟩ := repr_mulInt hg e2 ht
    obtain ⟨v, v1, v2, v3⟩ := repr_add hg u3 p3 (by rw [u2, e1, p2])
    obtain ⟨z, z1, z2, z3⟩ := repr_fusedMulAdd hg v3 a2 hk.good.key.2 (by rw [v2, u2, e1]) a1 hk.good.key.1
    obtain ⟨b, b1, b2, b3⟩ := repr_negateInPlace hg a2
    refine ⟨z, b, ?_, pair_iff hg hc hct a2 e2 z2 (b2.trans a1) ?_ b3⟩
    · rw [e0]
      unfold RKey.encryptPolynomialBgv
      rw [if_neg (by simp [p2]), hlog, ha, Outcome.bind_ok]
      simp only [he, Outcome.bind_ok, u1, v1, z1, b1]
      rfl
    · convert z3 using 1
      funext i
      simp only [Pi.add_apply]
      ring
  constructor
  · rintro ⟨x, s, hx, c₀, c₁, hx0, hp⟩
    have hx' := hx
    rw [e0] at hx'
    unfold RKey.encryptPolynomialBgv at hx'
    rw [if_neg (by simp [p2]), hlog] at hx'
    obtain ⟨⟨a, t₁⟩, ha, hx'⟩ := Outcome.bind_eq_ok.mp hx'
    obtain ⟨⟨e, s'⟩, he, -⟩ := Outcome.bind_eq_ok.mp hx'
    obtain ⟨d₀, d₁, y1, y2⟩ := key a t₁ e s' ha he
    rw [hx] at y1
    cases y1
    injection hx0 with hx0 hx1
    injection hx1 with hx1 _
    subst hx0
    subst hx1
    exact ⟨a, t₁, e, s, ha, he, y2.mp hp⟩
  · rintro ⟨a, t₁, e, s, ha, he, hAE⟩
    obtain ⟨d₀, d₁, y1, y2⟩ := key a t₁ e s ha he
    exact ⟨_, s, y1, d₀, d₁, rfl, y2.mpr hAE⟩

open Classical in
/-- C87: `EncryptBfv` returns `(m + e + a s, -a)` with the same distributions; `M` is the scaled plaintext. -/
theorem c87_bfv (hk : RoomyKey w l k S) (hE : ∀ m ∈ k.ms.head?, ∀ i, 2 * |E i| < m.N)
    (henc : enc.encodeBfv msgs k.ms = .ok pt) (hpt : Represents l k.ms pt M) (fuel L : ℕ)
    (hL : 16 * fuel * 2 ^ l * k.ms.length + 4 * k.variance.toNat * 2 ^ l ≤ L) :
    bytesProbability L (fun t => ∃ x s, k.encryptBfv1 bytesSource fuel enc msgs t = .ok (x, s) ∧
      ∃ c₀ c₁, x.c = [c₀, c₁] ∧ PairHolds l k.ms c₀ c₁ M 1 E A S) =
      rnsResidueLaw k.ms l fuel * ∏ i, binomialLaw k.variance.toNat (E i) := by
  have hg := hk.good.good
  have hc := hk.good.coprime
  refine draws_law (A := A) hk.words hg hc hk.positive hk.atMost hk.nonempty hk.room hE fuel L hL fun t => ?_
  have hlog : k.key.logN = l := hk.good.key.2.1
  obtain ⟨p, p1, p2, p3⟩ := plainNtt_ok hg hpt
  have key : ∀ a t₁ e s, sampleUniform bytesSource fuel l k.ms t = .ok (a, t₁) →
      sampleErr bytesSource l k.variance k.ms t₁ = .ok (e, s) → ∃ c₀ c₁,
        k.encryptBfv1 bytesSource fuel enc msgs t = .ok (⟨[c₀, c₁], k.ms, 1⟩, s) ∧
        (PairHolds l k.ms c₀ c₁ M 1 E A S ↔ Represents l k.ms a A ∧ Represents l k.ms e E) := by
    intro a t₁ e s ha he
    obtain ⟨a1, A', a2⟩ := sampleUniform_ok bytesSource hg hc ha
    obtain ⟨e1, E', e2, -⟩ := sampleErr_ok bytesSource bytesSource_words hg hk.good.variance he
    obtain ⟨v, v1, v2, v3⟩ := repr_add hg e2 p3 (by rw [e1, p2])
    obtain ⟨z, z1, z2, z3⟩ := repr_fusedMulAdd hg v3 a2 hk.good.key.2 (by rw [v2, e1]) a1 hk.good.key.1
    obtain ⟨b, b1, b2, b3⟩ := repr_negateInPlace hg a2
    refine ⟨z, b, ?_, pair_iff hg hc (Nat.coprime_one_left _) a2 e2 z2 (b2.trans a1) ?_ b3⟩
    · unfold RKey.encryptBfv1
      rw [henc, Outcome.bind_ok, p1, Outcome.bind_ok, hlog, ha, Outcome.bind_ok]
      simp only [he, Outcome.bind_ok, v1, z1, b1]
      rfl
    · convert z3 using 1
      funext i
      simp only [Pi.add_apply]
      push_cast
      ring
  constructor
  · rintro ⟨x, s, hx, c₀, c₁, hx0, hp⟩
    have hx' := hx
    unfold RKey.encryptBfv1 at hx'
    rw [henc, Outcome.bind_ok, p1, Outcome.bind_ok, hlog] at hx'
    obtain ⟨⟨a, t₁⟩, ha, hx'⟩ := Outcome.bind_eq_ok.mp hx'
    obtain ⟨⟨e, s'⟩, he, -⟩ := Outcome.bind_eq_ok.mp hx'
    obtain ⟨d₀, d₁, y1, y2⟩ := key a t₁ e s' ha he
    rw [hx] at y1
    cases y1
    injection hx0 with hx0 hx1
    injection hx1 with hx1 _
    subst hx0
    subst hx1
    exact ⟨a, t₁, e, s, ha, he, y2.mp hp⟩
  · rintro ⟨a, t₁, e, s, ha, he, hAE⟩
    obtain ⟨d₀, d₁, y1, y2⟩ := key a t₁ e s ha he
    exact ⟨_, s, y1, d₀, d₁, rfl, y2.mpr hAE⟩

/-! ## Two generators -/

/-- Events that depend on different tapes. -/
theorem bytesProbability₂_mul {L₁ L₂ : ℕ} {event : List (Fin 256) → List (Fin 256) → Prop}
    {P Q : List (Fin 256) → Prop} (h : ∀ t₁ t₂, event t₁ t₂ ↔ P t₁ ∧ Q t₂) :
    bytesProbability₂ L₁ L₂ event = bytesProbability L₁ P * bytesProbability L₂ Q := by
  classical
  unfold bytesProbability₂ bytesProbability
  have hs : ((Finset.univ : Finset ((Fin L₁ → Fin 256) × (Fin L₂ → Fin 256))).filter fun t =>
      event (List.ofFn t.1) (List.ofFn t.2)) =
      (Finset.univ.filter fun t : Fin L₁ → Fin 256 => P (List.ofFn t)) ×ˢ
        (Finset.univ.filter fun t : Fin L₂ → Fin 256 => Q (List.ofFn t)) := by
    ext t
    simp only [Finset.mem_filter, Finset.mem_univ, true_and, Finset.mem_product]
    exact h _ _
  have hcard : ((Finset.univ : Finset ((Fin L₁ → Fin 256) × (Fin L₂ → Fin 256))).filter fun t =>
      event (List.ofFn t.1) (List.ofFn t.2)).card = (Finset.univ.filter fun t : Fin L₁ → Fin 256 => P (List.ofFn t)).card *
        (Finset.univ.filter fun t : Fin L₂ → Fin 256 => Q (List.ofFn t)).card := by
    rw [← Finset.card_product]
    exact congrArg Finset.card hs
  rw [hcard, Nat.cast_mul, div_mul_div_comm, ← pow_add]

/-- C87: `EncryptBfv` with a separate generator for the mask. -/
theorem c87_bfv_pad (hk : RoomyKey w l k S) (hE : ∀ m ∈ k.ms.head?, ∀ i, 2 * |E i| < m.N)
    (henc : enc.encodeBfv msgs k.ms = .ok pt) (hpt : Represents l k.ms pt M) (fuel L₁ L₂ : ℕ)
    (hL₁ : 16 * fuel * 2 ^ l * k.ms.length ≤ L₁) (hL₂ : 4 * k.variance.toNat * 2 ^ l ≤ L₂) :
    bytesProbability₂ L₁ L₂ (fun tp t => ∃ x s sp,
      k.encryptBfv bytesSource bytesSource fuel enc msgs t tp = .ok (x, s, sp) ∧
      ∃ c₀ c₁, x.c = [c₀, c₁] ∧ PairHolds l k.ms c₀ c₁ M 1 E A S) =
      rnsResidueLaw k.ms l fuel * ∏ i, binomialLaw k.variance.toNat (E i) := by
  have hg := hk.good.good
  have hc := hk.good.coprime
  rw [← c87_uniform hk.words hg hk.nonempty fuel A L₁ hL₁,
    ← c87_rns_error hg hc hk.positive hk.atMost hk.nonempty hk.room hE L₂ hL₂]
  refine bytesProbability₂_mul fun tp t => ?_
  have hlog : k.key.logN = l := hk.good.key.2.1
  obtain ⟨p, p1, p2, p3⟩ := plainNtt_ok hg hpt
  have key : ∀ a sp e s, sampleUniform bytesSource fuel l k.ms tp = .ok (a, sp) →
      sampleErr bytesSource l k.variance k.ms t = .ok (e, s) → ∃ c₀ c₁,
        k.encryptBfv bytesSource bytesSource fuel enc msgs t tp = .ok (⟨[c₀, c₁], k.ms, 1⟩, s, sp) ∧
        (PairHolds l k.ms c₀ c₁ M 1 E A S ↔ Represents l k.ms a A ∧ Represents l k.ms e E) := by
    intro a t₁ e s ha he
    obtain ⟨a1, A', a2⟩ := sampleUniform_ok bytesSource hg hc ha
    obtain ⟨e1, E', e2, -⟩ := sampleErr_ok bytesSource bytesSource_words hg hk.good.variance he
    obtain ⟨v, v1, v2, v3⟩ := repr_add hg e2 p3 (by rw [e1, p2])
    obtain ⟨z, z1, z2, z3⟩ := repr_fusedMulAdd hg v3 a2 hk.good.key.2 (by rw [v2, e1]) a1 hk.good.key.1
    obtain ⟨b, b1, b2, b3⟩ := repr_negateInPlace hg a2
    refine ⟨z, b, ?_, pair_iff hg hc (Nat.coprime_one_left _) a2 e2 z2 (b2.trans a1) ?_ b3⟩
    · unfold RKey.encryptBfv
      rw [henc, Outcome.bind_ok, p1, Outcome.bind_ok, hlog, ha, Outcome.bind_ok]
      simp only [he, Outcome.bind_ok, v1, z1, b1]
      rfl
    · convert z3 using 1
      funext i
      simp only [Pi.add_apply]
      push_cast
      ring
  constructor
  · rintro ⟨x, s, sp, hx, c₀, c₁, hx0, hp⟩
    have hx' := hx
    unfold RKey.encryptBfv at hx'
    rw [henc, Outcome.bind_ok, p1, Outcome.bind_ok, hlog] at hx'
    obtain ⟨⟨a, t₁⟩, ha, hx'⟩ := Outcome.bind_eq_ok.mp hx'
    obtain ⟨⟨e, s'⟩, he, -⟩ := Outcome.bind_eq_ok.mp hx'
    obtain ⟨d₀, d₁, y1, y2⟩ := key a t₁ e s' ha he
    rw [hx] at y1
    cases y1
    injection hx0 with hx0 hx1
    injection hx1 with hx1 _
    subst hx0
    subst hx1
    obtain ⟨r1, r2⟩ := y2.mp hp
    exact ⟨⟨a, _, ha, r1⟩, e, s, he, r2⟩
  · rintro ⟨⟨a, t₁, ha, hA⟩, e, s, he, hE'⟩
    obtain ⟨d₀, d₁, y1, y2⟩ := key a t₁ e s ha he
    exact ⟨_, s, t₁, y1, d₀, d₁, rfl, y2.mpr ⟨hA, hE'⟩⟩

/-- C87: `RnsRlwePublicKey::Create` returns `(t e + a s, -a)` with the same distributions; `t` is 1 for BFV. -/
theorem c87_public_key (hk : RoomyKey w l k S) {v : ℤ} (hv0 : 0 < v) (hv : v ≤ 256) (hN : ∀ m ∈ k.ms.head?, 4 * v < m.N)
    (hE : ∀ m ∈ k.ms.head?, ∀ i, 2 * |E i| < m.N) {t : ℕ} (ht : t < 2 ^ w) (hct : Nat.Coprime t (modulusProd k.ms))
    (fuel L₁ L₂ : ℕ) (hL₁ : 16 * fuel * 2 ^ l * k.ms.length ≤ L₁) (hL₂ : 4 * v.toNat * 2 ^ l ≤ L₂) :
    bytesProbability₂ L₁ L₂ (fun tp te => ∃ pk, RPub.create bytesSource bytesSource fuel k v t tp te = .ok pk ∧
      PairHolds l k.ms pk.b pk.a 0 t E A S) = rnsResidueLaw k.ms l fuel * ∏ i, binomialLaw v.toNat (E i) := by
  have hg := hk.good.good
  have hc := hk.good.coprime
  rw [← c87_uniform hk.words hg hk.nonempty fuel A L₁ hL₁, ← c87_rns_error hg hc hv0 hv hk.nonempty hN hE L₂ hL₂]
  refine bytesProbability₂_mul fun tp te => ?_
  have hlog : k.key.logN = l := hk.good.key.2.1
  have key : ∀ a sp e s, sampleUniform bytesSource fuel l k.ms tp = .ok (a, sp) →
      sampleErr bytesSource l v k.ms te = .ok (e, s) → ∃ c₀ c₁,
        RPub.create bytesSource bytesSource fuel k v t tp te = .ok ⟨c₁, c₀, k.ms, v⟩ ∧
        (PairHolds l k.ms c₀ c₁ 0 t E A S ↔ Represents l k.ms a A ∧ Represents l k.ms e E) := by
    intro a t₁ e s ha he
    obtain ⟨a1, A', a2⟩ := sampleUniform_ok bytesSource hg hc ha
    obtain ⟨e1, E', e2, -⟩ := sampleErr_ok bytesSource bytesSource_words hg (fun m hm => by have := hN m hm; omega) he
    obtain ⟨u, u1, u2, u3⟩ := repr_mulInt hg e2 ht
    obtain ⟨z, z1, z2, z3⟩ := repr_fusedMulAdd hg u3 a2 hk.good.key.2 (u2.trans e1) a1 hk.good.key.1
    obtain ⟨b, b1, b2, b3⟩ := repr_negateInPlace hg a2
    refine ⟨z, b, ?_, pair_iff hg hc hct a2 e2 z2 (b2.trans a1) ?_ b3⟩
    · unfold RPub.create
      rw [if_neg (by omega), hlog, ha, Outcome.bind_ok]
      simp only [he, Outcome.bind_ok, u1, z1, b1]
      rfl
    · convert z3 using 1
      funext i
      simp only [Pi.add_apply, Pi.zero_apply]
      ring
  constructor
  · rintro ⟨pk, hx, hp⟩
    have hx' := hx
    unfold RPub.create at hx'
    rw [if_neg (by omega), hlog] at hx'
    obtain ⟨⟨a, t₁⟩, ha, hx'⟩ := Outcome.bind_eq_ok.mp hx'
    obtain ⟨⟨e, s'⟩, he, -⟩ := Outcome.bind_eq_ok.mp hx'
    obtain ⟨d₀, d₁, y1, y2⟩ := key a t₁ e s' ha he
    rw [hx] at y1
    cases y1
    obtain ⟨r1, r2⟩ := y2.mp hp
    exact ⟨⟨a, _, ha, r1⟩, e, _, he, r2⟩
  · rintro ⟨⟨a, t₁, ha, hA⟩, e, s, he, hE'⟩
    obtain ⟨d₀, d₁, y1, y2⟩ := key a t₁ e s ha he
    exact ⟨_, y1, y2.mpr ⟨hA, hE'⟩⟩

end

/-! ## A concrete case -/

/-- The key of `RnsSchemeExample` meets the conditions. -/
theorem exKey_roomy : ∃ k S, RoomyKey 16 2 k S ∧ k.ms = exMs ∧ k.variance = 1 := by
  obtain ⟨k, S, -, hk, km, kv, -⟩ := exKey
  refine ⟨k, S, ⟨hk, by norm_num, by rw [km]; simp [exMs], by rw [kv]; norm_num, by rw [kv]; norm_num, ?_⟩, km, kv⟩
  rw [km, kv]
  decide +kernel

/-- The probability of every encryption of every message. -/
example (est : Estimate) : ∃ e k S, k.ms = exMs ∧ RoomyKey 16 2 k S ∧ ∀ a < 2 ^ 16, ∃ M, ∀ A E : Fin (2 ^ 2) → ℤ,
    (∀ i, |E i| ≤ 2) →
    bytesProbability 12816 (fun t => ∃ x s, k.encryptBgv bytesSource 100 (finiteFieldEncoder est e) [a] t = .ok (x, s) ∧
      ∃ c₀ c₁, x.c = [c₀, c₁] ∧ PairHolds 2 k.ms c₀ c₁ M 17 E A S) =
      rnsResidueLaw exMs 2 100 * ∏ i, binomialLaw 1 (E i) := by
  obtain ⟨e, he, hq, ht⟩ := exampleEncoder
  obtain ⟨k, S, hk, km, kv⟩ := exKey_roomy
  have hqs := exMs_of he.ctx.qs hq
  refine ⟨e, k, S, km, hk, fun a ha => ?_⟩
  obtain ⟨p, F, p1, p2, p3, p4, p5⟩ := c50_encode_bgv he hk.nonempty (fun m hm => by rw [hqs, ← km]; exact hm)
    (msgs := [a]) (by simpa using ha) (by simp)
  refine ⟨F, fun A E hE => ?_⟩
  have h97 : (exampleModulus 16 2 97).N = 97 := by decide +kernel
  have hc : Nat.Coprime 17 (modulusProd exMs) := by decide +kernel
  have h := c87_bgv (A := A) (E := E) hk (fun m hm i => by
    rw [km] at hm
    have : m = exampleModulus 16 2 97 := by simpa [exMs] using hm.symm
    have := hE i
    subst m
    rw [h97]
    omega) (enc := finiteFieldEncoder est e) p1 p3 he.ctx.word (by
      show Nat.Coprime e.ctx.t _
      rw [ht, km]
      exact hc) 100 12816 (by rw [km, kv]; decide +kernel)
  rw [km, kv] at h
  rw [km]
  have ht' : (finiteFieldEncoder est e).t = 17 := ht
  rw [ht'] at h
  exact h

end Shell
