import Verif.Lemmas.RnsCipher
import Verif.Props.ErrorSample
import Verif.Props.Ternary
import Verif.Props.Random
/-! Lemmas about the samplers of RNS polynomials. -/

namespace Shell.Rns
open Finset Spec NttRing Poly
variable {σ : Type} {w l : ℕ} {ms : List Modulus}

/-! ### Every list of words represents a polynomial -/

theorem holds_exists {m : Modulus} (hm : GoodModulus w l m) (b : Bool) {v : List ℕ} (hl : v.length = 2 ^ l)
    (hv : ∀ a ∈ v, a ≤ m.N) : ∃ F, Holds l m b v F := by
  obtain ⟨psi, t⟩ := hm.tables
  have hl15 := t.l15
  have h32 : l ≤ 32 := by omega
  have hle : ∀ i < 2 ^ l, v.getD i 0 ≤ m.N := fun i hi => by
    rw [List.getD_eq_getElem _ _ (by omega)]; exact hv _ (List.getElem_mem _)
  cases b with
  | true =>
    obtain ⟨F, hF⟩ := exists_modq (intt psi l fun i => res m.p m.N (v.getD i 0))
    refine ⟨F, (holds_iff hm t _ _ _).mpr ⟨hl, hle, fun i => ?_⟩⟩
    unfold enc
    rw [if_pos rfl, hF, ntt_intt hm.prime hm.good.odd t.root h32]
  | false =>
    obtain ⟨F, hF⟩ := exists_modq (fun i : Fin (2 ^ l) => res m.p m.N (v.getD i 0))
    refine ⟨F, (holds_iff hm t _ _ _).mpr ⟨hl, hle, fun i => ?_⟩⟩
    unfold enc
    rw [if_neg (by simp), hF]

theorem crt_pair {n a b : ℕ} (h : Nat.Coprime a b) (F G : Fin n → ℤ) :
    ∃ H, CongMod a H F ∧ CongMod b H G := by
  obtain ⟨u, v, huv⟩ := Nat.isCoprime_iff_coprime.mpr h
  refine ⟨fun i => F i * (v * b) + G i * (u * a), fun i => ⟨u * (G i - F i), ?_⟩, fun i => ⟨v * (F i - G i), ?_⟩⟩
  · have : (v : ℤ) * b = 1 - u * a := by linarith
    simp only [this]; ring
  · have : (u : ℤ) * a = 1 - v * b := by linarith
    simp only [this]; ring

theorem holds_all (b : Bool) : ∀ {ms : List Modulus} {vs : List (List ℕ)}, (∀ m ∈ ms, GoodModulus w l m) →
    (ms.map (·.N)).Pairwise Nat.Coprime →
    List.Forall₂ (fun m v => v.length = 2 ^ l ∧ ∀ a ∈ v, a ≤ m.N) ms vs →
    ∃ F : Fin (2 ^ l) → ℤ, List.Forall₂ (fun m v => Holds l m b v F) ms vs := by
  intro ms vs hg hc hv
  induction hv with
  | nil => exact ⟨0, .nil⟩
  | @cons m v ms vs h1 h2 ih =>
    rw [List.map_cons, List.pairwise_cons] at hc
    obtain ⟨F, hF⟩ := ih (fun m hm => hg m (by simp [hm])) hc.2
    obtain ⟨G, hG⟩ := holds_exists (hg m (by simp)) b h1.1 h1.2
    have hcop : Nat.Coprime m.N (modulusProd ms) := by
      unfold modulusProd
      exact Nat.coprime_list_prod_right_iff.mpr hc.1
    obtain ⟨H, H1, H2⟩ := crt_pair hcop G F
    refine ⟨H, .cons (holds_congr hG H1.symm) ?_⟩
    have hr : Represents l ms ⟨l, vs, b⟩ F := ⟨rfl, hF⟩
    exact (repr_congr hr H2.symm).2

theorem repr_exists {x : RPoly} (hg : ∀ m ∈ ms, GoodModulus w l m)
    (hc : (ms.map (·.N)).Pairwise Nat.Coprime) (hl : x.logN = l)
    (hx : List.Forall₂ (fun m v => v.length = 2 ^ l ∧ ∀ a ∈ v, a ≤ m.N) ms x.coeffs) :
    ∃ F, Represents l ms x F := by
  obtain ⟨F, hF⟩ := holds_all x.ntt hg hc hx
  exact ⟨F, hl, hF⟩

/-! ### Samplers -/

theorem uniformVectors_ok (G : Gen σ) (fuel : ℕ) {n : ℕ} (hn : 0 < n) : ∀ {ms : List Modulus} {s s' : σ}
    {vs : List (List ℕ)}, uniformVectors G fuel n ms s = .ok (vs, s') →
    List.Forall₂ (fun m v => v.length = n ∧ ∀ a ∈ v, a ≤ m.p.modulus) ms vs := by
  intro ms
  induction ms with
  | nil => intro s s' vs h; cases h; exact .nil
  | cons m ms ih =>
    intro s s' vs h
    rw [uniformVectors] at h
    obtain ⟨⟨v, s1⟩, h1, h⟩ := Outcome.bind_eq_ok.mp h
    obtain ⟨⟨vs', s2⟩, h2, h⟩ := Outcome.bind_eq_ok.mp h
    cases h
    refine .cons ?_ (ih h2)
    have h3 : Sampler.samplePolynomial G m.p fuel (n : ℤ) s = .ok (v, s1) := by
      unfold Sampler.samplePolynomial
      rw [if_neg (by omega), Int.toNat_natCast]
      exact h1
    obtain ⟨e1, e2⟩ := (c40_polynomial G m.p fuel n s).2.2 _ _ h3
    exact ⟨by exact_mod_cast e1, fun a ha => (e2 a ha).le⟩

theorem sampleUniform_ok (G : Gen σ) {fuel : ℕ} (hg : ∀ m ∈ ms, GoodModulus w l m)
    (hc : (ms.map (·.N)).Pairwise Nat.Coprime) {s s' : σ} {a : RPoly}
    (h : sampleUniform G fuel l ms s = .ok (a, s')) : a.ntt = true ∧ ∃ A, Represents l ms a A := by
  unfold sampleUniform at h
  obtain ⟨_, h⟩ | ⟨_, h⟩ := ite_eq_iff.mp h
  · cases h
  obtain ⟨_, h⟩ | ⟨h2, h⟩ := ite_eq_iff.mp h
  · cases h
  obtain ⟨n, hn, h⟩ := Outcome.bind_eq_ok.mp h
  obtain ⟨⟨vs, s1⟩, h3, h⟩ := Outcome.bind_eq_ok.mp h
  cases h
  refine ⟨rfl, repr_exists hg hc (by simp) ?_⟩
  unfold shl1 at hn
  split_ifs at hn
  cases hn
  have := uniformVectors_ok G fuel (by positivity) h3
  simpa using this

theorem centered_abs_le {N : ℕ} [NeZero N] (e B : ℤ) (h : |e| ≤ B) : |centered N (e : ZMod N)| ≤ B := by
  obtain ⟨b1, b2⟩ := centered_bound N (e : ZMod N)
  have hd : (N : ℤ) ∣ e - centered N (e : ZMod N) := by
    rw [← ZMod.intCast_eq_intCast_iff_dvd_sub, centered_cast]
  obtain ⟨k, hk⟩ := hd
  refine le_trans ?_ h
  generalize centered N (e : ZMod N) = c at *
  have hN : (0 : ℤ) ≤ N := by positivity
  rcases lt_trichotomy k 0 with h0 | h0 | h0
  · have : (N : ℤ) * k ≤ -N := by nlinarith
    rcases abs_cases c with ⟨e1, _⟩ | ⟨e1, _⟩ <;> rcases abs_cases e with ⟨e2, _⟩ | ⟨e2, _⟩ <;> omega
  · subst h0
    have : e = c := by omega
    rw [this]
  · have : (N : ℤ) ≤ N * k := by nlinarith
    rcases abs_cases c with ⟨e1, _⟩ | ⟨e1, _⟩ <;> rcases abs_cases e with ⟨e2, _⟩ | ⟨e2, _⟩ <;> omega

theorem rep_of_small {m : Modulus} (hm : GoodModulus w l m) {v : List ℕ} {B : ℤ} {n : ℕ} (hl : v.length = n)
    (hv : ∀ c ∈ v, c < m.N ∧ ∃ e : ℤ, |e| ≤ B ∧ (Mont.exportInt m.p c : ℤ) = e % m.N) :
    ∃ e : Fin n → ℤ, (∀ i, |e i| ≤ B) ∧ Rep m.p m.N n v (modq m.N e) := by
  have hi : ∀ i : Fin n, v.getD i 0 ∈ v := fun i => by
    rw [List.getD_eq_getElem _ _ (by omega)]; exact List.getElem_mem _
  choose e he1 he2 using fun i : Fin n => (hv _ (hi i)).2
  refine ⟨e, he1, hl, fun i h => (hv _ (hi ⟨i, h⟩)).1.le, fun i => ?_⟩
  exact res_of_export hm (hv _ (hi i)).1.le (he2 i)

theorem sampleErr_ok (G : Gen σ) (hG : Words G) (hg : ∀ m ∈ ms, GoodModulus w l m) {v : ℤ}
    (hv : ∀ m ∈ ms.head?, 2 * v ≤ m.N) {s s' : σ} {x : RPoly}
    (h : sampleErr G l v ms s = .ok (x, s')) :
    x.ntt = true ∧ ∃ E, Represents l ms x E ∧ ∀ i, |E i| ≤ 2 * v := by
  unfold sampleErr at h
  obtain ⟨_, h⟩ | ⟨_, h⟩ := ite_eq_iff.mp h
  · cases h
  obtain ⟨_, h⟩ | ⟨hv0, h⟩ := ite_eq_iff.mp h
  · cases h
  cases ms with
  | nil => cases h
  | cons m ms =>
    simp only at h
    obtain ⟨n, hn, h⟩ := Outcome.bind_eq_ok.mp h
    obtain ⟨⟨c, s1⟩, h1, h⟩ := Outcome.bind_eq_ok.mp h
    obtain ⟨y, h2, h⟩ := Outcome.bind_eq_ok.mp h
    cases h
    unfold shl1 at hn
    split_ifs at hn
    cases hn
    have hm := hg m (by simp)
    haveI : NeZero m.N := ⟨hm.prime.ne_zero⟩
    have hvm := hv m (by simp)
    obtain ⟨c1, c2⟩ := c38_range_partial G hG hm.create _ _ (by omega) _ _ _ h1
    obtain ⟨e, e1, e2⟩ := rep_of_small (B := 2 * v) (n := 2 ^ l) hm (by simpa using c1) (fun a ha => by
      obtain ⟨h1, e, h3, h4, h5⟩ := c2 a ha
      exact ⟨h1, e, abs_le.mpr ⟨by omega, by omega⟩, h5⟩)
    obtain ⟨r, r1, r2, r3⟩ := repr_convertBalancedFrom hm.create hg (by simp) e2
    rw [h2] at r1
    cases r1
    exact ⟨r2, _, r3, fun i => centered_abs_le _ _ (e1 i)⟩

theorem sampleTernary_ok (G : Gen σ) (hg : ∀ m ∈ ms, GoodModulus w l m) {fuel : ℕ} {s s' : σ} {x : RPoly}
    (h : sampleTernary G fuel l ms s = .ok (x, s')) :
    x.ntt = true ∧ ∃ E, Represents l ms x E ∧ ∀ i, |E i| ≤ 1 := by
  unfold sampleTernary at h
  obtain ⟨_, h⟩ | ⟨_, h⟩ := ite_eq_iff.mp h
  · cases h
  cases ms with
  | nil => cases h
  | cons m ms =>
    simp only at h
    obtain ⟨n, hn, h⟩ := Outcome.bind_eq_ok.mp h
    obtain ⟨⟨c, s1⟩, h1, h⟩ := Outcome.bind_eq_ok.mp h
    obtain ⟨y, h2, h⟩ := Outcome.bind_eq_ok.mp h
    cases h
    unfold shl1 at hn
    split_ifs at hn
    cases hn
    have hm := hg m (by simp)
    haveI : NeZero m.N := ⟨hm.prime.ne_zero⟩
    obtain ⟨c1, c2⟩ := c39_values G hm.create _ _ _ _ _ h1
    obtain ⟨e, e1, e2⟩ := rep_of_small (B := 1) (n := 2 ^ l) hm (by exact_mod_cast c1) (fun a ha => by
      obtain ⟨h1, e, h3, h5⟩ := c2 a ha
      exact ⟨h1, e, by rcases h3 with rfl | rfl | rfl <;> simp, h5⟩)
    obtain ⟨r, r1, r2, r3⟩ := repr_convertBalancedFrom hm.create hg (by simp) e2
    rw [h2] at r1
    cases r1
    exact ⟨r2, _, r3, fun i => centered_abs_le _ _ (e1 i)⟩

end Shell.Rns
