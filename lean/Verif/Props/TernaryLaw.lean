import Verif.Lemmas.TernaryLaw
import Verif.Props.RnsLaw
import Verif.Props.Ternary
/-!
# Property C87: uniform ternary polynomials

For uniformly distributed bytes, every vector of coefficients -1, 0 and 1 has the same probability. `fuel` bounds the
number of pairs of bytes that are drawn for a batch of eight coefficients; the code has no such bound, and the
probability of a vector of `n` coefficients converges to `3^-n` (`c87_ternary_limit`).
-/

namespace Shell
open Spec MParams Sampler
variable {p : MParams}

/-- The stored words of a vector of ternary values. -/
theorem trits_rep {w N n : ℕ} (h : create w N = .ok p) {ts : List Trit} (hl : ts.length = n) :
    Poly.Rep p N n (ts.map fun t : Trit => Mont.importInt p (t.toInt % (N : ℤ)).toNat)
      (modq N fun i : Fin n => (ts.getD i .zero).toInt) := by
  have g := good_of_create h
  have hpos := g.pos
  have hlt := g.lt
  have key : ∀ t : Trit, Mont.importInt p (t.toInt % (N : ℤ)).toNat < N ∧
      (Mont.exportInt p (Mont.importInt p (t.toInt % (N : ℤ)).toNat) : ℤ) = t.toInt % N := by
    intro t
    have h1 : 0 ≤ t.toInt % (N : ℤ) := Int.emod_nonneg _ (by omega)
    have h2 : t.toInt % (N : ℤ) < N := Int.emod_lt_of_pos _ (by omega)
    refine ⟨importInt_lt g _ (by omega), ?_⟩
    rw [(c01_import_export h).1 _ (by omega) |>.1]
    push_cast
    rw [Int.toNat_of_nonneg h1, Int.emod_emod]
  have hget : ∀ i, i < n → (ts.map fun t : Trit => Mont.importInt p (t.toInt % (N : ℤ)).toNat).getD i 0 =
      Mont.importInt p ((ts.getD i .zero).toInt % (N : ℤ)).toNat := by
    intro i hi
    rw [List.getD_eq_getElem _ _ (by simpa [hl] using hi), List.getElem_map, List.getD_eq_getElem _ _ (by omega)]
  refine ⟨by simpa using hl, fun i hi => by rw [hget i hi]; exact (key _).1.le, fun i => ?_⟩
  rw [hget i i.2, ← res_export g (key _).1.le]
  show ((Mont.exportInt p _ : ℕ) : ZMod N) = (((ts.getD i .zero).toInt : ℤ) : ZMod N)
  have h5 := congrArg (fun z : ℤ => (z : ZMod N)) (key (ts.getD i .zero)).2
  simp only [Int.cast_natCast, ZMod.intCast_mod] at h5
  exact h5

theorem trit_abs (t : Trit) : |t.toInt| ≤ 1 := by cases t <;> simp [Trit.toInt]

theorem exists_trits {n : ℕ} {E : Fin n → ℤ} (hE : ∀ i, |E i| ≤ 1) :
    ∃ ts : List Trit, ts.length = n ∧ ∀ i : Fin n, (ts.getD i .zero).toInt = E i := by
  have h : ∀ i, ∃ t : Trit, t.toInt = E i := fun i => by
    have h1 := abs_le.mp (hE i)
    obtain h2 | h2 | h2 : E i = -1 ∨ E i = 0 ∨ E i = 1 := by omega
    · exact ⟨.minus, by rw [h2]; rfl⟩
    · exact ⟨.zero, by rw [h2]; rfl⟩
    · exact ⟨.plus, by rw [h2]; rfl⟩
  choose u hu using h
  refine ⟨List.ofFn u, by simp, fun i => ?_⟩
  rw [List.getD_eq_getElem _ _ (by simp)]
  simp [hu]

theorem toInt_injective : Function.Injective Trit.toInt := by
  intro a b h
  cases a <;> cases b <;> simp [Trit.toInt] at h ⊢

theorem trits_ext {n : ℕ} {ts us : List Trit} (h1 : ts.length = n) (h2 : us.length = n)
    (h : ∀ i : Fin n, (us.getD i .zero).toInt = (ts.getD i .zero).toInt) : us = ts :=
  ext_getD .zero (by omega) fun i hi => toInt_injective (h ⟨i, by omega⟩)

open Classical in
theorem trits_probability (fuel : ℕ) {n : ℕ} {E : Fin n → ℤ} (hE : ∀ i, |E i| ≤ 1) (L : ℕ)
    (hL : 2 * fuel * ((n + 7) / 8) ≤ L) {good : List (Fin 256) → Prop}
    (hgood : ∀ t, good t ↔ ∃ ts s, drawTrits bytesSource fuel (batches n) t = .ok (ts, s) ∧
      ∀ i : Fin n, (ts.getD i .zero).toInt = E i) :
    bytesProbability L good = ((1 - (1 / 4) ^ fuel) / 3) ^ n := by
  obtain ⟨ts, hl, hts⟩ := exists_trits hE
  have hb : (batches n).length = (n + 7) / 8 := by
    unfold batches
    split_ifs <;> simp <;> omega
  have hm : ∀ m ∈ batches n, m ≤ 8 := by
    intro m hm
    unfold batches at hm
    split_ifs at hm <;> simp at hm <;> omega
  have key := trits_law fuel hm (ts := ts) (by rw [batches_sum, hl])
  rw [hl] at key
  rw [← key, Tree.probability_eq (tritsTree fuel (batches n)) (good := fun us => us = ts) (trits_within _ _)
    (by rw [hb]; exact hL)]
  · intro t
    rw [hgood]
    constructor
    · rintro ⟨us, s, h1, h2⟩
      have hus := drawTrits_length _ fuel _ _ _ _ h1
      rw [batches_sum] at hus
      rw [tritsTree_is fuel _ t] at h1
      exact ⟨us, s, h1, trits_ext hl hus fun i => (h2 i).trans (hts i).symm⟩
    · rintro ⟨us, s, h1, rfl⟩
      exact ⟨us, s, by rw [tritsTree_is fuel _ t]; exact h1, hts⟩

open Classical in
/-- C87: the coefficients that `SampleFromUniformTernary` returns are independent and uniform on -1, 0 and 1. -/
theorem c87_ternary {w N : ℕ} (h : create w N = .ok p) (hN : 2 < N) (fuel : ℕ) {n : ℕ} (hn : 0 < n) {E : Fin n → ℤ}
    (hE : ∀ i, |E i| ≤ 1) (L : ℕ) (hL : 2 * fuel * ((n + 7) / 8) ≤ L) :
    bytesProbability L (fun t => ∃ cs s, Sampler.sampleTernary bytesSource p fuel n t = .ok (cs, s) ∧
      signedCoeffs p N n cs = E) = ((1 - (1 / 4) ^ fuel) / 3) ^ n := by
  have g := good_of_create h
  refine trits_probability fuel hE L hL fun t => ?_
  rw [c39_sample bytesSource h fuel n (by omega), Int.toNat_natCast]
  have small : ∀ (ts : List Trit) (i : Fin n), 2 * |(ts.getD i .zero).toInt| < N := fun ts i => by
    have := trit_abs (ts.getD i .zero)
    omega
  constructor
  · rintro ⟨cs, s, h1, h2⟩
    obtain ⟨⟨ts, s'⟩, h3, h1⟩ := Outcome.bind_eq_ok.mp h1
    cases h1
    have hl := drawTrits_length _ fuel _ _ _ _ h3
    rw [batches_sum] at hl
    rw [signed_rep g (trits_rep h hl) (small ts)] at h2
    exact ⟨ts, _, h3, fun i => congrFun h2 i⟩
  · rintro ⟨ts, s, h3, h2⟩
    have hl := drawTrits_length _ fuel _ _ _ _ h3
    rw [batches_sum] at hl
    refine ⟨_, s, by rw [h3, Outcome.bind_ok], ?_⟩
    rw [signed_rep g (trits_rep h hl) (small ts)]
    exact funext h2

/-- C87: the probability tends to that of the uniform distribution. -/
theorem c87_ternary_limit (n : ℕ) :
    Filter.Tendsto (fun fuel : ℕ => ((1 - (1 / 4 : ℝ) ^ fuel) / 3) ^ n) Filter.atTop (nhds ((1 / 3) ^ n)) := by
  have h := tendsto_pow_atTop_nhds_zero_of_lt_one (r := (1 / 4 : ℝ)) (by norm_num) (by norm_num)
  have h2 := ((h.const_sub 1).div_const 3).pow n
  simpa using h2

section
open Rns NttRing
variable {w l : ℕ} {ms : List Modulus}

open Classical in
/-- C87: the coefficients of the polynomial that `SampleUniformTernary` of the RNS layer returns are independent and
uniform on -1, 0 and 1. -/
theorem c87_rns_ternary (hg : ∀ m ∈ ms, GoodModulus w l m) (hc : (ms.map (·.N)).Pairwise Nat.Coprime)
    (hne : ms ≠ []) (fuel : ℕ) {E : Fin (2 ^ l) → ℤ} (hE : ∀ i, |E i| ≤ 1) (L : ℕ)
    (hL : 2 * fuel * ((2 ^ l + 7) / 8) ≤ L) :
    bytesProbability L (fun t => ∃ x s, Rns.sampleTernary bytesSource fuel l ms t = .ok (x, s) ∧ Represents l ms x E) =
      ((1 - (1 / 4) ^ fuel) / 3) ^ 2 ^ l := by
  obtain ⟨m, ms', rfl⟩ := List.exists_cons_of_ne_nil hne
  have hm := hg m (by simp)
  obtain ⟨psi, tb⟩ := hm.tables
  have h1 := tb.l1
  have h15 := tb.l15
  have g := good_of_create hm.create
  haveI : NeZero m.N := ⟨hm.prime.ne_zero⟩
  have hN : 2 < m.N := by
    have h2 := hm.prime.two_le
    have := g.odd
    rcases h2.lt_or_eq with h | h
    · exact h
    · rw [← h] at this; omega
  refine trits_probability fuel hE L hL fun t => ?_
  have hpos : 0 < 2 ^ l := by positivity
  have e0 : Rns.sampleTernary bytesSource fuel l (m :: ms') t =
      Sampler.sampleTernary bytesSource m.p fuel ((2 ^ l : ℕ) : ℤ) t >>= fun r =>
      convertBalancedFrom r.1 m.p (m :: ms') >>= fun x => .ok (x, r.2) := by
    unfold Rns.sampleTernary
    rw [if_neg (by omega), Int.toNat_natCast, shl1_ok h15]
    rfl
  rw [e0, c39_sample bytesSource hm.create fuel _ (by exact_mod_cast hpos), Int.toNat_natCast]
  have small : ∀ (ts : List Trit) (i : Fin (2 ^ l)), 2 * |(ts.getD i .zero).toInt| < m.N := fun ts i => by
    have := trit_abs (ts.getD i .zero)
    omega
  have conv : ∀ ts s, drawTrits bytesSource fuel (batches (2 ^ l)) t = .ok (ts, s) → ∃ x,
      convertBalancedFrom (ts.map fun u : Trit => Mont.importInt m.p (u.toInt % (m.N : ℤ)).toNat) m.p (m :: ms') = .ok x ∧
      (Represents l (m :: ms') x E ↔ ∀ i : Fin (2 ^ l), (ts.getD i .zero).toInt = E i) := by
    intro ts s hts
    have hl := drawTrits_length _ fuel _ _ _ _ hts
    rw [batches_sum] at hl
    obtain ⟨x, x1, x2, x3⟩ := repr_convertBalancedFrom hm.create hg (by simp) (trits_rep hm.create hl)
    have x4 : Represents l (m :: ms') x fun i => (ts.getD i .zero).toInt := by
      convert x3 using 1
      funext i
      have h3 := small ts i
      have h4 := le_abs_self (ts.getD i .zero).toInt
      have h5 := neg_abs_le (ts.getD i .zero).toInt
      exact (centered_eq m.N _ (by omega) (by omega)).symm
    refine ⟨x, x1, repr_small hg hc x4 (by simp) (small ts) fun i => ?_⟩
    have := hE i
    omega
  constructor
  · rintro ⟨x, s, h1, h2⟩
    obtain ⟨⟨cs, s'⟩, h3, h1⟩ := Outcome.bind_eq_ok.mp h1
    obtain ⟨⟨ts, s''⟩, h4, h3⟩ := Outcome.bind_eq_ok.mp h3
    cases h3
    obtain ⟨y, h5, h1⟩ := Outcome.bind_eq_ok.mp h1
    cases h1
    obtain ⟨x', x1, x2⟩ := conv ts _ h4
    rw [h5] at x1
    cases x1
    exact ⟨ts, _, h4, x2.mp h2⟩
  · rintro ⟨ts, s, h3, h2⟩
    obtain ⟨x, x1, x2⟩ := conv ts s h3
    refine ⟨x, s, ?_, x2.mpr h2⟩
    rw [h3, Outcome.bind_ok, Outcome.bind_ok]
    show convertBalancedFrom _ m.p (m :: ms') >>= _ = _
    rw [x1, Outcome.bind_ok]

end

/-! ## A concrete case -/

/-- Ten coefficients modulo 12289 with at most five rounds per batch. -/
example : MParams.create 16 12289 = .ok exParams ∧
    bytesProbability 20 (fun t => ∃ cs s, Sampler.sampleTernary bytesSource exParams 5 (10 : ℕ) t = .ok (cs, s) ∧
      signedCoeffs exParams 12289 10 cs = fun i : Fin 10 => if i.1 = 3 then -1 else if i.1 = 4 then 1 else 0) =
      ((1 - (1 / 4) ^ 5) / 3) ^ 10 := by
  refine ⟨exParams_ok, c87_ternary exParams_ok (by norm_num) 5 (by norm_num) (fun i => ?_) 20 (by norm_num)⟩
  split_ifs <;> norm_num

/-- Every ternary polynomial modulo the moduli of the running example. -/
example (E : Fin (2 ^ 2) → ℤ) (hE : ∀ i, |E i| ≤ 1) :
    bytesProbability 10 (fun t => ∃ x s, Rns.sampleTernary bytesSource 5 2 exMs t = .ok (x, s) ∧
      Represents 2 exMs x E) = ((1 - (1 / 4) ^ 5) / 3) ^ 4 := by
  obtain ⟨k, S, hk, km, -⟩ := exKey_roomy
  exact c87_rns_ternary (km ▸ hk.good.good) (km ▸ hk.good.coprime) (by simp [exMs]) 5 hE 10 (by norm_num)

end Shell
