import Verif.Lemmas.Law
import Verif.Props.ErrorTail
import Verif.Lemmas.LazyPolynomial
/-!
# Property C87: samples, keys and fresh ciphertexts have exactly the distributions of the scheme

For uniformly distributed bytes, on tapes long enough that the generator is never exhausted. `fuel` bounds the number
of candidates that are drawn for one residue; the code has no such bound, and `c87_residue` shows that the probability
of each residue converges to `1 / N`.
-/

namespace Shell
open Spec WordCt MParams Ntt NttRing Sym
variable {σ : Type} {p : MParams} {q : NttParams}

/-! ## Uniform residues -/

theorem logModulus_bounds {w N : ℕ} (h : create w N = .ok p) (hw : w ≤ 128) :
    2 ^ (p.logModulus - 1) ≤ N ∧ N < 2 ^ p.logModulus ∧ 0 < p.logModulus ∧ p.logModulus < w := by
  have lg := Lazy.logGood_of_create h hw
  obtain ⟨h1, h2, h3⟩ := (create_ok_iff w N p).mp h
  have h128 : N < 2 ^ 128 := lt_of_lt_of_le h1 (Nat.pow_le_pow_right (by norm_num) (by omega))
  obtain ⟨L, e1, e2, e3⟩ := Bits.exists_len N
  have hb : p.logModulus = L := by rw [h3]; exact Bits.bitLength_eq N L h128 e1 e2 e3
  have hN : N ≠ 0 := by have := (good_of_create h).pos; omega
  refine ⟨by rw [hb]; exact e2 hN, lg.lt, ?_, by have := lg.le; have := lg.w2; omega⟩
  by_contra hc
  have h0 : p.logModulus = 0 := by omega
  have := lg.lt
  rw [h0] at this
  omega

/-- C87: with at most `fuel` candidates per residue, every residue has the same probability, `1 / N` up to a factor that
differs from one by at most `2^-fuel`. -/
theorem c87_residue {w N : ℕ} (h : create w N = .ok p) (hw : w ≤ 128) (fuel : ℕ) :
    (1 - (1 / 2) ^ fuel) / N ≤ residueLaw N p.logModulus fuel ∧ residueLaw N p.logModulus fuel ≤ 1 / N := by
  obtain ⟨h1, h2, h3, -⟩ := logModulus_bounds h hw
  have hN : (0 : ℝ) < N := by have := (good_of_create h).pos; exact_mod_cast (by omega : 0 < N)
  have hb : (2 : ℝ) ^ p.logModulus = 2 * 2 ^ (p.logModulus - 1) := by
    rw [← pow_succ']
    congr 1
    omega
  have h1' : (2 : ℝ) ^ (p.logModulus - 1) ≤ N := by exact_mod_cast h1
  have h2' : (N : ℝ) ≤ 2 ^ p.logModulus := by exact_mod_cast h2.le
  have r1 : (1 : ℝ) / 2 ≤ N / 2 ^ p.logModulus := by
    rw [div_le_div_iff₀ (by norm_num) (by positivity), hb]
    linarith
  have r2 : (N : ℝ) / 2 ^ p.logModulus ≤ 1 := (div_le_one (by positivity)).mpr h2'
  have r3 : (1 - (N : ℝ) / 2 ^ p.logModulus) ^ fuel ≤ (1 / 2) ^ fuel :=
    pow_le_pow_left₀ (by linarith) (by linarith) _
  have r4 : 0 ≤ (1 - (N : ℝ) / 2 ^ p.logModulus) ^ fuel := pow_nonneg (by linarith) _
  unfold residueLaw
  constructor <;> refine div_le_div_of_nonneg_right ?_ hN.le <;> linarith

theorem importRandom_is {w N : ℕ} (h : create w N = .ok p) (hw : w = 16 ∨ w = 32 ∨ w = 64 ∨ w = 128) (fuel : ℕ) :
    (residueTree N p.logModulus fuel).Is (Sampler.importRandom bytesSource p fuel) := by
  have g := good_of_create h
  obtain ⟨-, -, h3, h4⟩ := logModulus_bounds h (by omega)
  induction fuel with
  | zero => exact fun t => rfl
  | succ fuel ih =>
    have e : Sampler.importRandom bytesSource p (fuel + 1) = fun t =>
        Sampler.generateRandomInt bytesSource w p.logModulus t >>= fun r =>
          if r.1 ≥ N then Sampler.importRandom bytesSource p fuel r.2 else .ok (r.1, r.2) := by
      funext t
      show (Sampler.generateRandomInt bytesSource p.w p.logModulus t >>= fun r =>
          if r.1 ≥ p.modulus then Sampler.importRandom bytesSource p fuel r.2 else .ok (r.1, r.2)) = _
      rw [g.hN, g.hw]
    rw [e]
    exact (candidateTree_is hw h3 h4).bind
      (d := fun r s => if r ≥ N then Sampler.importRandom bytesSource p fuel s else .ok (r, s)) fun r => by
        by_cases hr : N ≤ r
        · simp only [hr, if_true, ge_iff_le]
          exact ih
        · simp only [hr, if_false, ge_iff_le]
          exact fun t => rfl

theorem samplePolynomial_is {w N : ℕ} (h : create w N = .ok p) (hw : w = 16 ∨ w = 32 ∨ w = 64 ∨ w = 128) (fuel : ℕ)
    {n : ℕ} (hn : 0 < n) :
    ((residueTree N p.logModulus fuel).times n).Is (Sampler.samplePolynomial bytesSource p fuel n) := fun t => by
  rw [(c40_polynomial bytesSource p fuel n t).2.1 (by omega), Int.toNat_natCast]
  exact ((importRandom_is h hw fuel).times n) t

open Classical in
/-- C87: `SamplePolynomialFromPrng` returns every polynomial in NTT form with the same probability. -/
theorem c87_pad {w N : ℕ} (h : create w N = .ok p) (hw : w = 16 ∨ w = 32 ∨ w = 64 ∨ w = 128) (fuel : ℕ) (cs : List ℕ)
    (hn : cs ≠ []) (hc : ∀ c ∈ cs, c < N) (L : ℕ) (hL : 16 * fuel * cs.length ≤ L) :
    bytesProbability L (fun t => ∃ s, Sampler.samplePolynomial bytesSource p fuel cs.length t = .ok (cs, s)) =
      residueLaw N p.logModulus fuel ^ cs.length := by
  obtain ⟨-, h2, h3, h4⟩ := logModulus_bounds h (by omega)
  rw [Tree.probability_eq ((residueTree N p.logModulus fuel).times cs.length)
    (good := fun xs => ∀ i < cs.length, xs.getD i 0 = cs.getD i 0) ((residue_within _ _ _).times _)
    (by rw [mul_comm]; exact hL), Tree.times_forall _ _ _ fun i x => x = cs.getD i 0]
  · rw [Finset.prod_congr rfl fun i hi => residue_law (by omega) h2.le fuel
      (forall_getD hc i (Finset.mem_range.mp hi))]
    simp
  · intro t
    have e := samplePolynomial_is h hw fuel (List.length_pos_iff.mpr hn) t
    constructor
    · rintro ⟨s, hs⟩
      rw [e] at hs
      exact ⟨cs, s, hs, fun _ _ => rfl⟩
    · rintro ⟨xs, s, hs, hx⟩
      have hlen : xs.length = cs.length := by
        rw [← e, (c40_polynomial bytesSource p fuel cs.length t).2.1
          (by have := List.length_pos_iff.mpr hn; omega), Int.toNat_natCast] at hs
        exact Sampler.times_length _ _ _ _ _ hs
      refine ⟨s, ?_⟩
      rw [e, hs, ext_getD 0 hlen fun i hi => hx i (by omega)]

/-! ## Centered binomial errors -/

/-- `sampleError_tape` in the other direction. -/
theorem sampleError_run {w N : ℕ} (h : create w N = .ok p) {n v : ℕ} (hv : v ≤ 256) (hN : 4 * v < N)
    {t s : List (Fin 256)} {pss : List (List (ℕ × ℕ))} (hs : ((coeffTree v).times n).run t = .ok (pss, s)) :
    ∃ cs, Sampler.sampleError bytesSource p n v t = .ok (cs, s) ∧
      signedCoeffs p N n cs = fun i : Fin n => coeffOf v (pss.getD i []) := by
  have h1 := c38_sample_partial bytesSource bytesSource_words h n v hv (by omega) t
  rw [((pairsTree_is _).times n) t] at h1
  change _ = ((coeffTree v).times n).run t >>= _ at h1
  rw [hs, Outcome.bind_ok] at h1
  obtain ⟨pss', r1, r2⟩ := sampleError_tape h hN h1
  rw [hs] at r1
  cases r1
  exact ⟨_, h1, r2⟩

theorem sampleError_iff {w N : ℕ} (h : create w N = .ok p) {n v : ℕ} (hv : v ≤ 256) (hN : 4 * v < N) (e : Fin n → ℤ)
    (t : List (Fin 256)) :
    (∃ cs s, Sampler.sampleError bytesSource p n v t = .ok (cs, s) ∧ signedCoeffs p N n cs = e) ↔
      ∃ pss s, ((coeffTree v).times n).run t = .ok (pss, s) ∧ ∀ i : Fin n, coeffOf v (pss.getD i []) = e i := by
  constructor
  · rintro ⟨cs, s, h1, h2⟩
    obtain ⟨pss, r1, r2⟩ := sampleError_tape h hN h1
    exact ⟨pss, s, r1, fun i => by rw [← h2, r2]⟩
  · rintro ⟨pss, s, h1, h2⟩
    obtain ⟨cs, r1, r2⟩ := sampleError_run h hv hN h1
    exact ⟨cs, s, r1, by rw [r2]; exact funext h2⟩

open Classical in
theorem error_expect (n v : ℕ) (e : Fin n → ℤ) :
    ((coeffTree v).times n).expect (fun pss => if ∀ i : Fin n, coeffOf v (pss.getD i []) = e i then 1 else 0) =
      ∏ i, binomialLaw v (e i) := by
  have h1 := Tree.times_forall (coeffTree v) [] n fun i ps => ∀ hi : i < n, coeffOf v ps = e ⟨i, hi⟩
  have h2 : (fun pss : List (List (ℕ × ℕ)) => if ∀ i : Fin n, coeffOf v (pss.getD i []) = e i then (1 : ℝ) else 0) =
      fun pss => if ∀ i < n, ∀ hi : i < n, coeffOf v (pss.getD i []) = e ⟨i, hi⟩ then 1 else 0 := by
    funext pss
    exact if_congr ⟨fun h i _ hi => h ⟨i, hi⟩, fun h i => h i i.2 i.2⟩ rfl rfl
  rw [h2, h1, Finset.prod_range]
  refine Finset.prod_congr rfl fun i _ => ?_
  rw [← coeff_law]
  congr 1
  funext ps
  exact if_congr ⟨fun h => h i.2, fun h _ => h⟩ rfl rfl

open Classical in
/-- C87: the coefficients that `SampleFromErrorDistribution` returns are independent and follow the centered binomial
distribution. -/
theorem c87_error {w N : ℕ} (h : create w N = .ok p) {n v : ℕ} (hv : v ≤ 256) (hN : 4 * v < N) (e : Fin n → ℤ) (L : ℕ)
    (hL : 4 * v * n ≤ L) :
    bytesProbability L (fun t => ∃ cs s, Sampler.sampleError bytesSource p n v t = .ok (cs, s) ∧
      signedCoeffs p N n cs = e) = ∏ i, binomialLaw v (e i) := by
  rw [Tree.probability_eq ((coeffTree v).times n) ((coeff_within v).times n) (by rw [mul_comm]; exact hL)
    (sampleError_iff h hv hN e), error_expect]

/-- Small integers are determined by their residues. -/
theorem modq_inj {N n : ℕ} {e e' : Fin n → ℤ} (h : ∀ i, 2 * |e i| < N) (h' : ∀ i, 2 * |e' i| < N)
    (heq : modq N e = modq N e') : e = e' := by
  funext i
  have h1 := congrFun heq i
  unfold modq at h1
  have h2 := (ZMod.intCast_eq_intCast_iff_dvd_sub _ _ _).mp h1
  have h3 := Int.eq_zero_of_abs_lt_dvd h2 (by
    have := abs_sub (e' i) (e i)
    have := h i
    have := h' i
    omega)
  omega

open Classical in
/-- C87: the coefficients of a key returned by `SymmetricRlweKey::Sample` are independent and follow the centered
binomial distribution. -/
theorem c87_key {w N : ℕ} (h : create w N = .ok p) (hp : N.Prime) {l : ℕ} (hq : initNtt p l = .ok q) {variance logT : ℕ}
    (hv : variance ≤ 256) (hN : 4 * variance < N) (hT : 2 ^ logT + 1 < N) (e : Fin (2 ^ l) → ℤ)
    (he : ∀ i, 2 * |e i| < N) (L : ℕ) (hL : 4 * variance * 2 ^ l ≤ L) :
    bytesProbability L (fun t => ∃ k s, Word.Key.sample bytesSource p q l variance logT t = .ok (k, s) ∧
      HasCoeffs p q N (2 ^ l) k.key fun i => (e i : ZMod N)) = ∏ i, binomialLaw variance (e i) := by
  have g := good_of_create h
  haveI : NeZero N := ⟨hp.ne_zero⟩
  obtain ⟨l', hl', psi, tb⟩ := tables_of_init h hp hq
  have : l' = l := by omega
  subst this
  rw [← c87_error h hv hN e L hL]
  congr 1
  funext t
  -- the key holds the sampled error
  have key : ∀ k s cs s', Word.Key.sample bytesSource p q l' variance logT t = .ok (k, s) →
      Sampler.sampleError bytesSource p (2 ^ l') variance t = .ok (cs, s') →
      (HasCoeffs p q N (2 ^ l') k.key (fun i => (e i : ZMod N)) ↔ signedCoeffs p N (2 ^ l') cs = e) := by
    intro k s cs s' hk hcs
    unfold Word.Key.sample at hk
    rw [if_neg (by have := tb.l15; omega), Nat.one_shiftLeft, hcs, Outcome.bind_ok] at hk
    obtain ⟨e', e1, e2⟩ := Word.error_rep bytesSource bytesSource_words h _ _ (by omega) t s' cs hcs
    obtain ⟨F, f1, f2, -⟩ := e2.forward g tb
    dsimp only at hk
    rw [f1, Outcome.bind_ok] at hk
    obtain ⟨T, -, hk⟩ := Outcome.bind_eq_ok.mp hk
    cases hk
    have hs : ∀ i, 2 * |e' i| < N := fun i => by have := e1 i; omega
    rw [signed_rep g e2 hs, hasCoeffs_iff g hp tb f2]
    constructor
    · intro hh
      have := ntt_injective hp g.odd tb.root (by have := tb.l15; omega) hh
      exact (modq_inj he hs this).symm
    · rintro rfl
      rfl
  refine propext ⟨?_, ?_⟩
  · rintro ⟨k, s, hk, hh⟩
    have hk' := hk
    unfold Word.Key.sample at hk'
    rw [if_neg (by have := tb.l15; omega), Nat.one_shiftLeft] at hk'
    obtain ⟨⟨cs, s'⟩, hcs, -⟩ := Outcome.bind_eq_ok.mp hk'
    exact ⟨cs, s', hcs, (key k s cs s' hk hcs).mp hh⟩
  · rintro ⟨cs, s', hcs, hh⟩
    obtain ⟨k, hk⟩ := (c19_words_total bytesSource bytesSource bytesSource_words h hp hq (by omega) hT t).1 cs s' hcs
    exact ⟨k, s', hk, (key k s' cs s' hk hcs).mpr hh⟩

/-! ## Fresh ciphertexts -/

open Classical in
theorem residue_expect {w N : ℕ} (h : create w N = .ok p) (hw : w ≤ 128) (fuel n : ℕ) (A : Fin n → ZMod N) :
    ((residueTree N p.logModulus fuel).times n).expect
      (fun xs => if ∀ i : Fin n, res p N (xs.getD i 0) = A i then 1 else 0) =
      residueLaw N p.logModulus fuel ^ n := by
  have g := good_of_create h
  haveI : NeZero N := ⟨by have := g.pos; omega⟩
  obtain ⟨-, hlt, h3, h4⟩ := logModulus_bounds h hw
  have h1 := Tree.times_forall (residueTree N p.logModulus fuel) 0 n fun i x => ∀ hi : i < n, res p N x = A ⟨i, hi⟩
  have h2 : (fun xs : List ℕ => if ∀ i : Fin n, res p N (xs.getD i 0) = A i then (1 : ℝ) else 0) =
      fun xs => if ∀ i < n, ∀ hi : i < n, res p N (xs.getD i 0) = A ⟨i, hi⟩ then 1 else 0 := by
    funext xs
    exact if_congr ⟨fun h i _ hi => h ⟨i, hi⟩, fun h i => h i i.2 i.2⟩ rfl rfl
  rw [h2, h1, Finset.prod_range]
  rw [Finset.prod_congr rfl fun i _ => (?_ : _ = residueLaw N p.logModulus fuel)]
  · simp
  · have hb : (A i).val < 2 ^ w := by have := ZMod.val_lt (A i); have := g.lt; omega
    have hc := importInt_lt g _ hb
    rw [← residue_law (by omega) hlt.le fuel hc]
    refine Tree.expect_congr_returns _ fun x hx => ?_
    have hxN := residue_lt hx
    refine if_congr ⟨fun hh => ?_, fun hh _ => ?_⟩ rfl rfl
    · refine res_inj g hxN hc ?_
      rw [hh i.2, res_import g hb]
      simp
    · rw [hh, res_import g hb]
      simp

/-- What `Encrypt` returns, in terms of the samples. -/
theorem encrypt_fresh {w N l : ℕ} (h : create w N = .ok p) (hp : N.Prime) {psi : ZMod N} (tb : Tables p w N l psi q)
    (k : Word.Key) (k1 : k.p = p) (k2 : k.q = q) (k6 : ValidPoly N (2 ^ l) k.key) (hvar : 4 * k.variance < N)
    (k7 : k.tMod < N) {T : ℕ} (hT : (T : ZMod N) ≠ 0) (k8 : Mont.exportInt p k.tMod = T) {S : Fin (2 ^ l) → ZMod N}
    (hS : HasCoeffs p q N (2 ^ l) k.key S) (m : Fin (2 ^ l) → ℕ) {pt : List ℕ} (hv : ValidPoly N (2 ^ l) pt)
    (hpt : HasCoeffs p q N (2 ^ l) pt fun i => (m i : ZMod N)) (G : Gen σ) (hG : Words G) (fuel bits : ℕ)
    {t t₁ t₂ : σ} {a cs : List ℕ} (h1 : Sampler.samplePolynomial G p fuel ((2 ^ l : ℕ) : ℤ) t = .ok (a, t₁))
    (h2 : Sampler.sampleError G p (2 ^ l) k.variance t₁ = .ok (cs, t₂)) :
    ∃ x, Word.encrypt G fuel k pt bits t = .ok (x, t₂) ∧ ∀ (e : Fin (2 ^ l) → ℤ) (α : Fin (2 ^ l) → ZMod N),
      (∀ i, 2 * |e i| < N) → (FreshWith p q N (2 ^ l) x m T e α S ↔
        (∀ i : Fin (2 ^ l), res p N (a.getD i 0) = ntt psi l α i) ∧ signedCoeffs p N (2 ^ l) cs = e) := by
  have g := good_of_create h
  haveI : NeZero N := ⟨hp.ne_zero⟩
  haveI : Fact N.Prime := ⟨hp⟩
  have hA := Word.pad_rep G g fuel _ t t₁ a h1
  have hS' := k6.rep (p := p)
  have hSn := (hasCoeffs_iff g hp tb hS').mp hS
  have hM := hv.rep (p := p)
  have hM' := (hasCoeffs_iff g hp tb hM).mp hpt
  rw [← hSn] at hS'
  rw [← hM'] at hM
  rcases Word.encryptWithPad_word G hG h tb k k1 k2 hS' (by omega) k7.le hM hA t₁ with
    ⟨_, e, -⟩ | ⟨_, e, -⟩ | ⟨c0, s'', e', e1, ⟨cs', d1, d2⟩, e2, e3⟩
  · rw [h2] at e; cases e
  · rw [h2] at e; cases e
  rw [h2] at d1
  cases d1
  have hN' := hA.negate g
  have hs : ∀ i, 2 * |e' i| < N := fun i => by have := e2 i; omega
  refine ⟨⟨[c0, Poly.negate p a], 1, bits⟩, ?_, fun e α he => ?_⟩
  · unfold Word.encrypt
    rw [k1, k6.1, h1, Outcome.bind_ok]
    dsimp only
    rw [e1, Outcome.bind_ok]
  have hr : res p N k.tMod = (T : ZMod N) := by
    rw [← res_export g k7.le]
    show ((Mont.exportInt p k.tMod : ℕ) : ZMod N) = _
    rw [k8]
  rw [hr] at e3
  set A : Fin (2 ^ l) → ZMod N := fun i => res p N (a.getD i 0) with hAdef
  have inj := ntt_injective hp g.odd tb.root (by have := tb.l15; omega : l ≤ 32)
  have hneg : ∀ f : Fin (2 ^ l) → ZMod N, ntt psi l (fun i => -f i) = -ntt psi l f := fun f => by
    rw [show (fun i => -f i) = 0 - f by funext i; simp, ntt_sub, ntt_zero, zero_sub]
  have hsum : ∀ f : Fin (2 ^ l) → ℤ, ntt psi l (fun i => m i + T * f i + negMul α S i) =
      (fun i => (T : ZMod N) * ntt psi l (modq N f) i) + ntt psi l (fun i => (m i : ZMod N)) +
        ntt psi l α * ntt psi l S := by
    intro f
    rw [show (fun i => (m i : ZMod N) + T * f i + negMul α S i) =
      (fun i => (m i : ZMod N)) + (fun i => (T : ZMod N) * modq N f i) + negMul α S from rfl, ntt_add, ntt_add, ntt_smul,
      ntt_negMul tb.root]
    congr 1
    exact add_comm _ _
  have c1_iff : HasCoeffs p q N (2 ^ l) (Poly.negate p a) (fun i => -α i) ↔ ∀ i, A i = ntt psi l α i := by
    rw [hasCoeffs_iff g hp tb hN', hneg]
    constructor
    · intro hh i
      have := congrFun hh i
      exact (neg_inj.mp this).symm
    · intro hh
      funext i
      exact congrArg Neg.neg (hh i).symm
  have c0_iff : (∀ i, A i = ntt psi l α i) →
      (HasCoeffs p q N (2 ^ l) c0 (fun i => m i + T * e i + negMul α S i) ↔ signedCoeffs p N (2 ^ l) cs = e) := by
    intro hAα
    rw [signed_rep g d2 hs, hasCoeffs_iff g hp tb e3, hsum e, show A = ntt psi l α from funext hAα, add_left_inj,
      add_left_inj]
    constructor
    · intro hh
      refine (modq_inj he hs (inj (funext fun i => ?_))).symm
      exact mul_left_cancel₀ hT (congrFun hh i)
    · rintro rfl
      rfl
  constructor
  · rintro ⟨x0, x1, hx, y0, y1⟩
    injection hx with hx0 hx
    injection hx with hx1 _
    subst hx0
    subst hx1
    have := c1_iff.mp y1
    exact ⟨this, (c0_iff this).mp y0⟩
  · rintro ⟨z1, z2⟩
    exact ⟨c0, Poly.negate p a, rfl, (c0_iff z1).mpr z2, c1_iff.mpr z1⟩

open Classical in
/-- C87: for uniformly distributed bytes, every secret key, and every plaintext, `Encrypt` returns `(m + t e + a s, -a)`
with `a` uniformly distributed and, independently, the coefficients of `e` independent with the centered binomial
distribution. -/
theorem c87_encrypt {w N : ℕ} (h : create w N = .ok p) (hw : w = 16 ∨ w = 32 ∨ w = 64 ∨ w = 128) (hp : N.Prime) {l : ℕ}
    (hq : initNtt p l = .ok q) (G : Gen σ) {variance logT : ℕ} {s s' : σ} {k : Word.Key}
    (hk : Word.Key.sample G p q l variance logT s = .ok (k, s')) (hT : 2 ^ logT + 1 < N) (hv : variance ≤ 256)
    (hN : 4 * variance < N) {S : Fin (2 ^ l) → ZMod N} (hS : HasCoeffs p q N (2 ^ l) k.key S)
    (m : Fin (2 ^ l) → ℕ) {pt : List ℕ} (hpv : ValidPoly N (2 ^ l) pt)
    (hpt : HasCoeffs p q N (2 ^ l) pt fun i => (m i : ZMod N)) (fuel bits : ℕ) (a : Fin (2 ^ l) → ZMod N)
    (e : Fin (2 ^ l) → ℤ) (he : ∀ i, 2 * |e i| < N) (L : ℕ) (hL : (16 * fuel + 4 * variance) * 2 ^ l ≤ L) :
    bytesProbability L (fun t => ∃ x s, Word.encrypt bytesSource fuel k pt bits t = .ok (x, s) ∧
      FreshWith p q N (2 ^ l) x m (2 ^ logT + 1) e a S) =
      residueLaw N p.logModulus fuel ^ 2 ^ l * ∏ i, binomialLaw variance (e i) := by
  have g := good_of_create h
  haveI : NeZero N := ⟨hp.ne_zero⟩
  haveI : Fact N.Prime := ⟨hp⟩
  obtain ⟨k1, k2, k3, k4, k5, k6, k7, k8⟩ := sample_word G h hp hq hk hT
  obtain ⟨l', hl', psi, tb⟩ := tables_of_init h hp hq
  have : l' = l := by omega
  subst this
  have hT0 : ((2 ^ logT + 1 : ℕ) : ZMod N) ≠ 0 := by
    rw [Ne, ZMod.natCast_eq_zero_iff]
    intro hd
    have := Nat.le_of_dvd (Nat.succ_pos _) hd
    omega
  have hpad := samplePolynomial_is h hw fuel (n := 2 ^ l') (by positivity)
  have fresh := fun t t₁ t₂ a cs => encrypt_fresh (t := t) (t₁ := t₁) (t₂ := t₂) (a := a) (cs := cs) h hp tb k k1 k2 k6
    (by rw [k4]; exact hN) k7 hT0 k8 hS m hpv hpt bytesSource bytesSource_words fuel bits
  rw [k4] at fresh
  rw [Tree.probability_eq (((residueTree N p.logModulus fuel).times (2 ^ l')).bind fun a =>
      ((coeffTree variance).times (2 ^ l')).bind fun pss => .ret (.ok (a, pss)))
    (good := fun r => (∀ i : Fin (2 ^ l'), res p N (r.1.getD i 0) = ntt psi l' a i) ∧
      ∀ i : Fin (2 ^ l'), coeffOf variance (r.2.getD i []) = e i)
    (((residue_within _ _ _).times _).bind (d' := 2 ^ l' * (4 * variance) + 0) fun a =>
      ((coeff_within variance).times _).bind fun pss => Tree.within_ret _ _)
    (by rw [add_mul] at hL; rw [mul_comm (2 ^ l'), mul_comm (2 ^ l')]; omega)]
  · rw [Tree.expect_bind]
    have e1 : ∀ xs : List ℕ, (((coeffTree variance).times (2 ^ l')).bind fun pss => .ret (.ok (xs, pss))).expect
        (fun r => if (∀ i : Fin (2 ^ l'), res p N (r.1.getD i 0) = ntt psi l' a i) ∧
          ∀ i : Fin (2 ^ l'), coeffOf variance (r.2.getD i []) = e i then (1 : ℝ) else 0) =
        (∏ i, binomialLaw variance (e i)) *
          if ∀ i : Fin (2 ^ l'), res p N (xs.getD i 0) = ntt psi l' a i then 1 else 0 := by
      intro xs
      rw [Tree.expect_bind, ← error_expect, mul_comm, ← Tree.expect_mul]
      congr 1
      funext pss
      show (if _ ∧ _ then (1 : ℝ) else 0) = _
      by_cases hh : ∀ i : Fin (2 ^ l'), res p N (xs.getD i 0) = ntt psi l' a i
      · rw [if_pos hh, one_mul]
        exact if_congr ⟨fun x => x.2, fun x => ⟨hh, x⟩⟩ rfl rfl
      · rw [if_neg hh, zero_mul, if_neg fun x => hh x.1]
    rw [show (fun x => _) = _ from funext e1, Tree.expect_mul, residue_expect h (by omega), mul_comm]
  · intro t
    constructor
    · rintro ⟨x, s, hx, hf⟩
      have hx' := hx
      unfold Word.encrypt at hx'
      rw [k1, k6.1] at hx'
      obtain ⟨⟨aw, t₁⟩, ha, hx'⟩ := Outcome.bind_eq_ok.mp hx'
      obtain ⟨⟨c0, t₂⟩, hc, -⟩ := Outcome.bind_eq_ok.mp hx'
      unfold Word.encryptWithPad at hc
      rw [k1, k6.1, k4] at hc
      obtain ⟨⟨cs, t₃⟩, hcs, -⟩ := Outcome.bind_eq_ok.mp hc
      obtain ⟨x', hx2, hiff⟩ := fresh _ _ _ _ _ ha hcs
      rw [hx] at hx2
      cases hx2
      obtain ⟨z1, z2⟩ := (hiff e a he).mp hf
      obtain ⟨pss, r1, r2⟩ := sampleError_tape h hN hcs
      refine ⟨(aw, pss), s, ?_, z1, fun i => by rw [← z2, r2]⟩
      rw [Tree.run_bind, ← hpad t, ha, Outcome.bind_ok]
      dsimp only
      rw [Tree.run_bind, r1, Outcome.bind_ok]
      rfl
    · rintro ⟨⟨aw, pss⟩, s₀, hr, z1, z2⟩
      rw [Tree.run_bind, ← hpad t] at hr
      obtain ⟨⟨aw', t₁⟩, ha, hr⟩ := Outcome.bind_eq_ok.mp hr
      rw [Tree.run_bind] at hr
      obtain ⟨⟨pss', t₂⟩, hps, hr⟩ := Outcome.bind_eq_ok.mp hr
      cases hr
      obtain ⟨cs, hcs, r2⟩ := sampleError_run h hv hN hps
      obtain ⟨x, hx, hiff⟩ := fresh _ _ _ _ _ ha hcs
      exact ⟨x, _, hx, (hiff e a he).mpr ⟨z1, by rw [r2]; exact funext z2⟩⟩

/-! ## A concrete case -/

/-- With the modulus `16777153`, two coefficients, variance 8 and `t = 5`, the conditions on the parameters hold, and on
these tapes a key is sampled and `2 + X` encrypted. -/
example : (do
    let p ← create 32 16777153
    let q ← initNtt p 1
    let (k, _) ← Word.Key.sample bytesSource p q 1 8 2 [17, 200, 3, 91, 250, 4, 66, 129]
    let m ← Poly.convertToNtt p q ([2, 1].map (Mont.importInt p))
    let (y, _) ← Word.encrypt bytesSource 8 k m 0 [1, 2, 3, 4, 5, 6, 7, 8, 9, 8, 7, 6, 5, 4, 3, 2, 90, 91, 92, 93, 94,
      95, 96, 97]
    .ok (y.c.map List.length, ← Word.decrypt k y)) = .ok ([2, 2], [2, 1]) ∧ 2 ^ 2 + 1 < 16777153 ∧ 4 * 8 < 16777153 := by
  decide +kernel

/-- Each polynomial is then returned with probability at least `(1 - 2^-100)^2 / 16777153^2` and at most
`1 / 16777153^2`. -/
example : ∃ p, create 32 16777153 = .ok p ∧ ∀ a b, a < 16777153 → b < 16777153 →
    bytesProbability 3200 (fun t => ∃ s, Sampler.samplePolynomial bytesSource p 100 (2 : ℕ) t = .ok ([a, b], s)) ≤
      (1 / (16777153 : ℕ)) ^ 2 := by
  have h : (match create 32 16777153 with | .ok _ => true | _ => false) = true := by decide +kernel
  cases hp : create 32 16777153 with
  | err e => rw [hp] at h; cases h
  | ub e => rw [hp] at h; cases h
  | ok p =>
    refine ⟨p, rfl, fun a b ha hb => ?_⟩
    have h1 := c87_pad hp (by norm_num) 100 [a, b] (by simp) (by simp [ha, hb]) 3200 (by simp)
    obtain ⟨h2, h3⟩ := c87_residue hp (by norm_num) 100
    have h0 : (0 : ℝ) ≤ (1 - (1 / 2) ^ 100) / (16777153 : ℕ) := by norm_num
    simp only [List.length_cons, List.length_nil, Nat.zero_add, Nat.reduceAdd] at h1
    rw [h1]
    exact pow_le_pow_left₀ (h0.trans h2) h3 2

end Shell
