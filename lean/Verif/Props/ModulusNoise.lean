import Verif.Model.WordKeyMod
import Verif.Spec.ModulusNoise
import Verif.Props.WordKeyNoise
import Mathlib.Analysis.Complex.ExponentialBounds
/-!
# Property C107: switching the modulus within the error estimates

`B_scale` is enough for the roundings of every ciphertext of two components, in every coefficient, under every secret key
the coefficients of which are at most `16 t / ((t + 3) sqrt 3)` on average; sampled keys are such, except with a probability
that falls exponentially with the number of coefficients.
-/

namespace Shell
open Spec Rns WordCt ErrorTrack MParams Ntt NttRing Sym Real
variable {σ : Type} {C : Ctx} {p p' : MParams} {q q' : NttParams}

open Classical in
/-- The sum of the absolute values of sampled coefficients rarely exceeds `B` for each. -/
theorem norm_tail {v : ℕ} (hv : 0 < v) {B : ℝ} (hB : 0 ≤ B) (n : ℕ) :
    ((coeffTree v).times n).expect (fun pss =>
      if B * n < ∑ i ∈ Finset.range n, |((coeffOf v (pss.getD i []) : ℤ) : ℝ)| then 1 else 0) ≤
      exp (-((B ^ 2 / (2 * v) - 7 / 10) * n)) := by
  have hvR : (0 : ℝ) < v := by exact_mod_cast hv
  set a : ℝ := B / v with ha
  have ha0 : 0 ≤ a := by positivity
  have h2 : (2 : ℝ) ≤ exp (7 / 10) := by
    rw [← Real.log_le_iff_le_exp (by norm_num)]
    have := Real.log_two_lt_d9
    linarith
  have hM : (coeffTree v).expect (fun ps => exp (a * |((coeffOf v ps : ℤ) : ℝ)|)) ≤ exp (7 / 10 + v * a ^ 2 / 2) := by
    rw [Real.exp_add]
    exact (coeff_abs_mean v a).trans (mul_le_mul_of_nonneg_right h2 (exp_pos _).le)
  have hd := times_exp_le _ _ (exp_pos _).le hM [] n
  have e1 : ∀ pss : List (List (ℕ × ℕ)),
      (if B * n < ∑ i ∈ Finset.range n, |((coeffOf v (pss.getD i []) : ℤ) : ℝ)| then (1 : ℝ) else 0) ≤
      exp (-(a * (B * n))) * exp (∑ i ∈ Finset.range n, a * |((coeffOf v (pss.getD i []) : ℤ) : ℝ)|) := by
    intro pss
    rw [← Real.exp_add, ← Finset.mul_sum]
    split_ifs with h1
    · refine Real.one_le_exp ?_
      nlinarith
    · exact (Real.exp_pos _).le
  refine (Tree.expect_mono _ e1).trans ?_
  rw [Tree.expect_mul]
  refine (mul_le_mul_of_nonneg_left hd (exp_pos _).le).trans ?_
  rw [← Real.exp_nat_mul, ← Real.exp_add, Real.exp_le_exp]
  refine le_of_eq ?_
  rw [ha]
  field_simp
  ring

/-- **C107.** `Sample` of a secret key from uniformly distributed bytes: the probability that it returns a key the
coefficients of which are larger than `B` on average, in absolute value. -/
theorem c107_key {w N : ℕ} (h : create w N = .ok p) (hw : w ≤ 128) (hp : N.Prime) {l : ℕ} (hq : initNtt p l = .ok q)
    {variance logT : ℕ} (hv : 0 < variance) (hN : 4 * variance < N) (hT : 2 ^ logT + 1 < N) {B : ℝ} (hB : 0 ≤ B) (L : ℕ) :
    bytesProbability L (fun tape => ∃ k s, Word.Key.sample bytesSource p q l variance logT tape = .ok (k, s) ∧
      ¬ ShortKey N (2 ^ l) k (B * 2 ^ l)) ≤ exp (-((B ^ 2 / (2 * variance) - 7 / 10) * 2 ^ l)) := by
  classical
  have g := good_of_create h
  haveI : NeZero N := ⟨hp.ne_zero⟩
  obtain ⟨psi, hC, tb⟩ := fit_of_create h hw hp hq
  have ht := norm_tail hv hB (2 ^ l)
  push_cast at ht
  refine (bytesProbability_le ((coeffTree variance).times (2 ^ l)) ?_ L).trans ht
  rintro tape ⟨k, s, h1, h2⟩
  obtain ⟨k1, k2, -⟩ := sample_word bytesSource h hp hq h1 hT
  obtain ⟨S, s1, s2, cs, s3, s4⟩ := sample_drawn bytesSource bytesSource_words h tb (by omega) h1
  obtain ⟨pss, r1, r2⟩ := sampleError_tape h hN s3
  have hs : ∀ i, 2 * |S i| < (N : ℤ) := fun i => by have := s1 i; omega
  rw [signed_rep g s4 hs] at r2
  refine ⟨pss, s, r1, ?_⟩
  by_contra hc
  push Not at hc
  refine h2 ⟨S, ?_, hs, ?_⟩
  · rw [k1, k2]
    exact (hasCoeffs_iff g hp tb s2).mpr rfl
  · refine le_trans (le_of_eq ?_) hc
    rw [r2, ← Fin.sum_univ_eq_sum_range (fun i => |((coeffOf variance (pss.getD i []) : ℤ) : ℝ)|) (2 ^ l)]

/-- **C107.** If `B` is twice the variance or more, no key is sampled the coefficients of which are larger than `B` on
average. -/
theorem c107_small_variance {w N : ℕ} (h : create w N = .ok p) (hw : w ≤ 128) (hp : N.Prime) {l : ℕ}
    (hq : initNtt p l = .ok q) (G : Gen σ) (hG : Words G) {variance logT : ℕ} (hN : 4 * variance < N)
    (hT : 2 ^ logT + 1 < N) {B : ℝ} (hB : 2 * variance ≤ B) {s s' : σ} {k : Word.Key}
    (hk : Word.Key.sample G p q l variance logT s = .ok (k, s')) : ShortKey N (2 ^ l) k (B * 2 ^ l) := by
  have g := good_of_create h
  haveI : NeZero N := ⟨hp.ne_zero⟩
  obtain ⟨psi, hC, tb⟩ := fit_of_create h hw hp hq
  obtain ⟨k1, k2, -⟩ := sample_word G h hp hq hk hT
  obtain ⟨S, s1, s2, -⟩ := sample_drawn G hG h tb (by omega) hk
  refine ⟨S, ?_, fun i => by have := s1 i; omega, ?_⟩
  · rw [k1, k2]
    exact (hasCoeffs_iff g hp tb s2).mpr rfl
  · refine (Finset.sum_le_sum fun i _ => show |(S i : ℝ)| ≤ B from ?_).trans (le_of_eq ?_)
    · have h1 : ((|S i| : ℤ) : ℝ) ≤ ((2 * variance : ℤ) : ℝ) := by exact_mod_cast s1 i
      push_cast at h1
      exact h1.trans hB
    · simp [mul_comm]

/-- What `SwitchModulus` of a key returns. -/
theorem switchKey_word (hC : Fit C p) (tb : Tables p C.w C.q C.l C.psi q) {N' : ℕ} {psi' : ZMod N'}
    (hD : Fit ⟨C.w, N', C.l, psi'⟩ p') (tb' : Tables p' C.w N' C.l psi' q') (hNN : N' ≤ C.q) {k : Word.Key}
    (kp : k.p = p) (kq : k.q = q) (hT : 2 ^ k.logT + 1 < N')
    (hmod : C.q % (2 ^ k.logT + 1) = N' % (2 ^ k.logT + 1)) {S : Fin C.n → ℤ} (hS : ∀ i, 2 * |S i| < C.q)
    (hk : Poly.Rep p C.q C.n k.key (C.toNtt (modq C.q S))) :
    ∃ key, k.switchModulus p' q' = .ok ⟨p', q', key, k.variance, k.logT, p', Mont.importInt p' (2 ^ k.logT + 1)⟩ ∧
      Poly.Rep p' N' C.n key (ntt psi' C.l (modq N' S)) := by
  haveI : NeZero C.q := hC.ok.neZero
  haveI : NeZero N' := hD.ok.neZero
  have gD : Good p' C.w N' := hD.good
  have hlt : 2 ^ k.logT + 1 < 2 ^ C.w := by have := gD.lt; omega
  have hpm : plaintextModulus p'.w k.logT = .ok (2 ^ k.logT + 1) := by
    have hl : k.logT < C.w := by
      by_contra hc
      have : 2 ^ C.w ≤ 2 ^ k.logT := Nat.pow_le_pow_right (by norm_num) (by omega)
      omega
    unfold plaintextModulus Transcription.shl
    rw [gD.hw, if_pos (by omega), Outcome.bind_ok, Nat.one_shiftLeft,
      Nat.mod_eq_of_lt (by omega : 2 ^ k.logT < 2 ^ C.w), Nat.mod_eq_of_lt (by omega)]
    rfl
  obtain ⟨u, u1, u2, -⟩ := hk.inverse hC.good hC.ok.prime tb
  have hlt2 : ∀ x < C.q, switchKeyCoeff C.w C.q N' x < 2 ^ C.w := fun x hx => by
    unfold switchKeyCoeff
    split_ifs
    · exact trunc_lt _ _
    · have := hC.good.lt; omega
  have hrep : Poly.Rep p' N' C.n (u.map fun a =>
      Mont.importInt p' (switchKeyCoeff p.w C.q N' (Mont.exportInt p a))) (modq N' S) := by
    have hval : ∀ i : Fin C.n, Mont.exportInt p (u.getD i 0) = (((S i : ℤ) : ZMod C.q)).val := fun i => by
      refine (export_eq_val hC.good (u2.le i i.2)).trans ?_
      rw [u2.val i]
      have : C.fromNtt (C.toNtt (modq C.q S)) i = modq C.q S i := by rw [fromNtt_toNtt hC.ok]
      exact congrArg ZMod.val this
    refine ⟨by simpa using u2.len, fun i hi => ?_, fun i => ?_⟩
    · rw [Poly.getD_map' _ (by rw [u2.len]; exact hi), hC.good.hw, hval ⟨i, hi⟩]
      exact (importInt_lt hD.good _ (hlt2 _ (ZMod.val_lt _))).le
    · rw [Poly.getD_map' _ (by rw [u2.len]; exact i.2), hC.good.hw, hval i, res_import hD.good (hlt2 _ (ZMod.val_lt _))]
      have h3 := hS i
      have h4 := le_abs_self (S i)
      have h5 := neg_abs_le (S i)
      exact switchKeyCoeff_cast (by have := hC.good.lt; omega) hD.ok.prime.pos hNN _ (by omega) (by omega)
  obtain ⟨r, r1, r2, -⟩ := hrep.forward hD.good tb'
  refine ⟨r, ?_, r2⟩
  unfold Word.Key.switchModulus
  rw [hpm, Outcome.bind_ok, if_neg (Nat.succ_ne_zero _), kp, kq, hC.good.hN, hD.good.hN, if_neg (by simpa using hmod), u1,
    Outcome.bind_ok, r1, Outcome.bind_ok]
  rfl

/-- `B_scale` is enough for the roundings of two components. -/
theorem scale_room {t n : ℕ} (ht : 2 ≤ t) (hn : 2 ≤ n) {P : ErrorParams} (hP : P.t = t) (h64 : t < 2 ^ 64) {s : ℝ}
    (hs : s ≤ 8 / √3 * (2 * t / (t + 3)) * n) : (((t + 1) / 2 + 1 : ℕ) : ℝ) * (1 + s) ≤ P.bScale n := by
  unfold ErrorTrack.ErrorParams.bScale ErrorTrack.ErrorParams.exportT
  rw [hP, Nat.mod_eq_of_lt h64]
  have h1 : (((t + 1) / 2 + 1 : ℕ) : ℝ) ≤ (t + 3) / 2 := by
    have : 2 * ((t + 1) / 2 + 1) ≤ t + 3 := by omega
    have : ((2 * ((t + 1) / 2 + 1) : ℕ) : ℝ) ≤ ((t + 3 : ℕ) : ℝ) := by exact_mod_cast this
    push_cast at this
    push_cast
    linarith
  have ht' : (2 : ℝ) ≤ t := by exact_mod_cast ht
  have hn' : (2 : ℝ) ≤ n := by exact_mod_cast hn
  have h3 : √(1 / 3 : ℝ) = 1 / √3 := by rw [Real.sqrt_div (by norm_num), Real.sqrt_one]
  have h4 : (2 : ℝ) ≤ √(3 * n) := Real.le_sqrt_of_sq_le (by linarith)
  have h5 : (0 : ℝ) < √3 := by positivity
  have h6 : 0 ≤ 8 / √3 * (2 * t / (t + 3)) * (n : ℝ) := by positivity
  rw [h3]
  calc (((t + 1) / 2 + 1 : ℕ) : ℝ) * (1 + s)
      ≤ (((t + 1) / 2 + 1 : ℕ) : ℝ) * (1 + 8 / √3 * (2 * t / (t + 3)) * n) := by gcongr
    _ ≤ (t + 3) / 2 * (1 + 8 / √3 * (2 * t / (t + 3)) * n) := by gcongr
    _ = (t + 3) / 2 + t * (8 * n * (1 / √3)) := by field_simp
    _ ≤ t * √(3 * n) + t * (8 * n * (1 / √3)) := by nlinarith
    _ = _ := by ring

/-- **C107.** Switching a short secret key to a smaller modulus succeeds, and so does switching every ciphertext of two
components. The result stands, under the new key, for a polynomial that is congruent modulo `t`, and the coefficients of
which are those of the old one times the quotient of the moduli, up to what `Error()` adds to its own multiple. So if the
old `Error()` bounds the coefficients, the new one does, and if twice the new one is below the new modulus, the result
decrypts to what the old ciphertext stands for. -/
theorem c107_switch (hC : Fit C p) (tb : Tables p C.w C.q C.l C.psi q) {N' : ℕ} {psi' : ZMod N'}
    (hD : Fit ⟨C.w, N', C.l, psi'⟩ p') (tb' : Tables p' C.w N' C.l psi' q') (hNN : N' ≤ C.q) {k : Word.Key}
    (kp : k.p = p) (kq : k.q = q) (kv : ValidPoly C.q C.n k.key) {t : ℕ} (kt : 2 ^ k.logT + 1 = t) (hT : t < N')
    (h64 : t < 2 ^ 64) (hmod : C.q % t = N' % t) (hk : ShortKey C.q C.n k (8 / √3 * (2 * t / (t + 3)) * C.n))
    {Q : ErrorParams} (hQ : Q.t = t) :
    ∃ k', k.switchModulus p' q' = .ok k' ∧
      ∀ x φ, Sound C p (fun i => res p C.q (k.key.getD i 0)) x φ 2 →
        ∃ (y : Obj ℝ) (φ' : Fin C.n → ℤ), WordCt.switchModulus p p' q q' (Q.bScale C.n) x t = .ok y ∧
          Sound ⟨C.w, N', C.l, psi'⟩ p' (fun i => res p' N' (k'.key.getD i 0)) y φ' 2 ∧
          (∀ i, φ' i ≡ φ i [ZMOD t]) ∧
          (∀ i, |(φ' i : ℝ) - N' / C.q * φ i| ≤ y.error - N' / C.q * x.error) ∧
          ((∀ i, |(φ i : ℝ)| ≤ x.error) → (∀ i, |(φ' i : ℝ)| ≤ y.error) ∧
            (2 * y.error < N' → Word.decrypt k' ⟨y.c, y.power, 0⟩ = .ok (List.ofFn fun i => (φ i % t).toNat))) := by
  haveI : NeZero C.q := hC.ok.neZero
  haveI : NeZero N' := hD.ok.neZero
  have gD : Good p' C.w N' := hD.good
  have ht2 : 2 ≤ t := by have : 1 ≤ 2 ^ k.logT := Nat.one_le_two_pow; omega
  have hn2 : 2 ≤ C.n := by
    unfold Ctx.n
    calc 2 = 2 ^ 1 := rfl
      _ ≤ _ := Nat.pow_le_pow_right (by norm_num) tb.l1
  obtain ⟨S, c1, c2, c3⟩ := hk
  rw [kp, kq] at c1
  have hkS := (hasCoeffs_iff hC.good hC.ok.prime tb (kv.rep (p := p))).mp c1
  have hrep : Poly.Rep p C.q C.n k.key (C.toNtt (modq C.q S)) := by
    show Poly.Rep p C.q C.n k.key (ntt C.psi C.l fun i => (S i : ZMod C.q))
    rw [hkS]
    exact kv.rep
  obtain ⟨key, k1, k2⟩ := switchKey_word hC tb hD tb' hNN kp kq (by omega) (by rw [kt]; exact hmod) c2 hrep
  refine ⟨_, k1, fun x φ hx => ?_⟩
  obtain ⟨X, x1, x2, x3, x4⟩ := hx
  have hS0 : (fun i : Fin C.n => res p C.q (k.key.getD i 0)) = C.toNtt (modq C.q S) := hkS.symm
  rw [hS0] at x2
  obtain ⟨X', φ', e1, e2, e3, e4, e5⟩ := c24_switch_modulus_partial (D := ⟨C.w, N', C.l, psi'⟩) hC.ok hD.ok rfl hNN
    (show 0 < t by omega) hT.le hmod S X.ct x2
  have ha := c72_switch hC tb hD tb' rfl rfl (Q := Q) x1 t
  unfold ErrorTrack.switchModulus at ha
  rw [e1, Outcome.bind_ok] at ha
  obtain ⟨y, y1, y2⟩ := ha
  have hlen : X'.c.length = 2 := by
    unfold Sym.switchModulus at e1
    rw [if_neg (by omega), if_neg (by simpa using hmod)] at e1
    rw [← Outcome.ok.inj e1]
    simpa using x4
  have hS' : (fun i : Fin C.n => res p' N' (key.getD i 0)) = ntt psi' C.l (modq N' S) := funext fun i => k2.val i
  have hq0 : (0 : ℝ) < C.q := by exact_mod_cast hC.ok.prime.pos
  have hroom := scale_room ht2 hn2 hQ h64 c3
  have hyerr : y.error = N' / C.q * x.error + Q.bScale C.n := by
    rw [y2.error, x1.error]
  have hbound : ∀ i, |(φ' i : ℝ) - N' / C.q * φ i| ≤ Q.bScale C.n := fun i => by
    have h1 := e5 i
    rw [x4, Finset.sum_range_succ, Finset.sum_range_one, pow_zero, pow_one] at h1
    have h2 : ((|(C.q : ℤ) * φ' i - N' * φ i| : ℤ) : ℝ) ≤ ((C.q * ((t + 1) / 2 + 1 : ℕ) * (1 + norm1 S) : ℤ) : ℝ) := by
      exact_mod_cast h1
    have h3 : ((norm1 S : ℤ) : ℝ) = ∑ i, |(S i : ℝ)| := by unfold norm1; push_cast; rfl
    rw [Int.cast_abs, Int.cast_mul, Int.cast_mul, Int.cast_add, h3] at h2
    have h4 : (C.q : ℝ) * |(φ' i : ℝ) - N' / C.q * φ i| = |(((C.q : ℤ) * φ' i - N' * φ i : ℤ) : ℝ)| := by
      rw [← abs_of_pos hq0, ← abs_mul, abs_of_pos hq0]
      congr 1
      push_cast
      field_simp
    rw [← mul_le_mul_iff_right₀ hq0, h4]
    refine h2.trans ?_
    simp only [Int.cast_natCast, Int.cast_one]
    rw [mul_assoc]
    exact mul_le_mul_of_nonneg_left hroom hq0.le
  refine ⟨y, φ', y1, ⟨⟨X', _⟩, y2, ?_, e2.trans x3, hlen⟩, fun i => e4 i, fun i => ?_, fun hφ => ?_⟩
  · show Noisy (C := ⟨C.w, N', C.l, psi'⟩) (fun i : Fin C.n => res p' N' (key.getD i 0)) X' φ'
    rw [hS']
    exact e3
  · rw [hyerr, add_sub_cancel_left]
    exact hbound i
  have hsmall : ∀ i, |(φ' i : ℝ)| ≤ y.error := fun i => by
    have h1 := hbound i
    have h2 : |(N' : ℝ) / C.q * φ i| ≤ N' / C.q * x.error := by
      rw [abs_mul, abs_of_nonneg (by positivity : (0 : ℝ) ≤ N' / C.q)]
      exact mul_le_mul_of_nonneg_left (hφ i) (by positivity)
    have h3 := abs_add_le ((φ' i : ℝ) - N' / C.q * φ i) (N' / C.q * φ i)
    rw [sub_add_cancel] at h3
    rw [hyerr]
    linarith
  refine ⟨hsmall, fun hfit => ?_⟩
  have hTm : Mont.exportInt p' (Mont.importInt p' (2 ^ k.logT + 1)) = t := by
    refine (export_import gD _ (by have := gD.lt; omega)).trans ?_
    rw [kt, Nat.mod_eq_of_lt hT]
  rw [Word.decrypt_word hD.good hD.ok.prime tb' _ rfl rfl k2 hTm (by omega) hT.le ⟨y.c, y.power, 0⟩ y2.c]
  congr 2
  funext j
  have hph : ntt psi' C.l (modq N' φ') = phase (ntt psi' C.l (modq N' S)) X'.c := e3
  rw [← hph, intt_ntt hD.ok.prime hD.good.odd tb'.root (by have := tb'.l15; omega)]
  have hsm : 2 * |φ' j| < N' := by
    have h2 : (2 : ℝ) * |(φ' j : ℝ)| < N' := lt_of_le_of_lt (mul_le_mul_of_nonneg_left (hsmall j) (by norm_num)) hfit
    exact_mod_cast h2
  show (centered N' ((φ' j : ℤ) : ZMod N') % (t : ℤ)).toNat = _
  have h3 := le_abs_self (φ' j)
  have h4 := neg_abs_le (φ' j)
  rw [centered_eq N' _ (by omega) (by omega), (e4 j).eq]
  rfl

/-- **C107.** As in C106, plaintexts are encrypted one after the other under a short secret key, and keys are made, from
independent and uniformly distributed bytes. The secret key can be switched to the smaller modulus `N'`, and this bounds the
probability that all ciphertexts and keys are returned, and that there is any circuit as in C106 with a result of two
components which fails, or the result of which cannot be switched to `N'`, or becomes a ciphertext with twice its `Error()`
below `N'` that does not decrypt, under the new key, to the circuit evaluated on the messages. -/
theorem c107_program {w N N' : ℕ} (h : create w N = .ok p) (hw : w ≤ 128) (hp : N.Prime) {l : ℕ} (hq : initNtt p l = .ok q)
    (h' : create w N' = .ok p') (hp' : N'.Prime) (hq' : initNtt p' l = .ok q') (hNN : N' ≤ N)
    (G : Gen σ) {variance logT : ℕ} {s s' : σ} {k : Word.Key}
    (hk : Word.Key.sample G p q l variance logT s = .ok (k, s')) (hT : 2 ^ logT + 1 < N') (hT64 : 2 ^ logT + 1 < 2 ^ 64)
    (hmod : N % (2 ^ logT + 1) = N' % (2 ^ logT + 1)) {T : ℕ} (hTe : T = 2 ^ logT + 1)
    (hshort : ShortKey N (2 ^ l) k (8 / √3 * (2 * T / (T + 3)) * 2 ^ l))
    (hvar : 0 < variance) (hN : 4 * variance < N) {P Q : ErrorParams} (hPt : P.t = 2 ^ logT + 1)
    (hPv : P.variance = variance) (hPl : P.logModulus = p.logModulus) (hQt : Q.t = 2 ^ logT + 1)
    {pts : List (List ℕ)} (m : ℕ → Fin (2 ^ l) → ℕ)
    (hsize : ∀ i < pts.length, SizeAtMost (fun j => (m i j : ℤ)) (P.bPlaintext (2 ^ l)))
    (hpt : ∀ i < pts.length, ValidPoly N (2 ^ l) (pts.getD i []))
    (hpt' : ∀ i < pts.length, HasCoeffs p q N (2 ^ l) (pts.getD i []) fun j => (m i j : ZMod N))
    (g : ℕ → Fin (2 ^ l) → ℤ) (hg : ∀ j, SizeAtMost (g j) (P.bPlaintext (2 ^ l))) {f : ℕ → List ℕ}
    (hf : ∀ i, ValidPoly N (2 ^ l) (f i)) (hf' : ∀ i, HasCoeffs p q N (2 ^ l) (f i) fun j => (g i j : ZMod N))
    (fuel bits : ℕ) (prng : PrngType) (parts : ℕ) {b : ℕ} (hb : b < 31) (pw : ℕ → ℕ) (seed : List ℕ) (seeds : ℕ → List ℕ)
    (ng : ℕ) (L : Fin 2 ⊕ Fin ng → ℕ) :
    ∃ k', k.switchModulus p' q' = .ok k' ∧
    tapesProbability L (fun t => ∃ xs s rk, ∃ gk : ℕ → Word.RKey, encryptAll bytesSource fuel k bits pts (t (.inl 0)) = .ok (xs, s) ∧
      Word.RKey.create tapeRng fuel k prng parts b 1 seed ((t (.inl 1)).map Fin.val) = .ok rk ∧
      (∀ j : Fin ng, Word.galoisCreate tapeRng fuel k prng (pw j) b (seeds j) ((t (.inr j)).map Fin.val) = .ok (gk j)) ∧
      ∃ u : WordCircuit, u.Fits w parts ∧ u.SwitchesLast ∧ u.Within pts.length ng N ∧ u.len = 2 ∧
        ¬ ∃ y z, u.run ⟨p, P.bPlaintext (2 ^ l), WordCt.relinearize rk (P.bRelinearize (2 ^ l)),
            fun i => substituteAndSwitch q (P.bRelinearize (2 ^ l)) (gk i), freshObj P (2 ^ l) xs, f⟩ = .ok y ∧
          WordCt.switchModulus p p' q q' (Q.bScale (2 ^ l)) y (2 ^ logT + 1) = .ok z ∧
          (2 * z.error < N' → Word.decrypt k' ⟨z.c, z.power, 0⟩ =
            .ok (List.ofFn fun j => (u.eval pw (fun i j => (m i j : ℤ)) g j % (2 ^ logT + 1)).toNat))) ≤
      pts.length * (8 * 2 ^ l * exp (-30)) +
        exp (-(9 * 2 ^ l * ((parts - 2) * ((p.logModulus + (b - 1)) / b) : ℕ))) +
        ng * exp (-(9 * 2 ^ l * ((p.logModulus + (b - 1)) / b : ℕ))) := by
  subst hTe
  haveI : NeZero N := ⟨hp.ne_zero⟩
  obtain ⟨k1, k2, k3, k4, k5, k6, k7, k8⟩ := sample_word G h hp hq hk (by omega)
  obtain ⟨psi, hC, tb⟩ := fit_of_create h hw hp hq
  obtain ⟨psi', hD, tb'⟩ := fit_of_create h' hw hp' hq'
  obtain ⟨k', e1, e2⟩ := c107_switch (C := ⟨w, N, l, psi⟩) hC tb hD tb' hNN k1 k2 k6 (t := 2 ^ logT + 1) (by rw [k5]) hT hT64
    hmod (by
      have : (((⟨w, N, l, psi⟩ : Ctx).n : ℕ) : ℝ) = 2 ^ l := by unfold Ctx.n; push_cast; rfl
      rw [this]
      exact hshort) hQt
  refine ⟨k', e1, (tapesProbability_mono L ?_).trans (program_quiet h hw hp hq hC tb G hk (by omega) hT64 hvar hN hPt hPv hPl m
    hsize hpt hpt' g hg hf hf' fuel bits prng parts hb pw seed seeds ng L)⟩
  rintro t ⟨xs, s, rk, gk, h1, h2, h3, u, hu, hl, hwi, hlen, hbad⟩
  refine ⟨xs, s, rk, gk, h1, h2, h3, u, hu, hl, hwi, ?_⟩
  rintro ⟨y, φ, y1, y2, y3, y4⟩
  rw [hlen] at y2
  obtain ⟨z, φ', z1, -, -, -, z5⟩ := e2 y φ y2
  refine hbad ⟨y, z, y1, z1, fun hz => ?_⟩
  rw [(z5 y4).2 hz]
  congr 2
  funext j
  rw [(ZMod.intCast_eq_intCast_iff' _ _ _).mp (congrFun y3 j)]
  norm_cast

end Shell
