import Verif.Model.WordAux
import Verif.Props.AuxKey
import Verif.Props.ErrorTrack
/-!
# Property C65: the error estimate of key switching with an auxiliary modulus
-/

namespace Shell
open Spec NttRing Sym AuxKey Finset ErrorTrack
variable {C : Ctx} {p : ℕ} {psi : ZMod p}

/-- Dividing by `p`: a polynomial whose `p`-fold has size `p B` has size `B`. -/
theorem size_div {n m : ℕ} (hm : 0 < m) {f g : Fin n → ℤ} {B : ℝ} (hg : SizeAtMost g (m * B))
    (h : ∀ i, (m : ℤ) * f i = g i) : SizeAtMost f B := fun z hz => by
  have h1 := hg z hz
  have e : g = fun i => (m : ℤ) * f i := funext fun i => (h i).symm
  have hm' : (0 : ℝ) < m := by exact_mod_cast hm
  rw [e, valueAt_smul, norm_mul, Complex.norm_intCast, Int.cast_natCast, abs_of_pos hm'] at h1
  exact le_of_mul_le_mul_left h1 hm'

/-- C65 (partial: the products of key errors and components, and the rounding terms, must have the sizes the estimate
assumes): applying a relinearization or Galois key with an auxiliary modulus.  `U0` and `U1` are the rounding terms of the
two components. -/
theorem c65_aux_partial (h : C.Ok) (hD : (aux C p psi).Ok) (hpq : p ≠ C.q) (hp64 : p < 2 ^ 64) (P : ErrorParams)
    (hP : P.t < 2 ^ 64) (hlog : P.logModulus = C.logModulus) (k : Key C) (ht : k.tUnderQ.val = P.t) (hpt : ¬ p ∣ P.t)
    (prng : PrngType) (degree power : ℤ) (padsMain : ℕ → C.Poly) (padsAux : ℕ → (aux C p psi).Poly)
    (E : ℕ → Fin C.n → ℤ) (hE : ∀ u i, 2 * |E u i| < C.q) {ak : AKey C p}
    (hak : AuxKey.create psi k prng degree power padsMain padsAux (fun u => modq C.q (E u)) = .ok ak)
    {x : Tracked C} {φ : Fin C.n → ℤ} (hx : Estimated k.key x φ) (hpw : x.ct.power = power)
    (hlen : (x.ct.c.length : ℤ) = degree + 1)
    (hsz : ∀ u, SizeAtMost (negMul (E u) (fun i => centered C.q
      (C.fromNtt (x.ct.c.getD ((if power = 1 then 2 else 1) + u) 0) i))) (6 * P.sigma * C.n * 2 ^ C.logModulus)) :
    ∃ (r : Tracked C) (φ' U0 U1 : Fin C.n → ℤ), auxRelinearize P psi ak x = .ok r ∧ r.ct.power = 1 ∧ (∀ i, φ' i ≡ φ i [ZMOD P.t]) ∧
      (∀ i, |U0 i| ≤ p / 2) ∧ (∀ i, |U1 i| ≤ p / 2) ∧
      (SizeAtMost (U0 + negMul (fun i => centered C.q (C.fromNtt k.key i)) U1) (p * (6 * P.sigma * √C.n)) →
        Estimated k.key r φ') := by
  have hφ := hx.noisy
  rw [hpw] at hφ
  have hp0 : 0 < p := hD.prime.pos
  obtain ⟨r, V, U0, U1, e1, e2, e3, e4, e5, e6, e7⟩ := c30_apply h hD hpq k (by rw [ht]; exact hpt) prng degree power
    padsMain padsAux E hE hak x.ct hlen hφ
  have akp : ak.power = power := by
    unfold AuxKey.create at hak
    obtain ⟨_, hak⟩ | ⟨_, hak⟩ := ite_eq_iff.mp hak
    · cases hak
    obtain ⟨_, hak⟩ | ⟨_, hak⟩ := ite_eq_iff.mp hak
    · cases hak
    obtain ⟨_, hak⟩ | ⟨_, hak⟩ := ite_eq_iff.mp hak
    · cases hak
    obtain ⟨_, -, hak⟩ := Outcome.bind_eq_ok.mp hak
    cases hak
    rfl
  unfold auxRelinearize
  rw [e1, Outcome.bind_ok, akp, Outcome.pure_eq]
  refine ⟨_, fun v => φ v + P.t * V v, U0, U1, rfl, e3, fun i => ?_, e5, e6, fun hU => ?_⟩
  · exact (Int.modEq_iff_dvd.mpr (by rw [add_sub_cancel_left]; exact dvd_mul_right _ _) :
      φ i ≡ φ i + (P.t : ℤ) * V i [ZMOD P.t]).symm
  have hn1 : 1 ≤ C.n := Nat.one_le_two_pow
  refine ⟨List.length_pos_iff.mp (by show 0 < r.c.length; omega), by show r.power % 2 = 1; rw [e3]; rfl,
    by show 0 < r.power; omega,
    by show r.power < _; rw [e3]; have : (1 : ℤ) ≤ (C.n : ℤ) := by exact_mod_cast hn1
       omega, ?_, ?_⟩
  · show Noisy (subst C.l r.power.toNat k.key) r _
    rw [e3, show (1 : ℤ).toNat = 1 from rfl, subst_id h.l32, ← ht]
    exact e4
  · set cnt := x.ct.c.length - (if power = 1 then 2 else 1) with hcnt
    have hW := Spec.SizeAtMost.sub (size_sum (range cnt) _ _ fun u _ => hsz u) hU
    have hV : SizeAtMost V (6 * P.sigma * (C.n * (2 ^ C.logModulus / p) * cnt + √C.n)) := by
      refine size_div hp0 (hW.mono (le_of_eq ?_)) fun v => ?_
      · have : (p : ℝ) ≠ 0 := by exact_mod_cast hp0.ne'
        rw [card_range]
        field_simp
      · rw [e7 v]
        simp only [Pi.sub_apply, Pi.add_apply]
        ring
    refine Spec.SizeAtMost.mono (hx.size.add (hV.smul (P.t : ℤ))) (le_of_eq ?_)
    dsimp only
    unfold ErrorParams.bAux ErrorParams.exportT
    rw [Nat.mod_eq_of_lt hP, Nat.mod_eq_of_lt hp64, hlog, Int.cast_natCast, abs_of_nonneg (Nat.cast_nonneg _)]
    ring

/-- C65 without conditions on sampled sizes: if the coefficients of the key errors are at most `12 σ / n` and the
coefficients of the key sum to at most `12 σ / sqrt n - 1`, the estimate is a bound for every ciphertext. -/
theorem c65_aux_small (h : C.Ok) (hD : (aux C p psi).Ok) (hpq : p ≠ C.q) (hp64 : p < 2 ^ 64) (P : ErrorParams)
    (hP : P.t < 2 ^ 64) (hlog : P.logModulus = C.logModulus) (k : Key C) (ht : k.tUnderQ.val = P.t) (hpt : ¬ p ∣ P.t)
    (prng : PrngType) (degree power : ℤ) (padsMain : ℕ → C.Poly) (padsAux : ℕ → (aux C p psi).Poly)
    (E : ℕ → Fin C.n → ℤ) {B : ℤ} (hB : ∀ u i, |E u i| ≤ B) (hBq : 2 * B < C.q) {ak : AKey C p}
    (hak : AuxKey.create psi k prng degree power padsMain padsAux (fun u => modq C.q (E u)) = .ok ak)
    {x : Tracked C} {φ : Fin C.n → ℤ} (hx : Estimated k.key x φ) (hpw : x.ct.power = power)
    (hlen : (x.ct.c.length : ℤ) = degree + 1) (hq2 : C.q ≤ 2 ^ C.logModulus) (hsm : (C.n : ℝ) * B ≤ 12 * P.sigma)
    (hs : (1 + norm1 (fun i => centered C.q (C.fromNtt k.key i)) : ℝ) * √C.n ≤ 12 * P.sigma) :
    ∃ r φ', auxRelinearize P psi ak x = .ok r ∧ r.ct.power = 1 ∧ (∀ i, φ' i ≡ φ i [ZMOD P.t]) ∧
      Estimated k.key r φ' := by
  haveI := h.neZero
  have hn0 : C.n ≠ 0 := (Nat.two_pow_pos _).ne'
  have hB0 : (0 : ℝ) ≤ B := by exact_mod_cast (abs_nonneg _).trans (hB 0 ⟨0, Nat.two_pow_pos _⟩)
  have hσ : 0 ≤ P.sigma := Real.sqrt_nonneg _
  obtain ⟨r, φ', U0, U1, e1, e2, e3, e4, e5, e6⟩ := c65_aux_partial h hD hpq hp64 P hP hlog k ht hpt prng degree power
    padsMain padsAux E (fun u i => by have := hB u i; omega) hak hx hpw hlen (fun u => by
      have h1 : SizeAtMost (E u) (C.n * B) := size_of_coeff hn0 fun i => by exact_mod_cast hB u i
      have h2 : SizeAtMost (fun i => centered C.q (C.fromNtt (x.ct.c.getD ((if power = 1 then 2 else 1) + u) 0) i))
          (C.n * (C.q / 2)) := size_of_coeff hn0 fun i => by
        have h3 : |lift C (x.ct.c.getD ((if power = 1 then 2 else 1) + u) 0) i| ≤ ((C.q / 2 : ℕ) : ℤ) := by
          exact_mod_cast lift_bound h (x.ct.c.getD ((if power = 1 then 2 else 1) + u) 0) i
        have h4 : ((|lift C (x.ct.c.getD ((if power = 1 then 2 else 1) + u) 0) i| : ℤ) : ℝ) ≤ ((C.q / 2 : ℕ) : ℝ) := by
          rw [← Int.cast_natCast (R := ℝ)]
          exact Int.cast_le.mpr h3
        have h5 : ((C.q / 2 : ℕ) : ℝ) ≤ (C.q : ℝ) / 2 := Nat.cast_div_le
        rw [Int.cast_abs] at h4
        exact h4.trans h5
      refine (h1.mul h2).mono ?_
      have h6 : (C.q : ℝ) ≤ 2 ^ C.logModulus := by exact_mod_cast hq2
      have h7 : (C.n : ℝ) * B * (C.n * (C.q / 2)) ≤ 12 * P.sigma * (C.n * (2 ^ C.logModulus / 2)) := by
        apply mul_le_mul hsm _ (by positivity) (by positivity)
        apply mul_le_mul_of_nonneg_left _ (by positivity)
        linarith
      exact h7.trans (le_of_eq (by ring)))
  refine ⟨r, φ', e1, e2, e3, e6 ?_⟩
  have hU : ∀ U : Fin C.n → ℤ, (∀ i, |U i| ≤ p / 2) → SizeAtMost U (C.n * ((p : ℝ) / 2)) := fun U hU =>
    size_of_coeff hn0 fun i => by
      have h3 : |U i| ≤ ((p / 2 : ℕ) : ℤ) := by exact_mod_cast hU i
      have h4 : ((|U i| : ℤ) : ℝ) ≤ ((p / 2 : ℕ) : ℝ) := by
        rw [← Int.cast_natCast (R := ℝ)]
        exact Int.cast_le.mpr h3
      have h5 : ((p / 2 : ℕ) : ℝ) ≤ (p : ℝ) / 2 := Nat.cast_div_le
      rw [Int.cast_abs] at h4
      exact h4.trans h5
  have hsz := (hU U0 e4).add ((size_le_sum hn0 (fun i => centered C.q (C.fromNtt k.key i))).mul (hU U1 e5))
  refine hsz.mono ?_
  have hN : (norm1 (fun i => centered C.q (C.fromNtt k.key i)) : ℝ) =
      ∑ i, |((centered C.q (C.fromNtt k.key i) : ℤ) : ℝ)| := by
    unfold norm1
    push_cast
    rfl
  rw [← hN]
  have hsq : (C.n : ℝ) = √C.n * √C.n := (Real.mul_self_sqrt (Nat.cast_nonneg _)).symm
  have h8 := mul_le_mul_of_nonneg_right hs (Real.sqrt_nonneg (C.n : ℝ))
  rw [mul_assoc, ← hsq] at h8
  have h9 := mul_le_mul_of_nonneg_left h8 (show (0 : ℝ) ≤ (p : ℝ) / 2 by positivity)
  refine le_trans (le_of_eq ?_) (h9.trans (le_of_eq ?_)) <;> ring

/-- The hypotheses are met: the auxiliary modulus 257 and a key with errors `-X` (`q = 12289`, `t = 5`, variance 8), for
every product of two ciphertexts with an estimate. -/
example (x : Tracked exCtx2) (φ : Fin exCtx2.n → ℤ) (hlen : x.ct.c.length = 3) (hpw : x.ct.power = 1) :
    ∃ (k : Key exCtx2) (ak : AKey exCtx2 257), Key.sample ![1, 12288] 8 2 = .ok k ∧
      AuxKey.create (p := 257) 16 k .hkdf 2 1 (fun _ => ![100, 77]) (fun _ => ![5, 250])
        (fun _ => modq exCtx2.q ![0, -1]) = .ok ak ∧
      (Estimated k.key x φ → ∃ r φ', auxRelinearize ⟨5, 8, 14⟩ (16 : ZMod 257) ak x = .ok r ∧ r.ct.power = 1 ∧
        (∀ i, φ' i ≡ φ i [ZMOD 5]) ∧ Estimated k.key r φ') := by
  obtain ⟨k, k1, k2, k3, k4, k5, k6⟩ := sample_ok exCtx2_ok ![1, 12288] 8 2 (by decide)
  obtain ⟨ak, hak⟩ := (c30_create (psi := (16 : ZMod 257)) k .hkdf 2 1 (fun _ => ![100, 77]) (fun _ => ![5, 250])
    (fun _ => modq exCtx2.q ![0, -1])).mpr (by decide)
  refine ⟨k, ak, k1, hak, fun hx => ?_⟩
  have a1 : (2.8 : ℝ) ≤ √((8 : ℕ) : ℝ) := Real.le_sqrt_of_sq_le (by norm_num)
  have a2 : √((exCtx2.n : ℕ) : ℝ) ≤ 1.5 := Real.sqrt_le_iff.mpr ⟨by norm_num, by norm_num [exCtx2, Ctx.n]⟩
  have hfr : exCtx2.fromNtt k.key = ![1, 12288] := by
    rw [k2]
    exact fromNtt_toNtt exCtx2_ok _
  exact c65_aux_small exCtx2_ok ⟨by norm_num [aux], by norm_num [aux], by decide, by decide, by decide, by decide⟩
    (by decide) (by norm_num) ⟨5, 8, 14⟩ (by norm_num) (by decide +kernel) k (by rw [k5]; decide) (by decide) .hkdf 2 1 _ _
    (fun _ => ![0, -1]) (B := 1) (fun _ => by decide) (by decide) hak hx hpw (by omega) (by decide +kernel)
    (by unfold ErrorParams.sigma; norm_num [exCtx2, Ctx.n] at a1 ⊢; linarith)
    (by
      rw [hfr]
      have : norm1 (n := exCtx2.n) (fun i => centered exCtx2.q ((![1, 12288] : Fin 2 → ZMod 12289) i)) = 2 := by
        decide +kernel
      have e : (norm1 (n := exCtx2.n) (fun i => centered exCtx2.q ((![1, 12288] : Fin 2 → ZMod 12289) i)) : ℝ) = 2 := by
        rw [this]; norm_num
      refine le_trans (le_of_eq (congrArg (fun y : ℝ => (1 + y) * √exCtx2.n) e)) ?_
      unfold ErrorParams.sigma
      dsimp only
      push_cast at *
      linarith)

end Shell
