import Verif.Lemmas.GaussianConv
import Verif.Props.GaussianTable
import Verif.Props.GaussianParams
import Mathlib.Data.Fin.Tuple.Basic
import Mathlib.Logic.Equiv.Fin.Basic
/-!
# Combinations of independent words

Averages over lists of independent, uniformly random words, and how the distance to a discrete Gaussian distribution
grows when two samples are combined.
-/

namespace Shell.Sampler
open Spec Real

/-- The average of a function over all lists of `n` numbers below `M`. -/
noncomputable def average (M n : ℕ) (F : List ℕ → ℝ) : ℝ :=
  (∑ us : Fin n → Fin M, F (List.ofFn fun i => (us i : ℕ))) / (M : ℝ) ^ n

theorem average_const {M n : ℕ} (hM : 0 < M) (c : ℝ) : average M n (fun _ => c) = c := by
  unfold average
  rw [Finset.sum_const, Finset.card_univ, Fintype.card_fun, Fintype.card_fin, Fintype.card_fin, nsmul_eq_mul]
  have : (M : ℝ) ≠ 0 := by positivity
  push_cast
  rw [mul_div_assoc, mul_div_cancel₀]
  positivity

theorem average_sub (M n : ℕ) (F G : List ℕ → ℝ) :
    average M n F - average M n G = average M n fun us => F us - G us := by
  unfold average
  rw [← sub_div, Finset.sum_sub_distrib]

theorem average_abs_le {M n : ℕ} (hM : 0 < M) {F : List ℕ → ℝ} {B : ℝ} (h : ∀ us, |F us| ≤ B) :
    |average M n F| ≤ B := by
  rw [← average_const (n := n) hM B]
  unfold average
  rw [abs_div, abs_of_nonneg (by positivity : (0 : ℝ) ≤ (M : ℝ) ^ n)]
  refine div_le_div_of_nonneg_right ((Finset.abs_sum_le_sum_abs _ _).trans ?_) (by positivity)
  exact Finset.sum_le_sum fun us _ => h _

theorem average_congr {M n : ℕ} {F G : List ℕ → ℝ} (h : ∀ us : List ℕ, us.length = n → F us = G us) :
    average M n F = average M n G := by
  unfold average
  congr 1
  exact Finset.sum_congr rfl fun us _ => h _ (List.length_ofFn ..)

theorem average_append (M n m : ℕ) (F : List ℕ → ℝ) :
    average M (n + m) F = average M m fun vs => average M n fun us => F (us ++ vs) := by
  unfold average
  rw [← Finset.sum_div, div_div, pow_add, Finset.sum_comm,
    ← Fintype.sum_equiv (Fin.appendEquiv n m) (fun q : (Fin n → Fin M) × (Fin m → Fin M) =>
      F ((List.ofFn fun i => (q.1 i : ℕ)) ++ List.ofFn fun i => (q.2 i : ℕ))) _ ?_, Fintype.sum_prod_type]
  intro q
  rw [← List.ofFn_fin_append]
  congr 1
  congr 1
  funext i
  refine Fin.addCases (fun j => ?_) (fun j => ?_) i
  · simp [Fin.appendEquiv]
  · simp [Fin.appendEquiv]

theorem average_one (M : ℕ) (F : List ℕ → ℝ) : average M 1 F = (∑ u ∈ Finset.range M, F [u]) / M := by
  unfold average
  rw [pow_one, Finset.sum_range, Fintype.sum_equiv (Equiv.funUnique (Fin 1) (Fin M))]
  intro us
  simp

/-- The average of a function of the values, by values. -/
theorem average_values (M n : ℕ) {α : Type} [DecidableEq α] (val : List ℕ → α) (T : Finset α) (φ : α → ℝ)
    (hφ : ∀ x ∉ T, φ x = 0) :
    average M n (fun us => φ (val us)) =
      ∑ x ∈ T, average M n (fun us => if val us = x then 1 else 0) * φ x := by
  unfold average
  simp_rw [div_mul_eq_mul_div]
  rw [← Finset.sum_div]
  congr 1
  simp_rw [Finset.sum_mul]
  rw [Finset.sum_comm]
  refine Finset.sum_congr rfl fun us _ => ?_
  simp_rw [ite_mul, one_mul, zero_mul]
  rw [Finset.sum_ite_eq]
  split_ifs with h
  · rfl
  · exact hφ _ h

/-- The values of lists of `n` words are distributed like the discrete Gaussian distribution with deviation `s`, up
to `Δ` for every test. -/
def CloseTo (M n : ℕ) (val : List ℕ → ℤ) (s Δ : ℝ) : Prop :=
  ∀ φ : ℤ → ℝ, (∀ x, |φ x| ≤ 1) →
    |average M n (fun us => φ (val us)) - ∑' x, discreteGaussian s x * φ x| ≤ Δ

/-- From tests to the sum of the differences of the probabilities. -/
theorem CloseTo.distance {M n : ℕ} {val : List ℕ → ℤ} {s Δ : ℝ} (h : CloseTo M n val s Δ) (T : Finset ℤ) :
    ∑ x ∈ T, |average M n (fun us => if val us = x then 1 else 0) - discreteGaussian s x| ≤ Δ := by
  classical
  set P : ℤ → ℝ := fun x => average M n (fun us => if val us = x then 1 else 0) with hP
  set φ : ℤ → ℝ := fun x => if x ∈ T then (if 0 ≤ P x - discreteGaussian s x then 1 else -1) else 0 with hφ
  have h1 : ∀ x, |φ x| ≤ 1 := by
    intro x
    rw [hφ]
    dsimp only
    split_ifs <;> norm_num
  have h0 : ∀ x ∉ T, φ x = 0 := fun x hx => if_neg hx
  have := h φ h1
  rw [average_values M n val T φ h0, tsum_eq_sum (s := T) (fun x hx => by rw [h0 x hx, mul_zero]),
    ← Finset.sum_sub_distrib] at this
  refine le_trans (le_of_eq ?_) ((le_abs_self _).trans this)
  refine Finset.sum_congr rfl fun x hx => ?_
  have e : φ x = if 0 ≤ P x - discreteGaussian s x then 1 else -1 := if_pos hx
  rw [e]
  show |P x - _| = P x * _ - _
  rw [← sub_mul]
  split_ifs with hs
  · rw [abs_of_nonneg hs, mul_one]
  · rw [abs_of_neg (not_le.mp hs)]; ring

/-- The combination of two samples. -/
theorem CloseTo.combine {M n : ℕ} (hM : 0 < M) {val val' : List ℕ → ℤ} {s Δ : ℝ} (h : CloseTo M n val s Δ) {a b : ℕ}
    (hab : Nat.Coprime a b) (hs3 : 3 ≤ s) (hsm : 9 * ((a : ℝ) ^ 2 + (b : ℝ) ^ 2) ≤ s ^ 2)
    (hval : ∀ us vs : List ℕ, us.length = n → vs.length = n → val' (us ++ vs) = a * val us + b * val vs) :
    CloseTo M (n + n) val' (s * √((a : ℝ) ^ 2 + (b : ℝ) ^ 2)) (2 * Δ + 2 ^ (-70 : ℤ)) := by
  intro φ hφ
  have hs0 : 0 < s := by linarith
  set D := discreteGaussian s with hD
  set ψ : ℤ → ℝ := fun y => ∑' x, D x * φ (b * y + a * x) with hψ
  have hψ1 : ∀ y, |ψ y| ≤ 1 := fun y => dg_mean_le hs0 le_rfl fun x => hφ _
  have e0 : average M (n + n) (fun us => φ (val' us)) =
      average M n fun vs => average M n fun us => φ (b * val vs + a * val us) := by
    rw [average_append]
    refine average_congr fun vs hvs => average_congr fun us hus => ?_
    rw [hval us vs hus hvs, add_comm]
  have e1 : |average M (n + n) (fun us => φ (val' us)) - average M n (fun vs => ψ (val vs))| ≤ Δ := by
    rw [e0, average_sub]
    exact average_abs_le hM fun vs => h (fun x => φ (b * val vs + a * x)) fun x => hφ _
  have e2 := h ψ hψ1
  have e3 := gauss_combine (s := s) (a := (b : ℤ)) (b := (a : ℤ))
    (Nat.isCoprime_iff_coprime.mpr hab.symm) hs3
    (by push_cast; linarith) hφ
  push_cast at e3
  rw [add_comm ((b : ℝ) ^ 2)] at e3
  generalize (2 : ℝ) ^ (-70 : ℤ) = ε at e3 ⊢
  have t1 := abs_sub_le (average M (n + n) (fun us => φ (val' us))) (average M n (fun vs => ψ (val vs)))
    (∑' x, discreteGaussian (s * √((a : ℝ) ^ 2 + (b : ℝ) ^ 2)) x * φ x)
  have t2 := abs_sub_le (average M n (fun vs => ψ (val vs))) (∑' y, D y * ψ y)
    (∑' x, discreteGaussian (s * √((a : ℝ) ^ 2 + (b : ℝ) ^ 2)) x * φ x)
  linarith

/-! ### Several samples -/

/-- The mean of a function of `k` independent samples of the discrete Gaussian distribution. -/
noncomputable def meanOf (s : ℝ) : ℕ → (List ℤ → ℝ) → ℝ
  | 0, φ => φ []
  | k + 1, φ => meanOf s k fun xs => ∑' x, discreteGaussian s x * φ (x :: xs)

theorem meanOf_sum {s : ℝ} (hs : 0 < s) {ι : Type} (T : Finset ι) (c : ι → ℝ) (k : ℕ) {f : ι → List ℤ → ℝ}
    (hf : ∀ t xs, |f t xs| ≤ 1) :
    meanOf s k (fun xs => ∑ t ∈ T, c t * f t xs) = ∑ t ∈ T, c t * meanOf s k (f t) := by
  induction k generalizing f with
  | zero => rfl
  | succ k ih =>
    rw [meanOf]
    have e : (fun xs => ∑' x, discreteGaussian s x * ∑ t ∈ T, c t * f t (x :: xs)) =
        fun xs => ∑ t ∈ T, c t * ∑' x, discreteGaussian s x * f t (x :: xs) := by
      funext xs
      have h1 : ∀ t ∈ T, Summable fun x => c t * (discreteGaussian s x * f t (x :: xs)) := fun t _ =>
        (dg_mul_summable hs fun x => hf t (x :: xs)).mul_left _
      simp_rw [← tsum_mul_left]
      rw [← Summable.tsum_finsetSum h1]
      refine tsum_congr fun x => ?_
      rw [Finset.mul_sum]
      exact Finset.sum_congr rfl fun t _ => by ring
    rw [e, ih fun t xs => dg_mean_le hs le_rfl fun x => hf t (x :: xs)]
    rfl

theorem meanOf_single {s : ℝ} (hs : 0 < s) (k : ℕ) {t : List ℤ} (ht : t.length = k) :
    meanOf s k (fun xs => if xs = t then 1 else 0) = (t.map (discreteGaussian s)).prod := by
  induction k generalizing t with
  | zero =>
    obtain rfl := List.length_eq_zero_iff.mp ht
    simp [meanOf]
  | succ k ih =>
    obtain ⟨y, t, rfl⟩ := List.exists_cons_of_length_eq_add_one ht
    rw [meanOf]
    have e : (fun xs => ∑' x, discreteGaussian s x * (if x :: xs = y :: t then (1 : ℝ) else 0)) =
        fun xs => ∑ u ∈ {t}, discreteGaussian s y * (fun (u xs : List ℤ) => if xs = u then (1 : ℝ) else 0) u xs := by
      funext xs
      rw [tsum_eq_single y fun x hx => by rw [if_neg fun h => hx (List.cons.inj h).1, mul_zero],
        Finset.sum_singleton]
      simp
    rw [e, meanOf_sum hs {t} (fun _ => discreteGaussian s y) k
      (fun u xs => by split_ifs <;> norm_num), Finset.sum_singleton, ih (by simpa using ht), List.map_cons,
      List.prod_cons]

/-- Several samples drawn one after the other. -/
theorem CloseTo.several {M n : ℕ} (hM : 0 < M) {val : List ℕ → ℤ} {s Δ : ℝ} (hs : 0 < s) (h : CloseTo M n val s Δ)
    {vals : ℕ → List ℕ → List ℤ} (h0 : vals 0 [] = [])
    (hv : ∀ k (us vs : List ℕ), us.length = n → vals (k + 1) (us ++ vs) = val us :: vals k vs) (k : ℕ)
    {φ : List ℤ → ℝ} (hφ : ∀ xs, |φ xs| ≤ 1) :
    |average M (k * n) (fun us => φ (vals k us)) - meanOf s k φ| ≤ k * Δ := by
  induction k generalizing φ with
  | zero =>
    rw [Nat.zero_mul, meanOf]
    have e : average M 0 (fun us => φ (vals 0 us)) = average M 0 fun _ => φ [] :=
      average_congr fun us hus => by rw [List.length_eq_zero_iff.mp hus, h0]
    rw [e, average_const hM]
    simp
  | succ k ih =>
    rw [meanOf, Nat.succ_mul, Nat.add_comm, average_append]
    set ψ : List ℤ → ℝ := fun xs => ∑' x, discreteGaussian s x * φ (x :: xs) with hψ
    have e1 : (average M (k * n) fun vs => average M n fun us => φ (vals (k + 1) (us ++ vs))) =
        average M (k * n) fun vs => average M n fun us => φ (val us :: vals k vs) :=
      average_congr fun vs _ => average_congr fun us hus => by rw [hv k us vs hus]
    have e2 : |(average M (k * n) fun vs => average M n fun us => φ (val us :: vals k vs)) -
        average M (k * n) (fun vs => ψ (vals k vs))| ≤ Δ := by
      rw [average_sub]
      exact average_abs_le hM fun vs => h (fun x => φ (x :: vals k vs)) fun x => hφ _
    have e3 := ih (φ := ψ) fun xs => dg_mean_le hs le_rfl fun x => hφ _
    rw [e1]
    have t := abs_sub_le (average M (k * n) fun vs => average M n fun us => φ (val us :: vals k vs))
      (average M (k * n) (fun vs => ψ (vals k vs))) (meanOf s k ψ)
    push_cast
    linarith

theorem CloseTo.joint {M n : ℕ} (hM : 0 < M) {val : List ℕ → ℤ} {s Δ : ℝ} (hs : 0 < s) (h : CloseTo M n val s Δ)
    {vals : ℕ → List ℕ → List ℤ} (h0 : vals 0 [] = [])
    (hv : ∀ k (us vs : List ℕ), us.length = n → vals (k + 1) (us ++ vs) = val us :: vals k vs) (k : ℕ)
    (T : Finset (List ℤ)) (hT : ∀ t ∈ T, t.length = k) :
    ∑ t ∈ T, |average M (k * n) (fun us => if vals k us = t then 1 else 0) - (t.map (discreteGaussian s)).prod| ≤
      k * Δ := by
  set P : List ℤ → ℝ := fun t => average M (k * n) (fun us => if vals k us = t then 1 else 0) with hP
  set c : List ℤ → ℝ := fun t => if 0 ≤ P t - (t.map (discreteGaussian s)).prod then 1 else -1 with hc
  set φ : List ℤ → ℝ := fun xs => if xs ∈ T then c xs else 0 with hφ
  have h1 : ∀ x, |φ x| ≤ 1 := by
    intro x
    rw [hφ, hc]
    dsimp only
    split_ifs <;> norm_num
  have h0' : ∀ x ∉ T, φ x = 0 := fun x hx => if_neg hx
  have := h.several hM hs h0 hv k h1
  have e : φ = fun xs => ∑ t ∈ T, c t * (fun (u xs : List ℤ) => if xs = u then (1 : ℝ) else 0) t xs := by
    funext xs
    dsimp only
    simp_rw [mul_ite, mul_one, mul_zero]
    rw [Finset.sum_ite_eq]
  rw [average_values M (k * n) (vals k) T φ h0', e, meanOf_sum hs T c k
    (fun u xs => by split_ifs <;> norm_num), ← e, ← Finset.sum_sub_distrib] at this
  refine le_trans (le_of_eq ?_) ((le_abs_self _).trans this)
  refine Finset.sum_congr rfl fun x hx => ?_
  rw [meanOf_single hs k (hT x hx)]
  have e : φ x = c x := if_pos hx
  rw [e]
  show |P x - _| = P x * c x - _
  rw [mul_comm (c x), ← sub_mul, hc]
  dsimp only
  split_ifs with hs
  · rw [abs_of_nonneg hs, mul_one]
  · rw [abs_of_neg (not_le.mp hs)]; ring

end Shell.Sampler
