import Verif.Model.GaussianParams
import Verif.Props.RnsGaussian
import Mathlib.Tactic.Positivity
import Mathlib.Order.Filter.AtTopBot.Archimedean
import Mathlib.Analysis.SpecificLimits.Basic
/-!
# C64: the standard deviation of Gaussian samples

Every sample is a fixed integer combination of independent base samples. The deviation of such a combination is
the deviation of the base times the square root of the sum of the squared coefficients.
-/

namespace Shell
open Spec Sampler
variable {σ : Type}

namespace Spec

/-- The coefficients of the base samples in a sample of level `i`. -/
def coeffsI (z : ℕ → ℕ) : ℕ → List ℕ
  | 0 => [1]
  | i + 1 => (coeffsI z i).map (z i * ·) ++ (coeffsI z i).map (max 1 (z i - 1) * ·)

/-- The coefficients of the base samples in the final sample. -/
def coeffsTop (z : ℕ → ℕ) (zTop i : ℕ) : List ℕ :=
  if i = 0 then [1] else (coeffsI z i).map (zTop * ·) ++ (coeffsI z i).map ((zTop - 1) * ·)

/-- A combination of integers. -/
def combination (c : List ℕ) (xs : List ℤ) : ℤ := (List.zipWith (fun (a : ℕ) (x : ℤ) => (a : ℤ) * x) c xs).sum

/-- The sum of the squares. -/
def sumSquares (c : List ℕ) : ℕ := (c.map fun a => a * a).sum

/-- The deviation of a combination of independent samples of deviation `sBase`. -/
noncomputable def combinedDeviation (sBase : ℝ) (c : List ℕ) : ℝ := sBase * √(sumSquares c)

end Spec

/-! ### Samples as combinations -/

theorem coeffsI_length (z : ℕ → ℕ) (i : ℕ) : (coeffsI z i).length = 2 ^ i := by
  induction i with
  | zero => rfl
  | succ i ih => rw [coeffsI, List.length_append, List.length_map, List.length_map, ih, pow_succ]; ring

theorem combination_smul (a : ℕ) (c : List ℕ) (xs : List ℤ) :
    combination (c.map (a * ·)) xs = a * combination c xs := by
  unfold combination
  induction c generalizing xs with
  | nil => simp
  | cons b c ih =>
    cases xs with
    | nil => simp
    | cons x xs =>
      rw [List.map_cons, List.zipWith_cons_cons, List.sum_cons, ih, List.zipWith_cons_cons, List.sum_cons]
      push_cast; ring

theorem combination_append {c d : List ℕ} {xs ys : List ℤ} (h : c.length = xs.length) :
    combination (c ++ d) (xs ++ ys) = combination c xs + combination d ys := by
  unfold combination
  rw [List.zipWith_append h, List.sum_append]

theorem two_halves {f : σ → Outcome (ℤ × σ)} {c : List ℕ} {n : ℕ} {g : σ → Outcome (ℤ × σ)} (hc : c.length = n)
    (h : ∀ s, g s = (do let (xs, s) ← times f n s
                        .ok (combination c xs, s))) (a b : ℕ) (s : σ) :
    (do let (x1, s) ← g s
        let (x2, s) ← g s
        .ok ((a : ℤ) * x1 + b * x2, s)) = (do
      let (xs, s) ← times f (n + n) s
      (.ok (combination (c.map (a * ·) ++ c.map (b * ·)) xs, s) : Outcome (ℤ × σ))) := by
  rw [h s, times_add]
  cases h1 : times f n s with
  | err e => rfl
  | ub e => rfl
  | ok q =>
    simp only [Outcome.bind_ok]
    rw [h q.2]
    cases h2 : times f n q.2 with
    | err e => rfl
    | ub e => rfl
    | ok r =>
      simp only [Outcome.bind_ok]
      have l1 := times_length _ _ _ _ _ h1
      rw [combination_append (by rw [List.length_map, hc, l1]), combination_smul, combination_smul]

theorem sampleIZ_combination (base : σ → Outcome (ℤ × σ)) (z : ℕ → ℕ) (i : ℕ) (s : σ) :
    sampleIZ base z i s = (do
      let (xs, s) ← times base (2 ^ i) s
      .ok (combination (coeffsI z i) xs, s)) := by
  induction i generalizing s with
  | zero =>
    rw [sampleIZ, pow_zero]
    show _ = (do let (xs, s) ← (do let (x, s) ← base s
                                   let (xs, s) ← times base 0 s
                                   .ok (x :: xs, s))
                 .ok (combination [1] xs, s))
    cases base s with
    | err e => rfl
    | ub e => rfl
    | ok q => simp [times, combination]
  | succ i ih =>
    rw [sampleIZ, coeffsI, pow_succ, mul_two]
    exact two_halves (coeffsI_length z i) ih _ _ s

/-- **C64.** A sample is a fixed combination of base samples, drawn one after the other: one for no iterations and
`2^(i+1)` for `i` iterations. -/
theorem c64_combination (G : Gen σ) (cdt : List ℕ) (z : ℕ → ℕ) (zTop i : ℕ) (s : σ) :
    sampleZ G cdt z zTop i s = (do
      let (xs, s) ← times (baseZ G cdt) (if i = 0 then 1 else 2 ^ (i + 1)) s
      .ok (combination (coeffsTop z zTop i) xs, s)) := by
  unfold sampleZ coeffsTop
  split_ifs with h
  · have := sampleIZ_combination (baseZ G cdt) z 0 s
    exact this
  · rw [pow_succ, mul_two]
    exact two_halves (coeffsI_length z i) (sampleIZ_combination _ z i) _ _ s

/-! ### Deviations -/

theorem sumSquares_append (c d : List ℕ) : sumSquares (c ++ d) = sumSquares c + sumSquares d := by
  unfold sumSquares
  rw [List.map_append, List.sum_append]

theorem sumSquares_smul (a : ℕ) (c : List ℕ) : sumSquares (c.map (a * ·)) = a * a * sumSquares c := by
  unfold sumSquares
  induction c with
  | nil => simp
  | cons b c ih =>
    rw [List.map_cons, List.map_cons, List.sum_cons, ih, List.map_cons, List.sum_cons]
    ring

theorem smoothing_pos : 0 < smoothing := by unfold smoothing; norm_num

theorem denum_pos : 0 < denum := by
  have := smoothing_pos
  unfold denum
  positivity

theorem weight_pos {s : ℝ} (h : denum ≤ s) : 1 ≤ weight s := by
  unfold weight
  rw [Nat.one_le_floor_iff, one_le_div denum_pos]
  exact h

theorem max_sq {z : ℕ} (h : 1 ≤ z) :
    max (((z : ℝ) - 1) * ((z : ℝ) - 1)) 1 = ((max 1 (z - 1) : ℕ) : ℝ) * ((max 1 (z - 1) : ℕ) : ℝ) := by
  obtain ⟨k, rfl⟩ : ∃ k, z = k + 1 := ⟨z - 1, by omega⟩
  rw [Nat.add_sub_cancel]
  push_cast
  rw [add_sub_cancel_right]
  rcases Nat.eq_zero_or_pos k with rfl | hk
  · norm_num
  · have : (1 : ℝ) ≤ k := by exact_mod_cast hk
    rw [max_eq_right this, max_eq_left (by nlinarith)]

theorem next_sq {s : ℝ} (h : denum ≤ s) :
    nextDeviation s ^ 2 =
      ((weight s * weight s + max 1 (weight s - 1) * max 1 (weight s - 1) : ℕ) : ℝ) * s ^ 2 := by
  unfold nextDeviation
  rw [mul_pow, Real.sq_sqrt (by positivity), max_sq (weight_pos h)]
  push_cast; ring

theorem next_ge {s : ℝ} (h : denum ≤ s) : √2 * s ≤ nextDeviation s := by
  have hd := denum_pos
  have hz : (1 : ℝ) ≤ weight s := by exact_mod_cast weight_pos h
  unfold nextDeviation
  rw [mul_comm]
  refine mul_le_mul_of_nonneg_left (Real.sqrt_le_sqrt ?_) (by linarith)
  have := le_max_right (((weight s : ℝ) - 1) * ((weight s : ℝ) - 1)) 1
  nlinarith

theorem one_lt_sqrt_two : 1 < √2 := by
  rw [Real.lt_sqrt (by norm_num)]; norm_num

theorem next_gt {s : ℝ} (h : denum ≤ s) : s < nextDeviation s := by
  have := next_ge h
  have := one_lt_sqrt_two
  have := denum_pos
  nlinarith

theorem deviation_ge {sBase : ℝ} (h : denum ≤ sBase) (i : ℕ) : denum ≤ deviation sBase i := by
  induction i with
  | zero => exact h
  | succ i ih => exact ih.trans (next_gt ih).le

theorem deviation_mono {sBase : ℝ} (h : denum ≤ sBase) : StrictMono (deviation sBase) :=
  strictMono_nat_of_lt_succ fun i => next_gt (deviation_ge h i)

/-- **C64.** `Create` accepts a base deviation exactly from `sqrt(2)` times the smoothing parameter 5.3349782 on. -/
theorem c64_accepts (sBase : ℝ) :
    (√2 * 5.3349782 ≤ sBase → acceptsBase sBase = .ok ()) ∧
    (sBase < √2 * 5.3349782 → acceptsBase sBase = .err .invalidArgument) := by
  unfold acceptsBase denum smoothing
  exact ⟨fun h => if_neg (not_lt.mpr h), fun h => if_pos h⟩

/-- **C64.** The weights and deviations of the levels belong together: with the weights the sampler computes, the
combination of base samples of level `i` has the deviation the sampler computes for it. -/
theorem c64_levels {sBase : ℝ} (h : denum ≤ sBase) (i : ℕ) :
    combinedDeviation sBase (coeffsI (fun lvl => weight (deviation sBase lvl)) i) = deviation sBase i := by
  have hd := denum_pos
  have key : sBase ^ 2 * sumSquares (coeffsI (fun lvl => weight (deviation sBase lvl)) i) =
      deviation sBase i ^ 2 := by
    induction i with
    | zero => simp [coeffsI, sumSquares, deviation]
    | succ i ih =>
      rw [coeffsI, sumSquares_append, sumSquares_smul, sumSquares_smul, deviation, next_sq (deviation_ge h i), ← ih]
      push_cast; ring
  unfold combinedDeviation
  have hi := deviation_ge h i
  rw [← Real.sqrt_sq (by linarith : 0 ≤ deviation sBase i), ← key, Real.sqrt_mul (by positivity),
    Real.sqrt_sq (by linarith)]

theorem iterationsLoop_ok {sBase s : ℝ} (K : ℕ) (hK : s < deviation sBase K) (hlt : ∀ j < K, deviation sBase j ≤ s) :
    ∀ (d k fuel : ℕ), k + d = K → d < fuel →
      iterationsLoop s fuel (deviation sBase k) k = .ok ((K : ℤ) - 1) := by
  intro d
  induction d with
  | zero =>
    intro k fuel hk hf
    obtain ⟨f, rfl⟩ : ∃ f, fuel = f + 1 := ⟨fuel - 1, by omega⟩
    obtain rfl : k = K := by omega
    rw [iterationsLoop, if_neg (not_le.mpr hK)]
  | succ d ih =>
    intro k fuel hk hf
    obtain ⟨f, rfl⟩ : ∃ f, fuel = f + 1 := ⟨fuel - 1, by omega⟩
    rw [iterationsLoop, if_pos (hlt k (by omega))]
    have := ih (k + 1) f (by omega) (by omega)
    push_cast at this
    exact this

theorem exists_level {sBase : ℝ} (h : denum ≤ sBase) (s : ℝ) : ∃ K, s < deviation sBase K := by
  have hd := denum_pos
  have hg : ∀ i, √2 ^ i * sBase ≤ deviation sBase i := by
    intro i
    induction i with
    | zero => simp [deviation]
    | succ i ih =>
      have := next_ge (deviation_ge h i)
      rw [deviation]
      have h2 : √2 * (√2 ^ i * sBase) ≤ √2 * deviation sBase i := mul_le_mul_of_nonneg_left ih (by positivity)
      calc √2 ^ (i + 1) * sBase = √2 * (√2 ^ i * sBase) := by ring
        _ ≤ _ := h2.trans this
  obtain ⟨K, hK⟩ := pow_unbounded_of_one_lt (s / sBase) one_lt_sqrt_two
  refine ⟨K, lt_of_lt_of_le ?_ (hg K)⟩
  rwa [div_lt_iff₀ (by linarith)] at hK

/-- **C64.** `NumIterations(s)` rejects deviations below the base; for every other deviation its loop ends and it
returns the number of the last level whose deviation does not exceed `s`. -/
theorem c64_iterations {sBase : ℝ} (h : denum ≤ sBase) (s : ℝ) :
    (s < sBase → ∀ fuel, numIterations fuel sBase s = .err .invalidArgument) ∧
    (sBase ≤ s → ∃ i : ℕ, deviation sBase i ≤ s ∧ s < deviation sBase (i + 1) ∧
      ∀ fuel, i + 2 ≤ fuel → numIterations fuel sBase s = .ok i) := by
  constructor
  · intro hs fuel
    unfold numIterations
    rw [if_pos hs]
  · intro hs
    classical
    have hex := exists_level h s
    have h1 := Nat.find_spec hex
    have h2 : ∀ j < Nat.find hex, deviation sBase j ≤ s := fun j hj => not_lt.mp (Nat.find_min hex hj)
    have h0 : Nat.find hex ≠ 0 := by
      intro h0
      rw [h0] at h1
      exact absurd h1 (not_lt.mpr hs)
    obtain ⟨i, hi⟩ : ∃ i, Nat.find hex = i + 1 := ⟨Nat.find hex - 1, by omega⟩
    rw [hi] at h1 h2
    refine ⟨i, h2 i (by omega), h1, fun fuel hf => ?_⟩
    unfold numIterations
    rw [if_neg (not_lt.mpr hs)]
    have := iterationsLoop_ok (i + 1) h1 h2 (i + 1) 0 fuel (by omega) (by omega)
    push_cast at this
    rw [add_sub_cancel_right] at this
    exact this

theorem deviation_fast {sBase : ℝ} (h : denum ≤ sBase) (j : ℕ) :
    2 * 2 ^ 2 ^ j * denum ≤ deviation sBase (j + 3) := by
  have hd := denum_pos
  have hs2 : √2 * √2 = 2 := Real.mul_self_sqrt (by norm_num)
  induction j with
  | zero =>
    -- two steps by `√2`, then one with a weight of at least 2
    have g0 : denum ≤ deviation sBase 0 := h
    have g1 := next_ge g0
    have g1' : denum ≤ deviation sBase 1 := deviation_ge h 1
    have g2 := next_ge g1'
    have e2 : 2 * denum ≤ deviation sBase 2 := by
      have a : √2 * (√2 * deviation sBase 0) ≤ √2 * deviation sBase 1 :=
        mul_le_mul_of_nonneg_left g1 (by positivity)
      have b : √2 * (√2 * deviation sBase 0) = 2 * deviation sBase 0 := by rw [← mul_assoc, hs2]
      have c : deviation sBase 2 = nextDeviation (deviation sBase 1) := rfl
      rw [c]
      linarith
    have hw : 2 ≤ weight (deviation sBase 2) := by
      unfold weight
      rw [Nat.le_floor_iff (div_nonneg (by linarith) hd.le), le_div_iff₀ hd]
      exact_mod_cast e2
    have hw' : (2 : ℝ) ≤ weight (deviation sBase 2) := by exact_mod_cast hw
    have c : deviation sBase 3 = nextDeviation (deviation sBase 2) := rfl
    have e3 : deviation sBase 2 * 2 ≤ deviation sBase 3 := by
      rw [c]
      unfold nextDeviation
      refine mul_le_mul_of_nonneg_left (Real.le_sqrt_of_sq_le ?_) (by linarith)
      have := le_max_right (((weight (deviation sBase 2) : ℝ) - 1) * ((weight (deviation sBase 2) : ℝ) - 1)) 1
      nlinarith
    norm_num
    linarith
  | succ j ih =>
    have hp : (2 : ℝ) ≤ 2 ^ 2 ^ j := by
      calc (2 : ℝ) = 2 ^ 1 := by norm_num
        _ ≤ 2 ^ 2 ^ j := pow_le_pow_right₀ (by norm_num) Nat.one_le_two_pow
    set S := deviation sBase (j + 3) with hS
    set P : ℝ := 2 ^ 2 ^ j with hP
    have e : deviation sBase (j + 1 + 3) = nextDeviation S := rfl
    have hfl : S / denum - 1 < weight S := by
      unfold weight
      exact Nat.sub_one_lt_floor _
    have hr : 2 * P ≤ S / denum := by rw [le_div_iff₀ hd]; exact ih
    have hw : P ≤ weight S := by linarith
    have e3 : S * weight S ≤ nextDeviation S := by
      unfold nextDeviation
      refine mul_le_mul_of_nonneg_left (Real.le_sqrt_of_sq_le ?_) (by nlinarith)
      have := le_max_right (((weight S : ℝ) - 1) * ((weight S : ℝ) - 1)) 1
      nlinarith
    rw [e, pow_succ 2 j, pow_mul, ← hP]
    calc 2 * P ^ 2 * denum = (2 * P * denum) * P := by ring
      _ ≤ S * weight S := mul_le_mul ih hw (by linarith) (by nlinarith)
      _ ≤ _ := e3

/-- **C64.** For deviations in the range of a double at most 12 iterations are needed, so the undefined behaviour of
31 iterations and more (C41) is not reached through `Sample` and `SampleDiscreteGaussian`. -/
theorem c64_few_iterations {sBase : ℝ} (h : denum ≤ sBase) {s : ℝ} (hs : s < 2 ^ 1024) {i fuel : ℕ}
    (hi : numIterations fuel sBase s = .ok i) : i ≤ 12 := by
  have hd := denum_pos
  have hd1 : 1 ≤ denum := by
    have := one_lt_sqrt_two
    unfold denum smoothing
    nlinarith
  by_cases hlt : s < sBase
  · rw [(c64_iterations h s).1 hlt] at hi; cases hi
  obtain ⟨k, h1, h2, h3⟩ := (c64_iterations h s).2 (not_lt.mp hlt)
  have hk : k ≤ 12 := by
    by_contra hc
    have a := deviation_fast h 10
    have b := (deviation_mono h).monotone (by omega : 10 + 3 ≤ k)
    have e : (2 : ℕ) ^ 10 = 1024 := by norm_num
    rw [e] at a
    generalize (2 : ℝ) ^ 1024 = P at hs a
    have hp : P ≤ 0 := by nlinarith
    linarith [(deviation_ge h k)]
  have hfuel : i = k ∨ fuel < k + 2 := by
    by_cases hf : k + 2 ≤ fuel
    · left
      rw [h3 fuel hf] at hi
      injection hi with hi
      exact_mod_cast hi.symm
    · right; omega
  rcases hfuel with rfl | hf
  · exact hk
  · exfalso
    unfold numIterations at hi
    rw [if_neg hlt] at hi
    have : ∀ (fuel j : ℕ), j + fuel ≤ k + 1 → iterationsLoop s fuel (deviation sBase j) j = .ub .diverge := by
      intro fuel
      induction fuel with
      | zero => intro j _; rfl
      | succ f ih =>
        intro j hj
        rw [iterationsLoop, if_pos (((deviation_mono h).monotone (by omega : j ≤ k)).trans h1)]
        have := ih (j + 1) (by omega)
        push_cast at this
        exact this
    have h0 := this fuel 0 (by omega)
    rw [Nat.cast_zero] at h0
    rw [show deviation sBase 0 = sBase from rfl] at h0
    rw [h0] at hi
    cases hi

/-- **C64.** From one iteration on, the final weight is the least one with which the deviation of the sample is not
below the requested one. -/
theorem c64_final_partial {sBase s : ℝ} (h : denum ≤ sBase) {i : ℕ} (hi : 1 ≤ i) (hs : deviation sBase i ≤ s) :
    let z := fun lvl => weight (deviation sBase lvl)
    s ≤ combinedDeviation sBase (coeffsTop z (finalWeight s (deviation sBase i)) i) ∧
    ∀ zTop, 1 ≤ zTop → zTop < finalWeight s (deviation sBase i) →
      combinedDeviation sBase (coeffsTop z zTop i) < s := by
  intro z
  have hd := denum_pos
  have hSd := deviation_ge h i
  set S := deviation sBase i with hS
  have hS0 : 0 < S := by linarith
  have ht : 1 ≤ s / S := by rw [one_le_div hS0]; exact hs
  have hdev : ∀ zTop : ℕ, 1 ≤ zTop → combinedDeviation sBase (coeffsTop z zTop i) =
      S * √((zTop : ℝ) * zTop + ((zTop : ℝ) - 1) * ((zTop : ℝ) - 1)) := by
    intro zTop hz
    have hl := c64_levels h i
    rw [← hS] at hl
    unfold coeffsTop
    rw [if_neg (by omega)]
    unfold combinedDeviation at hl ⊢
    rw [sumSquares_append, sumSquares_smul, sumSquares_smul, ← add_mul, Nat.cast_mul, Real.sqrt_mul (by positivity),
      mul_comm (√_) (√_), ← mul_assoc, hl]
    congr 2
    push_cast [Nat.cast_sub hz]
    ring
  have hs' : s = S * (s / S) := by field_simp
  set t := s / S with htt
  have hrad : 0 ≤ 2 * t * t - 1 := by nlinarith
  have hfw : 1 ≤ finalWeight s S := by
    unfold finalWeight
    rw [Nat.one_le_ceil_iff]
    have := Real.sqrt_nonneg (2 * (s / S) * (s / S) - 1)
    linarith
  constructor
  · rw [hdev _ hfw, hs']
    refine mul_le_mul_of_nonneg_left (Real.le_sqrt_of_sq_le ?_) hS0.le
    rw [← hs']
    have hc : (√(2 * t * t - 1) + 1) / 2 ≤ finalWeight s S := Nat.le_ceil _
    have h2 : √(2 * t * t - 1) ≤ 2 * finalWeight s S - 1 := by linarith
    have h3 : 2 * t * t - 1 ≤ (2 * (finalWeight s S : ℝ) - 1) ^ 2 := by
      rw [← Real.sq_sqrt hrad]
      exact pow_le_pow_left₀ (Real.sqrt_nonneg _) h2 2
    nlinarith
  · intro zTop hz hlt
    rw [hdev _ hz, hs']
    refine mul_lt_mul_of_pos_left ?_ hS0
    have hz' : (1 : ℝ) ≤ zTop := by exact_mod_cast hz
    rw [Real.sqrt_lt' (by linarith)]
    have hc : (zTop : ℝ) < (√(2 * t * t - 1) + 1) / 2 := Nat.lt_ceil.mp hlt
    have h2 : 2 * (zTop : ℝ) - 1 < √(2 * t * t - 1) := by linarith
    have h3 : (2 * (zTop : ℝ) - 1) ^ 2 < 2 * t * t - 1 := by
      rw [← Real.sq_sqrt hrad]
      exact pow_lt_pow_left₀ h2 (by linarith) (by norm_num)
    nlinarith

/-! ### Samples and polynomials of a requested deviation -/

open Rns in
/-- **C63.** For every deviation in the range of a double, with the iterations that `NumIterations` computes and any
weights: `Sample` returns the integer combination of base samples, modulo `2^w`, and `SampleDiscreteGaussian` the
RNS polynomial whose coefficients are the signed numbers that `2^log_n` such words stand for. Deviations below
the base are rejected. -/
theorem c63_polynomial {w l : ℕ} {sBase s : ℝ} (hb : denum ≤ sBase) (hs : s < 2 ^ 1024) (G : Gen σ) {cdt : List ℕ}
    (hc : cdt.length < 2 ^ w) (z : ℕ → ℕ) (zTop : ℕ) {ms : List Modulus} (hg : ∀ m ∈ ms, GoodModulus w l m)
    (hne : ms ≠ []) (st : σ) :
    (s < sBase → ∀ fuel, sampleGaussian G w cdt z zTop (numIterations fuel sBase s) l ms st =
      .err .invalidArgument) ∧
    (sBase ≤ s → ∃ i : ℕ, i ≤ 12 ∧ (∀ fuel, i + 2 ≤ fuel → numIterations fuel sBase s = .ok i) ∧
      (∀ st, sampleWithIterations G w cdt z zTop i st = (do
        let (xs, st) ← times (baseZ G cdt) (if i = 0 then 1 else 2 ^ (i + 1)) st
        .ok ((combination (coeffsTop z zTop i) xs % 2 ^ w).toNat, st))) ∧
      (∀ fuel, i + 2 ≤ fuel → ∀ xs st', times (sampleWithIterations G w cdt z zTop i) (2 ^ l) st = .ok (xs, st') →
        ∃ x, sampleGaussian G w cdt z zTop (numIterations fuel sBase s) l ms st = .ok (x, st') ∧ x.ntt = false ∧
          xs.length = 2 ^ l ∧ Represents l ms x fun j => signedWord w (xs.getD j 0))) := by
  constructor
  · intro h fuel
    rw [(c64_iterations hb s).1 h]
    obtain ⟨m0, hm0⟩ := List.exists_mem_of_ne_nil _ hne
    obtain ⟨psi0, t0⟩ := (hg m0 hm0).tables
    have hl1 := t0.l1
    unfold sampleGaussian
    rw [if_neg (by omega), if_neg (by simpa using hne)]
    rfl
  · intro h
    obtain ⟨i, -, -, h3⟩ := (c64_iterations hb s).2 h
    have hi : i ≤ 12 := c64_few_iterations hb hs (h3 (i + 2) le_rfl)
    refine ⟨i, hi, h3, fun st => ?_, fun fuel hf => ?_⟩
    · rw [c63_word_partial G hc z zTop i (by omega), c64_combination]
      cases times (baseZ G cdt) (if i = 0 then 1 else 2 ^ (i + 1)) st <;> rfl
    · rw [h3 fuel hf]
      exact (c63_polynomial_partial G hc z zTop i (by omega) hg hne st).1

/-! ### The requested deviation is not met -/

theorem denum_bounds : 7 < denum ∧ denum < 7.6 := by
  have h2 : √2 * √2 = 2 := Real.mul_self_sqrt (by norm_num)
  have a : 1.414 < √2 := by rw [Real.lt_sqrt (by norm_num)]; norm_num
  have b : √2 < 1.4143 := by rw [Real.sqrt_lt' (by norm_num)]; norm_num
  unfold denum smoothing
  constructor <;> nlinarith

theorem weight_one {s : ℝ} (h1 : 7.6 ≤ s) (h2 : s ≤ 14) : weight s = 1 := by
  obtain ⟨a, b⟩ := denum_bounds
  unfold weight
  rw [Nat.floor_eq_iff (by apply div_nonneg <;> linarith), le_div_iff₀ (by linarith), div_lt_iff₀ (by linarith)]
  push_cast
  constructor <;> linarith

theorem next_one {s : ℝ} (h1 : 7.6 ≤ s) (h2 : s ≤ 14) : nextDeviation s = s * √2 := by
  unfold nextDeviation
  rw [weight_one h1 h2]
  norm_num

/-- A deviation between the base and the next level gets no iteration at all: with a base of 8 a request for 11
returns base samples, of deviation 8. -/
theorem c64_undershoot : denum ≤ 8 ∧ (∀ fuel, 2 ≤ fuel → numIterations fuel 8 11 = .ok 0) ∧
    ∀ z zTop, combinedDeviation 8 (coeffsTop z zTop 0) = 8 := by
  obtain ⟨a, b⟩ := denum_bounds
  refine ⟨by linarith, fun fuel hf => ?_, fun z zTop => ?_⟩
  · have h1 : (11 : ℝ) < deviation 8 1 := by
      rw [show deviation 8 1 = nextDeviation 8 from rfl, next_one (by norm_num) (by norm_num)]
      have : (1.4 : ℝ) < √2 := by rw [Real.lt_sqrt (by norm_num)]; norm_num
      linarith
    have := iterationsLoop_ok (sBase := 8) (s := 11) 1 h1 (fun j hj => by
      obtain rfl : j = 0 := by omega
      show (8 : ℝ) ≤ 11
      norm_num) 1 0 fuel (by omega) (by omega)
    unfold numIterations
    rw [if_neg (by norm_num)]
    exact this
  · simp [combinedDeviation, coeffsTop, sumSquares]

/-- Slightly above a level the deviation is more than twice the requested one: with a base of 8 a request for 12 is
answered after one iteration with final weight 2. -/
theorem c64_overshoot : (∀ fuel, 3 ≤ fuel → numIterations fuel 8 12 = .ok 1) ∧ finalWeight 12 (deviation 8 1) = 2 ∧
    2 * 12 < combinedDeviation 8 (coeffsTop (fun lvl => weight (deviation 8 lvl)) 2 1) := by
  have h2 : √2 * √2 = 2 := Real.mul_self_sqrt (by norm_num)
  have a : 1.414 < √2 := by rw [Real.lt_sqrt (by norm_num)]; norm_num
  have b : √2 < 1.4143 := by rw [Real.sqrt_lt' (by norm_num)]; norm_num
  have e1 : deviation 8 1 = 8 * √2 := by
    rw [show deviation 8 1 = nextDeviation 8 from rfl, next_one (by norm_num) (by norm_num)]
  have e2 : deviation 8 2 = 16 := by
    rw [show deviation 8 2 = nextDeviation (deviation 8 1) from rfl, e1, next_one (by linarith) (by linarith), mul_assoc,
      h2]
    norm_num
  refine ⟨fun fuel hf => ?_, ?_, ?_⟩
  · have := iterationsLoop_ok (sBase := 8) (s := 12) 2 (by rw [e2]; norm_num) (fun j hj => by
      obtain rfl | rfl : j = 0 ∨ j = 1 := by omega
      · show (8 : ℝ) ≤ 12
        norm_num
      · rw [e1]; linarith) 2 0 fuel (by omega) (by omega)
    unfold numIterations
    rw [if_neg (by norm_num)]
    exact this
  · unfold finalWeight
    rw [e1]
    have e3 : 2 * (12 / (8 * √2)) * (12 / (8 * √2)) - 1 = 1.25 := by
      have : √2 ≠ 0 := by positivity
      field_simp
      nlinarith
    rw [e3, Nat.ceil_eq_iff (by norm_num)]
    have c1 : 1 < √(1.25 : ℝ) := by rw [Real.lt_sqrt (by norm_num)]; norm_num
    have c2 : √(1.25 : ℝ) ≤ 2 := by rw [Real.sqrt_le_left (by norm_num)]; norm_num
    constructor
    · push_cast; linarith
    · push_cast; linarith
  · have : coeffsTop (fun lvl => weight (deviation 8 lvl)) 2 1 = [2, 2, 1, 1] := by
      have e0 : weight (deviation 8 0) = 1 := weight_one (by norm_num [deviation]) (by norm_num [deviation])
      simp [coeffsTop, coeffsI, e0]
    rw [this]
    unfold combinedDeviation
    have e : sumSquares [2, 2, 1, 1] = 10 := by decide
    rw [e]
    rw [Nat.cast_ofNat]
    have : (3.1 : ℝ) < √10 := by rw [Real.lt_sqrt (by norm_num)]; norm_num
    linarith

/-- The hypotheses are met by a base of 8; a combination with two iterations. -/
example : denum ≤ 8 ∧ deviation 8 2 = 16 := by
  obtain ⟨a, b⟩ := denum_bounds
  have h2 : √2 * √2 = 2 := Real.mul_self_sqrt (by norm_num)
  have a : 1.414 < √2 := by rw [Real.lt_sqrt (by norm_num)]; norm_num
  have b' : √2 < 1.4143 := by rw [Real.sqrt_lt' (by norm_num)]; norm_num
  refine ⟨by linarith, ?_⟩
  rw [show deviation 8 2 = nextDeviation (nextDeviation 8) from rfl, next_one (s := 8) (by norm_num) (by norm_num),
    next_one (by linarith) (by linarith), mul_assoc, h2]
  norm_num

example : coeffsTop (fun l => if l = 0 then 3 else 5) 2 2 =
    [30, 20, 24, 16, 15, 10, 12, 8] := by decide

end Shell
