import Verif.Lemmas.GaussianHybrid
/-!
# C71: the distribution of Gaussian samples of every deviation

`Sample` combines base samples level by level. For every requested deviation the distribution of the returned integer
is close to a discrete Gaussian distribution: the deviation of that distribution is the one of the combination (C64),
and the distance at most doubles with every level. The doubles are idealised as real numbers and the words of the
generator as independent and uniform.
-/

namespace Shell
open Spec Sampler Real

namespace Spec

/-- A generator that returns given 64-bit words one after the other. -/
def wordsSource : Gen (List ℕ) :=
  ⟨fun _ => .err .internal, fun us => match us with
    | [] => .err .internal
    | u :: us => .ok (u, us)⟩

/-- The probability that a computation which is given `n` independent, uniformly random 64-bit words returns `x`. -/
noncomputable def wordsProbability {α : Type} [DecidableEq α] (n : ℕ) (f : List ℕ → Outcome α) (x : α) : ℝ :=
  ((Finset.univ : Finset (Fin n → Fin (2 ^ 64))).filter fun us =>
    f (List.ofFn fun i => (us i : ℕ)) = .ok x).card / (2 ^ 64) ^ n

/-- The number of words that a sample consumes. -/
def wordsOf (i : ℕ) : ℕ := if i = 0 then 1 else 2 ^ (i + 1)

/-- The weight of a level, as the sampler computes it. -/
noncomputable def levelWeight (sBase : ℝ) (lvl : ℕ) : ℕ := weight (deviation sBase lvl)

/-- The probability that `SampleWithIterations` for `w`-bit integers, with the weights that the sampler computes
for the requested deviation `s`, returns the word of the integer `x`. -/
noncomputable def gaussianProbability (w : ℕ) (cdt : List ℕ) (sBase s : ℝ) (i : ℕ) (x : ℤ) : ℝ :=
  wordsProbability (wordsOf i) (fun us => (fun r => signedWord w r.1) <$>
    sampleWithIterations wordsSource w cdt (levelWeight sBase) (finalWeight s (deviation sBase i)) i us) x

end Spec

/-! ### Words and values -/

/-- The base sample of a word. -/
def baseOf (cdt : List ℕ) (u : ℕ) : ℤ := (cdt.countP (· < u % 2 ^ 63) : ℤ) - (cdt.length / 2 : ℕ)

theorem times_base (cdt : List ℕ) (us vs : List ℕ) :
    times (baseZ wordsSource cdt) us.length (us ++ vs) = .ok (us.map (baseOf cdt), vs) := by
  induction us with
  | nil => rfl
  | cons u us ih =>
    rw [List.length_cons, times, List.cons_append]
    show (do let (x, s) ← (Outcome.ok (baseOf cdt u, us ++ vs) : Outcome (ℤ × List ℕ))
             let (xs, s) ← times (baseZ wordsSource cdt) us.length s
             .ok (x :: xs, s)) = _
    rw [Outcome.bind_ok]
    dsimp only
    rw [ih]
    rfl

/-- The integer that the sampler computes from a list of words. -/
theorem sampleZ_words (cdt : List ℕ) (z : ℕ → ℕ) (zTop i : ℕ) {us : List ℕ} (h : us.length = wordsOf i)
    (vs : List ℕ) :
    sampleZ wordsSource cdt z zTop i (us ++ vs) =
      .ok (combination (coeffsTop z zTop i) (us.map (baseOf cdt)), vs) := by
  rw [c64_combination]
  have := times_base cdt us vs
  rw [h] at this
  unfold wordsOf at this
  rw [this]
  rfl

theorem wordsProbability_eq {α : Type} [DecidableEq α] (n : ℕ) (f : List ℕ → Outcome α) (x : α) :
    wordsProbability n f x = average (2 ^ 64) n fun us => if f us = .ok x then 1 else 0 := by
  unfold wordsProbability average
  rw [Finset.sum_boole, Nat.cast_pow, Nat.cast_ofNat]

/-- The word that the sampler returns for given random words. -/
theorem sample_words {w : ℕ} {cdt : List ℕ} (z : ℕ → ℕ) {zTop i : ℕ} (hc : cdt.length < 2 ^ w) (hi : i ≤ 30)
    (hb : 2 * gaussianBound cdt z i < 2 ^ w) (hb' : 2 * ((zTop + (zTop - 1)) * gaussianBound cdt z i) < 2 ^ w)
    {us : List ℕ} (hus : us.length = wordsOf i) (vs : List ℕ) :
    ∃ v, sampleWithIterations wordsSource w cdt z zTop i (us ++ vs) = .ok (v, vs) ∧
      signedWord w v = combination (coeffsTop z zTop i) (us.map (baseOf cdt)) := by
  have h1 := sampleZ_words cdt z zTop i hus vs
  have h2 := c63_word_partial wordsSource hc z zTop i hi (us ++ vs)
  rw [h1, Outcome.bind_ok] at h2
  have h3 := (c63_no_wrap_partial wordsSource hc z zTop i hi hb hb' h2).1
  rw [h1, Outcome.ok.injEq, Prod.mk.injEq] at h3
  exact ⟨_, h2, h3.1.symm⟩

theorem gaussianProbability_eq {w : ℕ} {cdt : List ℕ} {sBase s : ℝ} {i : ℕ} (hc : cdt.length < 2 ^ w) (hi : i ≤ 30)
    (hb : 2 * gaussianBound cdt (levelWeight sBase) i < 2 ^ w)
    (hb' : 2 * ((finalWeight s (deviation sBase i) + (finalWeight s (deviation sBase i) - 1)) *
      gaussianBound cdt (levelWeight sBase) i) < 2 ^ w) (x : ℤ) :
    gaussianProbability w cdt sBase s i x = average (2 ^ 64) (wordsOf i) fun us =>
      if combination (coeffsTop (levelWeight sBase) (finalWeight s (deviation sBase i)) i) (us.map (baseOf cdt)) = x
        then 1 else 0 := by
  unfold gaussianProbability
  rw [wordsProbability_eq]
  refine average_congr fun us hus => ?_
  obtain ⟨v, h1, h2⟩ := sample_words (levelWeight sBase) hc hi hb hb' hus []
  rw [List.append_nil] at h1
  beta_reduce
  rw [h1]
  have e : ((fun r : ℕ × List ℕ => signedWord w r.1) <$> (Outcome.ok (v, ([] : List ℕ)) : Outcome (ℕ × List ℕ))) =
      .ok (signedWord w v) := rfl
  rw [e, h2]
  simp only [Outcome.ok.injEq]

/-! ### The base -/

/-- The distance of the base sampler (C70). -/
noncomputable def baseDistance (sBase : ℝ) : ℝ := (2 * (8 * ⌈sBase⌉₊ : ℕ) + 1) / 2 ^ 62 + 2 ^ (-48 : ℤ)

theorem created {s : ℝ} {cdt : List ℕ} (h : createTable s = .ok cdt) :
    √2 * 5.3349782 ≤ s ∧ 2 * (8 * ⌈s⌉₊) + 1 < 2 ^ 31 ∧ cdt.length = 2 * (8 * ⌈s⌉₊) + 1 := by
  obtain ⟨hacc, hfit⟩ : √2 * 5.3349782 ≤ s ∧ 2 * (8 * ⌈s⌉₊) + 1 < 2 ^ 31 := by
    by_cases h1 : s < √2 * 5.3349782
    · rw [(c70_create_partial s).1 h1] at h; cases h
    · refine ⟨not_lt.mp h1, ?_⟩
      by_contra h2
      rw [c70_create_overflow s (not_lt.mp h1) (not_lt.mp h2)] at h
      cases h
  obtain ⟨cdt', h1, h2, -⟩ := (c70_create_partial s).2 hacc hfit
  rw [h1] at h
  cases h
  exact ⟨hacc, hfit, h2⟩

theorem baseProbability_words {s : ℝ} {cdt : List ℕ} (h : createTable s = .ok cdt) (x : ℤ) :
    baseProbability 64 cdt x =
      average (2 ^ 64) 1 fun us => if combination [1] (us.map (baseOf cdt)) = x then 1 else 0 := by
  obtain ⟨-, h2, h3⟩ := created h
  rw [average_one]
  unfold baseProbability probability
  rw [Finset.sum_boole, Nat.cast_pow, Nat.cast_ofNat]
  have e : ∀ u ∈ Finset.range (2 ^ 64),
      ((fun r : ℕ × ℕ => signedValue 64 r.1) <$> sampleBase wordSource 64 cdt u = .ok x) ↔
        combination [1] ([u].map (baseOf cdt)) = x := by
    intro u _
    rw [sampleBase_value (c := 8 * ⌈s⌉₊) h3 (by omega), Outcome.ok.injEq]
    have : combination [1] ([u].map (baseOf cdt)) = baseOf cdt u := by simp [combination]
    rw [this, baseOf, show cdt.length / 2 = 8 * ⌈s⌉₊ by omega]
  rw [Finset.filter_congr e]

theorem base_close {s : ℝ} {cdt : List ℕ} (h : createTable s = .ok cdt) (z : ℕ → ℕ) :
    CloseTo (2 ^ 64) 1 (fun us => combination (coeffsI z 0) (us.map (baseOf cdt))) s (baseDistance s) := by
  intro φ hφ
  obtain ⟨h1, h2, h3⟩ := created h
  have hs0 : 0 < s := by linarith [accepted_ge h1]
  have hsum := (dg_mul_summable hs0 hφ).hasSum
  set A := average (2 ^ 64) 1 (fun us => φ (combination (coeffsI z 0) (us.map (baseOf cdt)))) with hA
  set c := 8 * ⌈s⌉₊ with hc
  have hfin : ∀ T : Finset ℤ, Finset.Icc (-c : ℤ) (c + 1) ≤ T →
      |A - ∑ x ∈ T, discreteGaussian s x * φ x| ≤ baseDistance s := by
    intro T hT
    have e : A = ∑ x ∈ T, baseProbability 64 cdt x * φ x := by
      classical
      have := average_values (2 ^ 64) 1 (fun us => combination [1] (us.map (baseOf cdt))) T
        (fun x => if x ∈ T then φ x else 0) (fun x hx => if_neg hx)
      rw [hA]
      refine Eq.trans (average_congr fun us hus => ?_) (this.trans (Finset.sum_congr rfl fun x hx => ?_))
      · obtain ⟨u, rfl⟩ := List.length_eq_one_iff.mp hus
        have e1 : combination [1] ([u].map (baseOf cdt)) = baseOf cdt u := by simp [combination]
        show φ (combination [1] ([u].map (baseOf cdt))) = _
        rw [e1, if_pos]
        apply hT
        rw [Finset.mem_Icc]
        unfold baseOf
        have : cdt.countP (· < u % 2 ^ 63) ≤ cdt.length := List.countP_le_length
        omega
      · rw [if_pos hx, baseProbability_words h]
    rw [e, ← Finset.sum_sub_distrib]
    refine (Finset.abs_sum_le_sum_abs _ _).trans (le_trans (Finset.sum_le_sum fun x _ => ?_)
      (c70_distance h (w := 64) (by omega) T))
    rw [← sub_mul, abs_mul]
    exact mul_le_of_le_one_right (abs_nonneg _) (hφ x)
  have ht : Filter.Tendsto (fun T : Finset ℤ => |A - ∑ x ∈ T, discreteGaussian s x * φ x|) Filter.atTop
      (nhds |A - ∑' x, discreteGaussian s x * φ x|) := (Filter.Tendsto.const_sub A hsum).abs
  exact le_of_tendsto ht (Filter.eventually_atTop.mpr ⟨_, hfin⟩)

/-! ### The levels -/

theorem combination_halves {c : List ℕ} {cdt : List ℕ} (a b : ℕ) {us vs : List ℕ} (h : us.length = c.length) :
    combination (c.map (a * ·) ++ c.map (b * ·)) ((us ++ vs).map (baseOf cdt)) =
      a * combination c (us.map (baseOf cdt)) + b * combination c (vs.map (baseOf cdt)) := by
  rw [List.map_append, combination_append (by rw [List.length_map, List.length_map, h]), combination_smul,
    combination_smul]

theorem coprime_weights {z : ℕ} (hz : 1 ≤ z) : Nat.Coprime z (max 1 (z - 1)) := by
  obtain ⟨k, rfl⟩ : ∃ k, z = k + 1 := ⟨z - 1, by omega⟩
  rcases Nat.eq_zero_or_pos k with rfl | hk
  · decide
  · rw [Nat.add_sub_cancel, max_eq_right (by omega)]
    simp

theorem weight_sq {s : ℝ} (h : denum ≤ s) : 56 * (weight s : ℝ) ^ 2 ≤ s ^ 2 := by
  have hd := denum_pos
  have h2 : √2 * √2 = 2 := Real.mul_self_sqrt (by norm_num)
  have h56 : 56 ≤ denum ^ 2 := by
    unfold denum smoothing
    rw [mul_pow, pow_two (√2), h2]
    norm_num
  have hw : (weight s : ℝ) * denum ≤ s := by
    rw [← le_div_iff₀ hd]
    exact Nat.floor_le (div_nonneg (by linarith) hd.le)
  calc 56 * (weight s : ℝ) ^ 2 ≤ denum ^ 2 * (weight s : ℝ) ^ 2 := mul_le_mul_of_nonneg_right h56 (sq_nonneg _)
    _ = ((weight s : ℝ) * denum) ^ 2 := by ring
    _ ≤ s ^ 2 := pow_le_pow_left₀ (by positivity) hw 2

theorem next_eq {s : ℝ} (h : denum ≤ s) :
    nextDeviation s = s * √((weight s : ℝ) ^ 2 + ((max 1 (weight s - 1) : ℕ) : ℝ) ^ 2) := by
  unfold nextDeviation
  rw [max_sq (weight_pos h), add_comm]
  congr 2
  ring

theorem level_close {sBase : ℝ} {cdt : List ℕ} (h : createTable sBase = .ok cdt) (i : ℕ) :
    CloseTo (2 ^ 64) (2 ^ i) (fun us => combination (coeffsI (levelWeight sBase) i) (us.map (baseOf cdt)))
      (deviation sBase i) (2 ^ i * (baseDistance sBase + 2 ^ (-70 : ℤ)) - 2 ^ (-70 : ℤ)) := by
  have hb : denum ≤ sBase := (created h).1
  induction i with
  | zero =>
    rw [pow_zero, pow_zero, one_mul, add_sub_cancel_right]
    exact base_close h _
  | succ i ih =>
    have hd := deviation_ge hb i
    have hz := weight_pos hd
    have h7 := denum_bounds.1
    have hv : max 1 (weight (deviation sBase i) - 1) ≤ weight (deviation sBase i) := by omega
    have hv' : ((max 1 (weight (deviation sBase i) - 1) : ℕ) : ℝ) ^ 2 ≤ (weight (deviation sBase i) : ℝ) ^ 2 :=
      pow_le_pow_left₀ (Nat.cast_nonneg _) (by exact_mod_cast hv) 2
    have hq := weight_sq hd
    have := ih.combine (by norm_num) (a := levelWeight sBase i) (b := max 1 (levelWeight sBase i - 1))
      (val' := fun us => combination (coeffsI (levelWeight sBase) (i + 1)) (us.map (baseOf cdt)))
      (coprime_weights hz) (by linarith)
      (by
        show 9 * ((weight (deviation sBase i) : ℝ) ^ 2 + ((max 1 (weight (deviation sBase i) - 1) : ℕ) : ℝ) ^ 2) ≤ _
        nlinarith [sq_nonneg (weight (deviation sBase i) : ℝ)])
      (fun us vs hus _ => combination_halves _ _ (by rw [hus, coeffsI_length]))
    rw [← mul_two, ← pow_succ] at this
    rw [deviation, next_eq hd]
    generalize (2 : ℝ) ^ (-70 : ℤ) = ε at this ⊢
    intro φ hφ
    refine (this φ hφ).trans (le_of_eq ?_)
    rw [pow_succ]
    ring

/-! ### The final combination -/

theorem final_pos {s S : ℝ} : 1 ≤ finalWeight s S := by
  unfold finalWeight
  rw [Nat.one_le_ceil_iff]
  have := Real.sqrt_nonneg (2 * (s / S) * (s / S) - 1)
  linarith

/-- The weights of the final combination are no larger than the ones of the next level, or 2 and 1. -/
theorem final_le {s S : ℝ} (h : denum ≤ S) (hs : 0 ≤ s) (hlt : s < nextDeviation S) :
    finalWeight s S ≤ max 2 (weight S) := by
  have hd := denum_pos
  have hS : 0 < S := by linarith
  have hz := weight_pos h
  have hq := next_sq h
  have h1 : s ^ 2 < nextDeviation S ^ 2 := pow_lt_pow_left₀ hlt hs (by norm_num)
  rw [hq] at h1
  have h2 : (s / S) * (s / S) < ((weight S * weight S + max 1 (weight S - 1) * max 1 (weight S - 1) : ℕ) : ℝ) := by
    rw [div_mul_div_comm, div_lt_iff₀ (by positivity)]
    nlinarith
  unfold finalWeight
  rw [Nat.ceil_le]
  set m := max 2 (weight S) with hm
  have hm2 : (2 : ℝ) ≤ m := by exact_mod_cast le_max_left 2 _
  have h3 : ((weight S * weight S + max 1 (weight S - 1) * max 1 (weight S - 1) : ℕ) : ℝ) ≤
      (m : ℝ) ^ 2 + ((m : ℝ) - 1) ^ 2 := by
    have h4 : weight S * weight S + max 1 (weight S - 1) * max 1 (weight S - 1) ≤ m * m + (m - 1) * (m - 1) := by
      have a : weight S ≤ m := le_max_right _ _
      have b : max 1 (weight S - 1) ≤ m - 1 := by omega
      exact Nat.add_le_add (Nat.mul_le_mul a a) (Nat.mul_le_mul b b)
    have h5 : ((m - 1 : ℕ) : ℝ) = (m : ℝ) - 1 := by
      rw [Nat.cast_sub (by omega), Nat.cast_one]
    calc _ ≤ ((m * m + (m - 1) * (m - 1) : ℕ) : ℝ) := by exact_mod_cast h4
      _ = _ := by rw [Nat.cast_add, Nat.cast_mul, Nat.cast_mul, h5]; ring
  have h6 : √(2 * (s / S) * (s / S) - 1) ≤ 2 * m - 1 := by
    rw [Real.sqrt_le_left (by linarith)]
    nlinarith
  linarith

theorem final_smooth {s S : ℝ} (h : denum ≤ S) (hs : 0 ≤ s) (hlt : s < nextDeviation S) :
    9 * ((finalWeight s S : ℝ) ^ 2 + ((finalWeight s S - 1 : ℕ) : ℝ) ^ 2) ≤ S ^ 2 := by
  have hle := final_le h hs hlt
  have h1 := final_pos (s := s) (S := S)
  have hq := weight_sq h
  have hz : (1 : ℝ) ≤ weight S := by exact_mod_cast weight_pos h
  rw [Nat.cast_sub h1, Nat.cast_one]
  have hf : (1 : ℝ) ≤ finalWeight s S := by exact_mod_cast h1
  rcases le_or_gt (finalWeight s S) 2 with h2 | h2
  · have : (finalWeight s S : ℝ) ≤ 2 := by exact_mod_cast h2
    nlinarith
  · have : (finalWeight s S : ℝ) ≤ weight S := by
      have : finalWeight s S ≤ weight S := by omega
      exact_mod_cast this
    nlinarith

/-- The number of iterations determines the level. -/
theorem numIterations_level {sBase s : ℝ} {i : ℤ} {fuel : ℕ} (h : numIterations fuel sBase s = .ok i) :
    ∃ j : ℕ, i = j ∧ deviation sBase j ≤ s ∧ s < deviation sBase (j + 1) := by
  have key : ∀ (fuel k : ℕ), deviation sBase k ≤ s →
      iterationsLoop s fuel (deviation sBase (k + 1)) ((k + 1 : ℕ) : ℤ) = .ok i →
      ∃ j : ℕ, i = j ∧ deviation sBase j ≤ s ∧ s < deviation sBase (j + 1) := by
    intro fuel
    induction fuel with
    | zero => intro k _ h; cases h
    | succ f ih =>
      intro k hk h
      rw [iterationsLoop] at h
      split_ifs at h with hc
      · exact ih (k + 1) hc (by push_cast at h ⊢; exact h)
      · cases h
        exact ⟨k, by push_cast; ring, hk, not_le.mp hc⟩
  unfold numIterations at h
  split_ifs at h with h0
  cases fuel with
  | zero => cases h
  | succ f =>
    rw [iterationsLoop, if_pos (not_lt.mp h0)] at h
    exact key f 0 (not_lt.mp h0) (by push_cast; exact h)

theorem top_close {sBase s : ℝ} {cdt : List ℕ} (h : createTable sBase = .ok cdt) {i : ℕ}
    (h1 : deviation sBase i ≤ s) (h2 : s < deviation sBase (i + 1)) :
    CloseTo (2 ^ 64) (wordsOf i) (fun us => combination
        (coeffsTop (levelWeight sBase) (finalWeight s (deviation sBase i)) i) (us.map (baseOf cdt)))
      (combinedDeviation sBase (coeffsTop (levelWeight sBase) (finalWeight s (deviation sBase i)) i))
      (2 ^ (i + 1) * (baseDistance sBase + 2 ^ (-70 : ℤ))) := by
  have hb : denum ≤ sBase := (created h).1
  have hε : (0 : ℝ) ≤ 2 ^ (-70 : ℤ) := by positivity
  have hB : 0 ≤ baseDistance sBase := by unfold baseDistance; positivity
  have hd := deviation_ge hb i
  have h7 := denum_bounds.1
  by_cases h0 : i = 0
  · subst h0
    have := level_close h 0
    unfold wordsOf coeffsTop
    rw [if_pos rfl, if_pos rfl]
    have e : combinedDeviation sBase [1] = deviation sBase 0 := by
      simp [combinedDeviation, sumSquares, deviation]
    rw [e]
    intro φ hφ
    refine (this φ hφ).trans ?_
    generalize (2 : ℝ) ^ (-70 : ℤ) = ε at hε ⊢
    rw [pow_zero, zero_add, pow_one]
    linarith
  · have := (level_close h i).combine (by norm_num) (a := finalWeight s (deviation sBase i))
      (b := finalWeight s (deviation sBase i) - 1)
      (val' := fun us => combination
        (coeffsTop (levelWeight sBase) (finalWeight s (deviation sBase i)) i) (us.map (baseOf cdt)))
      (by
        obtain ⟨k, hk⟩ : ∃ k, finalWeight s (deviation sBase i) = k + 1 :=
          ⟨_, (Nat.sub_add_cancel final_pos).symm⟩
        rw [hk]; simp)
      (by linarith) (final_smooth hd (by linarith) h2)
      (fun us vs hus _ => by
        unfold coeffsTop
        rw [if_neg h0]
        exact combination_halves _ _ (by rw [hus, coeffsI_length]))
    have e : combinedDeviation sBase (coeffsTop (levelWeight sBase) (finalWeight s (deviation sBase i)) i) =
        deviation sBase i * √((finalWeight s (deviation sBase i) : ℝ) ^ 2 +
          ((finalWeight s (deviation sBase i) - 1 : ℕ) : ℝ) ^ 2) := by
      have hl := c64_levels hb i
      unfold coeffsTop
      rw [if_neg h0]
      unfold combinedDeviation at hl ⊢
      rw [sumSquares_append, sumSquares_smul, sumSquares_smul, ← add_mul, Nat.cast_mul, Real.sqrt_mul (by positivity),
        mul_comm (√_) (√_), ← mul_assoc]
      rw [show (levelWeight sBase) = fun lvl => weight (deviation sBase lvl) from rfl, hl]
      congr 2
      push_cast
      ring
    rw [← mul_two, ← pow_succ] at this
    rw [e]
    unfold wordsOf
    rw [if_neg h0]
    intro φ hφ
    refine (this φ hφ).trans ?_
    generalize (2 : ℝ) ^ (-70 : ℤ) = ε at hε ⊢
    rw [pow_succ]
    linarith

theorem wide_enough {w : ℕ} {sBase s : ℝ} {cdt : List ℕ} {z : ℕ → ℕ} (h : createTable sBase = .ok cdt) {i : ℕ}
    (hw : 2 * (max 1 (2 * finalWeight s (deviation sBase i) - 1) * gaussianBound cdt z i) < 2 ^ w) :
    cdt.length < 2 ^ w ∧ 2 * gaussianBound cdt z i < 2 ^ w ∧
      2 * ((finalWeight s (deviation sBase i) + (finalWeight s (deviation sBase i) - 1)) *
        gaussianBound cdt z i) < 2 ^ w := by
  set F := finalWeight s (deviation sBase i) with hF
  set B := gaussianBound cdt z i with hB
  have hF1 : 1 ≤ F := final_pos
  have hm : ∀ n ≤ i, (cdt.length + 1) / 2 ≤ gaussianBound cdt z n := by
    intro n
    induction n with
    | zero => intro _; exact le_rfl
    | succ n ih =>
      intro hn
      refine (ih (by omega)).trans ?_
      rw [gaussianBound]
      exact Nat.le_mul_of_pos_left _ (by omega)
  have hb : B ≤ max 1 (2 * F - 1) * B := Nat.le_mul_of_pos_left _ (by omega)
  refine ⟨?_, by omega, ?_⟩
  · have a := hm i le_rfl
    have c := (created h).2.2
    omega
  · refine lt_of_le_of_lt (Nat.mul_le_mul_left 2 ?_) hw
    rw [show F + (F - 1) = 2 * F - 1 by omega]
    exact Nat.mul_le_mul_right _ (le_max_right _ _)

/-- **C71.** For every base deviation that `Create` accepts and every requested deviation, when no sample can wrap
around: the sum over any integers of the differences between the probability of the returned integer and the
discrete Gaussian distribution is at most `2^(i+1)` times (the distance of the base sampler plus `2^(-70)`), where `i`
is the number of iterations. The deviation of that Gaussian distribution is the one of the combination of base
samples. -/
theorem c71_distance {w : ℕ} {sBase s : ℝ} {cdt : List ℕ} (h : createTable sBase = .ok cdt) (hs : s < 2 ^ 1024)
    {fuel i : ℕ} (hi : numIterations fuel sBase s = .ok i)
    (hw : 2 * (max 1 (2 * finalWeight s (deviation sBase i) - 1) * gaussianBound cdt (levelWeight sBase) i) < 2 ^ w)
    (T : Finset ℤ) :
    ∑ x ∈ T, |gaussianProbability w cdt sBase s i x - discreteGaussian
        (combinedDeviation sBase (coeffsTop (levelWeight sBase) (finalWeight s (deviation sBase i)) i)) x| ≤
      2 ^ (i + 1) * ((2 * (8 * ⌈sBase⌉₊ : ℕ) + 1) / 2 ^ 62 + 2 ^ (-48 : ℤ) + 2 ^ (-70 : ℤ)) := by
  have hb : denum ≤ sBase := (created h).1
  have hi30 := c64_few_iterations hb hs hi
  obtain ⟨j, hj, h1, h2⟩ := numIterations_level hi
  obtain rfl : i = j := by exact_mod_cast hj
  obtain ⟨a, b, c⟩ := wide_enough h hw
  have := (top_close h h1 h2).distance T
  refine le_trans (le_of_eq (Finset.sum_congr rfl fun x _ => ?_)) this
  rw [gaussianProbability_eq a (by omega) b c]

/-- The values of `k` samples. -/
def valuesOf (val : List ℕ → ℤ) (n : ℕ) : ℕ → List ℕ → List ℤ
  | 0, _ => []
  | k + 1, us => val (us.take n) :: valuesOf val n k (us.drop n)

theorem samples_words {w : ℕ} {cdt : List ℕ} (z : ℕ → ℕ) {zTop i : ℕ} (hc : cdt.length < 2 ^ w) (hi : i ≤ 30)
    (hb : 2 * gaussianBound cdt z i < 2 ^ w) (hb' : 2 * ((zTop + (zTop - 1)) * gaussianBound cdt z i) < 2 ^ w)
    (k : ℕ) {us : List ℕ} (hus : us.length = k * wordsOf i) :
    ∃ vs, times (sampleWithIterations wordsSource w cdt z zTop i) k us = .ok (vs, []) ∧
      vs.map (signedWord w) =
        valuesOf (fun us => combination (coeffsTop z zTop i) (us.map (baseOf cdt))) (wordsOf i) k us := by
  induction k generalizing us with
  | zero =>
    rw [Nat.zero_mul] at hus
    rw [List.length_eq_zero_iff.mp hus]
    exact ⟨[], rfl, rfl⟩
  | succ k ih =>
    rw [Nat.succ_mul] at hus
    obtain ⟨v, h1, h2⟩ := sample_words z hc hi hb hb' (us := us.take (wordsOf i)) (by rw [List.length_take]; omega)
      (us.drop (wordsOf i))
    rw [List.take_append_drop] at h1
    obtain ⟨vs, h3, h4⟩ := ih (us := us.drop (wordsOf i)) (by rw [List.length_drop]; omega)
    refine ⟨v :: vs, ?_, ?_⟩
    · rw [times, h1, Outcome.bind_ok]
      dsimp only
      rw [h3]
      rfl
    · rw [List.map_cons, h2, h4]
      rfl

/-- **C71.** Samples drawn one after the other, such as the coefficients of a polynomial, are independent: the joint
distribution of `k` samples is within `k` times that distance of the product of discrete Gaussian distributions. -/
theorem c71_joint {w : ℕ} {sBase s : ℝ} {cdt : List ℕ} (h : createTable sBase = .ok cdt) (hs : s < 2 ^ 1024)
    {fuel i : ℕ} (hi : numIterations fuel sBase s = .ok i)
    (hw : 2 * (max 1 (2 * finalWeight s (deviation sBase i) - 1) * gaussianBound cdt (levelWeight sBase) i) < 2 ^ w)
    (k : ℕ) (T : Finset (List ℤ)) (hT : ∀ t ∈ T, t.length = k) :
    ∑ t ∈ T, |wordsProbability (k * wordsOf i) (fun us => (fun r => r.1.map (signedWord w)) <$> times
        (sampleWithIterations wordsSource w cdt (levelWeight sBase) (finalWeight s (deviation sBase i)) i) k us) t -
      (t.map (discreteGaussian (combinedDeviation sBase
        (coeffsTop (levelWeight sBase) (finalWeight s (deviation sBase i)) i)))).prod| ≤
      k * (2 ^ (i + 1) * ((2 * (8 * ⌈sBase⌉₊ : ℕ) + 1) / 2 ^ 62 + 2 ^ (-48 : ℤ) + 2 ^ (-70 : ℤ))) := by
  have hb : denum ≤ sBase := (created h).1
  have hi30 := c64_few_iterations hb hs hi
  obtain ⟨j, hj, h1, h2⟩ := numIterations_level hi
  obtain rfl : i = j := by exact_mod_cast hj
  obtain ⟨a, b, c⟩ := wide_enough h hw
  have hpos : 0 < combinedDeviation sBase
      (coeffsTop (levelWeight sBase) (finalWeight s (deviation sBase i)) i) := by
    have hd := denum_pos
    by_cases h0 : i = 0
    · subst h0
      simp only [combinedDeviation, coeffsTop, sumSquares, if_true, List.map_cons, List.map_nil, List.sum_cons,
        List.sum_nil]
      norm_num
      linarith
    · have := (c64_final_partial hb (Nat.one_le_iff_ne_zero.mpr h0) h1).1
      have hd' := deviation_ge hb i
      exact lt_of_lt_of_le (by linarith) this
  have := (top_close h h1 h2).joint (by norm_num) hpos (vals := valuesOf (fun us => combination
      (coeffsTop (levelWeight sBase) (finalWeight s (deviation sBase i)) i) (us.map (baseOf cdt))) (wordsOf i))
    rfl (fun k us vs hus => by rw [valuesOf, ← hus, List.take_left, List.drop_left]) k T hT
  refine le_trans (le_of_eq (Finset.sum_congr rfl fun t _ => ?_)) this
  rw [wordsProbability_eq]
  congr 2
  refine average_congr fun us hus => ?_
  obtain ⟨vs, e1, e2⟩ := samples_words (levelWeight sBase) a (by omega) b c k hus
  beta_reduce
  rw [e1, ← e2]
  have e : ((fun r : List ℕ × List ℕ => r.1.map (signedWord w)) <$>
      (Outcome.ok (vs, ([] : List ℕ)) : Outcome (List ℕ × List ℕ))) = .ok (vs.map (signedWord w)) := rfl
  rw [e]
  simp only [Outcome.ok.injEq]

/-- **C71.** From one iteration on, the deviation of that Gaussian distribution is at least the requested one and less
than `√5` times it. -/
theorem c71_deviation {sBase s : ℝ} (hb : √2 * 5.3349782 ≤ sBase) {fuel i : ℕ}
    (hi : numIterations fuel sBase s = .ok i) (h1 : 1 ≤ i) :
    s ≤ combinedDeviation sBase (coeffsTop (levelWeight sBase) (finalWeight s (deviation sBase i)) i) ∧
    combinedDeviation sBase (coeffsTop (levelWeight sBase) (finalWeight s (deviation sBase i)) i) < √5 * s := by
  obtain ⟨j, hj, hl, -⟩ := numIterations_level hi
  obtain rfl : i = j := by exact_mod_cast hj
  have hb' : denum ≤ sBase := hb
  have hd := deviation_ge hb' i
  have hdp := denum_pos
  obtain ⟨a, b⟩ := c64_final_partial hb' h1 hl
  refine ⟨a, ?_⟩
  have h5 : 1 < √5 := by rw [Real.lt_sqrt (by norm_num)]; norm_num
  have hdev : ∀ zTop : ℕ, 1 ≤ zTop → combinedDeviation sBase (coeffsTop (levelWeight sBase) zTop i) =
      deviation sBase i * √((zTop : ℝ) ^ 2 + ((zTop : ℝ) - 1) ^ 2) := by
    intro zTop hz
    have hl := c64_levels hb' i
    unfold coeffsTop
    rw [if_neg (by omega)]
    unfold combinedDeviation at hl ⊢
    rw [sumSquares_append, sumSquares_smul, sumSquares_smul, ← add_mul, Nat.cast_mul, Real.sqrt_mul (by positivity),
      mul_comm (√_) (√_), ← mul_assoc,
      show (levelWeight sBase) = fun lvl => weight (deviation sBase lvl) from rfl, hl]
    congr 2
    push_cast [Nat.cast_sub hz]
    ring
  set F := finalWeight s (deviation sBase i) with hF
  have hF1 : 1 ≤ F := final_pos
  rcases Nat.eq_or_lt_of_le hF1 with h | h
  · rw [hdev F hF1, ← h]
    norm_num
    nlinarith
  · obtain ⟨k, hk⟩ : ∃ k, F = k + 2 := ⟨F - 2, by omega⟩
    have hlt := b (k + 1) (by omega) (by omega)
    change combinedDeviation sBase (coeffsTop (levelWeight sBase) (k + 1) i) < s at hlt
    rw [hdev _ (by omega)] at hlt
    rw [hdev F hF1, hk]
    refine lt_of_le_of_lt ?_ (mul_lt_mul_of_pos_left hlt (by linarith : 0 < √5))
    rw [← mul_assoc, mul_comm (√5), mul_assoc]
    refine mul_le_mul_of_nonneg_left ?_ (by linarith)
    rw [← Real.sqrt_mul (by norm_num)]
    refine Real.sqrt_le_sqrt ?_
    push_cast
    have : (0 : ℝ) ≤ k := Nat.cast_nonneg k
    nlinarith

/-- Non-vacuity: a base deviation of 8 and a request for 12 with 32-bit words takes one iteration, and the samples are
within `2^(-45)` of a discrete Gaussian distribution with a deviation between 12 and 27. -/
example : ∃ cdt, createTable 8 = .ok cdt ∧ numIterations 3 8 12 = .ok (1 : ℕ) ∧ ∃ s', 12 ≤ s' ∧ s' < 27 ∧
    ∀ T : Finset ℤ, ∑ x ∈ T, |gaussianProbability 32 cdt 8 12 1 x - discreteGaussian s' x| ≤ 2 ^ (-45 : ℤ) := by
  obtain ⟨h1, h2, -⟩ := c64_overshoot
  have hd := denum_bounds
  have h8 : (√2 * 5.3349782 : ℝ) ≤ 8 := by
    have := hd.2
    unfold denum smoothing at this
    linarith
  have hceil : ⌈(8 : ℝ)⌉₊ = 8 := by exact_mod_cast Nat.ceil_natCast (R := ℝ) 8
  obtain ⟨cdt, hc, hl, -⟩ := (c70_create_partial 8).2 h8 (by rw [hceil]; norm_num)
  rw [hceil] at hl
  have hn : numIterations 3 8 12 = .ok (1 : ℕ) := h1 3 le_rfl
  obtain ⟨a, b⟩ := c71_deviation h8 hn le_rfl
  refine ⟨cdt, hc, hn, _, a, b.trans ?_, fun T => (c71_distance (w := 32) hc ?_ hn ?_ T).trans ?_⟩
  · have : √5 < 2.24 := by rw [Real.sqrt_lt' (by norm_num)]; norm_num
    linarith
  · calc (12 : ℝ) < 2 ^ 4 := by norm_num
      _ ≤ 2 ^ 1024 := pow_le_pow_right₀ (by norm_num) (by norm_num)
  · have hw : levelWeight 8 0 = 1 := weight_one (s := 8) (by norm_num) (by norm_num)
    rw [h2, gaussianBound, gaussianBound, hw, hl]
    norm_num
  · rw [hceil]
    norm_num

end Shell
