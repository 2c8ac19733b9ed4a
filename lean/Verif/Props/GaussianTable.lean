import Verif.Lemmas.GaussianTable
/-!
# C70: the base sampler samples from the discrete Gaussian distribution

For every accepted standard deviation whose cut-off fits an `int`, the table built by `Create` is complete and
sorted, and the statistical distance between a base sample drawn with it and the discrete Gaussian distribution is
tiny. The doubles of `Create` are idealised as real numbers.
-/

namespace Shell
open Spec Sampler Real

namespace Spec

/-- A generator whose state is the 64-bit word that it returns. -/
def wordSource : Gen ℕ := ⟨fun _ => .err .internal, fun u => .ok (u, u)⟩

/-- The probability that `SampleBase` for `w`-bit integers returns the word of the integer `x`. -/
noncomputable def baseProbability (w : ℕ) (cdt : List ℕ) (x : ℤ) : ℝ :=
  probability (fun u => (fun r => signedValue w r.1) <$> sampleBase wordSource w cdt u) x

end Spec

theorem accepted_ge {s : ℝ} (h : √2 * 5.3349782 ≤ s) : 7 ≤ s := by
  have : (1.4 : ℝ) ≤ √2 := by rw [le_sqrt (by norm_num) (by norm_num)]; norm_num
  nlinarith

theorem createTable_eq {s : ℝ} (h : √2 * 5.3349782 ≤ s) (hc : 2 * (8 * ⌈s⌉₊) + 1 < 2 ^ 31) :
    createTable s = .ok (tableOf s (8 * ⌈s⌉₊)) := by
  have h7 := accepted_ge h
  unfold createTable acceptsBase denum smoothing cutOff
  rw [if_neg (not_lt.mpr h), if_neg (by omega), if_neg (by omega)]
  simp only [Outcome.bind_ok]
  rw [accumulate_ok, Outcome.bind_ok, scale_cumulative (by linarith)]

/-- **C70.** The creation of a sampler: too small deviations are rejected; otherwise, if the cut-off fits, the table
has one entry for each integer from `-8⌈s⌉` to `8⌈s⌉`, in nondecreasing order. -/
theorem c70_create_partial (s : ℝ) :
    (s < √2 * 5.3349782 → createTable s = .err .invalidArgument) ∧
    (√2 * 5.3349782 ≤ s → 2 * (8 * ⌈s⌉₊) + 1 < 2 ^ 31 → ∃ cdt, createTable s = .ok cdt ∧
      cdt.length = 2 * (8 * ⌈s⌉₊) + 1 ∧ cdt.Pairwise (· ≤ ·)) := by
  constructor
  · intro h
    unfold createTable acceptsBase denum smoothing
    rw [if_pos h]; rfl
  · intro h hc
    exact ⟨_, createTable_eq h hc, tableOf_length _ _, tableOf_sorted (by linarith [accepted_ge h]) _⟩

/-- What is missing in `c70_create_partial`: `Create` accepts deviations of which the cut-off does not fit an `int`,
and its behaviour is then undefined. -/
theorem c70_create_overflow (s : ℝ) (h : √2 * 5.3349782 ≤ s) (hc : 2 ^ 31 ≤ 2 * (8 * ⌈s⌉₊) + 1) :
    createTable s = .ub .signedOverflow := by
  unfold createTable acceptsBase denum smoothing cutOff
  rw [if_neg (not_lt.mpr h)]
  by_cases h2 : 2 ^ 31 ≤ 8 * ⌈s⌉₊
  · rw [if_pos h2]; rfl
  · rw [if_neg h2, if_pos hc]; rfl

/-! ### Probabilities of the indices -/

theorem sampleBase_value {w : ℕ} {cdt : List ℕ} {c : ℕ} (hl : cdt.length = 2 * c + 1) (hw : c + 1 < 2 ^ (w - 1))
    (u : ℕ) : ((fun r : ℕ × ℕ => signedValue w r.1) <$> sampleBase wordSource w cdt u) =
      .ok ((cdt.countP (· < u % 2 ^ 63) : ℤ) - c) := by
  have hw0 : w ≠ 0 := by rintro rfl; norm_num at hw
  have hp : 2 ^ w = 2 * 2 ^ (w - 1) := by rw [← pow_succ']; congr 1; omega
  rw [c41_base wordSource w cdt (by omega)]
  have h1 : cdt.countP (· < u % 2 ^ 63) ≤ cdt.length := List.countP_le_length
  show Outcome.ok (signedValue w _) = _
  congr 1
  have e : cdt.length / 2 = c := by omega
  rw [e]
  generalize cdt.countP (· < u % 2 ^ 63) = i at h1 ⊢
  have hpz : (2 : ℤ) ^ w = 2 * ((2 ^ (w - 1) : ℕ) : ℤ) := by exact_mod_cast hp
  unfold signedValue
  rw [hpz]
  generalize 2 ^ (w - 1) = m at hw ⊢
  have hm : (0 : ℤ) < 2 * m := by omega
  by_cases hi : c ≤ i
  · rw [Int.emod_eq_of_lt (by omega) (by omega), if_pos (by omega)]; omega
  · have : ((i : ℤ) - c) % (2 * m) = i - c + 2 * m := by
      rw [← Int.add_emod_right, Int.emod_eq_of_lt (by omega) (by omega)]
    rw [this, if_neg (by omega)]; omega

/-- The number of 63-bit words of an index. -/
noncomputable def hits (cdt : List ℕ) (i : ℕ) : ℕ :=
  ((Finset.range (2 ^ 63)).filter fun u => cdt.countP (· < u) = i).card

theorem baseProbability_eq {w : ℕ} {cdt : List ℕ} {c : ℕ} (hl : cdt.length = 2 * c + 1) (hw : c + 1 < 2 ^ (w - 1))
    (i : ℕ) : baseProbability w cdt ((i : ℤ) - c) = hits cdt i / 2 ^ 63 := by
  unfold baseProbability probability hits
  have e : ((Finset.range (2 ^ 64)).filter fun u =>
      (fun u => (fun r : ℕ × ℕ => signedValue w r.1) <$> sampleBase wordSource w cdt u) u = .ok ((i : ℤ) - c)) =
      (Finset.range (2 ^ 64)).filter fun u => cdt.countP (· < u % 2 ^ 63) = i := by
    refine Finset.filter_congr fun u _ => ?_
    beta_reduce
    rw [sampleBase_value hl hw, Outcome.ok.injEq]
    omega
  rw [e, count_double (fun v => cdt.countP (· < v) = i)]
  push_cast
  rw [show (2 : ℝ) ^ 64 = 2 * 2 ^ 63 by norm_num, mul_div_mul_left _ _ (by norm_num)]

/-- Integers outside of `-c, …, c + 1` are never returned. -/
theorem baseProbability_out {w : ℕ} {cdt : List ℕ} {c : ℕ} (hl : cdt.length = 2 * c + 1) (hw : c + 1 < 2 ^ (w - 1))
    {x : ℤ} (hx : x < -c ∨ c + 1 < x) : baseProbability w cdt x = 0 := by
  unfold baseProbability probability
  rw [Finset.filter_false_of_mem]
  · simp
  · intro u _
    beta_reduce
    rw [sampleBase_value hl hw, Outcome.ok.injEq]
    have : cdt.countP (· < u % 2 ^ 63) ≤ cdt.length := List.countP_le_length
    omega

/-! ### Distance -/

/-- The number of 63-bit words with index at most `i`. -/
noncomputable def upTo (s : ℝ) (c i : ℕ) : ℕ := min (⌊cumulative s c i * 2 ^ 63⌋₊ + 1) (2 ^ 63)

theorem hits_zero {s : ℝ} (hs : 0 < s) (c : ℕ) : hits (tableOf s c) 0 = upTo s c 0 := by
  rw [upTo, ← count_le (tableOf_sorted hs c) (tableOf_get s c 0 (by omega)), hits]
  refine congrArg Finset.card (Finset.filter_congr fun u _ => ?_)
  omega

theorem hits_succ {s : ℝ} (hs : 0 < s) (c i : ℕ) (hi : i + 1 < 2 * c + 1) :
    upTo s c i + hits (tableOf s c) (i + 1) = upTo s c (i + 1) := by
  rw [upTo, upTo, ← count_le (tableOf_sorted hs c) (tableOf_get s c i (by omega)),
    ← count_le (tableOf_sorted hs c) (tableOf_get s c (i + 1) hi), hits, ← Finset.card_union_of_disjoint]
  · refine congrArg Finset.card ?_
    rw [← Finset.filter_or]
    refine Finset.filter_congr fun u _ => ?_
    omega
  · rw [Finset.disjoint_filter]; intro u _ h; omega

theorem hits_last {s : ℝ} (hs : 0 < s) (c : ℕ) :
    upTo s c (2 * c) + hits (tableOf s c) (2 * c + 1) = 2 ^ 63 := by
  rw [upTo, ← count_le (tableOf_sorted hs c) (tableOf_get s c (2 * c) (by omega)), hits,
    ← Finset.card_union_of_disjoint]
  · rw [← Finset.filter_or, Finset.filter_true_of_mem, Finset.card_range]
    intro u _
    have : (tableOf s c).countP (· < u) ≤ (tableOf s c).length := List.countP_le_length
    rw [tableOf_length] at this
    omega
  · rw [Finset.disjoint_filter]; intro u _ h; omega

theorem upTo_bounds {s : ℝ} (hs : 3 ≤ s) {c i : ℕ} (hi : i ≤ 2 * c) :
    cumulative s c i * 2 ^ 63 - 2 ^ (-17 : ℤ) ≤ upTo s c i ∧ (upTo s c i : ℝ) ≤ cumulative s c i * 2 ^ 63 + 1 := by
  have h0 := cumulative_nonneg (by linarith : 0 < s) c i
  have h1 := cumulative_le hs hi
  have h2 := Nat.lt_floor_add_one (cumulative s c i * 2 ^ 63)
  have h3 := Nat.floor_le (a := cumulative s c i * 2 ^ 63) (by positivity)
  have h4 : cumulative s c i * 2 ^ 63 ≤ 2 ^ 63 + 2 ^ (-17 : ℤ) := by
    calc cumulative s c i * 2 ^ 63 ≤ (1 + 2 ^ (-80 : ℤ)) * 2 ^ 63 := by gcongr
      _ = 2 ^ 63 + 2 ^ (-17 : ℤ) := by norm_num
  have h5 : (0 : ℝ) < 2 ^ (-17 : ℤ) := by positivity
  unfold upTo
  rw [Nat.cast_min]
  push_cast
  constructor
  · rw [le_min_iff]; constructor <;> linarith
  · exact (min_le_left _ _).trans (by linarith)

/-- One entry of the distribution. -/
theorem entry_close {s : ℝ} (hs : 3 ≤ s) {c i : ℕ} (hi : i ≤ 2 * c) :
    |(hits (tableOf s c) i : ℝ) / 2 ^ 63 - density s ((i : ℤ) - c)| ≤ 2 ^ (-62 : ℤ) := by
  have hs0 : 0 < s := by linarith
  have key : |(hits (tableOf s c) i : ℝ) - density s ((i : ℤ) - c) * 2 ^ 63| ≤ 2 := by
    have h17 : (2 : ℝ) ^ (-17 : ℤ) ≤ 1 := by norm_num
    cases i with
    | zero =>
      obtain ⟨h1, h2⟩ := upTo_bounds hs hi
      have e : cumulative s c 0 = density s (((0 : ℕ) : ℤ) - c) := by simp [cumulative]
      rw [e] at h1 h2
      rw [hits_zero hs0, abs_le]
      constructor <;> linarith
    | succ i =>
      obtain ⟨h1, h2⟩ := upTo_bounds hs hi
      obtain ⟨h3, h4⟩ := upTo_bounds hs (i := i) (c := c) (by omega)
      have e : cumulative s c (i + 1) = cumulative s c i + density s (((i + 1 : ℕ) : ℤ) - c) := by
        unfold cumulative; rw [Finset.sum_range_succ _ (i + 1)]
      have h5 : (upTo s c i : ℝ) + hits (tableOf s c) (i + 1) = upTo s c (i + 1) := by
        exact_mod_cast hits_succ hs0 c i (by omega)
      rw [e] at h1 h2
      rw [abs_le]
      constructor <;> linarith
  have e : (hits (tableOf s c) i : ℝ) / 2 ^ 63 - density s ((i : ℤ) - c) =
      ((hits (tableOf s c) i : ℝ) - density s ((i : ℤ) - c) * 2 ^ 63) / 2 ^ 63 := by
    rw [sub_div, mul_div_cancel_right₀ _ (by positivity)]
  rw [e, abs_div, abs_of_pos (by positivity : (0 : ℝ) < 2 ^ 63), div_le_iff₀ (by positivity)]
  exact key.trans (by norm_num)

theorem exp_neg_32 : exp (-32) ≤ 2 ^ (-46 : ℤ) := by
  calc exp (-32) = (exp 1 ^ 32)⁻¹ := by rw [exp_neg, ← exp_nat_mul]; norm_num
    _ ≤ ((2.718 : ℝ) ^ 32)⁻¹ := by
      gcongr
      have := exp_one_gt_d9; linarith
    _ ≤ 2 ^ (-46 : ℤ) := by norm_num

/-- The tail of the distribution relative to the approximate total. -/
theorem tail_bound {s : ℝ} (hs : 3 ≤ s) {c : ℕ} (hc : 8 * s ≤ c) :
    2 * ∑' k : ℕ, gauss s ((c : ℤ) + 1 + k) ≤ 2 ^ (-46 : ℤ) / 10 * massBase s := by
  have h1 := gauss_tail (by linarith : 0 < s) hc
  have h2 : (2.5 : ℝ) ≤ √(2 * π) := by
    rw [le_sqrt (by norm_num) (by linarith [pi_pos])]
    have := pi_gt_d2
    norm_num at this ⊢
    linarith
  have h3 := exp_neg_32
  unfold massBase
  calc 2 * ∑' k : ℕ, gauss s ((c : ℤ) + 1 + k) ≤ 2 * (exp (-32) * (s / 8)) := by linarith
    _ ≤ 2 * (2 ^ (-46 : ℤ) * (s / 8)) := by gcongr
    _ = 2 ^ (-46 : ℤ) / 10 * (2.5 * s) := by ring
    _ ≤ _ := by gcongr

/-- The index behind the table. -/
theorem last_small {s : ℝ} (hs : 3 ≤ s) {c : ℕ} (hc : 8 * s ≤ c) :
    (hits (tableOf s c) (2 * c + 1) : ℝ) / 2 ^ 63 ≤ 2 ^ (-46 : ℤ) / 10 + 2 ^ (-80 : ℤ) := by
  have hs0 : 0 < s := by linarith
  have hm := massBase_pos hs0
  have h1 := (upTo_bounds hs (le_refl (2 * c))).1
  have h2 : (upTo s c (2 * c) : ℝ) + hits (tableOf s c) (2 * c + 1) = 2 ^ 63 := by exact_mod_cast hits_last hs0 c
  have h3 := cumulative_last hs0 c
  have h4 := tail_bound hs hc
  have h5 : massBase s ≤ ∑' x : ℤ, gauss s x := (gauss_sum_bounds hs).1
  have h6 : (1 - 2 ^ (-46 : ℤ) / 10) * massBase s ≤ cumulative s c (2 * c) * massBase s := by linarith
  have h7 := le_of_mul_le_mul_right h6 hm
  rw [div_le_iff₀ (by positivity)]
  have h8 : (2 : ℝ) ^ (-17 : ℤ) = 2 ^ (-80 : ℤ) * 2 ^ 63 := by norm_num
  rw [h8] at h1
  have h9 : (1 - 2 ^ (-46 : ℤ) / 10) * 2 ^ 63 ≤ cumulative s c (2 * c) * 2 ^ 63 := by gcongr
  clear h3 h4 h5 h6 h7 h8
  generalize (2 : ℝ) ^ 63 = p at *
  generalize (2 : ℝ) ^ (-46 : ℤ) / 10 = a at *
  generalize (2 : ℝ) ^ (-80 : ℤ) = b at *
  rw [sub_mul, one_mul] at h9
  rw [add_mul]
  linarith

theorem discreteGaussian_nonneg (s : ℝ) (x : ℤ) : 0 ≤ discreteGaussian s x :=
  div_nonneg (gauss_pos s x).le (tsum_nonneg fun y => (gauss_pos s y).le)

theorem density_gap {s : ℝ} (hs : 3 ≤ s) (x : ℤ) :
    0 ≤ density s x - discreteGaussian s x ∧
    density s x - discreteGaussian s x ≤ 2 ^ (-80 : ℤ) * discreteGaussian s x := by
  have hs0 : 0 < s := by linarith
  have hm := massBase_pos hs0
  obtain ⟨h1, h2⟩ := gauss_sum_bounds hs
  change massBase s ≤ _ at h1
  change _ ≤ massBase s * _ at h2
  rw [density_eq hs0]
  unfold discreteGaussian
  set Z := ∑' x : ℤ, gauss s x
  have hZ : 0 < Z := by linarith
  have hg := gauss_pos s x
  constructor
  · rw [sub_nonneg]; gcongr
  · have : gauss s x / massBase s ≤ gauss s x / Z * (1 + 2 ^ (-80 : ℤ)) := by
      rw [div_mul_eq_mul_div, div_le_div_iff₀ hm hZ, mul_assoc]
      gcongr
      linarith
    linarith

/-- Sums over the integers of the table. -/
theorem sum_window (f : ℤ → ℝ) (c : ℕ) :
    ∑ x ∈ Finset.Icc (-c : ℤ) c, f x = ∑ i ∈ Finset.range (2 * c + 1), f ((i : ℤ) - c) := by
  symm
  refine Finset.sum_bij (fun (i : ℕ) _ => (i : ℤ) - c) ?_ ?_ ?_ ?_
  · intro i hi; rw [Finset.mem_range] at hi; rw [Finset.mem_Icc]; omega
  · intro i _ j _ h; omega
  · intro x hx
    rw [Finset.mem_Icc] at hx
    exact ⟨(x + c).toNat, by rw [Finset.mem_range]; omega, by omega⟩
  · intro i _; rfl

theorem window_le_one {s : ℝ} (hs : 0 < s) (T : Finset ℤ) : ∑ x ∈ T, discreteGaussian s x ≤ 1 := by
  have hZ : 0 < ∑' x : ℤ, gauss s x := (summable_gauss hs).tsum_pos (fun x => (gauss_pos s x).le) 0 (gauss_pos s 0)
  unfold discreteGaussian
  rw [← Finset.sum_div, div_le_one hZ]
  exact (summable_gauss hs).sum_le_tsum _ fun x _ => (gauss_pos s x).le

theorem window_ge {s : ℝ} (hs : 3 ≤ s) {c : ℕ} (hc : 8 * s ≤ c) :
    1 - 2 ^ (-46 : ℤ) / 10 ≤ ∑ x ∈ Finset.Icc (-c : ℤ) c, discreteGaussian s x := by
  have hs0 : 0 < s := by linarith
  have h1 : massBase s ≤ ∑' x : ℤ, gauss s x := (gauss_sum_bounds hs).1
  have h2 := tail_bound hs hc
  have h3 := tsum_even (summable_gauss hs0) (gauss_neg s) c
  have hm := massBase_pos hs0
  unfold discreteGaussian
  rw [← Finset.sum_div, sum_window, le_div_iff₀ (by linarith)]
  nlinarith

/-- **C70.** The base sampler: for every accepted deviation, whatever finite set of results is observed, the
probabilities of a base sample and those of the discrete Gaussian distribution differ in total by at most
`(2c + 1) / 2^62 + 2^-48`, where `c = 8⌈s⌉`. The integer type must hold the samples. -/
theorem c70_distance {s : ℝ} {cdt : List ℕ} (h : createTable s = .ok cdt) {w : ℕ}
    (hw : 8 * ⌈s⌉₊ + 1 < 2 ^ (w - 1)) (T : Finset ℤ) :
    ∑ x ∈ T, |baseProbability w cdt x - discreteGaussian s x| ≤
      (2 * (8 * ⌈s⌉₊ : ℕ) + 1) / 2 ^ 62 + 2 ^ (-48 : ℤ) := by
  obtain ⟨hacc, hfit⟩ : √2 * 5.3349782 ≤ s ∧ 2 * (8 * ⌈s⌉₊) + 1 < 2 ^ 31 := by
    by_cases h1 : s < √2 * 5.3349782
    · rw [(c70_create_partial s).1 h1] at h; cases h
    · refine ⟨not_lt.mp h1, ?_⟩
      by_contra h2
      rw [c70_create_overflow s (not_lt.mp h1) (not_lt.mp h2)] at h; cases h
  rw [createTable_eq hacc hfit] at h
  obtain rfl := Outcome.ok.inj h
  have h7 := accepted_ge hacc
  have hs : 3 ≤ s := by linarith
  have hs0 : 0 < s := by linarith
  have hc : 8 * s ≤ (8 * ⌈s⌉₊ : ℕ) := by push_cast; have := Nat.le_ceil s; linarith
  generalize 8 * ⌈s⌉₊ = c at hc hw hfit h ⊢
  have hl := tableOf_length s c
  set P := baseProbability w (tableOf s c) with hP
  set D := discreteGaussian s with hD
  have hDn : ∀ x, 0 ≤ D x := discreteGaussian_nonneg s
  have hPn : ∀ x, 0 ≤ P x := fun x => by
    rw [hP]; exact div_nonneg (Nat.cast_nonneg _) (pow_nonneg zero_le_two _)
  set S := Finset.Icc (-c : ℤ) c with hS
  set T' := T ∪ Finset.Icc (-c : ℤ) (c + 1) with hT'
  have hSub : S ⊆ T' := fun x hx => by
    rw [hS, Finset.mem_Icc] at hx
    rw [hT', Finset.mem_union, Finset.mem_Icc]; right; omega
  have hmem : (c + 1 : ℤ) ∈ T' \ S := by
    rw [Finset.mem_sdiff, hT', Finset.mem_union, Finset.mem_Icc, hS, Finset.mem_Icc]
    constructor
    · right; omega
    · omega
  -- inside
  have hin : ∑ x ∈ S, |P x - D x| ≤ (2 * c + 1) / 2 ^ 62 + 2 ^ (-80 : ℤ) := by
    have h1 : ∀ x ∈ S, |P x - D x| ≤ 2 ^ (-62 : ℤ) + 2 ^ (-80 : ℤ) * D x := by
      intro x hx
      rw [hS, Finset.mem_Icc] at hx
      obtain ⟨i, rfl⟩ : ∃ i : ℕ, x = (i : ℤ) - c := ⟨(x + c).toNat, by omega⟩
      have h2 := entry_close hs (c := c) (i := i) (by omega)
      obtain ⟨h3, h4⟩ := density_gap hs ((i : ℤ) - c)
      rw [hP, baseProbability_eq hl hw]
      calc |(hits (tableOf s c) i : ℝ) / 2 ^ 63 - D ((i : ℤ) - c)|
          = |((hits (tableOf s c) i : ℝ) / 2 ^ 63 - density s ((i : ℤ) - c)) +
              (density s ((i : ℤ) - c) - D ((i : ℤ) - c))| := by congr 1; ring
        _ ≤ _ := (abs_add_le _ _).trans (add_le_add h2 (by rw [abs_of_nonneg h3]; exact h4))
    refine (Finset.sum_le_sum h1).trans ?_
    rw [Finset.sum_add_distrib, Finset.sum_const, ← Finset.mul_sum, nsmul_eq_mul]
    have h2 : (S.card : ℝ) = 2 * c + 1 := by
      rw [hS, Int.card_Icc]
      have : ((c : ℤ) + 1 - -c).toNat = 2 * c + 1 := by omega
      rw [this]; push_cast; ring
    have h3 : ∑ x ∈ S, D x ≤ 1 := window_le_one hs0 S
    rw [h2]
    have h4 : (2 : ℝ) ^ (-80 : ℤ) * ∑ x ∈ S, D x ≤ 2 ^ (-80 : ℤ) := mul_le_of_le_one_right (by positivity) h3
    have h5 : (2 * (c : ℝ) + 1) * 2 ^ (-62 : ℤ) = (2 * c + 1) / 2 ^ 62 := by
      rw [div_eq_mul_inv]; norm_num
    linarith
  -- outside
  have hout : ∑ x ∈ T' \ S, |P x - D x| ≤ 2 * (2 ^ (-46 : ℤ) / 10) + 2 ^ (-80 : ℤ) := by
    have h1 : ∀ x ∈ T' \ S, |P x - D x| ≤ P x + D x := fun x _ => by
      have := hPn x; have := hDn x
      rw [abs_le]; constructor <;> linarith
    refine (Finset.sum_le_sum h1).trans ?_
    rw [Finset.sum_add_distrib]
    have h2 : ∑ x ∈ T' \ S, P x = P (c + 1) := by
      refine Finset.sum_eq_single_of_mem _ hmem fun x hx hne => ?_
      rw [Finset.mem_sdiff, hS, Finset.mem_Icc] at hx
      exact baseProbability_out hl hw (by omega)
    have h3 : P (c + 1) ≤ 2 ^ (-46 : ℤ) / 10 + 2 ^ (-80 : ℤ) := by
      have : (c + 1 : ℤ) = ((2 * c + 1 : ℕ) : ℤ) - c := by push_cast; ring
      rw [this, hP, baseProbability_eq hl hw]
      exact last_small hs hc
    have h4 : ∑ x ∈ T' \ S, D x ≤ 2 ^ (-46 : ℤ) / 10 := by
      have h5 : ∑ x ∈ T' \ S, D x + ∑ x ∈ S, D x = ∑ x ∈ T', D x := Finset.sum_sdiff hSub
      have h6 : ∑ x ∈ T', D x ≤ 1 := window_le_one hs0 T'
      have h7 : 1 - 2 ^ (-46 : ℤ) / 10 ≤ ∑ x ∈ S, D x := window_ge hs hc
      linarith
    rw [h2]; linarith
  calc ∑ x ∈ T, |P x - D x| ≤ ∑ x ∈ T', |P x - D x| :=
        Finset.sum_le_sum_of_subset_of_nonneg Finset.subset_union_left fun _ _ _ => abs_nonneg _
    _ = ∑ x ∈ T' \ S, |P x - D x| + ∑ x ∈ S, |P x - D x| := (Finset.sum_sdiff hSub).symm
    _ ≤ (2 * c + 1) / 2 ^ 62 + (2 * (2 ^ (-46 : ℤ) / 10) + 2 ^ (-80 : ℤ) + 2 ^ (-80 : ℤ)) := by linarith
    _ ≤ (2 * c + 1) / 2 ^ 62 + 2 ^ (-48 : ℤ) := by gcongr; norm_num

/-- **C70.** The range of the base sampler: no sample is below `-8⌈s⌉` or above `8⌈s⌉ + 1`. -/
theorem c70_range {s : ℝ} {cdt : List ℕ} (h : createTable s = .ok cdt) {w : ℕ} (hw : 8 * ⌈s⌉₊ + 1 < 2 ^ (w - 1))
    (u : ℕ) : ∃ v, sampleBase wordSource w cdt u = .ok v ∧
      -(8 * ⌈s⌉₊ : ℤ) ≤ signedValue w v.1 ∧ signedValue w v.1 ≤ 8 * ⌈s⌉₊ + 1 := by
  have hl : cdt.length = 2 * (8 * ⌈s⌉₊) + 1 := by
    by_cases h1 : s < √2 * 5.3349782
    · rw [(c70_create_partial s).1 h1] at h; cases h
    · by_cases h2 : 2 * (8 * ⌈s⌉₊) + 1 < 2 ^ 31
      · rw [createTable_eq (not_lt.mp h1) h2] at h
        obtain rfl := Outcome.ok.inj h
        exact tableOf_length _ _
      · rw [c70_create_overflow s (not_lt.mp h1) (not_lt.mp h2)] at h; cases h
  have h3 := sampleBase_value hl hw u
  have h4 : cdt.countP (· < u % 2 ^ 63) ≤ cdt.length := List.countP_le_length
  cases h5 : sampleBase wordSource w cdt u with
  | err e => rw [h5] at h3; cases h3
  | ub e => rw [h5] at h3; cases h3
  | ok v =>
    rw [h5, Outcome.map_ok] at h3
    have h6 := Outcome.ok.inj h3
    exact ⟨v, rfl, by rw [h6]; omega, by rw [h6]; omega⟩

/-- The cut-off is not the limit of the samples: for the deviation 8 it is 64, and the sample 65 is possible. -/
theorem c70_beyond_cut_off :
    ∃ cdt, createTable 8 = .ok cdt ∧ ∀ w, 8 < w → 0 < baseProbability w cdt 65 := by
  have hs2 : √2 ≤ 1.42 := by rw [sqrt_le_iff]; norm_num
  have hc8 : ⌈(8 : ℝ)⌉₊ = 8 := by exact_mod_cast Nat.ceil_natCast (R := ℝ) 8
  have hcr := createTable_eq (s := 8) (by nlinarith) (by rw [hc8]; norm_num)
  rw [hc8] at hcr
  refine ⟨_, hcr, fun w hw => ?_⟩
  have hw' : 8 * 8 + 1 < 2 ^ (w - 1) :=
    lt_of_lt_of_le (by norm_num : 8 * 8 + 1 < 2 ^ 8) (Nat.pow_le_pow_right (by norm_num) (by omega))
  have e : (65 : ℤ) = ((2 * (8 * 8) + 1 : ℕ) : ℤ) - (8 * 8 : ℕ) := by norm_num
  rw [e, baseProbability_eq (tableOf_length 8 (8 * 8)) hw']
  refine div_pos ?_ (by positivity)
  have h1 := hits_last (s := 8) (by norm_num) (8 * 8)
  have h2 : upTo 8 (8 * 8) (2 * (8 * 8)) < 2 ^ 63 := by
    have hm : massBase 8 ≤ 24 := by
      unfold massBase
      have : √(2 * π) ≤ 3 := by rw [sqrt_le_iff]; constructor <;> linarith [pi_lt_d2]
      linarith
    have hm0 := massBase_pos (s := 8) (by norm_num)
    have h3 := cumulative_last (s := 8) (by norm_num) (8 * 8)
    have h4 : ∑' x : ℤ, gauss 8 x ≤ massBase 8 * (1 + 2 ^ (-80 : ℤ)) := (gauss_sum_bounds (by norm_num)).2
    have h5 : gauss 8 (((8 * 8 : ℕ) : ℤ) + 1 + (0 : ℕ)) ≤ ∑' k : ℕ, gauss 8 (((8 * 8 : ℕ) : ℤ) + 1 + k) :=
      ((summable_gauss (by norm_num : (0 : ℝ) < 8)).comp_injective
        (i := fun k : ℕ => (((8 * 8 : ℕ) : ℤ) + 1 + k)) (fun x y h => by simpa using h)).le_tsum 0
        fun k _ => (gauss_pos _ _).le
    have h6 : (2.72 ^ 34 : ℝ)⁻¹ ≤ gauss 8 (((8 * 8 : ℕ) : ℤ) + 1 + (0 : ℕ)) := by
      calc (2.72 ^ 34 : ℝ)⁻¹ ≤ (exp 1 ^ 34)⁻¹ := by
            have := exp_one_lt_d9
            gcongr
            linarith
        _ = exp (-34) := by rw [exp_neg, ← exp_nat_mul]; norm_num
        _ ≤ _ := by
            unfold gauss
            apply exp_le_exp.mpr
            norm_num
    have h7 : cumulative 8 (8 * 8) (2 * (8 * 8)) * massBase 8 ≤ (1 - 2 ^ (-60 : ℤ)) * massBase 8 := by
      have h8 : (2 ^ (-60 : ℤ) + 2 ^ (-80 : ℤ) : ℝ) * 24 ≤ 2 * (2.72 ^ 34 : ℝ)⁻¹ := by norm_num
      have h9 : (2 ^ (-60 : ℤ) + 2 ^ (-80 : ℤ) : ℝ) * massBase 8 ≤ (2 ^ (-60 : ℤ) + 2 ^ (-80 : ℤ)) * 24 := by
        gcongr
      rw [sub_mul, one_mul]
      rw [mul_add, mul_one] at h4
      rw [add_mul] at h9
      have h10 := h9.trans h8
      clear h8 h9
      rw [mul_comm (massBase 8)] at h4
      generalize (2 : ℝ) ^ (-60 : ℤ) * massBase 8 = a at *
      generalize (2 : ℝ) ^ (-80 : ℤ) * massBase 8 = b at *
      generalize ((2.72 : ℝ) ^ 34)⁻¹ = d at *
      linarith
    have h8 := le_of_mul_le_mul_right h7 hm0
    have h9 : ⌊cumulative 8 (8 * 8) (2 * (8 * 8)) * 2 ^ 63⌋₊ ≤ 2 ^ 63 - 8 := by
      have : cumulative 8 (8 * 8) (2 * (8 * 8)) * 2 ^ 63 ≤ ((2 ^ 63 - 8 : ℕ) : ℝ) := by
        calc _ ≤ (1 - 2 ^ (-60 : ℤ) : ℝ) * 2 ^ 63 := by gcongr
          _ = _ := by norm_num
      exact Nat.floor_le_of_le this
    exact lt_of_le_of_lt (min_le_left _ _) (by omega)
  have h3 : 0 < hits (tableOf 8 (8 * 8)) (2 * (8 * 8) + 1) := by omega
  exact_mod_cast h3

/-! ### A concrete case -/

/-- The deviation 8 is accepted and 16-bit integers hold its samples: the distance is at most `2^-47`. -/
example : ∃ cdt, createTable 8 = .ok cdt ∧ cdt.length = 129 ∧
    ∀ T : Finset ℤ, ∑ x ∈ T, |baseProbability 16 cdt x - discreteGaussian 8 x| ≤ 2 ^ (-47 : ℤ) := by
  have hs2 : √2 ≤ 1.42 := by rw [sqrt_le_iff]; norm_num
  have hc8 : ⌈(8 : ℝ)⌉₊ = 8 := by exact_mod_cast Nat.ceil_natCast (R := ℝ) 8
  obtain ⟨cdt, h1, h2, -⟩ := (c70_create_partial 8).2 (by nlinarith) (by rw [hc8]; norm_num)
  rw [hc8] at h2
  refine ⟨cdt, h1, h2, fun T => ?_⟩
  have := c70_distance h1 (w := 16) (by rw [hc8]; norm_num) T
  rw [hc8] at this
  exact this.trans (by norm_num)

/-- And a deviation whose cut-off does not fit: `2^28`. -/
example : createTable (2 ^ 28) = .ub .signedOverflow := by
  have hs2 : √2 ≤ 1.42 := by rw [sqrt_le_iff]; norm_num
  refine c70_create_overflow _ (by nlinarith) ?_
  have : ⌈(2 ^ 28 : ℝ)⌉₊ = 2 ^ 28 := by exact_mod_cast Nat.ceil_natCast (R := ℝ) (2 ^ 28)
  rw [this]; norm_num

end Shell
