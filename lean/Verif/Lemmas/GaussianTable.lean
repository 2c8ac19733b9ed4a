import Verif.Model.GaussianTable
import Verif.Lemmas.GaussianSum
import Verif.Lemmas.Loop
import Verif.Props.RnsGaussian
/-!
# The contents of the table and the number of words that select an entry
-/

namespace Shell
open Spec Sampler Real

/-! ### The three loops -/

/-- The sums of the densities up to index `i`. -/
noncomputable def cumulative (s : ℝ) (c i : ℕ) : ℝ := ∑ j ∈ Finset.range (i + 1), density s ((j : ℤ) - c)

theorem densities_getD (s : ℝ) (c i : ℕ) (hi : i < 2 * c + 1) :
    (densities s c).getD i 0 = density s ((i : ℤ) - c) := by
  unfold densities
  rw [List.getD_eq_getElem?_getD, List.getElem?_map, List.getElem?_range hi]; rfl

theorem accumulate_ok (s : ℝ) (c : ℕ) :
    accumulate c (densities s c) = .ok ((List.range (2 * c + 1)).map (cumulative s c)) := by
  have hl : (densities s c).length = 2 * c + 1 := by simp [densities]
  obtain ⟨r, hr, h1, h2⟩ := loop_ok (f := fun i cdf => do
      let a ← rd cdf (i + 1)
      let b ← rd cdf i
      wr cdf (i + 1) (a + b))
    (fun k (l : List ℝ) => l.length = 2 * c + 1 ∧ ∀ i, i < 2 * c + 1 →
      l.getD i 0 = if i ≤ k then cumulative s c i else density s ((i : ℤ) - c)) (n := 2 * c) (s := densities s c)
    ⟨hl, fun i hi => by
      rw [densities_getD s c i hi]
      split_ifs with h
      · rw [Nat.le_zero.mp h]; simp [cumulative]
      · rfl⟩
    (by
      rintro k l hk ⟨hll, h⟩
      rw [rd_getD 0 (by omega), rd_getD 0 (by omega), Outcome.bind_ok, Outcome.bind_ok, wr_ok (by omega)]
      refine ⟨_, rfl, by rw [List.length_set, hll], fun i hi => ?_⟩
      rw [getD_set _ _ _ _ _ (by omega)]
      by_cases hik : k + 1 = i
      · subst hik
        rw [if_pos rfl, if_pos le_rfl, h _ hi, if_neg (by omega), h k (by omega), if_pos le_rfl]
        unfold cumulative
        rw [Finset.sum_range_succ _ (k + 1)]; ring
      · rw [if_neg hik, h i hi]
        by_cases hle : i ≤ k
        · rw [if_pos hle, if_pos (by omega)]
        · rw [if_neg hle, if_neg (by omega)])
  rw [accumulate, hr]
  congr 1
  refine ext_getD 0 (by simp [h1]) fun i hi => ?_
  rw [h1] at hi
  rw [h2 i hi, if_pos (by omega), List.getD_eq_getElem?_getD, List.getElem?_map, List.getElem?_range hi]; rfl

theorem scaleTable_ok (l : List ℝ) (h : ∀ p ∈ l, p * 2 ^ 63 < 2 ^ 64) :
    scaleTable l = .ok (l.map fun p => ⌊p * 2 ^ 63⌋₊) := by
  induction l with
  | nil => rfl
  | cons p l ih =>
    have hp := h p (by simp)
    have : ⌊p * 2 ^ 63⌋₊ < 2 ^ 64 := by
      rcases le_or_gt 0 (p * 2 ^ 63) with h0 | h0
      · rw [Nat.floor_lt h0]; exact_mod_cast hp
      · rw [Nat.floor_of_nonpos h0.le]; positivity
    rw [scaleTable, scaleEntry, if_neg (not_le.mpr this), Outcome.bind_ok, ih fun q hq => h q (by simp [hq])]
    rfl

/-! ### Densities -/

theorem density_eq {s : ℝ} (hs : 0 < s) (x : ℤ) : density s x = gauss s x / massBase s := by
  unfold density gauss
  congr 2
  field_simp

theorem massBase_pos {s : ℝ} (hs : 0 < s) : 0 < massBase s := by
  unfold massBase; have := pi_pos; positivity

theorem density_pos {s : ℝ} (hs : 0 < s) (x : ℤ) : 0 < density s x := by
  rw [density_eq hs]; exact div_pos (gauss_pos s x) (massBase_pos hs)

theorem cumulative_nonneg {s : ℝ} (hs : 0 < s) (c i : ℕ) : 0 ≤ cumulative s c i :=
  Finset.sum_nonneg fun _ _ => (density_pos hs _).le

theorem cumulative_mono {s : ℝ} (hs : 0 < s) (c : ℕ) : Monotone (cumulative s c) := by
  intro i j hij
  exact Finset.sum_le_sum_of_subset_of_nonneg (Finset.range_subset_range.mpr (by omega))
    fun _ _ _ => (density_pos hs _).le

/-- What the table lacks to the exact total. -/
theorem cumulative_last {s : ℝ} (hs : 0 < s) (c : ℕ) :
    cumulative s c (2 * c) * massBase s + 2 * ∑' k : ℕ, gauss s ((c : ℤ) + 1 + k) = ∑' x : ℤ, gauss s x := by
  rw [tsum_even (summable_gauss hs) (gauss_neg s) c]
  congr 1
  unfold cumulative
  rw [Finset.sum_mul]
  refine Finset.sum_congr rfl fun j _ => ?_
  rw [density_eq hs, div_mul_cancel₀ _ (massBase_pos hs).ne']

theorem cumulative_le {s : ℝ} (hs : 3 ≤ s) {c i : ℕ} (hi : i ≤ 2 * c) :
    cumulative s c i ≤ 1 + 2 ^ (-80 : ℤ) := by
  have hs0 : 0 < s := by linarith
  refine (cumulative_mono hs0 c hi).trans ?_
  have h1 := cumulative_last hs0 c
  have h2 := (gauss_sum_bounds hs).2
  have h3 : 0 ≤ ∑' k : ℕ, gauss s ((c : ℤ) + 1 + k) := tsum_nonneg fun k => (gauss_pos _ _).le
  have hm := massBase_pos hs0
  have h4 : cumulative s c (2 * c) * massBase s ≤ (1 + 2 ^ (-80 : ℤ)) * massBase s := by
    calc _ ≤ ∑' x : ℤ, gauss s x := by linarith
      _ ≤ _ := by rw [mul_comm]; exact h2
  exact le_of_mul_le_mul_right h4 hm

/-- The table. -/
noncomputable def tableOf (s : ℝ) (c : ℕ) : List ℕ :=
  (List.range (2 * c + 1)).map fun i => ⌊cumulative s c i * 2 ^ 63⌋₊

theorem scale_cumulative {s : ℝ} (hs : 3 ≤ s) (c : ℕ) :
    scaleTable ((List.range (2 * c + 1)).map (cumulative s c)) = .ok (tableOf s c) := by
  rw [scaleTable_ok]
  · rw [List.map_map]; rfl
  · intro p hp
    obtain ⟨i, hi, rfl⟩ := List.mem_map.mp hp
    have := cumulative_le hs (c := c) (i := i) (by have := List.mem_range.mp hi; omega)
    have h2 : (1 + 2 ^ (-80 : ℤ) : ℝ) * 2 ^ 63 < 2 ^ 64 := by norm_num
    have : cumulative s c i * 2 ^ 63 ≤ (1 + 2 ^ (-80 : ℤ)) * 2 ^ 63 := by gcongr
    linarith

theorem tableOf_length (s : ℝ) (c : ℕ) : (tableOf s c).length = 2 * c + 1 := by simp [tableOf]

theorem tableOf_get (s : ℝ) (c i : ℕ) (hi : i < 2 * c + 1) :
    (tableOf s c)[i]? = some ⌊cumulative s c i * 2 ^ 63⌋₊ := by
  unfold tableOf
  rw [List.getElem?_map, List.getElem?_range hi]; rfl

theorem tableOf_sorted {s : ℝ} (hs : 0 < s) (c : ℕ) : (tableOf s c).Pairwise (· ≤ ·) := by
  unfold tableOf
  rw [List.pairwise_map]
  refine List.pairwise_lt_range.imp fun {a b} hab => ?_
  apply Nat.floor_le_floor
  have := cumulative_mono hs c hab.le
  gcongr

/-! ### Counting words -/

/-- The number of 63-bit words whose index is at most `i`. -/
theorem count_le {t : List ℕ} (ht : t.Pairwise (· ≤ ·)) {i v : ℕ} (hi : t[i]? = some v) :
    ((Finset.range (2 ^ 63)).filter fun u => t.countP (· < u) ≤ i).card = min (v + 1) (2 ^ 63) := by
  have : ((Finset.range (2 ^ 63)).filter fun u => t.countP (· < u) ≤ i) = Finset.range (min (v + 1) (2 ^ 63)) := by
    ext u
    have h := (c41_lookup t u).2 ht i v hi
    rw [(c41_lookup t u).1] at h
    rw [Finset.mem_filter, Finset.mem_range, Finset.mem_range, lt_min_iff]
    constructor
    · rintro ⟨h1, h2⟩
      refine ⟨?_, h1⟩
      by_contra hcon
      have := h.mpr (by omega)
      omega
    · rintro ⟨h1, h2⟩
      refine ⟨h2, ?_⟩
      by_contra hcon
      have := h.mp (by omega)
      omega
  rw [this, Finset.card_range]

/-- The 64-bit words with a given lower part. -/
theorem count_double (p : ℕ → Prop) [DecidablePred p] :
    ((Finset.range (2 ^ 64)).filter fun u => p (u % 2 ^ 63)).card =
      2 * ((Finset.range (2 ^ 63)).filter p).card := by
  have h : (Finset.range (2 ^ 64)).filter (fun u => p (u % 2 ^ 63)) =
      (Finset.range (2 ^ 63)).filter p ∪ ((Finset.range (2 ^ 63)).filter p).map (addRightEmbedding (2 ^ 63)) := by
    ext u
    simp only [Finset.mem_filter, Finset.mem_range, Finset.mem_union, Finset.mem_map, addRightEmbedding_apply]
    constructor
    · rintro ⟨h1, h2⟩
      by_cases hu : u < 2 ^ 63
      · rw [Nat.mod_eq_of_lt hu] at h2; exact Or.inl ⟨hu, h2⟩
      · refine Or.inr ⟨u - 2 ^ 63, ⟨by omega, ?_⟩, by omega⟩
        have : u % 2 ^ 63 = u - 2 ^ 63 := by omega
        rwa [this] at h2
    · rintro (⟨h1, h2⟩ | ⟨v, ⟨h1, h2⟩, rfl⟩)
      · rw [Nat.mod_eq_of_lt h1]; exact ⟨by omega, h2⟩
      · have : (v + 2 ^ 63) % 2 ^ 63 = v := by omega
        rw [this]; exact ⟨by omega, h2⟩
  rw [h, Finset.card_union_of_disjoint, Finset.card_map, two_mul]
  rw [Finset.disjoint_left]
  intro u hu hv
  simp only [Finset.mem_filter, Finset.mem_range, Finset.mem_map, addRightEmbedding_apply] at hu hv
  obtain ⟨v, -, rfl⟩ := hv
  omega

end Shell
