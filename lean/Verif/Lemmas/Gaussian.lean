import Verif.Lemmas.Sampler

namespace Shell.Sampler
open Shell.Spec
variable {σ : Type}

/-- The value of the combination tree of height `l` over the leaves `xs[j], …, xs[j + 2^l - 1]`. -/
def tree (w : ℕ) (z : ℕ → ℕ) (xs : List ℕ) : ℕ → ℕ → ℕ
  | 0, j => xs.getD j 0
  | l + 1, j => (z l * tree w z xs l j + max 1 (z l - 1) * tree w z xs l (j + 2 ^ l)) % 2 ^ w

theorem tree_congr (w : ℕ) (z : ℕ → ℕ) (xs ys : List ℕ) (l a b : ℕ)
    (h : ∀ k < 2 ^ l, xs.getD (a + k) 0 = ys.getD (b + k) 0) : tree w z xs l a = tree w z ys l b := by
  induction l generalizing a b with
  | zero => simpa [tree] using h 0 (by norm_num)
  | succ l ih =>
    rw [tree, tree]
    have hp := Nat.two_pow_pos l
    rw [pow_succ] at h
    rw [ih a b (fun k hk => h k (by omega)), ih (a + 2 ^ l) (b + 2 ^ l) (fun k hk => by
      rw [Nat.add_assoc, Nat.add_assoc]; exact h _ (by omega))]

theorem sampleI_eq (base : σ → Outcome (ℕ × σ)) (w : ℕ) (z : ℕ → ℕ) (i : ℕ) (s : σ) :
    sampleI base w z i s = (do
      let (xs, s) ← times base (2 ^ i) s
      .ok (tree w z xs i 0, s)) := by
  induction i generalizing s with
  | zero =>
    have e : 2 ^ 0 = 0 + 1 := rfl
    rw [sampleI, e, times]
    cases base s with
    | err e => rfl
    | ub e => rfl
    | ok q => simp [times, tree]
  | succ i ih =>
    have e : 2 ^ (i + 1) = 2 ^ i + 2 ^ i := by ring
    rw [sampleI, ih, e, times_add]
    cases h1 : times base (2 ^ i) s with
    | err e => rfl
    | ub e => rfl
    | ok q =>
      simp only [Outcome.bind_ok]
      rw [ih]
      cases h2 : times base (2 ^ i) q.2 with
      | err e => rfl
      | ub e => rfl
      | ok r =>
        simp only [Outcome.bind_ok, tree, Nat.zero_add]
        have l1 := times_length _ _ _ _ _ h1
        congr 4
        · congr 1
          apply tree_congr
          intro k hk
          rw [List.getD_append _ _ _ _ (by omega)]
        · congr 1
          apply tree_congr
          intro k hk
          rw [List.getD_append_right _ _ _ _ (by omega), l1]
          congr 1
          omega

theorem level_ok (w : ℕ) (z : ℕ → ℕ) (xs samples : List ℕ) (i l : ℕ) (hl : l < i)
    (hlen : samples.length = 2 ^ i)
    (h : ∀ k, 2 ^ l * k < 2 ^ i → samples.getD (2 ^ l * k) 0 = tree w z xs l (2 ^ l * k)) :
    ∃ samples', loop (2 ^ i / (2 * 1 <<< l)) (combineStep w (z l) (1 <<< l)) samples = .ok samples' ∧
      samples'.length = 2 ^ i ∧
      ∀ k, 2 ^ (l + 1) * k < 2 ^ i →
        samples'.getD (2 ^ (l + 1) * k) 0 = tree w z xs (l + 1) (2 ^ (l + 1) * k) := by
  have hg : 1 <<< l = 2 ^ l := by rw [Nat.shiftLeft_eq, one_mul]
  have hp := Nat.two_pow_pos l
  have e1 : 2 * 2 ^ l = 2 ^ (l + 1) := by ring
  obtain ⟨d, rfl⟩ : ∃ d, i = l + 1 + d := ⟨i - (l + 1), by omega⟩
  have e2 : (2 : ℕ) ^ (l + 1 + d) = 2 ^ (l + 1) * 2 ^ d := by rw [pow_add]
  have hq : 2 ^ (l + 1 + d) / (2 * 2 ^ l) = 2 ^ d := by
    rw [e1, e2, Nat.mul_div_cancel_left _ (Nat.two_pow_pos _)]
  rw [hg, hq]
  obtain ⟨S, h1, h2, h3, h4⟩ := loop_ok (f := combineStep w (z l) (2 ^ l)) (n := 2 ^ d) (s := samples)
    (fun m (S : List ℕ) => S.length = 2 ^ (l + 1 + d) ∧
      (∀ k < m, S.getD (2 ^ (l + 1) * k) 0 = tree w z xs (l + 1) (2 ^ (l + 1) * k)) ∧
      ∀ j, 2 ^ (l + 1) * m ≤ j → S.getD j 0 = samples.getD j 0)
    ⟨hlen, by simp, fun _ _ => rfl⟩ (by
      rintro m S hm ⟨a1, a2, a3⟩
      have hb : 2 ^ (l + 1) * m + 2 ^ (l + 1) ≤ 2 ^ (l + 1 + d) := by
        rw [e2]
        calc 2 ^ (l + 1) * m + 2 ^ (l + 1) = 2 ^ (l + 1) * (m + 1) := by ring
          _ ≤ _ := Nat.mul_le_mul_left _ hm
      have hj : 2 * 2 ^ l * m = 2 ^ (l + 1) * m := by rw [e1]
      have hgap : 2 ^ (l + 1) * m + 2 ^ l < S.length := by rw [a1]; omega
      refine ⟨S.set (2 ^ (l + 1) * m) ((z l % 2 ^ w * S.getD (2 ^ (l + 1) * m) 0 % 2 ^ w +
        max 1 (z l - 1) % 2 ^ w * S.getD (2 ^ (l + 1) * m + 2 ^ l) 0 % 2 ^ w) % 2 ^ w), ?_, ?_⟩
      · unfold combineStep
        simp only [hj]
        rw [rd_getD 0 (by omega), Outcome.bind_ok, rd_getD 0 hgap, Outcome.bind_ok, wr_ok (by omega)]
      · have v1 : S.getD (2 ^ (l + 1) * m) 0 = tree w z xs l (2 ^ (l + 1) * m) := by
          rw [a3 _ le_rfl]
          have : 2 ^ (l + 1) * m = 2 ^ l * (2 * m) := by ring
          rw [this]; exact h _ (by rw [← this]; omega)
        have v2 : S.getD (2 ^ (l + 1) * m + 2 ^ l) 0 = tree w z xs l (2 ^ (l + 1) * m + 2 ^ l) := by
          rw [a3 _ (by omega)]
          have : 2 ^ (l + 1) * m + 2 ^ l = 2 ^ l * (2 * m + 1) := by ring
          rw [this]; exact h _ (by rw [← this]; omega)
        refine ⟨by rw [List.length_set]; exact a1, ?_, ?_⟩
        · intro k hk
          rw [getD_set _ _ _ _ _ (by omega)]
          by_cases hkm : k = m
          · subst hkm
            rw [if_pos rfl, v1, v2, tree]
            simp only [Nat.mod_mul_mod, ← Nat.add_mod]
          · rw [if_neg (by
              intro hc
              exact hkm (Nat.eq_of_mul_eq_mul_left (Nat.two_pow_pos _) hc).symm)]
            exact a2 k (by omega)
        · intro j hj'
          have : 2 ^ (l + 1) * (m + 1) = 2 ^ (l + 1) * m + 2 ^ (l + 1) := by ring
          have hp1 := Nat.two_pow_pos (l + 1)
          rw [getD_set _ _ _ _ _ (by omega), if_neg (by omega)]
          exact a3 j (by omega))
  refine ⟨S, h1, h2, fun k hk => h3 k ?_⟩
  rw [e2] at hk
  exact Nat.lt_of_mul_lt_mul_left hk

theorem iterative_eq (G : Gen σ) (w : ℕ) (cdt : List ℕ) (z : ℕ → ℕ) (i : ℕ) (h0 : 0 < i) (h31 : i < 31)
    (s : σ) :
    sampleIIterative G w cdt z i s = sampleI (sampleBase G w cdt) w z i s := by
  unfold sampleIIterative
  rw [if_neg (by omega), if_neg (by omega), if_neg (by omega), sampleI_eq]
  have e : 1 <<< i = 2 ^ i := by rw [Nat.shiftLeft_eq, one_mul]
  simp only [Int.toNat_natCast, e]
  have hpush := loop_push (sampleBase G w cdt) (2 ^ i) 0 [] s
  simp only at hpush
  rw [loop, hpush]
  cases ht : times (sampleBase G w cdt) (2 ^ i) s with
  | err e => rfl
  | ub e => rfl
  | ok q =>
    simp only [Outcome.bind_ok, List.nil_append]
    have hlen := times_length _ _ _ _ _ ht
    obtain ⟨S, h1, h2, h3⟩ := loop_ok
      (f := fun lvl samples => loop (2 ^ i / (2 * 1 <<< lvl)) (combineStep w (z lvl) (1 <<< lvl)) samples)
      (n := i) (s := q.1)
      (fun l (S : List ℕ) => S.length = 2 ^ i ∧
        ∀ k, 2 ^ l * k < 2 ^ i → S.getD (2 ^ l * k) 0 = tree w z q.1 l (2 ^ l * k))
      ⟨hlen, by intro k _; rfl⟩ (by
        rintro l S hl ⟨a1, a2⟩
        exact level_ok w z q.1 S i l hl a1 a2)
    have := h3 0 (by simp)
    rw [Nat.mul_zero] at this
    rw [h1, Outcome.bind_ok, rd_getD 0 (by rw [h2]; exact Nat.two_pow_pos i), Outcome.bind_ok, this]

theorem find_eq (cdt : List ℕ) (u a : ℕ) :
    cdt.foldl (fun index c => index + if c < u then 1 else 0) a = a + cdt.countP (· < u) := by
  induction cdt generalizing a with
  | nil => simp
  | cons c cdt ih =>
    rw [List.foldl_cons, ih, List.countP_cons]
    simp only [decide_eq_true_eq]
    omega

end Shell.Sampler
