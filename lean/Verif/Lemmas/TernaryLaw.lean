import Verif.Lemmas.Law
import Verif.Lemmas.Ternary
/-!
# The distribution of uniform ternary samples
-/

namespace Shell.Sampler
open Spec Finset

/-- The bits of two uniform numbers of `B` bits are independent and uniform. -/
theorem sum_bit_pairs (B : ℕ) (f : ℕ → Bool → Bool → ℝ) :
    ∑ x ∈ range (2 ^ B), ∑ y ∈ range (2 ^ B), ∏ i ∈ range B, f i (x.testBit i) (y.testBit i) =
      ∏ i ∈ range B, (f i false false + f i false true + f i true false + f i true true) := by
  induction B generalizing f with
  | zero => simp
  | succ B ih =>
    have h0 : ∀ (y b : ℕ), b < 2 → (2 * y + b).testBit 0 = decide (b = 1) := by
      intro y b hb
      rw [Nat.testBit_zero]
      congr 1
      simp only [eq_iff_iff]
      omega
    have h1 : ∀ (y b i : ℕ), b < 2 → (2 * y + b).testBit (i + 1) = y.testBit i := by
      intro y b i hb
      rw [Nat.testBit_add_one]
      congr 1
      omega
    have e : ∀ a ∈ range (2 ^ B), ∀ b ∈ range 2,
        (∑ y ∈ range (2 ^ (B + 1)), ∏ i ∈ range (B + 1), f i ((2 * a + b).testBit i) (y.testBit i)) =
        ∑ y ∈ range (2 ^ B), ∑ c ∈ range 2, (∏ i ∈ range B, f (i + 1) (a.testBit i) (y.testBit i)) *
          f 0 (decide (b = 1)) (decide (c = 1)) := by
      intro a _ b hb
      rw [pow_succ, sum_range_mul]
      refine sum_congr rfl fun y _ => sum_congr rfl fun c hc => ?_
      rw [prod_range_succ', h0 a b (mem_range.1 hb), h0 y c (mem_range.1 hc)]
      congr 1
      refine prod_congr rfl fun i _ => ?_
      rw [h1 a b i (mem_range.1 hb), h1 y c i (mem_range.1 hc)]
    have e' : (∑ x ∈ range (2 ^ (B + 1)), ∑ y ∈ range (2 ^ (B + 1)), ∏ i ∈ range (B + 1),
        f i (x.testBit i) (y.testBit i)) = ∑ a ∈ range (2 ^ B), ∑ b ∈ range 2, ∑ y ∈ range (2 ^ B), ∑ c ∈ range 2,
          (∏ i ∈ range B, f (i + 1) (a.testBit i) (y.testBit i)) * f 0 (decide (b = 1)) (decide (c = 1)) := by
      conv_lhs => arg 1; rw [pow_succ]
      rw [sum_range_mul]
      exact sum_congr rfl fun a ha => sum_congr rfl fun b hb => e a ha b hb
    rw [e']
    rw [prod_range_succ', ← ih fun i => f (i + 1)]
    simp only [sum_range_succ, range_zero, sum_empty, zero_add, sum_mul]
    refine sum_congr rfl fun a _ => ?_
    rw [← sum_add_distrib]
    refine sum_congr rfl fun y _ => ?_
    simp
    ring

/-- The probability that a position ends with the value `v`. -/
noncomputable def tritLaw (fuel : ℕ) : Option Trit → Trit → ℝ
  | some t, v => if t = v then 1 else 0
  | none, _ => (1 - (1 / 4) ^ fuel) / 3

theorem tritLaw_step (fuel : ℕ) (l : List (Bool × Bool)) (v : Trit) :
    (tritLaw fuel (pick true (l ++ [(false, false)])) v + tritLaw fuel (pick true (l ++ [(false, true)])) v +
      tritLaw fuel (pick true (l ++ [(true, false)])) v + tritLaw fuel (pick true (l ++ [(true, true)])) v) / 4 =
    tritLaw (fuel + 1) (pick true l) v := by
  simp only [pick_append]
  cases pick true l with
  | some t => simp only [tritLaw]; ring
  | none =>
    cases hl : l.isEmpty <;> cases v <;> simp [pick, tritLaw] <;> ring

def batchTree (m : ℕ) : ℕ → List (ℕ × ℕ) → Tree (List Trit)
  | 0, rs => if (picked m rs).length = m then .ret (.ok (picked m rs)) else .ret (.ub .diverge)
  | fuel + 1, rs =>
    if (picked m rs).length = m then .ret (.ok (picked m rs))
    else byteTree.bind fun x => byteTree.bind fun y => batchTree m fuel (rs ++ [(x, y)])

theorem batchTree_is (m fuel : ℕ) (rs : List (ℕ × ℕ)) : (batchTree m fuel rs).Is (drawBatch bytesSource m fuel rs) := by
  induction fuel generalizing rs with
  | zero =>
    intro t
    unfold batchTree drawBatch
    split <;> rfl
  | succ fuel ih =>
    intro t
    unfold batchTree drawBatch
    split
    · rfl
    · exact (byteTree_is.bind fun x => byteTree_is.bind fun y => ih (rs ++ [(x, y)])) t

theorem batch_within (m fuel : ℕ) (rs : List (ℕ × ℕ)) : (batchTree m fuel rs).Within (2 * fuel) := by
  induction fuel generalizing rs with
  | zero =>
    unfold batchTree
    split <;> exact Tree.within_ret _ _
  | succ fuel ih =>
    unfold batchTree
    split
    · exact Tree.within_ret _ _
    · have hb : byteTree.Within 1 := fun b => Tree.within_ret _ _
      rw [show 2 * (fuel + 1) = 1 + (1 + 2 * fuel) by ring]
      exact hb.bind fun x => hb.bind fun y => ih _

theorem filterMap_range {α : Type} {m : ℕ} {f : ℕ → Option α} {u : ℕ → α} (h : ∀ i < m, f i = some (u i)) :
    (List.range m).filterMap f = (List.range m).map u := by
  rw [← List.filterMap_eq_map]
  refine List.filterMap_congr fun i hi => ?_
  exact h i (List.mem_range.1 hi)

theorem batch_done {m fuel : ℕ} {rs : List (ℕ × ℕ)} (v : ℕ → Trit) (h : (picked m rs).length = m) :
    (if picked m rs = (List.range m).map v then (1 : ℝ) else 0) =
      ∏ i ∈ range m, tritLaw fuel (pick true (bitsAt i rs)) (v i) := by
  have hs := picked_length.1 h
  obtain ⟨u, hu⟩ : ∃ u : ℕ → Trit, ∀ i < m, pick true (bitsAt i rs) = some (u i) :=
    ⟨fun i => (pick true (bitsAt i rs)).getD .zero, fun i hi => by
      obtain ⟨t, ht⟩ := Option.isSome_iff_exists.1 (hs i hi)
      simp [ht]⟩
  have h1 : picked m rs = (List.range m).map u := filterMap_range hu
  rw [h1, prod_congr rfl fun i hi => by rw [hu i (mem_range.1 hi)]]
  simp only [tritLaw]
  by_cases he : ∀ i < m, u i = v i
  · rw [if_pos (List.map_congr_left fun i hi => he i (List.mem_range.1 hi)),
      prod_congr rfl fun i hi => if_pos (he i (mem_range.1 hi))]
    simp
  · rw [if_neg fun hc => he fun i hi => List.map_inj_left.1 hc i (List.mem_range.2 hi)]
    push Not at he
    obtain ⟨i, hi, hne⟩ := he
    exact (prod_eq_zero (mem_range.2 hi) (if_neg hne)).symm

theorem batch_law {m : ℕ} (hm : m ≤ 8) (fuel : ℕ) (rs : List (ℕ × ℕ)) (v : ℕ → Trit) :
    (batchTree m fuel rs).expect (fun ts => if ts = (List.range m).map v then 1 else 0) =
      ∏ i ∈ range m, tritLaw fuel (pick true (bitsAt i rs)) (v i) := by
  induction fuel generalizing rs with
  | zero =>
    unfold batchTree
    split
    · next h => exact batch_done v h
    · next h =>
      rw [picked_length] at h
      push Not at h
      obtain ⟨i, hi, hn⟩ := h
      refine (prod_eq_zero (mem_range.2 hi) ?_).symm
      rw [Option.not_isSome_iff_eq_none.1 hn]
      simp [tritLaw]
  | succ fuel ih =>
    unfold batchTree
    split
    · next h => exact batch_done v h
    · rw [Tree.expect_bind]
      simp only [Tree.expect_bind, ih, byte_expect, bitsAt_append]
      have key := sum_bit_pairs 8 fun i b c => if i < m then tritLaw fuel (pick true (bitsAt i rs ++ [(b, c)])) (v i) else 1
      have hsub : range m ⊆ range 8 := range_subset_range.2 hm
      have e1 : ∀ x y : ℕ, ∏ i ∈ range 8, (if i < m then tritLaw fuel (pick true (bitsAt i rs ++
          [(x.testBit i, y.testBit i)])) (v i) else 1) =
          ∏ i ∈ range m, tritLaw fuel (pick true (bitsAt i rs ++ [(x.testBit i, y.testBit i)])) (v i) := by
        intro x y
        rw [← prod_subset hsub fun i _ hi => if_neg (by simpa using hi)]
        exact prod_congr rfl fun i hi => if_pos (mem_range.1 hi)
      simp only [e1] at key
      simp only [← sum_div]
      rw [key]
      have e2 : ∀ i ∈ range 8, ((if i < m then tritLaw fuel (pick true (bitsAt i rs ++ [(false, false)])) (v i) else 1) +
          (if i < m then tritLaw fuel (pick true (bitsAt i rs ++ [(false, true)])) (v i) else 1) +
          (if i < m then tritLaw fuel (pick true (bitsAt i rs ++ [(true, false)])) (v i) else 1) +
          (if i < m then tritLaw fuel (pick true (bitsAt i rs ++ [(true, true)])) (v i) else 1) : ℝ) =
          4 * if i < m then tritLaw (fuel + 1) (pick true (bitsAt i rs)) (v i) else 1 := by
        intro i _
        split
        · rw [← tritLaw_step]; ring
        · norm_num
      rw [prod_congr rfl e2, prod_mul_distrib, prod_const, card_range,
        ← prod_subset hsub fun i _ hi => if_neg (by simpa using hi),
        prod_congr rfl fun i hi => if_pos (mem_range.1 hi)]
      norm_num
      ring

def tritsTree (fuel : ℕ) : List ℕ → Tree (List Trit)
  | [] => .ret (.ok [])
  | m :: ms => (batchTree m fuel []).bind fun ts => (tritsTree fuel ms).bind fun us => .ret (.ok (ts ++ us))

theorem tritsTree_is (fuel : ℕ) (ms : List ℕ) : (tritsTree fuel ms).Is (drawTrits bytesSource fuel ms) := by
  induction ms with
  | nil => exact fun t => rfl
  | cons m ms ih => exact (batchTree_is m fuel []).bind fun ts => ih.bind fun us => fun t => rfl

theorem trits_within (fuel : ℕ) (ms : List ℕ) : (tritsTree fuel ms).Within (2 * fuel * ms.length) := by
  induction ms with
  | nil => exact Tree.within_ret _ _
  | cons m ms ih =>
    rw [List.length_cons, show 2 * fuel * (ms.length + 1) = 2 * fuel + (2 * fuel * ms.length + 0) by ring]
    exact (batch_within m fuel []).bind fun ts => ih.bind fun us => Tree.within_ret _ _

theorem batch_length {m fuel : ℕ} {rs : List (ℕ × ℕ)} {ts : List Trit} (h : (batchTree m fuel rs).Returns ts) :
    ts.length = m := by
  induction fuel generalizing rs with
  | zero =>
    unfold batchTree at h
    split at h
    · next hl => cases h; exact hl
    · cases h
  | succ fuel ih =>
    unfold batchTree at h
    split at h
    · next hl => cases h; exact hl
    · obtain ⟨x, y, h⟩ := h
      exact ih h

theorem trits_law (fuel : ℕ) {ms : List ℕ} (hm : ∀ m ∈ ms, m ≤ 8) {ts : List Trit} (hl : ts.length = ms.sum) :
    (tritsTree fuel ms).expect (fun us => if us = ts then 1 else 0) = ((1 - (1 / 4) ^ fuel) / 3) ^ ts.length := by
  induction ms generalizing ts with
  | nil =>
    have : ts = [] := List.eq_nil_of_length_eq_zero (by simpa using hl)
    simp [tritsTree, Tree.expect, this]
  | cons m ms ih =>
    unfold tritsTree
    rw [Tree.expect_bind]
    have hlen : (ts.drop m).length = ms.sum := by simp [hl]
    have e : ∀ us, (batchTree m fuel []).Returns us →
        ((tritsTree fuel ms).bind fun us' => .ret (.ok (us ++ us'))).expect (fun us => if us = ts then 1 else 0) =
        ((1 - (1 / 4) ^ fuel) / 3) ^ ms.sum * if us = ts.take m then 1 else 0 := by
      intro us hus
      have hul := batch_length hus
      rw [Tree.expect_bind]
      by_cases h : us = ts.take m
      · rw [if_pos h, mul_one, ← hlen, ← ih (fun m hm' => hm m (by simp [hm'])) hlen]
        congr 1
        funext us'
        show (if us ++ us' = ts then (1 : ℝ) else 0) = _
        congr 1
        rw [eq_iff_iff, h]
        constructor
        · intro h'
          exact List.append_cancel_left (h'.trans (List.take_append_drop m ts).symm)
        · rintro rfl
          exact List.take_append_drop m ts
      · rw [if_neg h, mul_zero]
        have : ∀ us', (if us ++ us' = ts then (1 : ℝ) else 0) = 0 * 0 := by
          intro us'
          rw [if_neg, mul_zero]
          rintro rfl
          exact h (by rw [← hul]; simp)
        show (tritsTree fuel ms).expect (fun us' => if us ++ us' = ts then (1 : ℝ) else 0) = 0
        simp only [this]
        rw [Tree.expect_mul, zero_mul]
    rw [Tree.expect_congr_returns _ e, Tree.expect_mul]
    have hsum : (m :: ms).sum = m + ms.sum := by simp
    have htake : ts.take m = (List.range m).map fun i => ts.getD i .zero := by
      refine List.ext_getElem (by simp; omega) fun i h1 h2 => ?_
      simp at h1 h2 ⊢
      rw [List.getElem?_eq_getElem (by omega)]
      rfl
    rw [htake, batch_law (hm m (by simp)), hl, hsum, pow_add, mul_comm]
    congr 1
    rw [prod_congr rfl fun i _ => show tritLaw fuel (pick true (bitsAt i [])) _ = (1 - (1 / 4) ^ fuel) / 3 from rfl]
    rw [prod_const, card_range]

end Shell.Sampler
