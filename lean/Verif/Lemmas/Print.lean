import Verif.Spec.Print
import Verif.Lemmas.Int256Div
import Mathlib.Data.Nat.Digits.Lemmas
/-! Lemmas for printing. -/

namespace Shell.Print
open Spec

theorem digit_eq (upper : Bool) {d : ℕ} (h : d < 16) : digit upper d = (digitTable upper).getD d '?' := by
  interval_cases d <;> cases upper <;> rfl

theorem digitLoop_eq {r : ℕ} (hr : 2 ≤ r) (hr' : r ≤ 16) (upper : Bool) :
    ∀ (f v : ℕ) (acc : List Char), v < r ^ (f + 1) → digitLoop r upper (f + 1) v acc = numeral r upper v ++ acc
  | f, v, acc, hv => by
    rw [digitLoop]
    have hm : v % r < 16 := lt_of_lt_of_le (Nat.mod_lt _ (by omega)) hr'
    by_cases h : v / r = 0
    · rw [if_pos h]
      have hvr : v < r := by
        rcases Nat.div_eq_zero_iff.mp h with h | h <;> omega
      rw [Nat.mod_eq_of_lt hvr, digit_eq upper (by omega)]
      unfold numeral
      by_cases h0 : v = 0
      · subst h0
        rw [if_pos rfl]
        cases upper <;> rfl
      · rw [if_neg h0, Nat.digits_of_lt r v h0 hvr]
        rfl
    · rw [if_neg h]
      have hv0 : v ≠ 0 := by rintro rfl; simp at h
      match f with
      | 0 =>
        rw [zero_add, pow_one] at hv
        exact absurd (Nat.div_eq_of_lt hv) h
      | f + 1 =>
        have hlt : v / r < r ^ (f + 1) := by
          rw [Nat.div_lt_iff_lt_mul (by omega), ← pow_succ]; exact hv
        rw [digitLoop_eq hr hr' upper f _ _ hlt, digit_eq upper hm]
        unfold numeral
        rw [if_neg h, if_neg hv0, Nat.digits_def' (by omega) (by omega : 0 < v)]
        simp

theorem numeral_length_le {r k : ℕ} (hr : 2 ≤ r) (hk : 1 ≤ k) (upper : Bool) {c : ℕ} (hc : c < r ^ k) :
    (numeral r upper c).length ≤ k := by
  unfold numeral
  split
  · simpa using hk
  · rw [List.length_map, List.length_reverse]
    exact (Nat.digits_length_le_iff (by omega) c).mpr hc

theorem numeral_append {r k : ℕ} (hr : 2 ≤ r) (hr' : r ≤ 16) (hk : 1 ≤ k) (upper : Bool) {c h : ℕ} (hc : c < r ^ k)
    (hh : 0 < h) : numeral r upper (c + r ^ k * h) =
      numeral r upper h ++ (List.replicate (k - (numeral r upper c).length) '0' ++ numeral r upper c) := by
  have hpos : 0 < r ^ k := Nat.pow_pos (by omega)
  have hne : c + r ^ k * h ≠ 0 := by have := Nat.mul_pos hpos hh; omega
  have hl := (Nat.digits_length_le_iff (b := r) (by omega) c).mpr hc
  have key := Nat.digits_append_zeroes_append_digits (b := r) (k := k - (Nat.digits r c).length) (m := h) (n := c)
    (by omega) hh
  rw [show (Nat.digits r c).length + (k - (Nat.digits r c).length) = k by omega] at key
  have h0 : (digitTable upper).getD 0 '?' = '0' := by cases upper <;> rfl
  rw [numeral, if_neg hne, ← key, numeral, if_neg hh.ne', List.reverse_append, List.reverse_append,
    List.map_append, List.map_append, List.reverse_replicate, List.map_replicate, h0]
  congr 1
  unfold numeral
  by_cases hc0 : c = 0
  · subst hc0
    rw [if_pos rfl]
    have : k = (k - 1) + 1 := by omega
    rw [Nat.digits_zero, List.length_nil, Nat.sub_zero, List.reverse_nil, List.map_nil, List.append_nil,
      List.length_singleton]
    conv_lhs => rw [this, List.replicate_succ']
  · rw [if_neg hc0, List.length_map, List.length_reverse]

theorem basePrefix_eq (b : Base) (upper : Bool) (v : ℕ) : basePrefix b upper v = showPrefix b upper v := by
  unfold basePrefix showPrefix
  cases b <;> cases upper <;> rfl

theorem showPrefix_zero (b : Base) (upper : Bool) : showPrefix b upper 0 = [] := if_pos rfl

theorem showPrefix_congr (b : Base) (upper : Bool) {v v' : ℕ} (h : 0 < v) (h' : 0 < v') :
    showPrefix b upper v = showPrefix b upper v' := by
  unfold showPrefix
  rw [if_neg h.ne', if_neg h'.ne']

theorem radix_bounds (b : Base) : 2 ≤ b.radix ∧ b.radix ≤ 16 ∧ 1 ≤ divBaseLog b ∧
    b.radix ^ divBaseLog b = (divisor b).val ∧ (divisor b).WF ∧ 2 ^ 128 ≤ b.radix ^ 128 ∧
    2 ^ 128 ≤ (divisor b).val ^ 4 ∧ (divisor b).val < 2 ^ 128 := by
  unfold U256.WF
  cases b <;> decide +kernel

/-- Prefix and digits. -/
def body (f : Fmt) (v : ℕ) : List Char :=
  (if f.showbase then showPrefix f.base f.uppercase v else []) ++ numeral f.base.radix f.uppercase v

/-- The state of the local stream once the leading part `h` of the number is printed. -/
def St (f : Fmt) (h : ℕ) : Bool × OStr :=
  if h = 0 then (false, OStr.new f) else (true, ⟨body f h, false, divBaseLog f.base, '0'⟩)

theorem put_new (f : Fmt) {v : ℕ} (hv : v < 2 ^ 128) : ((OStr.new f).put f v).text = body f v := by
  obtain ⟨h1, h2, -, -, -, h3, -⟩ := radix_bounds f.base
  unfold OStr.put OStr.new body
  dsimp only
  rw [digitLoop_eq h1 h2 _ 127 v [] (lt_of_lt_of_le hv h3), Nat.zero_sub, List.replicate_zero, basePrefix_eq]
  simp

theorem put_St (f : Fmt) {h c : ℕ} (hc : c < 2 ^ 128) (hb : h = 0 ∨ c < (divisor f.base).val) :
    ((St f h).2.put f c).text = body f (c + (divisor f.base).val * h) := by
  unfold St
  by_cases h0 : h = 0
  · subst h0
    rw [if_pos rfl, Nat.mul_zero, Nat.add_zero]
    exact put_new f hc
  · rw [if_neg h0]
    obtain ⟨h1, h2, h4, h5, -, h3, -⟩ := radix_bounds f.base
    have hlt := hb.resolve_left h0
    rw [← h5] at hlt ⊢
    have hpos : 0 < c + f.base.radix ^ divBaseLog f.base * h := by
      have := Nat.mul_pos (Nat.pow_pos (n := divBaseLog f.base) (by omega : 0 < f.base.radix)) (Nat.pos_of_ne_zero h0)
      omega
    unfold OStr.put body
    dsimp only
    rw [digitLoop_eq h1 h2 _ 127 c [] (lt_of_lt_of_le hc h3), numeral_append h1 h2 h4 _ hlt (Nat.pos_of_ne_zero h0),
      showPrefix_congr _ _ hpos (Nat.pos_of_ne_zero h0)]
    simp

theorem chunk_St (f : Fmt) {v : U256} {h : ℕ} (hv : v.val < 2 ^ 128)
    (hb : h = 0 ∨ v.val < (divisor f.base).val) :
    chunk f v (St f h) = St f (v.val + (divisor f.base).val * h) := by
  have hlo : v.lo = v.val := by
    unfold U256.val at hv ⊢
    have : v.hi = 0 := by by_contra hc; have := Nat.le_mul_of_pos_left (2 ^ 128) (Nat.pos_of_ne_zero hc); omega
    omega
  obtain ⟨h1, h2, h4, h5, -⟩ := radix_bounds f.base
  have hD : 0 < (divisor f.base).val := by rw [← h5]; exact Nat.pow_pos (by omega)
  have key := put_St f (h := h) (c := v.lo) (by omega) (by rw [hlo]; exact hb)
  unfold chunk
  dsimp only
  by_cases hp : h = 0 ∧ v.val = 0
  · obtain ⟨rfl, hv0⟩ := hp
    rw [hv0, hlo, hv0, show (St f 0) = (false, OStr.new f) from rfl]
    simp [St]
  · have hne : v.val + (divisor f.base).val * h ≠ 0 := by
      intro hc
      have : (divisor f.base).val * h = 0 := by omega
      rcases Nat.mul_eq_zero.mp this with h | h
      · omega
      · exact hp ⟨h, by omega⟩
    have hpr : ((St f h).1 || v.lo != 0) = true := by
      unfold St
      by_cases h0 : h = 0
      · rw [if_pos h0]
        have : v.lo ≠ 0 := by rw [hlo]; exact fun hc => hp ⟨h0, hc⟩
        simpa using this
      · rw [if_neg h0]; rfl
    rw [hpr, if_pos rfl, show St f (v.val + (divisor f.base).val * h) = (true, _) from if_neg hne, ← hlo, ← key]
    rfl

theorem print_eq {f : Fmt} {b : U256} (hb : b.WF) : print f b = .ok (pad f (body f b.val)) := by
  obtain ⟨-, -, -, -, hd, -, h4, hlt⟩ := radix_bounds f.base
  have hD : (divisor f.base).val ≠ 0 := fun hc => by rw [hc] at h4; norm_num at h4
  have hpos := Nat.pos_of_ne_zero hD
  obtain ⟨q1, r1, e1, wq1, wr1, hq1, hr1⟩ := U256.divMod_spec hb hd hD
  obtain ⟨q2, r2, e2, wq2, wr2, hq2, hr2⟩ := U256.divMod_spec wq1 hd hD
  obtain ⟨q3, r3, e3, wq3, wr3, hq3, hr3⟩ := U256.divMod_spec wq2 hd hD
  obtain ⟨q4, r4, e4, wq4, wr4, hq4, hr4⟩ := U256.divMod_spec wq3 hd hD
  have l1 := Nat.mod_lt b.val hpos
  have l2 := Nat.mod_lt q1.val hpos
  have l3 := Nat.mod_lt q2.val hpos
  have l4 := Nat.mod_lt q3.val hpos
  rw [← hr1] at l1; rw [← hr2] at l2; rw [← hr3] at l3; rw [← hr4] at l4
  have hb' : b.val < 2 ^ 128 * (divisor f.base).val ^ 4 := by
    have : b.val < 2 ^ 128 * 2 ^ 128 := by
      have := hb.1; have := hb.2
      unfold U256.val
      omega
    exact lt_of_lt_of_le this (Nat.mul_le_mul_left _ h4)
  have hq : q4.val < 2 ^ 128 := by
    rw [hq4, hq3, hq2, hq1, Nat.div_div_eq_div_mul, Nat.div_div_eq_div_mul, Nat.div_div_eq_div_mul,
      Nat.div_lt_iff_lt_mul (by positivity)]
    calc b.val < 2 ^ 128 * (divisor f.base).val ^ 4 := hb'
      _ = _ := by ring
  have s1 : chunk f q4 (false, OStr.new f) = St f q4.val := by
    have := chunk_St f (h := 0) hq (Or.inl rfl)
    rwa [Nat.mul_zero, Nat.add_zero] at this
  have s2 : chunk f r4 (St f q4.val) = St f q3.val := by
    rw [chunk_St f (by omega) (Or.inr l4), hr4, hq4, Nat.mod_add_div]
  have s3 : chunk f r3 (St f q3.val) = St f q2.val := by
    rw [chunk_St f (by omega) (Or.inr l3), hr3, hq3, Nat.mod_add_div]
  have s4 : chunk f r2 (St f q2.val) = St f q1.val := by
    rw [chunk_St f (by omega) (Or.inr l2), hr2, hq2, Nat.mod_add_div]
  have s5 : ((St f q1.val).2.put f r1.lo).text = body f b.val := by
    have hlo : r1.lo = r1.val := by
      unfold U256.val at l1 ⊢
      have : r1.hi = 0 := by
        by_contra hc; have := Nat.le_mul_of_pos_left (2 ^ 128) (Nat.pos_of_ne_zero hc); unfold U256.val at hlt; omega
      omega
    rw [put_St f (by omega) (Or.inr (by omega)), hlo, hr1, hq1, Nat.mod_add_div]
  unfold print
  simp only [e1, e2, e3, e4, Outcome.bind_ok, s1, s2, s3, s4, s5]
  rfl

end Shell.Print
