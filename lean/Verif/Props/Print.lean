import Verif.Lemmas.Print
import Mathlib.Data.List.GetD
/-!
# C69: printing a 256-bit number
-/

namespace Shell
open Spec Print

/-- **C69.** Whatever the value and the state of the stream, a `uint256` is printed as the C++ standard formats an
unsigned integer: in the base of the stream, with the prefix if asked for, padded to the width.  Missing:
`std::internal` with a `0x` prefix to pad after (see `c69_internal_violated`). -/
theorem c69_print_partial (f : Fmt) (b : U256) (hb : b.WF)
    (h : f.adjust = .internal → f.base = .hex → f.showbase = true → b.val = 0) :
    print f b = .ok (formatted f b.val) := by
  rw [print_eq hb]
  refine congrArg Outcome.ok ?_
  unfold formatted pad body
  generalize hpre : (if f.showbase then showPrefix f.base f.uppercase b.val else []) = pre
  generalize numeral f.base.radix f.uppercase b.val = num
  dsimp only
  by_cases hw : f.width > (pre ++ num).length
  · rw [if_pos hw]
    cases ha : f.adjust with
    | left => rfl
    | right => exact (List.append_assoc _ _ _).symm
    | internal =>
      dsimp only
      by_cases hx : f.base = .hex
      · rw [if_pos hx]
        have hnil : pre = [] := by
          by_cases hs : f.showbase = true
          · rw [← hpre, if_pos hs, h ha hx hs, showPrefix_zero]
          · rw [← hpre, if_neg hs]
        rw [hnil, List.nil_append, List.nil_append]
      · rw [if_neg hx, List.append_assoc]
  · rw [if_neg hw, show (f.width - (pre ++ num).length).toNat = 0 by omega, List.replicate_zero]
    cases f.adjust with
    | left => simp
    | right => simp
    | internal => dsimp only; split <;> simp

/-- **C69.** In the missing case the digits and the prefix are right and the padding comes before the prefix, as
for `std::right`. -/
theorem c69_internal (f : Fmt) (b : U256) (hb : b.WF) (h : f.adjust = .internal) :
    print f b = .ok (formatted { f with adjust := .right } b.val) := by
  rw [← c69_print_partial { f with adjust := .right } b hb (fun h => nomatch h)]
  rw [print_eq hb, print_eq hb]
  unfold pad
  rw [h]
  rfl

/-- The full property fails: the standard prints `0x` followed by zeros, the library zeros followed by `0x`. -/
theorem c69_internal_violated :
    print ⟨.hex, true, false, .internal, 6, '0'⟩ ⟨0, 255⟩ = .ok "000xff".toList ∧
    formatted ⟨.hex, true, false, .internal, 6, '0'⟩ 255 = "0x00ff".toList := by
  refine ⟨by decide +kernel, ?_⟩
  simp [formatted, numeral, showPrefix, Base.radix, digitTable]

theorem digitTable_injective (upper : Bool) {d d' : ℕ} (h : d < 16) (h' : d' < 16)
    (he : (digitTable upper).getD d '?' = (digitTable upper).getD d' '?') : d = d' := by
  have hn : (digitTable upper).Nodup := by cases upper <;> decide
  have hl : (digitTable upper).length = 16 := by cases upper <;> rfl
  rw [List.getD_eq_getElem _ _ (by omega), List.getD_eq_getElem _ _ (by omega)] at he
  exact (hn.getElem_inj_iff).mp he

theorem numeral_ne_zero {r : ℕ} (hr : 2 ≤ r) (hr' : r ≤ 16) (upper : Bool) {n : ℕ} (hn : n ≠ 0) :
    numeral r upper n ≠ ['0'] ∧ numeral r upper n ≠ [] := by
  refine ⟨fun he => ?_, fun he => ?_⟩
  · unfold numeral at he
    rw [if_neg hn] at he
    obtain ⟨d, hd, e⟩ := List.map_eq_singleton_iff.mp he
    have hd' : Nat.digits r n = [d] := by
      have := congrArg List.reverse hd; simpa using this
    have hlt : d < r := Nat.digits_lt_base (by omega) (m := n) (by rw [hd']; simp)
    have hd0 : d = 0 := digitTable_injective upper (by omega) (by omega) (e.trans (by cases upper <;> rfl))
    have := Nat.ofDigits_digits r n
    rw [hd', hd0] at this
    exact hn (by simpa using this.symm)
  · unfold numeral at he
    rw [if_neg hn, List.map_eq_nil_iff, List.reverse_eq_nil_iff] at he
    exact hn (Nat.digits_eq_nil_iff_eq_zero.mp he)

theorem numeral_injective {r : ℕ} (hr : 2 ≤ r) (hr' : r ≤ 16) (upper : Bool) {v v' : ℕ}
    (h : numeral r upper v = numeral r upper v') : v = v' := by
  have key : ∀ {n : ℕ}, n ≠ 0 → numeral r upper n ≠ ['0'] := fun hn => (numeral_ne_zero hr hr' upper hn).1
  by_cases hv : v = 0
  · by_contra hc
    refine key (n := v') (by omega) ?_
    rw [← h, numeral, if_pos hv]
  by_cases hv' : v' = 0
  · exact absurd (h.trans (by rw [numeral, if_pos hv'])) (key hv)
  unfold numeral at h
  rw [if_neg hv, if_neg hv'] at h
  refine (Nat.digits_inj_iff (b := r)).mp (List.reverse_injective ?_)
  have hb : ∀ n, ∀ d ∈ (Nat.digits r n).reverse, d < 16 := fun n d hd =>
    lt_of_lt_of_le (Nat.digits_lt_base (by omega) (List.mem_reverse.mp hd)) hr'
  have aux : ∀ {L L' : List ℕ}, (∀ d ∈ L, d < 16) → (∀ d ∈ L', d < 16) →
      (L.map fun d => (digitTable upper).getD d '?') = (L'.map fun d => (digitTable upper).getD d '?') → L = L' := by
    intro L
    induction L with
    | nil => intro L' _ _ h; exact (List.map_eq_nil_iff.mp h.symm).symm
    | cons a L ih =>
      intro L' h1 h2 h
      cases L' with
      | nil => simp at h
      | cons a' L' =>
        rw [List.map_cons, List.map_cons, List.cons.injEq] at h
        rw [digitTable_injective upper (h1 a (by simp)) (h2 a' (by simp)) h.1,
          ih (fun d hd => h1 d (by simp [hd])) (fun d hd => h2 d (by simp [hd])) h.2]
  exact aux (hb v) (hb v') h

/-- **C69.** Without padding, different numbers are printed differently. -/
theorem c69_injective (f : Fmt) (a b : U256) (ha : a.WF) (hb : b.WF) (hw : f.width ≤ 0)
    (h : print f a = print f b) : a.val = b.val := by
  rw [print_eq ha, print_eq hb, pad, pad, if_neg (by omega), if_neg (by omega)] at h
  have h := Outcome.ok.inj h
  obtain ⟨h1, h2, -⟩ := radix_bounds f.base
  have h0 : body f 0 = ['0'] := by
    unfold body numeral
    rw [showPrefix_zero, if_pos rfl, ite_self]; rfl
  have key : ∀ {v}, v ≠ 0 → body f v ≠ ['0'] := by
    intro v hv he
    obtain ⟨k1, k2⟩ := numeral_ne_zero h1 h2 f.uppercase hv
    unfold body at he
    cases hs : f.showbase with
    | false => rw [hs] at he; exact k1 he
    | true =>
      unfold showPrefix at he
      rw [hs, if_pos rfl, if_neg hv] at he
      cases hb : f.base <;> rw [hb] at he k1 k2
      · have := congrArg List.length he
        simp only [List.length_append, List.length_cons, List.length_nil] at this
        split at this <;> simp at this <;> omega
      · obtain ⟨-, he⟩ := List.cons.inj he
        exact k2 he
      · exact k1 he
  by_cases hv : a.val = 0
  · by_contra hc
    rw [hv, h0] at h
    exact key (fun h' => hc (by omega)) h.symm
  by_cases hv' : b.val = 0
  · rw [hv', h0] at h
    exact absurd h (key hv)
  unfold body at h
  rw [showPrefix_congr _ _ (Nat.pos_of_ne_zero hv) (Nat.pos_of_ne_zero hv')] at h
  exact numeral_injective h1 h2 f.uppercase (List.append_cancel_left h)

/-- **C69.** The output is never shorter than the width, and is as short as the width or the number. -/
theorem c69_length (f : Fmt) (b : U256) (hb : b.WF) : ∃ s, print f b = .ok s ∧
    (s.length : ℤ) = max f.width ((if f.showbase then (showPrefix f.base f.uppercase b.val).length else 0) +
      (numeral f.base.radix f.uppercase b.val).length : ℕ) := by
  refine ⟨_, print_eq hb, ?_⟩
  have : (body f b.val).length = (if f.showbase then (showPrefix f.base f.uppercase b.val).length else 0) +
      (numeral f.base.radix f.uppercase b.val).length := by
    unfold body
    rw [List.length_append]
    congr 1
    split <;> rfl
  rw [← this, pad]
  generalize body f b.val = s
  split
  · split <;> rw [List.length_append, List.length_replicate] <;> omega
  · omega

/-- The largest number in each base, with padding on either side. -/
example : print ⟨.dec, false, false, .right, 80, '*'⟩ ⟨2 ^ 128 - 1, 2 ^ 128 - 1⟩ =
    .ok "**115792089237316195423570985008687907853269984665640564039457584007913129639935".toList ∧
  print ⟨.hex, true, true, .left, 70, '.'⟩ ⟨2 ^ 128 - 1, 10⟩ =
    .ok "0XFFFFFFFFFFFFFFFFFFFFFFFFFFFFFFFF0000000000000000000000000000000A....".toList ∧
  print ⟨.oct, true, false, .internal, 0, ' '⟩ ⟨1, 8⟩ =
    .ok "04000000000000000000000000000000000000000010".toList := by
  decide +kernel

end Shell
