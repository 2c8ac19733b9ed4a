import Verif.Model.SignedEncoder
import Mathlib.Data.List.Forall2
import Mathlib.Algebra.Order.Ring.Pow
import Mathlib.Algebra.Ring.Parity
import Mathlib.Data.Nat.Prime.Basic
import Mathlib.Tactic.Ring
import Mathlib.Tactic.Positivity
import Mathlib.Tactic.Linarith
import Mathlib.Tactic.NormNum
/-!
# C62: signed messages

`WrapSigned` maps the messages in `[-t/2, t/2)` to their remainders modulo `t`, and `UnwrapToSigned` maps a
remainder to the message of that range it came from.
-/

namespace Shell
open Signed

variable {sw w t : ℕ}

namespace Spec

/-- `x` is the number in `[-t/2, t/2)` with the remainder `v` modulo the odd number `t`. -/
def IsCentred (t : ℕ) (v : ℕ) (x : ℤ) : Prop := (t : ℤ) ∣ x - v ∧ -(t : ℤ) < 2 * x ∧ 2 * x < t

end Spec
open Spec

theorem forall₂_mapM {α β : Type} {f : α → Outcome β} {P : α → β → Prop} (xs : List α)
    (h : ∀ x ∈ xs, ∃ y, f x = .ok y ∧ P x y) : ∃ ys, xs.mapM f = .ok ys ∧ List.Forall₂ P xs ys := by
  induction xs with
  | nil => exact ⟨[], rfl, .nil⟩
  | cons x xs ih =>
    obtain ⟨y, h1, h2⟩ := h x (by simp)
    obtain ⟨ys, h3, h4⟩ := ih fun x hx => h x (by simp [hx])
    refine ⟨y :: ys, ?_, .cons h2 h4⟩
    rw [List.mapM_cons, h1]
    show (do let ys ← xs.mapM f; pure (y :: ys)) = _
    rw [h3]; rfl

theorem bmod_small {x : ℤ} {sw : ℕ} (h0 : 1 ≤ sw) (h1 : -2 ^ (sw - 1) ≤ x) (h2 : x < 2 ^ (sw - 1)) :
    Int.bmod x (2 ^ sw) = x := by
  obtain ⟨k, rfl⟩ : ∃ k, sw = k + 1 := ⟨sw - 1, by omega⟩
  rw [Nat.add_sub_cancel] at h1 h2
  have e : ((2 ^ (k + 1) : ℕ) : ℤ) = 2 * 2 ^ k := by push_cast; ring
  exact Int.bmod_eq_of_le_mul_two (by rw [e]; linarith) (by rw [e]; linarith)

theorem not_unsigned (h : ¬ inUnsigned sw w) : w ≤ max sw 32 - 1 := by
  unfold inUnsigned at h
  simp only [decide_eq_true_eq] at h
  omega

theorem wrap1_ok (ht : t < 2 ^ w) {m : ℤ} (h1 : -(t : ℤ) < 2 * m) (h2 : 2 * m < t) :
    ∃ v, wrap1 sw w t m = .ok v ∧ v < t ∧ IsCentred t v m := by
  have htw : (t : ℤ) < 2 ^ w := by exact_mod_cast ht
  have hu : (if m < 0 then arith sw w (conv sw w m + conv sw w t) else .ok (conv sw w m) : Outcome ℤ) =
      .ok (if m < 0 then m + t else m) := by
    by_cases hm : m < 0
    · rw [if_pos hm, if_pos hm]
      unfold arith conv
      by_cases hc : inUnsigned sw w
      · rw [if_pos hc, if_pos hc, if_pos hc, ← Int.add_emod, Int.emod_eq_of_lt (by omega) (by omega)]
      · have hb : (2 : ℤ) ^ w ≤ 2 ^ (max sw 32 - 1) := pow_le_pow_right₀ (by norm_num) (not_unsigned hc)
        rw [if_neg hc, if_neg hc, if_neg hc, if_pos ⟨by omega, by omega⟩]
    · rw [if_neg hm, if_neg hm]
      unfold conv
      split_ifs
      · rw [Int.emod_eq_of_lt (by omega) (by omega)]
      · rfl
  refine ⟨(if m < 0 then m + t else m).toNat, ?_, ?_, ?_, h1, h2⟩
  · unfold wrap1
    rw [hu, Outcome.bind_ok, Int.emod_eq_of_lt (by split_ifs <;> omega) (by split_ifs <;> omega)]
    rfl
  · split_ifs <;> omega
  · split_ifs
    · exact ⟨-1, by omega⟩
    · exact ⟨0, by omega⟩

theorem unwrap1_small (h0 : 1 ≤ sw) (hs : t ≤ 2 ^ sw) (ht : t < 2 ^ w) (hodd : t % 2 = 1) {v : ℕ}
    (hv : v < t) (hb : v < 2 ^ (sw - 1)) : ∃ x, unwrap1 sw w t v = .ok x ∧ IsCentred t v x := by
  have htw : (t : ℤ) < 2 ^ w := by exact_mod_cast ht
  have hvs : (v : ℤ) < 2 ^ (sw - 1) := by exact_mod_cast hb
  have hts : (t : ℤ) ≤ 2 * 2 ^ (sw - 1) := by
    rw [← pow_succ', Nat.sub_add_cancel h0]; exact_mod_cast hs
  have e1 : toSigned sw v = v := bmod_small h0 (by omega) (by omega)
  have e2 : ∀ x : ℕ, x ≤ t → conv sw w x = x := fun x hx => by
    unfold conv
    split_ifs
    · rw [Int.emod_eq_of_lt (by omega) (by omega)]
    · rfl
  have hx : unwrap1 sw w t v = .ok (if v > t / 2 then (v : ℤ) - t else v) := by
    unfold unwrap1
    simp only [e1]
    rw [e2 v hv.le, e2 _ (by omega : t / 2 ≤ t), e2 t le_rfl]
    by_cases hc : v > t / 2
    · rw [if_pos (by exact_mod_cast hc), if_pos hc]
      unfold arith
      by_cases hu : inUnsigned sw w
      · rw [if_pos hu, Outcome.bind_ok]
        have hsw : sw ≤ w := by
          unfold inUnsigned at hu
          simp only [decide_eq_true_eq] at hu
          omega
        congr 1
        unfold toSigned
        have hd : ((2 ^ sw : ℕ) : ℤ) ∣ (2 : ℤ) ^ w := by
          push_cast; exact pow_dvd_pow 2 hsw
        have e3 : Int.bmod (((v : ℤ) - t) % 2 ^ w) (2 ^ sw) = Int.bmod ((v : ℤ) - t) (2 ^ sw) := by
          rw [Int.bmod_def, Int.bmod_def, Int.emod_emod_of_dvd _ hd]
        rw [e3]
        exact bmod_small h0 (by omega) (by omega)
      · have hb : (2 : ℤ) ^ w ≤ 2 ^ (max sw 32 - 1) := pow_le_pow_right₀ (by norm_num) (not_unsigned hu)
        rw [if_neg hu, if_pos ⟨by omega, by omega⟩, Outcome.bind_ok]
        congr 1
        exact bmod_small h0 (by omega) (by omega)
    · rw [if_neg (by exact_mod_cast hc), if_neg hc, Outcome.bind_ok]
      congr 1
  refine ⟨_, hx, ?_, ?_, ?_⟩
  · split_ifs
    · exact ⟨-1, by omega⟩
    · exact ⟨0, by omega⟩
  all_goals split_ifs <;> omega

theorem unwrap1_ok (h0 : 1 ≤ sw) (hs : t ≤ 2 ^ (sw - 1)) (ht : t < 2 ^ w) (hodd : t % 2 = 1) {v : ℕ}
    (hv : v < t) : ∃ x, unwrap1 sw w t v = .ok x ∧ IsCentred t v x :=
  unwrap1_small h0 (hs.trans (Nat.pow_le_pow_right (by norm_num) (Nat.sub_le _ _))) ht hodd hv (by omega)

/-- **C62.** For every signed type, every plaintext modulus `t` below `2^w` and messages in `[-t/2, t/2)`,
`WrapSigned` returns numbers in `[0, t)` that are congruent to the messages. -/
theorem c62_wrap (ht : t < 2 ^ w) (ms : List ℤ) (hm : ∀ m ∈ ms, -(t : ℤ) < 2 * m ∧ 2 * m < t) :
    ∃ vs, wrapSigned sw w t ms = .ok vs ∧ List.Forall₂ (fun m v => v < t ∧ IsCentred t v m) ms vs :=
  forall₂_mapM ms fun m h => wrap1_ok ht (hm m h).1 (hm m h).2

/-- **C62.** For an odd plaintext modulus that fits the signed type, `UnwrapToSigned` maps the numbers in `[0, t)`
to the congruent numbers in `[-t/2, t/2)`. -/
theorem c62_unwrap_partial (h0 : 1 ≤ sw) (hs : t ≤ 2 ^ (sw - 1)) (ht : t < 2 ^ w) (hodd : t % 2 = 1)
    (vs : List ℕ) (hv : ∀ v ∈ vs, v < t) :
    ∃ xs, unwrapToSigned sw w t vs = .ok xs ∧ List.Forall₂ (IsCentred t) vs xs :=
  forall₂_mapM vs fun v h => unwrap1_ok h0 hs ht hodd (hv v h)

/-- There is only one such number. -/
theorem c62_centred_unique {v : ℕ} {x y : ℤ} (hx : IsCentred t v x) (hy : IsCentred t v y) : x = y := by
  obtain ⟨a1, a2, a3⟩ := hx
  obtain ⟨b1, b2, b3⟩ := hy
  have h := Int.dvd_sub a1 b1
  have e : x - v - (y - v) = x - y := by ring
  rw [e] at h
  have := Int.eq_zero_of_abs_lt_dvd h (by rw [abs_lt]; constructor <;> linarith)
  linarith

/-- **C62.** Computing with wrapped messages: if the numbers `vs` in `[0, t)` are congruent to integers `xs` whose
doubles stay below `t` in absolute value, as the slots of a computation on wrapped messages are, `UnwrapToSigned`
returns exactly `xs`. -/
theorem c62_result_partial (h0 : 1 ≤ sw) (hs : t ≤ 2 ^ (sw - 1)) (ht : t < 2 ^ w) (hodd : t % 2 = 1)
    {vs : List ℕ} {xs : List ℤ} (h : List.Forall₂ (fun v x => v < t ∧ IsCentred t v x) vs xs) :
    unwrapToSigned sw w t vs = .ok xs := by
  obtain ⟨ys, h1, h2⟩ := c62_unwrap_partial h0 hs ht hodd vs fun v hv => by
    induction h with
    | nil => cases hv
    | cons hd _ ih =>
      rcases List.mem_cons.mp hv with rfl | hv
      · exact hd.1
      · exact ih hv
  rw [h1]
  congr 1
  clear h1
  induction h generalizing ys with
  | nil => cases h2; rfl
  | cons hd _ ih =>
    cases h2 with
    | cons g1 g2 => rw [c62_centred_unique g1 hd.2, ih _ g2]

/-- **C62.** Unwrapping undoes wrapping. -/
theorem c62_round_trip_partial (h0 : 1 ≤ sw) (hs : t ≤ 2 ^ (sw - 1)) (ht : t < 2 ^ w) (hodd : t % 2 = 1)
    (ms : List ℤ) (hm : ∀ m ∈ ms, -(t : ℤ) < 2 * m ∧ 2 * m < t) :
    (do let vs ← wrapSigned sw w t ms
        unwrapToSigned sw w t vs) = .ok ms := by
  obtain ⟨vs, h1, h2⟩ := c62_wrap (sw := sw) ht ms hm
  rw [h1, Outcome.bind_ok]
  exact c62_result_partial h0 hs ht hodd (List.forall₂_iff_get.mpr ⟨h2.length_eq.symm, fun i h h' => (List.forall₂_iff_get.mp h2).2 i h' h⟩)

/-- The remainders that the signed type cannot hold, in unsigned arithmetic: they become negative, are converted
back to large numbers and reduced by `t`. -/
theorem unwrap1_wide (h0 : 1 ≤ sw) (hw : max sw 32 ≤ w) (hs : t ≤ 2 ^ sw) (ht : t < 2 ^ w) (hodd : t % 2 = 1)
    {v : ℕ} (hv : v < t) (hb : 2 ^ (sw - 1) ≤ v) : ∃ x, unwrap1 sw w t v = .ok x ∧ IsCentred t v x := by
  obtain ⟨k, rfl⟩ : ∃ k, sw = k + 1 := ⟨sw - 1, by omega⟩
  rw [Nat.add_sub_cancel] at hb
  have hu : inUnsigned (k + 1) w = true := by unfold inUnsigned; exact decide_eq_true hw
  have hk : (2 : ℕ) ^ (k + 1) = 2 * 2 ^ k := by ring
  have htw : (t : ℤ) < 2 ^ w := by exact_mod_cast ht
  have hbz : (2 : ℤ) ^ k ≤ v := by exact_mod_cast hb
  have hsz : (t : ℤ) ≤ 2 * 2 ^ k := by exact_mod_cast hk ▸ hs
  have hkw : (2 : ℤ) * 2 ^ k ≤ 2 ^ w := by
    rw [← pow_succ']; exact pow_le_pow_right₀ (by norm_num) (le_trans (le_max_left _ _) hw)
  have hd : ((2 ^ (k + 1) : ℕ) : ℤ) ∣ (2 : ℤ) ^ w := by
    push_cast; exact pow_dvd_pow 2 (le_trans (le_max_left _ _) hw)
  have e1 : toSigned (k + 1) (v : ℤ) = v - 2 * 2 ^ k := by
    unfold toSigned
    have : Int.bmod ((v : ℤ) - 2 * 2 ^ k) (2 ^ (k + 1)) = v - 2 * 2 ^ k :=
      bmod_small h0 (by rw [Nat.add_sub_cancel]; linarith)
        (by rw [Nat.add_sub_cancel]; have : (v : ℤ) < t := by exact_mod_cast hv
            have : (0 : ℤ) < 2 ^ k := by positivity
            linarith)
    rw [← this]
    have e : ((2 ^ (k + 1) : ℕ) : ℤ) = 2 * 2 ^ k := by push_cast; ring
    conv_rhs => rw [← e]
    rw [Int.sub_bmod_right]
  have hvz : (v : ℤ) < t := by exact_mod_cast hv
  have hc : conv (k + 1) w (toSigned (k + 1) (v : ℤ)) > conv (k + 1) w ((t / 2 : ℕ) : ℤ) := by
    rw [e1]
    unfold conv
    rw [if_pos hu, if_pos hu]
    have ht2 : ((t / 2 : ℕ) : ℤ) % 2 ^ w = (t / 2 : ℕ) := Int.emod_eq_of_lt (by omega) (by omega)
    rw [ht2]
    have : ((v : ℤ) - 2 * 2 ^ k) % 2 ^ w = v - 2 * 2 ^ k + 2 ^ w := by
      rw [← Int.add_emod_right, Int.emod_eq_of_lt (by linarith) (by linarith)]
    rw [this]
    have : ((t / 2 : ℕ) : ℤ) < v := by omega
    linarith
  refine ⟨(v : ℤ) - t, ?_, ⟨-1, by ring⟩, by omega, by omega⟩
  unfold unwrap1
  simp only
  rw [if_pos hc]
  unfold arith
  rw [if_pos hu, Outcome.bind_ok]
  congr 1
  rw [e1]
  unfold conv
  rw [if_pos hu, if_pos hu, ← Int.sub_emod]
  unfold toSigned
  have e3 : Int.bmod (((v : ℤ) - 2 * 2 ^ k - t) % 2 ^ w) (2 ^ (k + 1)) =
      Int.bmod ((v : ℤ) - t) (2 ^ (k + 1)) := by
    have e : ((2 ^ (k + 1) : ℕ) : ℤ) = 2 * 2 ^ k := by push_cast; ring
    have e4 : (v : ℤ) - 2 * 2 ^ k - t = v - t - ((2 ^ (k + 1) : ℕ) : ℤ) := by rw [e]; ring
    rw [Int.bmod_def, Int.emod_emod_of_dvd _ hd, ← Int.bmod_def, e4, Int.sub_bmod_right]
  rw [e3]
  exact bmod_small h0 (by rw [Nat.add_sub_cancel]; omega)
    (by rw [Nat.add_sub_cancel]; have : (0 : ℤ) < 2 ^ k := by positivity
        omega)

/-- **C62.** Exactly when unwrapping is right: for an odd plaintext modulus below `2^w`, `UnwrapToSigned` maps all
vectors of numbers in `[0, t)` to the congruent numbers in `[-t/2, t/2)` if and only if `t` fits the signed type, or
the arithmetic is unsigned (the unsigned type has at least 32 bits and is at least as wide as the signed type) and `t`
fits the unsigned type of the width of the signed one. -/
theorem c62_exact (h0 : 1 ≤ sw) (ht : t < 2 ^ w) (hodd : t % 2 = 1) :
    (∀ vs : List ℕ, (∀ v ∈ vs, v < t) →
      ∃ xs, unwrapToSigned sw w t vs = .ok xs ∧ List.Forall₂ (IsCentred t) vs xs) ↔
    t ≤ 2 ^ (sw - 1) ∨ (max sw 32 ≤ w ∧ t ≤ 2 ^ sw) := by
  constructor
  · intro h
    by_contra hn
    rw [not_or, not_and_or] at hn
    obtain ⟨hn1, hn2⟩ := hn
    -- a number that is unwrapped to `x`, which differs from it by a power of two
    have key : ∀ (v j : ℕ) (x : ℤ), 1 < t → v < t → unwrap1 sw w t v = .ok x → x - v = -2 ^ j → False := by
      intro v j x h1 hv he hj
      obtain ⟨xs, g1, g2⟩ := h [v] (by simpa using hv)
      have g3 : unwrapToSigned sw w t [v] = .ok [x] := by
        unfold unwrapToSigned
        rw [List.mapM_cons, he]; rfl
      rw [g3] at g1
      injection g1 with g1
      subst g1
      cases g2 with
      | cons g4 _ =>
        have g5 := g4.1
        rw [hj, Int.dvd_neg] at g5
        have g6 : t ∣ 2 ^ j := by exact_mod_cast g5
        have g7 : Nat.Coprime t (2 ^ j) := (Nat.Coprime.pow_right j
          (Nat.coprime_two_right.mpr (Nat.odd_iff.mpr hodd)))
        have := Nat.Coprime.eq_one_of_dvd g7 g6
        omega
    have hp : 1 ≤ 2 ^ (sw - 1) := Nat.one_le_two_pow
    by_cases hu : max sw 32 ≤ w
    · have hlt : 2 ^ sw < t := by omega
      have z : toSigned sw ((2 ^ sw : ℕ) : ℤ) = 0 := by
        unfold toSigned
        exact Int.bmod_self
      have c0 : conv sw w 0 = 0 := by unfold conv; split_ifs <;> simp
      refine key (2 ^ sw) sw 0 (by omega) hlt ?_ (by push_cast; ring)
      unfold unwrap1
      simp only [z]
      have hc : ¬ conv sw w 0 > conv sw w ((t / 2 : ℕ) : ℤ) := by
        rw [c0]
        unfold conv
        split_ifs
        · exact not_lt.mpr (Int.emod_nonneg _ (by positivity))
        · exact not_lt.mpr (by positivity)
      rw [if_neg hc, Outcome.bind_ok, c0]
      show Outcome.ok (toSigned sw 0) = _
      unfold toSigned
      rw [Int.zero_bmod]
    · obtain ⟨k, rfl⟩ : ∃ k, sw = k + 1 := ⟨sw - 1, by omega⟩
      rw [Nat.add_sub_cancel] at hn1 hp
      have e : ((2 ^ (k + 1) : ℕ) : ℤ) = 2 * 2 ^ k := by push_cast; ring
      have hneg : Int.bmod (-2 ^ k) (2 ^ (k + 1)) = -2 ^ k :=
        bmod_small h0 (by rw [Nat.add_sub_cancel]) (by
          rw [Nat.add_sub_cancel]
          have : (0 : ℤ) < 2 ^ k := by positivity
          linarith)
      have z : toSigned (k + 1) ((2 ^ k : ℕ) : ℤ) = -2 ^ k := by
        unfold toSigned
        rw [← hneg, ← Int.sub_bmod_right, e]
        push_cast
        congr 1
        ring
      have hui : inUnsigned (k + 1) w = false := by unfold inUnsigned; exact decide_eq_false hu
      refine key (2 ^ k) (k + 1) (-2 ^ k) (by omega) (by omega) ?_ (by push_cast; ring)
      unfold unwrap1
      simp only [z]
      unfold conv
      rw [hui]
      have hc : ¬ (-2 ^ k : ℤ) > ((t / 2 : ℕ) : ℤ) := by
        have : (0 : ℤ) < 2 ^ k := by positivity
        omega
      simp only [Bool.false_eq_true, if_false]
      rw [if_neg hc, Outcome.bind_ok]
      show Outcome.ok (toSigned (k + 1) (-2 ^ k)) = _
      unfold toSigned
      rw [hneg]
  · rintro (hs | ⟨hw, hs⟩) vs hv
    · exact c62_unwrap_partial h0 hs ht hodd vs hv
    · refine forall₂_mapM vs fun v hm => ?_
      by_cases hb : 2 ^ (sw - 1) ≤ v
      · exact unwrap1_wide h0 hw hs ht hodd (hv v hm) hb
      · exact unwrap1_small h0 hs ht hodd (hv v hm) (by omega)

/-- Concrete cases: with 32-bit types a modulus above `2^31` works, since the arithmetic is unsigned; with 16-bit
types, which are promoted to `int`, a modulus above `2^15` does not. -/
example : unwrapToSigned 32 32 4294967291 [4294967290, 7, 2147483648] = .ok [-1, 7, -2147483643] ∧
    unwrapToSigned 16 16 65521 [65520, 7] = .ok [-16, 7] := by
  decide +kernel

/-- **C62.** Unwrapping undoes wrapping under the condition of `c62_exact`. -/
theorem c62_round_trip_wide_partial (h0 : 1 ≤ sw) (ht : t < 2 ^ w) (hodd : t % 2 = 1)
    (hs : t ≤ 2 ^ (sw - 1) ∨ (max sw 32 ≤ w ∧ t ≤ 2 ^ sw))
    (ms : List ℤ) (hm : ∀ m ∈ ms, -(t : ℤ) < 2 * m ∧ 2 * m < t) :
    (do let vs ← wrapSigned sw w t ms
        unwrapToSigned sw w t vs) = .ok ms := by
  obtain ⟨vs, h1, h2⟩ := c62_wrap (sw := sw) ht ms hm
  have hv : ∀ v ∈ vs, v < t := by
    clear h1 hm
    induction h2 with
    | nil => simp
    | cons hd _ ih => simpa using ⟨hd.1, ih⟩
  obtain ⟨xs, h3, h4⟩ := (c62_exact h0 ht hodd).mpr hs vs hv
  rw [h1, Outcome.bind_ok, h3]
  congr 1
  clear h1 h3 hv hm
  induction h2 generalizing xs with
  | nil => cases h4; rfl
  | cons hd _ ih =>
    cases h4 with
    | cons g1 g2 => rw [c62_centred_unique g1 hd.2, ih _ g2]

example : (4294967291 : ℕ) < 2 ^ 32 ∧ 4294967291 % 2 = 1 ∧ max 32 32 ≤ 32 ∧ (4294967291 : ℕ) ≤ 2 ^ 32 ∧
    ¬ (4294967291 : ℕ) ≤ 2 ^ (32 - 1) ∧
    ∀ m ∈ [(-2147483645 : ℤ), 7, 2147483645], -((4294967291 : ℕ) : ℤ) < 2 * m ∧ 2 * m < (4294967291 : ℕ) := by
  decide

/-- For a signed type that cannot hold `t` the property fails, although every message fits it: with 16-bit
messages and `t = 65537`, `-1` is wrapped to 65536 and unwrapped to 0. -/
theorem c62_narrow :
    wrapSigned 16 64 65537 [-1, 5, -32768] = .ok [65536, 5, 32769] ∧
    unwrapToSigned 16 64 65537 [65536, 5, 32769] = .ok [0, 5, -32768] := by
  decide +kernel

/-- Concrete cases for each common type. -/
example : wrapSigned 64 64 65537 [-1, 5, -32768, 32768] = .ok [65536, 5, 32769, 32768] ∧
    unwrapToSigned 64 64 65537 [65536, 5, 32769, 32768] = .ok [-1, 5, -32768, 32768] ∧
    wrapSigned 16 16 257 [-128, 128] = .ok [129, 128] ∧ unwrapToSigned 16 16 257 [129, 128] = .ok [-128, 128] ∧
    wrapSigned 64 32 65537 [-3] = .ok [65534] ∧ unwrapToSigned 64 32 65537 [65534] = .ok [-3] := by
  decide +kernel

example : (65537 : ℕ) ≤ 2 ^ (32 - 1) ∧ (65537 : ℕ) < 2 ^ 32 ∧ 65537 % 2 = 1 ∧
    ∀ m ∈ [(-32768 : ℤ), 7, 32768], -((65537 : ℕ) : ℤ) < 2 * m ∧ 2 * m < (65537 : ℕ) := by decide

end Shell
