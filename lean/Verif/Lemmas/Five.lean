import Verif.Model.Expand
import Verif.Props.Bits
import Mathlib.Tactic.Ring
import Mathlib.Tactic.NormNum.Pow
/-!
Powers of five modulo powers of two, and the search loop of the generator expander.
-/

namespace Shell.Expand

theorem five_pow (s : ℕ) : ∃ c, c % 2 = 1 ∧ 5 ^ 2 ^ s = 1 + 2 ^ (s + 2) * c := by
  induction s with
  | zero => exact ⟨1, rfl, by norm_num⟩
  | succ s ih =>
    obtain ⟨c, hc, e⟩ := ih
    refine ⟨c + 2 ^ (s + 1) * c ^ 2, ?_, ?_⟩
    · rw [pow_succ, mul_assoc, mul_comm (2 ^ s), mul_assoc]; omega
    · rw [pow_succ, pow_mul, e]; ring

/-- Every number congruent to 1 modulo 4 is a power of five modulo a power of two. -/
theorem five_gen (N x : ℕ) (hx : x % 4 = 1) : ∃ b < 2 ^ N, 5 ^ b % 2 ^ (N + 2) = x % 2 ^ (N + 2) := by
  induction N with
  | zero => exact ⟨0, by norm_num, by simpa using hx.symm⟩
  | succ N ih =>
    obtain ⟨b, hb, e⟩ := ih
    have h2 : 2 ^ (N + 1 + 2) = 2 * 2 ^ (N + 2) := by ring
    have hpos : 0 < 2 ^ (N + 2) := by positivity
    have hN : 2 ^ (N + 1) = 2 * 2 ^ N := by ring
    by_cases h : 5 ^ b % 2 ^ (N + 1 + 2) = x % 2 ^ (N + 1 + 2)
    · exact ⟨b, by omega, h⟩
    · refine ⟨b + 2 ^ N, by omega, ?_⟩
      obtain ⟨c, hc, e5⟩ := five_pow N
      have hodd : (5 ^ b * c) % 2 = 1 := by
        rw [Nat.mul_mod, Nat.pow_mod, hc]; norm_num
      rw [pow_add, e5, h2]
      rw [h2] at h
      generalize hP : 2 ^ (N + 2) = P at *
      obtain ⟨d, hd⟩ : ∃ d, 5 ^ b * c = 2 * d + 1 := ⟨5 ^ b * c / 2, by omega⟩
      rw [show 5 ^ b * (1 + P * c) = 5 ^ b + P * (5 ^ b * c) by ring, hd,
        show 5 ^ b + P * (2 * d + 1) = (5 ^ b + P) + 2 * P * d by ring, Nat.add_mul_mod_self_left]
      generalize 5 ^ b = y at *
      -- both residues modulo `2P` lie over the same residue modulo `P`
      have a1 : y % (2 * P) % P = y % P := Nat.mod_mul_left_mod _ _ _
      have a2 : x % (2 * P) % P = x % P := Nat.mod_mul_left_mod _ _ _
      have l1 : y % (2 * P) < 2 * P := Nat.mod_lt _ (by omega)
      have l2 : x % (2 * P) < 2 * P := Nat.mod_lt _ (by omega)
      rw [Nat.add_mod, Nat.mod_eq_of_lt (show P < 2 * P by omega)]
      generalize y % (2 * P) = u at *
      generalize x % (2 * P) = v at *
      have a3 : u % P = v % P := by rw [a1, a2, e]
      have small : ∀ z < 2 * P, z % P = if z < P then z else z - P := by
        intro z hz
        split_ifs with h1
        · exact Nat.mod_eq_of_lt h1
        · rw [Nat.mod_eq_sub_mod (by omega), Nat.mod_eq_of_lt (by omega)]
      rw [small u l1, small v l2] at a3
      split_ifs at a3 with h1 h3 h3
      · omega
      · rw [Nat.mod_eq_of_lt (by omega)]; omega
      · rw [show u + P = (u - P) + 2 * P by omega, Nat.add_mod_right, Nat.mod_eq_of_lt (by omega)]
        exact a3
      · omega

/-- The loop returns the first exponent after `b` at which the target appears. -/
theorem searchPower_spec (n : ℕ) (target : ℤ) (fuel b r : ℕ) :
    searchPower n target fuel (b + 1) (5 ^ b % (2 * n)) = some r ↔
      b < r ∧ r ≤ b + fuel ∧ ((5 ^ r % (2 * n) : ℕ) : ℤ) = target ∧
        ∀ r', b < r' → r' < r → ((5 ^ r' % (2 * n) : ℕ) : ℤ) ≠ target := by
  induction fuel generalizing b with
  | zero =>
    simp only [searchPower, reduceCtorEq, false_iff]
    rintro ⟨h1, h2, -⟩; omega
  | succ fuel ih =>
    have hstep : 5 ^ b % (2 * n) * generator % (2 * n) = 5 ^ (b + 1) % (2 * n) := by
      unfold generator; rw [Nat.mod_mul_mod, pow_succ]
    simp only [searchPower, hstep]
    by_cases h : ((5 ^ (b + 1) % (2 * n) : ℕ) : ℤ) = target
    · rw [if_pos h]
      constructor
      · intro e
        have e := Option.some.inj e
        subst e
        exact ⟨by omega, by omega, h, fun r' h1 h2 => by omega⟩
      · rintro ⟨h1, h2, h3, h4⟩
        rcases Nat.lt_or_ge (b + 1) r with h5 | h5
        · exact absurd h (h4 _ (by omega) h5)
        · congr 1; omega
    · rw [if_neg h, ih]
      constructor
      · rintro ⟨h1, h2, h3, h4⟩
        refine ⟨by omega, by omega, h3, fun r' h5 h6 => ?_⟩
        rcases Nat.lt_or_ge (b + 1) r' with h7 | h7
        · exact h4 _ h7 h6
        · rw [show r' = b + 1 by omega]; exact h
      · rintro ⟨h1, h2, h3, h4⟩
        have : r ≠ b + 1 := fun e => h (e ▸ h3)
        exact ⟨by omega, by omega, h3, fun r' h5 h6 => h4 _ (by omega) h6⟩

/-- Exactly one bit set means a power of two. -/
theorem countOnes_one (x : ℕ) (hx : x < 2 ^ 64) : Bits.countOnes64 x = 1 ↔ ∃ m < 64, x = 2 ^ m := by
  rw [c12_count_ones.2 x hx]
  unfold Spec.ones
  constructor
  · intro h
    obtain ⟨m, hm⟩ := List.length_eq_one_iff.mp h
    have mem : ∀ i, i < 64 ∧ x.testBit i = true ↔ i = m := by
      intro i
      have : i ∈ (List.range 64).filter (fun i => x.testBit i) ↔ i = m := by rw [hm]; simp
      simpa using this
    refine ⟨m, ((mem m).mpr rfl).1, ?_⟩
    apply Nat.eq_of_testBit_eq
    intro i
    rw [Nat.testBit_two_pow]
    by_cases hi : i = m
    · rw [hi, ((mem m).mpr rfl).2]; simp
    · have : x.testBit i = false := by
        by_cases h64 : i < 64
        · by_contra hc
          exact hi ((mem i).mp ⟨h64, by simpa using hc⟩)
        · exact Nat.testBit_lt_two_pow (hx.trans_le (Nat.pow_le_pow_right (by norm_num) (by omega)))
      rw [this]
      simp only [Bool.false_eq, decide_eq_false_iff_not]
      omega
  · rintro ⟨m, hm, rfl⟩
    have : ∀ m < 64, ((List.range 64).filter fun i => (2 ^ m).testBit i).length = 1 := by decide +kernel
    exact this m hm

end Shell.Expand
