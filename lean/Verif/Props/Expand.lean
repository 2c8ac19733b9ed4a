import Verif.Lemmas.Expand
import Verif.Lemmas.Five
import Verif.Props.Relin
import Mathlib.Tactic.NormNum.Prime
/-!
# Properties C31 and C32: oblivious expansion
-/

namespace Shell
open Spec NttRing Sym Finset Expand Relin
variable {C : Ctx}

/-- `x` is a two-component ciphertext under the key `s` whose noisy plaintext differs from `f` by
multiples of `t` of absolute value at most `b`. -/
def Tracks (s : C.Poly) (t b : ℤ) (x : Ct C) (f : Fin C.n → ℤ) : Prop :=
  x.c.length = 2 ∧ x.power = 1 ∧ ∃ φ, Noisy s x φ ∧ Small t b (φ - f)

/-- `sub` turns ciphertexts of `f` into ciphertexts of `f(X^p)`, adding noise at most `D`. -/
def SubOk (s : C.Poly) (t D : ℤ) (sub : Expand.Sub C) (p : ℕ) : Prop :=
  ∀ x f b, 0 ≤ b → Tracks s t b x f → ∃ r, sub x p = .ok r ∧ Tracks s t (b + D) r (substPow p f)

/-! ## C32 -/

/-- C32: a count is returned exactly for the powers `2^m + 1` with `2 ≤ m ≤ log2 n`. -/
theorem c32_accepts (l : ℕ) (hl : l ≤ 15) (p : ℤ) :
    (∃ b, numSubstitutions (2 ^ l) p = .ok b) ↔ ∃ m : ℕ, 2 ≤ m ∧ m ≤ l ∧ p = 2 ^ m + 1 := by
  have hlp : 2 ^ l ≤ 2 ^ 15 := Nat.pow_le_pow_right (by norm_num) hl
  have hlp' : (2 : ℤ) ^ l ≤ 2 ^ 15 := by exact_mod_cast hlp
  unfold numSubstitutions
  constructor
  · rintro ⟨b, hb⟩
    split_ifs at hb with hc
    push Not at hc
    obtain ⟨h1, h2, h3⟩ := hc
    push_cast at h2
    obtain ⟨m, hm, e⟩ := (countOnes_one _ (by omega)).mp h3
    have ep : p = 2 ^ m + 1 := by
      have : ((p - 1).toNat : ℤ) = 2 ^ m := by rw [e]; push_cast; rfl
      rw [Int.toNat_of_nonneg (by omega)] at this
      omega
    refine ⟨m, ?_, ?_, ep⟩
    · by_contra hc
      have : m = 0 ∨ m = 1 := by omega
      rcases this with rfl | rfl <;> norm_num at ep <;> omega
    · by_contra hc
      have : (2 : ℤ) ^ (l + 1) ≤ 2 ^ m := pow_le_pow_right₀ (by norm_num) (by omega)
      rw [pow_succ] at this
      omega
  · rintro ⟨m, hm1, hm2, rfl⟩
    have h4 : (2 : ℤ) ^ 2 ≤ 2 ^ m := pow_le_pow_right₀ (by norm_num) hm1
    have hml : (2 : ℤ) ^ m ≤ 2 ^ l := pow_le_pow_right₀ (by norm_num) hm2
    have htn : ((2 : ℤ) ^ m + 1 - 1).toNat = 2 ^ m := by
      rw [add_sub_cancel_right]; exact_mod_cast Int.toNat_natCast (2 ^ m)
    rw [if_neg]
    · obtain ⟨N, rfl⟩ : ∃ N, l = N + 1 := ⟨l - 1, by omega⟩
      obtain ⟨b, hb, e⟩ := five_gen N (2 ^ m + 1) (by
        obtain ⟨c, rfl⟩ : ∃ c, m = c + 2 := ⟨m - 2, by omega⟩
        rw [pow_add]; omega)
      have h2n : 2 * 2 ^ (N + 1) = 2 ^ (N + 2) := by ring
      have hlt : 2 ^ m + 1 < 2 ^ (N + 2) := by
        have : (2 : ℤ) ^ m + 1 < 2 * 2 ^ (N + 1) := by omega
        rw [← h2n]; exact_mod_cast this
      rw [Nat.mod_eq_of_lt hlt] at e
      have hex : ∃ r, 0 < r ∧ ((5 ^ r % (2 * 2 ^ (N + 1)) : ℕ) : ℤ) = 2 ^ m + 1 := by
        refine ⟨b, ?_, ?_⟩
        · rcases Nat.eq_zero_or_pos b with h0 | h0
          · rw [h0, pow_zero, Nat.mod_eq_of_lt (by omega)] at e
            have : 0 < 2 ^ m := by positivity
            omega
          · exact h0
        · rw [h2n, e]; push_cast; rfl
      classical
      have hfind := Nat.find_spec hex
      have hmin := fun r h => Nat.find_min (H := hex) (m := r) h
      have hbound : Nat.find hex ≤ b := Nat.find_min' hex ⟨by
        rcases Nat.eq_zero_or_pos b with h0 | h0
        · rw [h0, pow_zero, Nat.mod_eq_of_lt (by omega)] at e
          have : 0 < 2 ^ m := by positivity
          omega
        · exact h0, by rw [h2n, e]; push_cast; rfl⟩
      have hb2 : 2 ^ N ≤ 2 ^ (N + 1) := Nat.pow_le_pow_right (by norm_num) (by omega)
      have hs := (searchPower_spec (2 ^ (N + 1)) (2 ^ m + 1) (2 * 2 ^ (N + 1) - 1) 0 (Nat.find hex)).mpr
        ⟨hfind.1, by omega, hfind.2, fun r' h1 h2 h3 => hmin r' h2 ⟨h1, h3⟩⟩
      rw [pow_zero, Nat.mod_eq_of_lt (by omega), zero_add] at hs
      rw [hs]
      exact ⟨_, rfl⟩
    · rw [htn]
      push_cast
      have : Bits.countOnes64 (2 ^ m) = 1 := (countOnes_one _ (by
        have : (2 : ℕ) ^ m ≤ 2 ^ 15 := Nat.pow_le_pow_right (by norm_num) (by omega)
        omega)).mpr ⟨m, by omega, rfl⟩
      push Not
      exact ⟨by omega, by omega, this⟩

/-- C32: the count returned is the smallest number of applications of `X -> X^5` that amounts to
`X -> X^p`. -/
theorem c32_smallest (l : ℕ) (p : ℤ) {b : ℕ} (hb : numSubstitutions (2 ^ l) p = .ok b) :
    ((5 ^ b % 2 ^ (l + 1) : ℕ) : ℤ) = p ∧ ∀ b' < b, ((5 ^ b' % 2 ^ (l + 1) : ℕ) : ℤ) ≠ p := by
  have hp1 : 0 < 2 ^ l := by positivity
  unfold numSubstitutions at hb
  split_ifs at hb with hc
  push Not at hc
  split at hb
  · rename_i r hr
    cases hb
    have := (searchPower_spec (2 ^ l) p (2 * 2 ^ l - 1) 0 b).mp (by
      rw [pow_zero, Nat.mod_eq_of_lt (by omega)]; exact hr)
    have h2 : 2 ^ (l + 1) = 2 * 2 ^ l := by ring
    rw [h2]
    refine ⟨this.2.2.1, fun b' hb' => ?_⟩
    rcases Nat.eq_zero_or_pos b' with h0 | h0
    · rw [h0, pow_zero, Nat.mod_eq_of_lt (by omega)]
      push_cast; omega
    · exact this.2.2.2 b' h0 hb'
  · cases hb

/-- C32: substituting `X -> X^5` that many times is substituting `X -> X^p`, on every polynomial. -/
theorem c32_substitution (l : ℕ) (p : ℕ) {b : ℕ} (hb : numSubstitutions (2 ^ l) p = .ok b)
    (f : Fin (2 ^ l) → ℤ) : (substPow 5)^[b] f = substPow p f := by
  have h1 := (c32_smallest l p hb).1
  have key : ∀ b : ℕ, (substPow 5)^[b] f = substPow (5 ^ b) f := by
    intro b
    induction b with
    | zero => rw [pow_zero, substPow_one]; rfl
    | succ b ih =>
      rw [Function.iterate_succ_apply', ih, substPow_comp _ _ rfl, ← pow_succ']
  rw [key b, ← substPow_mod]
  have h2 : 2 * 2 ^ l = 2 ^ (l + 1) := by ring
  rw [h2]
  congr 1
  exact_mod_cast h1

/-- C32: every level of an expansion by at most `log2 n - 1` levels is reachable; the next level, whose
power is 3, is rejected. -/
theorem c32_levels (l : ℕ) (hl : l ≤ 15) :
    (∀ j, j + 2 ≤ l → ∃ b, numSubstitutions (2 ^ l) ((2 ^ l >>> j) + 1 : ℕ) = .ok b) ∧
    (1 ≤ l → numSubstitutions (2 ^ l) ((2 ^ l >>> (l - 1)) + 1 : ℕ) = .err .invalidArgument) := by
  have hd : ∀ j ≤ l, 2 ^ l >>> j = 2 ^ (l - j) := fun j hj => by
    rw [Nat.shiftRight_eq_div_pow, Nat.pow_div hj (by norm_num)]
  constructor
  · intro j hj
    rw [hd j (by omega)]
    exact (c32_accepts l hl _).mpr ⟨l - j, by omega, by omega, by push_cast; rfl⟩
  · intro h1
    rw [hd (l - 1) (by omega), show l - (l - 1) = 1 by omega]
    unfold numSubstitutions
    rw [if_pos (Or.inl (by norm_num))]

example : numSubstitutions (2 ^ 4) 17 = .ok 4 ∧ numSubstitutions (2 ^ 4) 5 = .ok 1 ∧
    numSubstitutions (2 ^ 4) 9 = .ok 6 ∧ numSubstitutions (2 ^ 4) 3 = .err .invalidArgument := by
  decide +kernel

/-! ## C31 -/

/-- C31: `ComputeNormalizer(k, log_t)` is the inverse of `2^k` modulo `2^log_t + 1`, for every `k`. -/
theorem c31_normalizer (k logT : ℕ) (h0 : 0 < logT) (h64 : logT < 64) :
    ∃ r, computeNormalizer k logT = .ok r ∧ r ≤ 2 ^ logT ∧ (2 ^ k * r) % (2 ^ logT + 1) = 1 := by
  have hr : k % logT < logT := Nat.mod_lt _ h0
  set m := logT - k % logT with hm
  have hk : k = logT * (k / logT) + k % logT := (Nat.div_add_mod k logT).symm
  have hmle : 2 ^ m ≤ 2 ^ logT := Nat.pow_le_pow_right (by norm_num) (by omega)
  have hm1 : 2 ^ 1 ≤ 2 ^ m := Nat.pow_le_pow_right (by norm_num) (by omega)
  have hlt : 2 ^ logT ≤ 2 ^ 63 := Nat.pow_le_pow_right (by norm_num) (by omega)
  have s1 : Transcription.shl 64 1 logT = .ok (2 ^ logT) := by
    unfold Transcription.shl
    rw [if_pos (by omega), Nat.one_shiftLeft, Nat.mod_eq_of_lt (by omega)]
  have s2 : Transcription.shl 64 1 m = .ok (2 ^ m) := by
    unfold Transcription.shl
    rw [if_pos (by omega), Nat.one_shiftLeft, Nat.mod_eq_of_lt (by omega)]
  have hneg : ((2 : ℤ) ^ logT) ≡ -1 [ZMOD 2 ^ logT + 1] := by
    rw [Int.modEq_iff_dvd]; exact ⟨-1, by ring⟩
  have hpow : (2 : ℤ) ^ k * 2 ^ m = (2 ^ logT) ^ (k / logT + 1) := by
    rw [← pow_add, ← pow_mul]; congr 1
    rw [mul_add, mul_one]; omega
  have fin : ∀ r : ℕ, ((2 : ℤ) ^ k * r) ≡ 1 [ZMOD 2 ^ logT + 1] → (2 ^ k * r) % (2 ^ logT + 1) = 1 := by
    intro r h
    have : (((2 ^ k * r) % (2 ^ logT + 1) : ℕ) : ℤ) = 1 := by
      push_cast
      rw [h]
      exact Int.emod_eq_of_lt (by norm_num) (by have : (0 : ℤ) < 2 ^ logT := by positivity
                                                omega)
    exact_mod_cast this
  unfold computeNormalizer
  rw [if_neg (by omega)]
  dsimp only
  by_cases hp : k / logT % 2 = 0
  · rw [if_pos hp, s1, ← hm, s2, Outcome.bind_ok, Outcome.bind_ok]
    have e : (2 ^ logT + 1 + (2 ^ 64 - 2 ^ m)) % 2 ^ 64 = 2 ^ logT + 1 - 2 ^ m := by
      rw [show 2 ^ logT + 1 + (2 ^ 64 - 2 ^ m) = (2 ^ logT + 1 - 2 ^ m) + 2 ^ 64 by omega,
        Nat.add_mod_right, Nat.mod_eq_of_lt (by omega)]
    refine ⟨_, rfl, ?_, fin _ ?_⟩
    · rw [e]; omega
    · rw [e, Nat.cast_sub (by omega)]
      push_cast
      rw [mul_sub, hpow]
      have h1 := (hneg.pow (k / logT + 1))
      rw [Odd.neg_one_pow (by rw [Nat.odd_iff]; omega)] at h1
      have h2 : (2 : ℤ) ^ k * (2 ^ logT + 1) ≡ 0 [ZMOD 2 ^ logT + 1] :=
        Int.modEq_zero_iff_dvd.mpr ⟨_, mul_comm _ _⟩
      simpa using h2.sub h1
  · rw [if_neg hp, ← hm, s2]
    refine ⟨_, rfl, hmle, fin _ ?_⟩
    push_cast
    rw [hpow]
    have h1 := (hneg.pow (k / logT + 1))
    rwa [Even.neg_one_pow (by rw [Nat.even_iff]; omega)] at h1

example : computeNormalizer 1 1 = .ok 2 ∧ computeNormalizer 5 3 = .ok 2 ∧
    computeNormalizer 7 0 = .ub .divByZero := by decide +kernel

theorem tracks_weaken {s : C.Poly} {t a b : ℤ} {x : Ct C} {f : Fin C.n → ℤ} (h : Tracks s t a x f)
    (hab : a ≤ b) : Tracks s t b x f := by
  obtain ⟨h1, h2, φ, h3, h4⟩ := h
  exact ⟨h1, h2, φ, h3, h4.mono hab⟩

theorem monomial_eq (C : Ctx) (j : ℕ) : monomial C j = modq C.q (monoZ C.n (2 ^ j)) := by
  funext i
  unfold monomial modq monoZ
  split_ifs <;> simp

/-- One inner step. -/
theorem inner_ok (h : C.Ok) (s : C.Poly) {t D : ℤ} {sub : Expand.Sub C} {j : ℕ} (hj : j < C.l)
    (hsub : SubOk s t D sub ((C.n >>> j) + 1)) {b : ℤ} (hb : 0 ≤ b) (k : ℕ)
    (result : List (Ct C)) (hk : k + 2 ^ j < result.length) (d : Ct C) {g : ℕ} (f : Fin C.n → ℤ)
    (hx : Tracks s t b (result.getD k d) (expandTo j g f)) :
    ∃ r, expandInner sub j (C.toNtt (monomial C j)) k result = .ok r ∧ r.length = result.length ∧
      Tracks s t (2 * b + D) (r.getD k d) (expandTo (j + 1) g f) ∧
      Tracks s t (2 * b + D) (r.getD (k + 2 ^ j) d) (expandTo (j + 1) (g + 2 ^ j) f) ∧
      ∀ i, i ≠ k → i ≠ k + 2 ^ j → r.getD i d = result.getD i d := by
  have hpos : 0 < 2 ^ j := by positivity
  have hle : 2 ^ j ≤ C.n := Nat.pow_le_pow_right (by norm_num) hj.le
  set x := result.getD k d with hxd
  obtain ⟨r, r1, r2⟩ := hsub x _ b hb hx
  obtain ⟨x1, x2, φ, x3, x4⟩ := hx
  obtain ⟨y1, y2, ψ, y3, y4⟩ := r2
  obtain ⟨a, a1, a2, a3, a4⟩ := (c20_add s x r x3 y3).2 (by rw [x2, y2])
  obtain ⟨c, c1, c2, c3, c4⟩ := (c20_sub s x r x3 y3).2 (by rw [x2, y2])
  have abs1 := ((c21_absorb h s c c2).1 (monoZ C.n (2 ^ j)))
  have hlen : k < result.length := by omega
  unfold expandInner
  rw [rd_getD d hlen, Outcome.bind_ok, ← hxd, r1, Outcome.bind_ok, c1, Outcome.bind_ok, wr_ok hk,
    Outcome.bind_ok, wr_ok (by rw [List.length_set]; exact hk), Outcome.bind_ok, a1, Outcome.bind_ok,
    wr_ok (by rw [List.length_set, List.length_set]; exact hlen)]
  refine ⟨_, rfl, by simp, ?_, ?_, ?_⟩
  · rw [getD_set _ _ _ _ _ (by simpa using hlen), if_pos rfl]
    refine ⟨by rw [a4, x1, y1]; rfl, by rw [a3, x2], _, a2, ?_⟩
    rw [← expand_even hj]
    have e : φ + ψ - (expandTo j g f + substPow ((2 ^ C.l >>> j) + 1) (expandTo j g f)) =
        (φ - expandTo j g f) + (ψ - substPow ((2 ^ C.l >>> j) + 1) (expandTo j g f)) := by ring
    rw [e]
    exact (x4.add y4).mono (by omega)
  · rw [getD_set _ _ _ _ _ (by simpa using hlen), if_neg (by omega), getD_set _ _ _ _ _ (by simpa using hk),
      if_pos rfl, monomial_eq]
    refine ⟨by unfold absorb; rw [List.length_map, c4, x1, y1]; rfl, by rw [abs1.2, c3, x2], _, abs1.1, ?_⟩
    rw [← expand_odd hj, ← negMul_sub_left]
    apply Small.mono_mul _ _ hpos hle
    have e : φ - ψ - (expandTo j g f - substPow ((2 ^ C.l >>> j) + 1) (expandTo j g f)) =
        (φ - expandTo j g f) - (ψ - substPow ((2 ^ C.l >>> j) + 1) (expandTo j g f)) := by ring
    rw [e]
    exact (x4.sub y4).mono (by omega)
  · intro i h1 h2
    rw [getD_set _ _ _ _ _ (by simpa using hlen), if_neg (fun e => h1 e.symm),
      getD_set _ _ _ _ _ (by simpa using hk), if_neg (fun e => h2 e.symm), getD_set _ _ _ _ _ hk,
      if_neg (fun e => h2 e.symm)]

/-- One outer step. -/
theorem outer_ok (h : C.Ok) (s : C.Poly) {t D : ℤ} {sub : Expand.Sub C} {j : ℕ} (hj : j < C.l)
    (hsub : SubOk s t D sub ((C.n >>> j) + 1)) {b : ℤ} (hb : 0 ≤ b)
    (result : List (Ct C)) (hlen : 2 ^ (j + 1) ≤ result.length) (d : Ct C) (f : Fin C.n → ℤ)
    (hx : ∀ k < 2 ^ j, Tracks s t b (result.getD k d) (expandTo j k f)) :
    ∃ r, expandOuter sub j result = .ok r ∧ r.length = result.length ∧
      ∀ k < 2 ^ (j + 1), Tracks s t (2 * b + D) (r.getD k d) (expandTo (j + 1) k f) := by
  have hle : 2 ^ j ≤ C.n := Nat.pow_le_pow_right (by norm_num) hj.le
  have h2 : 2 ^ (j + 1) = 2 ^ j + 2 ^ j := by ring
  unfold expandOuter
  rw [if_neg (by omega)]
  obtain ⟨r, r1, r2, r3, r4⟩ := loop_ok (f := expandInner sub j (C.toNtt (monomial C j))) (n := 2 ^ j)
    (s := result)
    (fun i (r : List (Ct C)) => r.length = result.length ∧
      (∀ k < i, Tracks s t (2 * b + D) (r.getD k d) (expandTo (j + 1) k f) ∧
        Tracks s t (2 * b + D) (r.getD (k + 2 ^ j) d) (expandTo (j + 1) (k + 2 ^ j) f)) ∧
      ∀ k, i ≤ k → k < 2 ^ j → Tracks s t b (r.getD k d) (expandTo j k f))
    ⟨rfl, fun k hk => by omega, fun k _ hk => hx k hk⟩ (by
      rintro i r hi ⟨e1, e2, e3⟩
      obtain ⟨r', f1, f2, f3, f4, f5⟩ := inner_ok h s hj hsub hb i r (by omega) d f (e3 i le_rfl hi)
      refine ⟨r', f1, by omega, fun k hk => ?_, fun k hk hk2 => ?_⟩
      · by_cases hki : k = i
        · rw [hki]; exact ⟨f3, f4⟩
        · rw [f5 k hki (by omega), f5 (k + 2 ^ j) (by omega) (by omega)]
          exact e2 k (by omega)
      · rw [f5 k (by omega) (by omega)]; exact e3 k (by omega) hk2)
  refine ⟨r, r1, r2, fun k hk => ?_⟩
  by_cases hkj : k < 2 ^ j
  · exact (r3 k hkj).1
  · have := (r3 (k - 2 ^ j) (by omega)).2
    rwa [Nat.sub_add_cancel (by omega)] at this

/-- C31: expanding a ciphertext of `f` by `L ≤ log2 n` levels gives `2^L` ciphertexts; the `i`-th one
holds `2^L` times the coefficients of `f` at positions congruent to `i` modulo `2^L`. -/
theorem c31_expand_ciphertext (h : C.Ok) (s : C.Poly) {t D b : ℤ} (hD : 0 ≤ D) (hb : 0 ≤ b)
    {sub : Expand.Sub C} {L : ℕ} (hL : L ≤ C.l)
    (hsub : ∀ j < L, SubOk s t D sub ((C.n >>> j) + 1)) (x : Ct C) (f : Fin C.n → ℤ)
    (hx : Tracks s t b x f) :
    ∃ rs, expandCiphertext sub L x = .ok rs ∧ rs.length = 2 ^ L ∧
      ∀ i < 2 ^ L, ∀ d, Tracks s t (2 ^ L * b + (2 ^ L - 1) * D) (rs.getD i d) (expandTo L i f) := by
  have hl := h.l15
  have hp : 0 < 2 ^ L := by positivity
  unfold expandCiphertext
  have hc : component x 0 = .ok (x.c.getD 0 0) := component_ok x (by rw [hx.1]; norm_num : 0 < x.c.length)
  rw [hc, Outcome.bind_ok, if_neg (by omega), wr_ok (by simpa using hp), Outcome.bind_ok]
  let d0 : Ct C := ⟨[], 1, []⟩
  obtain ⟨r, r1, r2, r3⟩ := loop_ok (f := expandOuter sub) (n := L)
    (s := (List.replicate (2 ^ L) (⟨[], 1, []⟩ : Ct C)).set 0 x)
    (fun j (r : List (Ct C)) => r.length = 2 ^ L ∧ ∀ k < 2 ^ j,
      Tracks s t (2 ^ j * b + (2 ^ j - 1) * D) (r.getD k d0) (expandTo j k f))
    ⟨by simp, by
      intro k hk
      have : k = 0 := by simpa using hk
      subst this
      rw [getD_set _ _ _ _ _ (by simpa using hp), if_pos rfl, expandTo_zero]
      simpa using hx⟩ (by
      rintro j r hj ⟨e1, e2⟩
      have hj2 : 2 ^ (j + 1) ≤ 2 ^ L := Nat.pow_le_pow_right (by norm_num) hj
      have h1 : (1 : ℤ) ≤ 2 ^ j := one_le_pow₀ (by norm_num)
      obtain ⟨r', f1, f2, f3⟩ := outer_ok h s (by omega) (hsub j hj)
        (show 0 ≤ 2 ^ j * b + (2 ^ j - 1) * D by
          have := mul_nonneg (by omega : (0 : ℤ) ≤ 2 ^ j - 1) hD
          positivity) r (by omega) d0 f e2
      refine ⟨r', f1, by omega, fun k hk => tracks_weaken (f3 k hk) (le_of_eq ?_)⟩
      rw [pow_succ]; ring)
  refine ⟨r, r1, r2, fun i hi d => ?_⟩
  have := r3 i hi
  rwa [List.getD_eq_getElem _ _ (by omega)] at this ⊢

/-! ### The two expanders -/

/-- `rk` is a Galois key for `X -> X^pw` created from the secret key `k`, with decomposition base
`2^bd` (below `2^31`, see `c28_wide_base`) and errors bounded by `B`. -/
def GaloisFor (k : Key C) (bd : ℕ) (B : ℤ) (pw : ℕ) (rk : RKey C) : Prop :=
  bd < 31 ∧ ∃ (prng : PrngType) (pads : ℕ → ℕ → C.Poly) (E : ℕ → ℕ → Fin C.n → ℤ), (∀ u j i, |E u j i| ≤ B) ∧
    Galois.create k prng pw bd pads (fun i j => modq C.q (E i j)) = .ok rk

/-- The noise one Galois key switch can add (C28), for gadget dimension `d`. -/
def galoisNoise (C : Ctx) (t : ℤ) (d bd : ℕ) (B : ℤ) : ℤ := |t| * (d * ((C.n : ℕ) * (2 ^ bd - 1) * B))

theorem galoisNoise_nonneg (t : ℤ) (d bd : ℕ) {B : ℤ} (hB : 0 ≤ B) : 0 ≤ galoisNoise C t d bd B := by
  unfold galoisNoise
  have : (1 : ℤ) ≤ 2 ^ bd := one_le_pow₀ (by norm_num)
  have := mul_nonneg (by omega : (0 : ℤ) ≤ 2 ^ bd - 1) hB
  rw [mul_assoc ((C.n : ℕ) : ℤ)]
  positivity

theorem gal_ok (h : C.Ok) (hw : C.w ≤ 128) (k : Key C) {T : ℕ}
    (htm : plaintextModulus C.w k.logT = .ok T) {t : ℤ} (ht : k.tUnderQ = (t : ZMod C.q)) {bd d pw : ℕ}
    (hd : Gadget.gadgetSize C.logModulus bd = .ok d) {B : ℤ} (hB : 0 ≤ B) {rk : RKey C}
    (hrk : GaloisFor k bd B pw rk) {b : ℤ} (hb : 0 ≤ b) (x : Ct C) (f : Fin C.n → ℤ)
    (hx : Tracks k.key t b x f) :
    ∃ y r, Sym.substitute x pw = .ok y ∧ Galois.applyTo rk y = .ok r ∧
      Tracks k.key t (b + galoisNoise C t d bd B) r (substPow pw f) := by
  obtain ⟨hb31, prng, pads, E, hE, hcr⟩ := hrk
  obtain ⟨x1, x2, φ, x3, x4⟩ := hx
  have hodd := ((c28_create h hw k htm prng bd pw pads _).mp ⟨rk, hcr⟩)
  obtain ⟨y, r, d', φ', e1, e2, e3, e4, e5, e6, e7, e8⟩ :=
    c28_automorphism_partial h hw k htm ht prng bd pw pads E hB hE hcr hb31 x x1 x2 x3
  rw [hd] at e1
  cases e1
  refine ⟨y, r, e2, e3, e4, e5, φ', e6, ?_⟩
  have e : φ' - substPow pw f = (substPow pw (φ - f)) + (φ' - substPow pw φ) := by
    rw [substPow_sub]; ring
  rw [e]
  refine (x4.subst hb pw (by omega)).add fun i => ⟨?_, e8 i⟩
  have := (e7 i).symm.dvd
  simpa using this

theorem keyIndex_eq (l j m : ℕ) (hjm : j < m) (hjl : j < l) :
    keyIndex (2 ^ l) ((2 ^ l >>> j) + 1 : ℕ) m = some j := by
  induction m with
  | zero => omega
  | succ m ih =>
    unfold keyIndex
    by_cases hm : m = j
    · rw [if_pos (by rw [hm]), hm]
    · rw [if_neg, ih (by omega)]
      rw [Nat.shiftRight_eq_div_pow, Nat.shiftRight_eq_div_pow]
      have h1 : 2 ^ l / 2 ^ j = 2 * 2 ^ (l - j - 1) := by
        rw [Nat.pow_div (by omega) (by norm_num), ← pow_succ']; congr 1; omega
      have h2 : 2 ^ l / 2 ^ m ≤ 2 ^ (l - j - 1) := by
        apply Nat.div_le_of_le_mul
        rw [← pow_add]
        exact Nat.pow_le_pow_right (by norm_num) (by omega)
      have h3 : 0 < 2 ^ (l - j - 1) := by positivity
      intro hc
      have hc : 2 ^ l / 2 ^ m + 1 = 2 ^ l / 2 ^ j + 1 := by exact_mod_cast hc
      omega

/-- C31: the expander holding one Galois key per level performs the substitution of every level it has
a key for. -/
theorem c31_keys_sub (h : C.Ok) (hw : C.w ≤ 128) (k : Key C) {T : ℕ}
    (htm : plaintextModulus C.w k.logT = .ok T) {t : ℤ} (ht : k.tUnderQ = (t : ZMod C.q)) {bd d : ℕ}
    (hd : Gadget.gadgetSize C.logModulus bd = .ok d) {B : ℤ} (hB : 0 ≤ B) (keys : List (RKey C))
    (hkeys : ∀ i (hi : i < keys.length), GaloisFor k bd B ((C.n >>> i) + 1) keys[i]) (j : ℕ)
    (hj : j < keys.length) (hjl : j < C.l) :
    SubOk k.key t (galoisNoise C t d bd B) (keysSub keys) ((C.n >>> j) + 1) := by
  intro x f b hb hx
  obtain ⟨y, r, e1, e2, e3⟩ := gal_ok h hw k htm ht hd hB (hkeys j hj) hb x f hx
  refine ⟨r, ?_, e3⟩
  unfold keysSub
  rw [e1, Outcome.bind_ok, keyIndex_eq C.l j _ hj hjl]
  dsimp only
  rw [rd_ok hj, Outcome.bind_ok, e2]

/-- C31: the key list is accepted exactly when key `i` is for the power `n / 2^i + 1`. -/
theorem c31_keys_create (keys : List (RKey C)) :
    keysCreate keys = if ∀ i (hi : i < keys.length), keys[i].power = ((C.n >>> i) + 1 : ℕ)
      then .ok keys else .err .invalidArgument := by
  have key : ∀ (ks : List (RKey C)) (i0 : ℕ), checkKeys C.n i0 ks =
      if ∀ i (hi : i < ks.length), ks[i].power = ((C.n >>> (i0 + i)) + 1 : ℕ) then .ok ()
      else .err .invalidArgument := by
    intro ks
    induction ks with
    | nil => intro i0; unfold checkKeys; rw [if_pos (by simp)]
    | cons k ks ih =>
      intro i0
      unfold checkKeys
      by_cases hk : k.power = ((C.n >>> i0) + 1 : ℕ)
      · rw [if_neg (by simpa using hk), ih]
        have hiff : (∀ i (hi : i < ks.length), ks[i].power = ((C.n >>> (i0 + 1 + i)) + 1 : ℕ)) ↔
            ∀ i (hi : i < (k :: ks).length), (k :: ks)[i].power = ((C.n >>> (i0 + i)) + 1 : ℕ) := by
          constructor
          · intro hh i hi
            cases i with
            | zero => simpa using hk
            | succ i => rw [List.getElem_cons_succ, hh i (by simpa using hi),
                show i0 + 1 + i = i0 + (i + 1) by omega]
          · intro hh i hi
            have := hh (i + 1) (by simpa using hi)
            rw [List.getElem_cons_succ] at this
            rw [this, show i0 + 1 + i = i0 + (i + 1) by omega]
        by_cases hc : ∀ i (hi : i < ks.length), ks[i].power = ((C.n >>> (i0 + 1 + i)) + 1 : ℕ)
        · rw [if_pos hc, if_pos (hiff.mp hc)]
        · rw [if_neg hc, if_neg (fun h => hc (hiff.mpr h))]
      · rw [if_pos (by simpa using hk), if_neg]
        intro hh
        exact hk (hh 0 (by simp))
  unfold keysCreate
  rw [key keys 0]
  simp only [zero_add]
  split_ifs <;> rfl

/-- C32: the key is accepted exactly when it is for the generator 5. -/
theorem c32_generator_create (key : RKey C) :
    generatorCreate key = if key.power = 5 then .ok key else .err .invalidArgument := by
  unfold generatorCreate generator
  by_cases h : key.power = 5
  · rw [if_pos h, if_neg (by simp [h])]
  · rw [if_neg h, if_pos (by exact_mod_cast h)]

/-- C32: with a Galois key for the power 5 the generator expander performs the substitution of every
level but the last, with noise proportional to the number of applications. -/
theorem c32_generator_sub (h : C.Ok) (hw : C.w ≤ 128) (k : Key C) {T : ℕ}
    (htm : plaintextModulus C.w k.logT = .ok T) {t : ℤ} (ht : k.tUnderQ = (t : ZMod C.q)) {bd d : ℕ}
    (hd : Gadget.gadgetSize C.logModulus bd = .ok d) {B : ℤ} (hB : 0 ≤ B) (rk : RKey C)
    (hrk : GaloisFor k bd B 5 rk) (j : ℕ) (hj : j + 2 ≤ C.l) :
    ∃ m, numSubstitutions C.n ((C.n >>> j) + 1 : ℕ) = .ok m ∧
      SubOk k.key t (m * galoisNoise C t d bd B) (generatorSub rk) ((C.n >>> j) + 1) := by
  obtain ⟨m, hm⟩ := (c32_levels C.l h.l15).1 j hj
  refine ⟨m, hm, fun x f b hb hx => ?_⟩
  have hN := galoisNoise_nonneg (C := C) t d bd hB
  unfold generatorSub
  have hc : component x 0 = .ok (x.c.getD 0 0) := component_ok x (by rw [hx.1]; norm_num : 0 < x.c.length)
  rw [hc, Outcome.bind_ok, hm, Outcome.bind_ok]
  obtain ⟨r, r1, r2⟩ := loop_ok (f := fun _ (r : Ct C) => do
      let s ← Sym.substitute r generator
      Galois.applyTo rk s) (n := m) (s := x)
    (fun i (r : Ct C) => Tracks k.key t (b + i * galoisNoise C t d bd B) r ((substPow 5)^[i] f))
    (by simpa using hx) (by
      intro i r _ hr
      obtain ⟨y, r', e1, e2, e3⟩ := gal_ok h hw k htm ht hd hB hrk
        (show 0 ≤ b + i * galoisNoise C t d bd B by positivity) r _ hr
      refine ⟨r', ?_, ?_⟩
      · show (do let s ← Sym.substitute r (generator : ℕ); Galois.applyTo rk s) = _
        unfold generator
        rw [e1, Outcome.bind_ok, e2]
      · rw [Function.iterate_succ_apply']
        refine tracks_weaken e3 (le_of_eq ?_)
        push_cast; ring)
  refine ⟨r, r1, ?_⟩
  rwa [c32_substitution C.l _ hm] at r2

/-! ### Whole queries -/

theorem wrap32_eq {x : ℤ} (h1 : -2 ^ 31 ≤ x) (h2 : x < 2 ^ 31) : wrap32 x = x := by
  unfold wrap32; omega

/-- C31: `ObliviousExpand` returns exactly the requested number of ciphertexts; output `i` is the
`i mod 2^L`-th expansion of input `i / 2^L`.  Missing for the full property: the case in which the
number of inputs already equals the requested number (see `c31_early_return`). -/
theorem c31_expand_partial (h : C.Ok) (s : C.Poly) {t D b : ℤ} (hD : 0 ≤ D) (hb : 0 ≤ b)
    {sub : Expand.Sub C} {L : ℕ} (hL : L ≤ C.l)
    (hsub : ∀ j < L, SubOk s t D sub ((C.n >>> j) + 1)) (cts : List (Ct C)) (f : ℕ → Fin C.n → ℤ)
    (hx : ∀ i (hi : i < cts.length), Tracks s t b cts[i] (f i)) (out : ℕ)
    (hout : out ≤ cts.length * 2 ^ L) (h31 : cts.length * 2 ^ L < 2 ^ 31)
    (hne : cts.length ≠ out ∨ L = 0) :
    ∃ rs, obliviousExpand sub cts L out = .ok rs ∧ rs.length = out ∧
      ∀ i (hi : i < rs.length), Tracks s t (2 ^ L * b + (2 ^ L - 1) * D) rs[i]
        (expandTo L (i % 2 ^ L) (f (i / 2 ^ L))) := by
  have hl := h.l15
  have hp : 0 < 2 ^ L := by positivity
  have hp' : (1 : ℤ) ≤ 2 ^ L := one_le_pow₀ (by norm_num)
  unfold obliviousExpand
  rw [if_neg (by omega), if_neg (by omega)]
  by_cases heq : cts.length = out
  · rw [if_pos (by exact_mod_cast heq)]
    refine ⟨cts, rfl, heq, fun i hi => ?_⟩
    have hL0 := hne.resolve_left (by omega)
    subst hL0
    have := hx i hi
    rw [← expandTo_zero (f i)] at this
    simpa [Nat.mod_one] using this
  rw [if_neg (by exact_mod_cast heq)]
  dsimp only
  rw [Int.toNat_natCast]
  have hL31 : (2 : ℕ) ^ L ≤ 2 ^ 15 := Nat.pow_le_pow_right (by norm_num) (by omega)
  have hw1 : wrap32 ((2 : ℤ) ^ L) = ((2 ^ L : ℕ) : ℤ) := by
    have h15 : (2 : ℤ) ^ L ≤ 2 ^ 15 := pow_le_pow_right₀ (by norm_num) (by omega)
    rw [wrap32_eq (by omega) (by omega)]; push_cast; rfl
  have hw2 : wrap32 ((cts.length : ℤ) * ((2 ^ L : ℕ) : ℤ)) = ((cts.length * 2 ^ L : ℕ) : ℤ) := by
    rw [wrap32_eq]
    · push_cast; rfl
    · have : (0 : ℤ) ≤ (cts.length : ℤ) * ((2 ^ L : ℕ) : ℤ) :=
        mul_nonneg (Int.natCast_nonneg _) (Int.natCast_nonneg _)
      omega
    · exact_mod_cast h31
  rw [hw1, hw2, if_neg (fun hc => absurd (Int.ofNat_lt.mp hc) (not_lt.mpr hout))]
  -- expand every input
  have key : ∀ (cs : List (Ct C)) (g : ℕ → Fin C.n → ℤ),
      (∀ i (hi : i < cs.length), Tracks s t b cs[i] (g i)) →
      ∃ parts, cs.mapM (expandCiphertext sub L) = .ok parts ∧ parts.flatten.length = cs.length * 2 ^ L ∧
        ∀ i, i < cs.length * 2 ^ L → ∀ d, Tracks s t (2 ^ L * b + (2 ^ L - 1) * D)
          (parts.flatten.getD i d) (expandTo L (i % 2 ^ L) (g (i / 2 ^ L))) := by
    intro cs
    induction cs with
    | nil => exact fun g _ => ⟨[], rfl, by simp, by simp⟩
    | cons c cs ih =>
      intro g hg
      obtain ⟨r, r1, r2, r3⟩ := c31_expand_ciphertext h s hD hb hL hsub c (g 0) (hg 0 (by simp))
      obtain ⟨ps, p1, p2, p3⟩ := ih (fun i => g (i + 1)) fun i hi => hg (i + 1) (by simpa using hi)
      refine ⟨r :: ps, ?_, ?_, ?_⟩
      · rw [List.mapM_cons, r1, Outcome.bind_ok, p1]; rfl
      · rw [List.flatten_cons, List.length_append, r2, p2, List.length_cons]; ring
      · intro i hi d
        rw [List.flatten_cons]
        by_cases hlt : i < 2 ^ L
        · rw [List.getD_append _ _ _ _ (by omega), Nat.mod_eq_of_lt hlt, Nat.div_eq_of_lt hlt]
          exact r3 i hlt d
        · rw [List.length_cons, add_mul, one_mul] at hi
          obtain ⟨i', rfl⟩ : ∃ i', i = i' + 2 ^ L := ⟨i - 2 ^ L, by omega⟩
          rw [List.getD_append_right _ _ _ _ (by omega), r2, Nat.add_sub_cancel, Nat.add_mod_right,
            Nat.add_div_right _ hp]
          exact p3 i' (by omega) d
  obtain ⟨parts, p1, p2, p3⟩ := key cts f hx
  rw [p1, Outcome.bind_ok, p2]
  by_cases hgt : out < cts.length * 2 ^ L
  · rw [if_pos (by exact_mod_cast hgt)]
    refine ⟨_, rfl, by rw [List.length_take, p2, Int.toNat_natCast]; omega, fun i hi => ?_⟩
    rw [List.length_take, p2, Int.toNat_natCast] at hi
    have := p3 i (by omega) (parts.flatten[i]'(by omega))
    rw [List.getD_eq_getElem _ _ (by omega)] at this
    simpa using this
  · rw [if_neg (by exact_mod_cast hgt), if_neg (by exact_mod_cast (by omega : ¬ cts.length * 2 ^ L < out))]
    refine ⟨_, rfl, by omega, fun i hi => ?_⟩
    have := p3 i (by omega) (parts.flatten[i])
    rwa [List.getD_eq_getElem _ _ (by omega)] at this

/-- The early return: with as many inputs as requested outputs nothing is expanded, whatever the number
of levels. -/
theorem c31_early_return (sub : Expand.Sub C) (cts : List (Ct C)) (levels : ℤ) (h0 : 0 ≤ levels)
    (h1 : levels < 32) : obliviousExpand sub cts levels cts.length = .ok cts := by
  unfold obliviousExpand
  rw [if_neg (by omega), if_neg (by omega), if_pos rfl]

/-- C31: requests that cannot be met are rejected. -/
theorem c31_rejects (sub : Expand.Sub C) (cts : List (Ct C)) (levels out : ℤ) :
    (out < 0 → obliviousExpand sub cts levels out = .err .invalidArgument) ∧
    (levels < 0 ∨ 32 ≤ levels → obliviousExpand sub cts levels out = .err .invalidArgument) ∧
    (∀ L : ℕ, cts.length * 2 ^ L < 2 ^ 31 → 0 < cts.length → (cts.length * 2 ^ L : ℕ) < out →
      obliviousExpand sub cts L out = .err .invalidArgument) ∧
    ((cts.length : ℤ) ≠ out → defaultExpand cts levels out = .err .invalidArgument) ∧
    ((cts.length : ℤ) = out → defaultExpand cts levels out = .ok cts) := by
  refine ⟨fun h => ?_, fun h => ?_, fun L h1 h0 h2 => ?_, fun h => ?_, fun h => ?_⟩
  · unfold obliviousExpand; rw [if_pos h]
  · unfold obliviousExpand
    split_ifs <;> first | rfl | omega
  · have hp : 0 < 2 ^ L := by positivity
    have hle : cts.length * 1 ≤ cts.length * 2 ^ L := Nat.mul_le_mul_left _ hp
    have hle2 : 1 * 2 ^ L ≤ cts.length * 2 ^ L := Nat.mul_le_mul_right _ h0
    have hL : L < 31 := by
      by_contra hc
      have : 2 ^ 31 ≤ 2 ^ L := Nat.pow_le_pow_right (by norm_num) (by omega)
      omega
    unfold obliviousExpand
    rw [if_neg (by omega), if_neg (by omega), if_neg (by omega)]
    dsimp only
    have hw1 : wrap32 ((2 : ℤ) ^ L) = ((2 ^ L : ℕ) : ℤ) := by
      rw [wrap32_eq (by have : (0:ℤ) ≤ 2 ^ L := by positivity
                        omega) (by exact_mod_cast (by omega : (2 : ℕ) ^ L < 2 ^ 31))]; push_cast; rfl
    rw [Int.toNat_natCast, hw1, wrap32_eq, if_pos]
    · exact_mod_cast h2
    · have : (0 : ℤ) ≤ (cts.length : ℤ) * ((2 ^ L : ℕ) : ℤ) :=
        mul_nonneg (Int.natCast_nonneg _) (Int.natCast_nonneg _)
      omega
    · exact_mod_cast h1
  · unfold defaultExpand; rw [if_pos h]
  · unfold defaultExpand; rw [if_neg (by simpa using h)]

/-- C31: the query has `ceil(total/2^L)` polynomials; coefficient `c` of polynomial `p` is one exactly
when `c < 2^L` and `p*2^L + c` is a selected index, and zero otherwise. -/
theorem c31_compressed (C : Ctx) (hl : C.l ≤ 15) (total : ℕ) (ht : 0 < total) (indices : List ℤ) (L : ℕ)
    (hL : L ≤ C.l) (hidx : ∀ x ∈ indices, 0 ≤ x ∧ x < total) :
    ∃ ms : List C.Poly, makeCompressedVector C total indices L = .ok (ms.map C.toNtt) ∧
      ms.length = (total + 2 ^ L - 1) / 2 ^ L ∧
      ∀ p (hp : p < ms.length) (c : Fin C.n),
        ms[p] c = if (c : ℕ) < 2 ^ L ∧ ((p * 2 ^ L + c : ℕ) : ℤ) ∈ indices then 1 else 0 := by
  have hpos : 0 < 2 ^ L := by positivity
  have h15 : (2 : ℤ) ^ L ≤ 2 ^ 15 := pow_le_pow_right₀ (by norm_num) (by omega)
  have hLn : 2 ^ L ≤ C.n := Nat.pow_le_pow_right (by norm_num) hL
  have hLn' : (2 : ℤ) ^ L ≤ (C.n : ℕ) := by exact_mod_cast hLn
  have h0 : (0 : ℤ) < 2 ^ L := by positivity
  set size := (total + 2 ^ L - 1) / 2 ^ L with hsize
  have hlt : ∀ x, x < total → x / 2 ^ L < size := by
    intro x hx
    rw [hsize, Nat.div_lt_iff_lt_mul hpos]
    have h1 := Nat.div_add_mod (total + 2 ^ L - 1) (2 ^ L)
    have h2 := Nat.mod_lt (total + 2 ^ L - 1) hpos
    rw [mul_comm]
    omega
  have key : ∀ (idx done : List ℤ) (vc : List C.Poly), (∀ x ∈ idx, 0 ≤ x ∧ x < total) →
      vc.length = size →
      (∀ p (hp : p < vc.length) (c : Fin C.n),
        vc[p] c = if (c : ℕ) < 2 ^ L ∧ ((p * 2 ^ L + c : ℕ) : ℤ) ∈ done then 1 else 0) →
      ∃ vc', idx.foldlM (setIndex (C := C) total L) vc = .ok vc' ∧ vc'.length = size ∧
        ∀ p (hp : p < vc'.length) (c : Fin C.n),
          vc'[p] c = if (c : ℕ) < 2 ^ L ∧ ((p * 2 ^ L + c : ℕ) : ℤ) ∈ done ++ idx then 1 else 0 := by
    intro idx
    induction idx with
    | nil => exact fun done vc _ h1 h2 => ⟨vc, rfl, h1, by simpa using h2⟩
    | cons x idx ih =>
      intro done vc hx h1 h2
      obtain ⟨x0, x1⟩ := hx x (by simp)
      obtain ⟨y, rfl⟩ : ∃ y : ℕ, x = y := ⟨x.toNat, by omega⟩
      have hy : y / 2 ^ L < vc.length := by rw [h1]; exact hlt y (by omega)
      have hm : y % 2 ^ L < 2 ^ L := Nat.mod_lt _ hpos
      rw [List.foldlM_cons]
      have hstep : setIndex (C := C) total L vc y =
          .ok (vc.set (y / 2 ^ L) fun i => if (i : ℕ) = y % 2 ^ L then 1 else vc[y / 2 ^ L] i) := by
        unfold setIndex
        rw [if_neg (by omega)]
        dsimp only
        rw [Int.toNat_natCast, Nat.shiftRight_eq_div_pow, rd_ok hy, Outcome.bind_ok, if_neg (by omega),
          wr_ok hy]
      rw [hstep, Outcome.bind_ok]
      obtain ⟨vc', e1, e2, e3⟩ := ih (done ++ [(y : ℤ)])
        (vc.set (y / 2 ^ L) fun i => if (i : ℕ) = y % 2 ^ L then 1 else vc[y / 2 ^ L] i)
        (fun z hz => hx z (by simp [hz])) (by simpa using h1) (by
          intro p hp c
          rw [List.length_set] at hp
          rw [List.getElem_set]
          have hdm := Nat.div_add_mod y (2 ^ L)
          by_cases hpy : y / 2 ^ L = p
          · rw [if_pos hpy]
            by_cases hc : (c : ℕ) = y % 2 ^ L
            · rw [if_pos hc, if_pos]
              refine ⟨by omega, ?_⟩
              rw [List.mem_append]; right
              rw [← hpy, hc, mul_comm, hdm]; simp
            · rw [if_neg hc]
              subst hpy
              rw [h2 _ hy c]
              have hne : ((y / 2 ^ L * 2 ^ L + c : ℕ) : ℤ) ≠ y := by
                intro e
                have e : y / 2 ^ L * 2 ^ L + c = y := by exact_mod_cast e
                rw [mul_comm] at e
                omega
              simp only [List.mem_append, List.mem_singleton, hne, or_false]
          · rw [if_neg hpy, h2 _ hp c]
            by_cases hc : (c : ℕ) < 2 ^ L
            · have hne : ((p * 2 ^ L + c : ℕ) : ℤ) ≠ y := by
                intro e
                have e : p * 2 ^ L + c = y := by exact_mod_cast e
                apply hpy
                rw [← e, mul_comm, Nat.mul_add_div hpos, Nat.div_eq_of_lt hc, add_zero]
              simp only [List.mem_append, List.mem_singleton, hne, or_false]
            · simp only [hc, false_and])
      refine ⟨vc', e1, e2, fun p hp c => ?_⟩
      rw [e3 p hp c]
      simp [List.append_assoc]
  obtain ⟨vc, e1, e2, e3⟩ := key indices [] (List.replicate size 0) hidx (by simp) (by
    intro p hp c; simp)
  refine ⟨vc, ?_, e2, fun p hp c => ?_⟩
  · unfold makeCompressedVector
    rw [if_neg (by omega), if_neg (by omega)]
    dsimp only
    rw [Int.toNat_natCast, Int.toNat_natCast, wrap32_eq (by omega) (by omega), if_neg (by omega), ← hsize,
      e1, Outcome.bind_ok]
    rfl
  · rw [e3 p hp c]; simp

/-- C31: sizes that are not positive, compression factors above `n` and indices outside the vector are
rejected. -/
theorem c31_compressed_rejects (C : Ctx) (hl : C.l ≤ 15) (total : ℤ) (indices : List ℤ) (L : ℤ) :
    (total ≤ 0 ∨ L < 0 ∨ (C.l : ℤ) < L → makeCompressedVector C total indices L = .err .invalidArgument) ∧
    (∀ x xs ys, indices = xs ++ x :: ys → (∀ y ∈ xs, 0 ≤ y ∧ y < total) → (x < 0 ∨ total ≤ x) →
      makeCompressedVector C total indices L = .err .invalidArgument) := by
  have hC : C.n ≤ 2 ^ 15 := Nat.pow_le_pow_right (by norm_num) hl
  have bad : total ≤ 0 ∨ L < 0 ∨ (C.l : ℤ) < L →
      makeCompressedVector C total indices L = .err .invalidArgument := by
    intro h
    unfold makeCompressedVector
    by_cases c1 : total ≤ 0
    · rw [if_pos c1]
    rw [if_neg c1]
    by_cases c2 : L < 0 ∨ L ≥ 32
    · rw [if_pos c2]
    rw [if_neg c2]
    dsimp only
    rw [if_pos]
    obtain ⟨m, rfl⟩ : ∃ m : ℕ, L = m := ⟨L.toNat, by omega⟩
    rw [Int.toNat_natCast]
    have hm : C.l < m := by omega
    have hp : (C.n : ℕ) < 2 ^ m := Nat.pow_lt_pow_right (by norm_num) hm
    by_cases h31 : m = 31
    · subst h31; left; unfold wrap32; norm_num
    · right
      have : (2 : ℤ) ^ m ≤ 2 ^ 30 := pow_le_pow_right₀ (by norm_num) (by omega)
      have h0 : (0 : ℤ) < 2 ^ m := by positivity
      rw [wrap32_eq (by omega) (by omega)]
      exact_mod_cast hp
  refine ⟨bad, fun x xs ys hxs hok hx => ?_⟩
  by_cases hb : total ≤ 0 ∨ L < 0 ∨ (C.l : ℤ) < L
  · exact bad hb
  push Not at hb
  obtain ⟨b1, b2, b3⟩ := hb
  obtain ⟨m, rfl⟩ : ∃ m : ℕ, L = m := ⟨L.toNat, by omega⟩
  obtain ⟨T, rfl⟩ : ∃ T : ℕ, total = T := ⟨total.toNat, by omega⟩
  obtain ⟨ms, e1, -, -⟩ := c31_compressed C hl T (by omega) xs m (by omega) hok
  unfold makeCompressedVector at e1 ⊢
  have hmn : (2 : ℤ) ^ m ≤ (C.n : ℕ) := by
    exact_mod_cast (Nat.pow_le_pow_right (by norm_num) (by omega) : 2 ^ m ≤ 2 ^ C.l)
  have h0 : (0 : ℤ) < 2 ^ m := by positivity
  have hC' : ((C.n : ℕ) : ℤ) ≤ 2 ^ 15 := by exact_mod_cast hC
  rw [if_neg (by omega), if_neg (by omega)] at e1 ⊢
  dsimp only at e1 ⊢
  rw [Int.toNat_natCast, Int.toNat_natCast, wrap32_eq (by omega) (by omega), if_neg (by omega)] at e1 ⊢
  rw [hxs, List.foldlM_append]
  cases hf : xs.foldlM (setIndex (C := C) T m)
      (List.replicate ((T + 2 ^ m - 1) / 2 ^ m) (0 : C.Poly)) with
  | ok v =>
    rw [Outcome.bind_ok, List.foldlM_cons]
    have : setIndex (C := C) T m v x = .err .invalidArgument := by
      unfold setIndex; rw [if_pos (by omega)]
    rw [this]; rfl
  | err s => rw [hf] at e1; cases e1
  | ub u => rw [hf] at e1; cases e1

/-- The core of the one-hot properties, for any implementation of the substitutions. -/
theorem onehot_core (h : C.Ok) {S : C.Poly} {logT : ℕ} (hT0 : 0 < logT) (hT : logT < 64) {D : ℤ} (hD : 0 ≤ D)
    {sub : Expand.Sub C} {total : ℕ} (ht : 0 < total) (indices : List ℤ) {L : ℕ} (hL : L ≤ C.l)
    (h31 : total + 2 ^ L ≤ 2 ^ 31) (hne : 2 ≤ total ∨ L = 0)
    (hsub : ∀ j < L, SubOk S (2 ^ logT + 1) D sub ((C.n >>> j) + 1)) {nrm : ℕ}
    (n1 : computeNormalizer L logT = .ok nrm) {cts : List (Ct C)} (hclen : cts.length = (total + 2 ^ L - 1) / 2 ^ L)
    (E : ℕ → Fin C.n → ℤ) {Be : ℤ} (hE : ∀ u, u < cts.length → ∀ i, |E u i| ≤ Be)
    (htr : ∀ i (hi : i < cts.length), Tracks S (2 ^ logT + 1) 0 cts[i] fun c =>
      nrm * (if (c : ℕ) < 2 ^ L ∧ ((i * 2 ^ L + c : ℕ) : ℤ) ∈ indices then 1 else 0) + (2 ^ logT + 1) * E i c) :
    ∃ rs, obliviousExpand sub cts L total = .ok rs ∧ rs.length = total ∧
      ∀ i (hi : i < rs.length), rs[i].c.length = 2 ∧ rs[i].power = 1 ∧ ∃ ψ, Noisy S rs[i] ψ ∧
        (∀ c, |ψ c| ≤ 2 ^ L * (2 ^ logT + (2 ^ logT + 1) * Be) + (2 ^ L - 1) * D) ∧
        ∀ c, ψ c % (2 ^ logT + 1) = if (c : ℕ) = 0 ∧ (i : ℤ) ∈ indices then 1 else 0 := by
  have hpos : 0 < 2 ^ L := by positivity
  obtain ⟨nrm', n1', n2, n3⟩ := c31_normalizer L logT hT0 hT
  rw [n1] at n1'
  obtain rfl := Outcome.ok.inj n1'
  set t : ℤ := 2 ^ logT + 1 with hteq
  have ht1 : 2 < t := by
    have : (2 : ℤ) ^ 1 ≤ 2 ^ logT := pow_le_pow_right₀ (by norm_num) hT0
    omega
  let M : ℕ → Fin C.n → ℤ := fun p c =>
    if (c : ℕ) < 2 ^ L ∧ ((p * 2 ^ L + c : ℕ) : ℤ) ∈ indices then 1 else 0
  let F : ℕ → Fin C.n → ℤ := fun p c => nrm * M p c + t * E p c
  have hdm := Nat.div_add_mod (total + 2 ^ L - 1) (2 ^ L)
  have hml := Nat.mod_lt (total + 2 ^ L - 1) hpos
  have hge : total ≤ cts.length * 2 ^ L := by rw [hclen, mul_comm]; omega
  have hlt : cts.length * 2 ^ L < 2 ^ 31 := by rw [hclen, mul_comm]; omega
  obtain ⟨rs, r1, r2, r3⟩ := c31_expand_partial h S hD le_rfl hL hsub cts F
    htr total hge hlt (by
      rcases hne with h2 | h0
      · by_cases hL0 : L = 0
        · right; exact hL0
        · left
          rw [hclen]
          have : 2 ^ 1 ≤ 2 ^ L := Nat.pow_le_pow_right (by norm_num) (by omega)
          intro hc
          have : total * 2 ^ L ≤ total + 2 ^ L - 1 := by
            conv_lhs => rw [← hc]
            exact Nat.div_mul_le_self _ _
          have h3 : (total - 1) * (2 ^ L - 1) + (total + 2 ^ L - 1) = total * 2 ^ L := by
            obtain ⟨a, rfl⟩ : ∃ a, total = a + 1 := ⟨total - 1, by omega⟩
            obtain ⟨b, hb⟩ : ∃ b, 2 ^ L = b + 1 := ⟨2 ^ L - 1, by omega⟩
            rw [hb]; simp only [Nat.add_sub_cancel]
            have : a + 1 + (b + 1) - 1 = a + b + 1 := by omega
            rw [this]; ring
          have : 1 * 1 ≤ (total - 1) * (2 ^ L - 1) := Nat.mul_le_mul (by omega) (by omega)
          omega
      · right; exact h0)
  refine ⟨rs, r1, r2, fun i hi => ?_⟩
  obtain ⟨q1, q2, ψ, p1, p2⟩ := r3 i hi
  have hil : i / 2 ^ L < cts.length := by
    rw [Nat.div_lt_iff_lt_mul hpos]; omega
  have hFb : ∀ p, p < cts.length → ∀ c, |F p c| ≤ 2 ^ logT + t * Be := by
    intro p hp c
    have h1 : |(nrm : ℤ) * M p c| ≤ 2 ^ logT := by
      have : (nrm : ℤ) ≤ 2 ^ logT := by exact_mod_cast n2
      simp only [M]
      split_ifs
      · rw [mul_one, abs_of_nonneg (by positivity)]; exact this
      · rw [mul_zero, abs_zero]; positivity
    have h2 : |t * E p c| ≤ t * Be := by
      rw [abs_mul, abs_of_pos (by omega : 0 < t)]
      exact mul_le_mul_of_nonneg_left (hE p hp c) (by omega)
    exact (abs_add_le _ _).trans (add_le_add h1 h2)
  have hFn : (0 : ℤ) ≤ 2 ^ logT + t * Be := (abs_nonneg _).trans (hFb _ hil ⟨0, by positivity⟩)
  have hXb : ∀ c, |expandTo L (i % 2 ^ L) (F (i / 2 ^ L)) c| ≤ 2 ^ L * (2 ^ logT + t * Be) := by
    intro c
    unfold expandTo coef
    split_ifs
    · rw [abs_mul, abs_of_pos (by positivity : (0 : ℤ) < 2 ^ L)]
      exact mul_le_mul_of_nonneg_left (hFb _ hil _) (by positivity)
    · rw [mul_zero, abs_zero]; positivity
    · rw [abs_zero]; positivity
  refine ⟨q1, q2, ψ, p1, fun c => ?_, fun c => ?_⟩
  · have q1 := (p2 c).2
    rw [Pi.sub_apply] at q1
    have q2 := hXb c
    have q3 := abs_add_le (ψ c - expandTo L (i % 2 ^ L) (F (i / 2 ^ L)) c)
      (expandTo L (i % 2 ^ L) (F (i / 2 ^ L)) c)
    rw [sub_add_cancel] at q3
    linarith
  have hcong : ψ c ≡ expandTo L (i % 2 ^ L) (F (i / 2 ^ L)) c [ZMOD t] :=
    (Int.modEq_iff_dvd.mpr (p2 c).1).symm
  rw [hcong]
  have hc := c.isLt
  have himod : i % 2 ^ L < 2 ^ L := Nat.mod_lt _ hpos
  have hdi := Nat.div_add_mod i (2 ^ L)
  have hn3 : (2 : ℤ) ^ L * nrm ≡ 1 [ZMOD t] := by
    have : ((2 ^ L * nrm : ℕ) : ℤ) ≡ ((1 : ℕ) : ℤ) [ZMOD ((2 ^ logT + 1 : ℕ) : ℤ)] :=
      Int.natCast_modEq_iff.mpr (by unfold Nat.ModEq; rw [n3, Nat.mod_eq_of_lt (by
        have : 0 < 2 ^ logT := by positivity
        omega)])
    push_cast at this
    exact this
  have hval : expandTo L (i % 2 ^ L) (F (i / 2 ^ L)) c ≡
      (if (c : ℕ) = 0 ∧ (i : ℤ) ∈ indices then 1 else 0) [ZMOD t] := by
    unfold expandTo
    by_cases hdv : 2 ^ L ∣ (c : ℕ)
    · rw [if_pos hdv]
      unfold coef
      by_cases hin : (c : ℕ) + i % 2 ^ L < C.n
      · rw [dif_pos hin]
        simp only [F, M]
        by_cases hc0 : (c : ℕ) = 0
        · have e1 : (c : ℕ) + i % 2 ^ L < 2 ^ L := by omega
          have e2 : i / 2 ^ L * 2 ^ L + ((c : ℕ) + i % 2 ^ L) = i := by rw [mul_comm]; omega
          simp only [e2, e1, true_and]
          simp only [hc0, true_and]
          have e3 : ∀ z w : ℤ, (2 : ℤ) ^ L * (nrm * z + t * w) ≡ z [ZMOD t] := by
            intro z w
            have h1 : (2 : ℤ) ^ L * (nrm * z + t * w) = (2 ^ L * nrm) * z + t * (2 ^ L * w) := by ring
            rw [h1]
            have h2 := (hn3.mul_right z).add (Int.modEq_zero_iff_dvd.mpr (⟨2 ^ L * w, rfl⟩ : t ∣ t * (2 ^ L * w)))
            simpa using h2
          exact e3 _ _
        · have e1 : ¬ (c : ℕ) + i % 2 ^ L < 2 ^ L := by
            have := Nat.le_of_dvd (by omega) hdv; omega
          simp only [e1, hc0, false_and, if_false, mul_zero, zero_add]
          exact Int.modEq_zero_iff_dvd.mpr ⟨2 ^ L * E (i / 2 ^ L) ⟨c + i % 2 ^ L, hin⟩, by ring⟩
      · rw [dif_neg hin, mul_zero, if_neg]
        rintro ⟨h0, -⟩
        have : 2 ^ L ≤ C.n := Nat.pow_le_pow_right (by norm_num) hL
        omega
    · rw [if_neg hdv, if_neg]
      rintro ⟨h0, -⟩
      exact hdv (by rw [h0]; exact dvd_zero _)
  rw [hval]
  split_ifs
  · rw [Int.emod_eq_of_lt (by norm_num) (by omega)]
  · simp

/-- C31: a query built with `MakeCompressedVector`, multiplied by the normalizer, encrypted and expanded
with one Galois key per level: the outputs decrypt to one at the selected indices and to zero
elsewhere, for every set of indices, key and randomness, when the noise does not wrap.  Missing for the
full property: queries of a single entry with `L > 0` (see `c31_single_entry_witness`). -/
theorem c31_onehot_partial (h : C.Ok) (hw : C.w ≤ 128) (S : C.Poly) (vs logT : ℕ) (hT0 : 0 < logT)
    (hT : logT < 64) (hTq : 2 ^ logT + 1 < C.q) {k : Key C} (hk : Key.sample S vs logT = .ok k)
    {bd d : ℕ} (hd : Gadget.gadgetSize C.logModulus bd = .ok d) {B : ℤ} (hB : 0 ≤ B)
    (keys : List (RKey C))
    (hkeys : ∀ i (hi : i < keys.length), GaloisFor k bd B ((C.n >>> i) + 1) keys[i])
    (total : ℕ) (ht : 0 < total) (indices : List ℤ) (hidx : ∀ x ∈ indices, 0 ≤ x ∧ x < total)
    (L : ℕ) (hL : L ≤ C.l) (hLk : L ≤ keys.length) (h31 : total + 2 ^ L ≤ 2 ^ 31)
    (hne : 2 ≤ total ∨ L = 0)
    (pads : ℕ → C.Poly) (E : ℕ → Fin C.n → ℤ) {Be : ℤ} (hE : ∀ u i, |E u i| ≤ Be)
    (hnoise : 2 * (2 ^ L * (2 ^ logT + (2 ^ logT + 1) * Be) +
      (2 ^ L - 1) * galoisNoise C (2 ^ logT + 1) d bd B) < C.q) :
    ∃ ms nrm rs, makeCompressedVector C total indices L = .ok ms ∧ computeNormalizer L logT = .ok nrm ∧
      obliviousExpand (keysSub keys)
        (ms.mapIdx fun i m => encrypt k (scalarMul (nrm : ZMod C.q) m) (pads i) (modq C.q (E i)))
        L total = .ok rs ∧ rs.length = total ∧
      ∀ i (hi : i < rs.length), decrypt k rs[i] =
        .ok fun c => if (c : ℕ) = 0 ∧ (i : ℤ) ∈ indices then 1 else 0 := by
  obtain ⟨k', k1, k2, k3, k4, k5, k6⟩ := sample_ok h S vs logT hTq
  rw [hk] at k1
  obtain rfl := Outcome.ok.inj k1
  have hpos : 0 < 2 ^ L := by positivity
  have htu : k.tUnderQ = ((2 ^ logT + 1 : ℤ) : ZMod C.q) := by rw [k5]; push_cast; rfl
  obtain ⟨T, htm⟩ : ∃ T, plaintextModulus C.w k.logT = .ok T := by
    rw [k3]
    unfold Key.sample at hk
    cases hp : plaintextModulus C.w logT with
    | ok T => exact ⟨T, rfl⟩
    | err s => rw [hp] at hk; cases hk
    | ub u => rw [hp] at hk; cases hk
  obtain ⟨ms, m1, m2, m3⟩ := c31_compressed C h.l15 total ht indices L hL hidx
  obtain ⟨nrm, n1, n2, n3⟩ := c31_normalizer L logT hT0 hT
  set t : ℤ := 2 ^ logT + 1 with hteq
  have ht1 : 2 < t := by
    have : (2 : ℤ) ^ 1 ≤ 2 ^ logT := pow_le_pow_right₀ (by norm_num) hT0
    omega
  -- the integer noisy plaintexts of the inputs
  let M : ℕ → Fin C.n → ℤ := fun p c =>
    if (c : ℕ) < 2 ^ L ∧ ((p * 2 ^ L + c : ℕ) : ℤ) ∈ indices then 1 else 0
  let F : ℕ → Fin C.n → ℤ := fun p c => nrm * M p c + t * E p c
  let cts := (ms.map C.toNtt).mapIdx fun i m =>
    encrypt k (scalarMul (nrm : ZMod C.q) m) (pads i) (modq C.q (E i))
  have hclen : cts.length = (total + 2 ^ L - 1) / 2 ^ L := by simp [cts, m2]
  have htr : ∀ i (hi : i < cts.length), Tracks k.key t 0 cts[i] (F i) := by
    intro i hi
    have hi' : i < ms.length := by simpa [cts] using hi
    have e : cts[i] = encrypt k (C.toNtt (modq C.q fun c => nrm * M i c)) (pads i) (modq C.q (E i)) := by
      simp only [cts, List.getElem_mapIdx, List.getElem_map]
      congr 1
      have : (fun c => (nrm : ℤ) * M i c) = fun c => ((nrm : ℕ) : ℤ) * M i c := rfl
      rw [modq_smul, toNtt_smul]
      congr 2
      · simp
      · funext c
        rw [m3 i hi' c]
        simp only [modq, M]
        split_ifs <;> simp
    rw [e]
    refine ⟨rfl, rfl, F i, c19_encrypt_noisy k (fun c => nrm * M i c) (E i) (pads i) htu, ?_⟩
    intro c; simp
  have hsub : ∀ j < L, SubOk k.key t (galoisNoise C t d bd B) (keysSub keys) ((C.n >>> j) + 1) :=
    fun j hj => c31_keys_sub h hw k htm htu hd hB keys hkeys j (by omega) (by omega)
  obtain ⟨rs, r1, r2, r3⟩ := onehot_core h hT0 hT (galoisNoise_nonneg t d bd hB) ht indices hL h31 hne hsub n1 hclen E
    (fun u _ => hE u) htr
  refine ⟨_, nrm, rs, m1, n1, r1, r2, fun i hi => ?_⟩
  obtain ⟨-, -, ψ, p1, p2, p3⟩ := r3 i hi
  replace p2 : ∀ c, 2 * |ψ c| < C.q := fun c => lt_of_le_of_lt (mul_le_mul_of_nonneg_left (p2 c) (by norm_num)) hnoise
  rw [c19_decrypt_small h k _ (by rw [k4]; positivity) (by rw [k4]; exact hTq.le) p1 p2]
  congr 1
  funext c
  have ht4 : ((k.tMod.val : ℕ) : ℤ) = t := by rw [k4]; push_cast; rfl
  rw [ht4, p3 c]
  split_ifs <;> simp

/-- The case excluded from `c31_onehot_partial`: a one-entry query with one level of compression
(`n = 2`, `t = 3`).  Nothing is expanded and the output decrypts to the normalizer 2 instead of 1. -/
theorem c31_single_entry_witness :
    (do let k ← Key.sample (C := exCtx) ![1, 96] 8 1
        let ms ← makeCompressedVector exCtx 1 [0] 1
        let nrm ← computeNormalizer 1 1
        let cts := ms.map fun m => encrypt k (scalarMul (nrm : ZMod 97) m) ![50, 61] ![1, 0]
        let rs ← obliviousExpand (keysSub []) cts 1 1
        let r ← rd rs 0
        let r ← decrypt k r
        return List.ofFn r) = .ok [2, 0] := by decide +kernel

/-- An expander holding fewer keys than the requested number of levels reads through the end iterator
of its key map. -/
theorem c31_missing_key_witness :
    (do let k ← Key.sample (C := exCtx) ![1, 96] 8 1
        let keys ← keysCreate (C := exCtx) []
        let rs ← obliviousExpand (keysSub keys) [encrypt k (exCtx.toNtt ![1, 0]) ![50, 61] ![1, 0]] 1 2
        return rs.length) = .ub .nullDeref := by decide +kernel

/-- 31 levels are accepted as an argument, but with two ciphertexts the size check wraps around to 0, so a request for
no outputs is not rejected and the program ends with an exception. -/
theorem c31_levels_witness {C : Ctx} (sub : Sub C) (x y : Ct C) (hx : x.c ≠ []) :
    obliviousExpand sub [x, y] 31 0 = .ub .fatal := by
  obtain ⟨c, cs, hc⟩ := List.exists_cons_of_ne_nil hx
  unfold obliviousExpand
  rw [show (([x, y] : List (Ct C)).length : ℤ) = 2 from rfl]
  rw [if_neg (by decide), if_neg (by decide), if_neg (by decide), if_neg (by decide)]
  have he : expandCiphertext sub 31 x = .ub .fatal := by
    unfold expandCiphertext component
    rw [hc, if_neg (by simp)]
    simp [rd]
  simp only [List.mapM_cons]
  rw [show (31 : ℤ).toNat = 31 from rfl, he]
  rfl

/-- A query of two entries, the second selected, with `n = 2`, `q = 12289`, `t = 3`. -/
example :
    (do let k ← Key.sample (C := exCtx2) ![1, 12288] 8 1
        let rk ← Galois.create k .hkdf 3 7 (fun i j => ![i + 5 * j + 7, 11 * j]) (fun _ j => ![1, j])
        let keys ← keysCreate [rk]
        let ms ← makeCompressedVector exCtx2 2 [1] 1
        let nrm ← computeNormalizer 1 1
        let cts := ms.map fun m => encrypt k (scalarMul (nrm : ZMod 12289) m) ![50, 61] ![1, 0]
        let rs ← obliviousExpand (keysSub keys) cts 1 2
        let ds ← rs.mapM (decrypt k)
        return ds.map fun r => List.ofFn r) = .ok [[0, 0], [1, 0]] := by decide +kernel

/-- The hypotheses of `c31_onehot_partial` are met by the context `n = 2`, `q = 12289`, `t = 3`. -/
example : ∃ (k : Key exCtx2) (keys : List (RKey exCtx2)), Key.sample ![1, 12288] 8 1 = .ok k ∧
    (∀ i (hi : i < keys.length), GaloisFor k 7 1 ((exCtx2.n >>> i) + 1) keys[i]) ∧ keys.length = 1 ∧
    ∃ ms nrm rs, makeCompressedVector exCtx2 2 [1] 1 = .ok ms ∧ computeNormalizer 1 1 = .ok nrm ∧
      obliviousExpand (keysSub keys)
        (ms.mapIdx fun _ m => encrypt k (scalarMul (nrm : ZMod exCtx2.q) m) ![50, 61]
          (modq exCtx2.q ![1, -1]))
        1 2 = .ok rs ∧ rs.length = 2 ∧
      ∀ i (hi : i < rs.length), decrypt k rs[i] =
        .ok fun c => if (c : ℕ) = 0 ∧ (i : ℤ) ∈ [(1 : ℤ)] then 1 else 0 := by
  obtain ⟨k, k1, k2, k3, k4, k5, k6⟩ := sample_ok exCtx2_ok ![1, 12288] 8 1 (by decide)
  have htm : plaintextModulus exCtx2.w k.logT = .ok 3 := by rw [k3]; decide
  obtain ⟨rk, hrk⟩ := (c28_create exCtx2_ok (by decide) k htm .hkdf 7 3 (fun _ _ => ![1, 2])
    (fun _ _ => modq exCtx2.q ![1, -1])).mpr (by decide +kernel)
  have hkeys : ∀ i (hi : i < [rk].length), GaloisFor k 7 1 ((exCtx2.n >>> i) + 1) [rk][i] := by
    intro i hi
    have : i = 0 := by simpa using hi
    subst this
    exact ⟨by norm_num, .hkdf, _, fun _ _ => ![1, -1], fun _ _ => (by decide : ∀ i : Fin 2, |(![1, -1] : Fin 2 → ℤ) i| ≤ 1), hrk⟩
  exact ⟨k, [rk], k1, hkeys, rfl, c31_onehot_partial exCtx2_ok (by decide) _ 8 1 (by decide) (by decide)
    (by decide) k1 (d := 2) (by decide +kernel) (by decide) [rk] hkeys 2 (by decide) [1] (by decide) 1
    (by decide) le_rfl (by decide) (by decide) (fun _ => ![50, 61]) (fun _ => ![1, -1]) (Be := 1)
    (fun _ => by decide) (by decide +kernel)⟩

end Shell
