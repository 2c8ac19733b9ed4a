import Verif.Lemmas.Int256

namespace Shell.U256

/-! ## Division -/

theorem step_spec (sh n pos : ℕ) (hn0 : 0 < n) (sh2 : ℕ) (hn : n < 2 ^ sh2) (hs2 : sh2 = 2 * sh) (hsh : sh ≠ 0)
    (hor : pos ||| sh = pos + sh) :
    let s := step sh (n, pos)
    0 < s.1 ∧ s.1 < 2 ^ sh ∧ (s.2 = pos ∨ s.2 = pos + sh) ∧
      ∀ e, 2 ^ e ≤ s.1 → s.1 < 2 ^ (e + 1) →
        2 ^ (e + (s.2 - pos)) ≤ n ∧ n < 2 ^ (e + 1 + (s.2 - pos)) := by
  subst hs2
  simp only [step]
  have hp : 0 < 2 ^ sh := by positivity
  split_ifs with h
  · rw [Nat.shiftRight_eq_div_pow]
    simp only
    refine ⟨Nat.div_pos h hp, ?_, Or.inr hor, ?_⟩
    · rw [Nat.div_lt_iff_lt_mul hp, ← pow_add, ← two_mul]; exact hn
    · intro e h1 h2
      rw [hor, Nat.add_sub_cancel_left, pow_add, pow_add (n := sh)]
      rw [Nat.le_div_iff_mul_le hp] at h1
      rw [Nat.div_lt_iff_lt_mul hp] at h2
      exact ⟨h1, h2⟩
  · simp only
    refine ⟨hn0, by omega, Or.inl trivial, ?_⟩
    intro e h1 h2
    simp only [Nat.sub_self, add_zero]
    exact ⟨h1, h2⟩

theorem fls64_spec (n : ℕ) (hn0 : 0 < n) (hn : n < 2 ^ 64) :
    2 ^ fls64 n ≤ n ∧ n < 2 ^ (fls64 n + 1) := by
  unfold fls64
  simp only
  obtain ⟨a1, a2, a3, a4⟩ := step_spec 0x20 n 0 hn0 64 hn (by norm_num) (by norm_num) (by decide)
  set s1 := step 0x20 (n, 0)
  rw [Nat.mod_eq_of_lt a2, Prod.mk.eta]
  have o2 : s1.2 ||| 0x10 = s1.2 + 0x10 := by
    rcases a3 with h | h <;> rw [h] <;> decide
  obtain ⟨b1, b2, b3, b4⟩ := step_spec 0x10 s1.1 s1.2 a1 0x20 a2 (by norm_num) (by norm_num) o2
  simp only [Prod.mk.eta] at b1 b2 b3 b4
  set s2 := step 0x10 s1
  have o3 : s2.2 ||| 0x08 = s2.2 + 0x08 := by
    rcases a3 with h | h <;> rcases b3 with h' | h' <;> rw [h', h] <;> decide
  obtain ⟨c1, c2, c3, c4⟩ := step_spec 0x08 s2.1 s2.2 b1 0x10 b2 (by norm_num) (by norm_num) o3
  simp only [Prod.mk.eta] at c1 c2 c3 c4
  set s3 := step 0x08 s2
  have o4 : s3.2 ||| 0x04 = s3.2 + 0x04 := by
    rcases a3 with h | h <;> rcases b3 with h' | h' <;> rcases c3 with h'' | h'' <;>
      rw [h'', h', h] <;> decide
  obtain ⟨d1, d2, d3, d4⟩ := step_spec 0x04 s3.1 s3.2 c1 0x08 c2 (by norm_num) (by norm_num) o4
  simp only [Prod.mk.eta] at d1 d2 d3 d4
  set s4 := step 0x04 s3
  have htab : ∀ m < 2 ^ 4, 0 < m → 2 ^ ((0x3333333322221100 >>> (m <<< 2)) &&& 0x3) ≤ m ∧
      m < 2 ^ (((0x3333333322221100 >>> (m <<< 2)) &&& 0x3) + 1) := by decide
  obtain ⟨t1, t2⟩ := htab s4.1 d2 d1
  set e := (0x3333333322221100 >>> (s4.1 <<< 2)) &&& 0x3
  obtain ⟨x1, x2⟩ := d4 e t1 t2
  rw [show e + 1 + (s4.2 - s3.2) = e + (s4.2 - s3.2) + 1 by ring] at x2
  obtain ⟨y1, y2⟩ := c4 _ x1 x2
  rw [show e + (s4.2 - s3.2) + 1 + (s3.2 - s2.2) = e + (s4.2 - s3.2) + (s3.2 - s2.2) + 1 by ring] at y2
  obtain ⟨z1, z2⟩ := b4 _ y1 y2
  rw [show e + (s4.2 - s3.2) + (s3.2 - s2.2) + 1 + (s2.2 - s1.2) =
    e + (s4.2 - s3.2) + (s3.2 - s2.2) + (s2.2 - s1.2) + 1 by ring] at z2
  obtain ⟨w1, w2⟩ := a4 _ z1 z2
  have hsum : s4.2 + e = e + (s4.2 - s3.2) + (s3.2 - s2.2) + (s2.2 - s1.2) + (s1.2 - 0) := by
    rcases a3 with h | h <;> rcases b3 with h' | h' <;> rcases c3 with h'' | h'' <;>
      rcases d3 with h3 | h3 <;> omega
  rw [hsum]
  refine ⟨w1, ?_⟩
  rw [show e + (s4.2 - s3.2) + (s3.2 - s2.2) + (s2.2 - s1.2) + (s1.2 - 0) + 1 =
    e + (s4.2 - s3.2) + (s3.2 - s2.2) + (s2.2 - s1.2) + 1 + (s1.2 - 0) by ring]
  exact w2

theorem high_part (n k e : ℕ) (h1 : 2 ^ e ≤ n / 2 ^ k) (h2 : n / 2 ^ k < 2 ^ (e + 1)) :
    2 ^ (e + k) ≤ n ∧ n < 2 ^ (e + k + 1) := by
  have h64 : 0 < 2 ^ k := by positivity
  rw [Nat.le_div_iff_mul_le h64] at h1
  rw [Nat.div_lt_iff_lt_mul h64] at h2
  rw [pow_add, show e + k + 1 = e + 1 + k by ring, pow_add (n := k)]
  exact ⟨h1, h2⟩

theorem fls128_spec (n : ℕ) (hn0 : 0 < n) (hn : n < 2 ^ 128) :
    2 ^ fls128 n ≤ n ∧ n < 2 ^ (fls128 n + 1) := by
  unfold fls128
  by_cases h : n / 2 ^ 64 = 0
  · rw [if_neg (not_not.mpr h)]
    have hlt : n < 2 ^ 64 := by
      rcases Nat.div_eq_zero_iff.mp h with h | h
      · norm_num at h
      · exact h
    rw [Nat.mod_eq_of_lt hlt]
    exact fls64_spec n hn0 hlt
  · rw [if_pos h]
    have hlt : n / 2 ^ 64 < 2 ^ 64 := by
      rw [Nat.div_lt_iff_lt_mul (by positivity), ← pow_add]; exact hn
    obtain ⟨h1, h2⟩ := fls64_spec (n / 2 ^ 64) (Nat.pos_of_ne_zero h) hlt
    exact high_part n 64 _ h1 h2

theorem fls256_spec {n : U256} (hw : WF n) (hn0 : 0 < n.val) :
    2 ^ fls256 n ≤ n.val ∧ n.val < 2 ^ (fls256 n + 1) := by
  obtain ⟨w1, w2⟩ := hw
  unfold fls256
  by_cases h : n.hi = 0
  · rw [if_neg (not_not.mpr h)]
    have hv : n.val = n.lo := by unfold val; rw [h, zero_mul, zero_add]
    rw [hv] at hn0 ⊢
    exact fls128_spec n.lo hn0 w2
  · rw [if_pos h]
    obtain ⟨h1, h2⟩ := fls128_spec n.hi (Nat.pos_of_ne_zero h) w1
    have hv : n.val / 2 ^ 128 = n.hi := by
      unfold val
      rw [mul_comm, Nat.mul_add_div (by positivity), Nat.div_eq_of_lt w2, add_zero]
    rw [← hv] at h1 h2
    have := high_part n.val 128 _ h1 h2
    rwa [hv] at this

theorem sub_val {a b : U256} (ha : WF a) (hb : WF b) (h : b.val ≤ a.val) :
    (sub a b).val = a.val - b.val := by
  obtain ⟨-, sb⟩ := sub_spec ha hb
  have hl := val_lt ha
  have hl' : ((a.val : ℤ)) < 2 ^ 256 := by exact_mod_cast hl
  have e : ((a.val : ℤ) - b.val) % 2 ^ 256 = (a.val : ℤ) - b.val :=
    Int.emod_eq_of_lt (by linarith [(by exact_mod_cast h : (b.val : ℤ) ≤ a.val)])
      (by linarith [(Int.natCast_nonneg b.val)])
  rw [e, ← Nat.cast_sub h] at sb
  exact_mod_cast sb

theorem divStep_spec (b k Q D : ℕ) (dv den q : U256) (h1 : WF dv) (h2 : WF den) (h3 : WF q)
    (hden : den.val = b * 2 ^ k) (hdv : dv.val < b * 2 ^ (k + 1))
    (hQ : q.val < 2 ^ 255) (hq : q.val = Q) (hD : D = Q * (b * 2 ^ (k + 1)) + dv.val) :
    ∃ Q', let s := divStep (dv, den, q)
      WF s.1 ∧ WF s.2.1 ∧ WF s.2.2 ∧ s.2.1.val = b * 2 ^ k / 2 ∧ s.1.val < b * 2 ^ k ∧
      s.2.2.val = Q' ∧ D = Q' * (b * 2 ^ k) + s.1.val ∧ Q' ≤ 2 * Q + 1 := by
  obtain ⟨qa, qb⟩ := shlLow_spec (n := 1) h3 (by norm_num) (by norm_num)
  obtain ⟨da, db⟩ := shrLow_spec (n := 1) h2 (by norm_num) (by norm_num)
  simp only [divStep]
  generalize hq1 : shlLow q 1 = q1 at *
  generalize hden1 : shrLow den 1 = den1 at *
  have qb' : q1.val = 2 * q.val := by
    rw [qb, pow_one, Nat.mod_eq_of_lt (by omega), mul_comm]
  have db' : den1.val = b * 2 ^ k / 2 := by
    rw [db, pow_one, hden]
  have h1one : WF (⟨0, 1⟩ : U256) := ⟨by norm_num, by norm_num⟩
  rw [pow_succ, ← mul_assoc] at hdv
  have hD' : D = Q * (b * 2 ^ k * 2) + dv.val := by rw [hD, pow_succ]; ring
  clear hQ qb db hD
  generalize b * 2 ^ k = M at *
  by_cases hc : ge dv den = true
  · rw [if_pos hc]
    rw [ge_iff h1 h2] at hc
    obtain ⟨sa, sb⟩ := sub_spec h1 h2
    obtain ⟨oa, ob⟩ := or_spec qa h1one
    have sb' : (sub dv den).val = dv.val - den.val := by
      exact sub_val h1 h2 hc
    have ob' : (or q1 ⟨0, 1⟩).val = 2 * q.val + 1 := by
      rw [ob, qb']
      have e1 : (⟨0, 1⟩ : U256).val = 1 := by simp only [val, zero_mul, zero_add]
      rw [e1]
      have := Nat.two_pow_add_eq_or_of_lt (i := 1) (b := 1) (by norm_num) q.val
      rw [pow_one] at this
      exact this.symm
    clear sb ob
    generalize sub dv den = X at *
    generalize or q1 ⟨0, 1⟩ = Y at *
    refine ⟨2 * Q + 1, sa, da, oa, db', ?_, by rw [ob', hq], ?_, le_rfl⟩
    · simp only; rw [sb', hden]; omega
    · simp only; rw [sb', hden, hD']
      rw [hden] at hc
      have : M ≤ dv.val := hc
      rw [add_mul, one_mul]
      have e : Q * (M * 2) = 2 * Q * M := by ring
      omega
  · rw [if_neg hc]
    rw [ge_iff h1 h2] at hc
    refine ⟨2 * Q, h1, da, qa, db', ?_, by rw [qb', hq], ?_, by omega⟩
    · simp only; omega
    · simp only; rw [hD']; ring

theorem divLoop_spec (b D : ℕ) : ∀ (k Q : ℕ) (dv den q : U256), WF dv → WF den → WF q →
    (∀ j, k = j + 1 → den.val = b * 2 ^ j) → dv.val < b * 2 ^ k →
    q.val = Q → (Q + 1) * 2 ^ k ≤ 2 ^ 256 → D = Q * (b * 2 ^ k) + dv.val →
    let s := divLoop k (dv, den, q)
    WF s.1 ∧ WF s.2.2 ∧ s.1.val < b ∧ D = s.2.2.val * b + s.1.val := by
  intro k
  induction k with
  | zero =>
    intro Q dv den q h1 h2 h3 hden hdv hq hQ hD
    simp only [divLoop]
    refine ⟨h1, h3, by simpa using hdv, by rw [hq]; simpa using hD⟩
  | succ k ih =>
    intro Q dv den q h1 h2 h3 hden hdv hq hQ hD
    simp only [divLoop]
    have hQ255 : q.val < 2 ^ 255 := by
      rw [hq]
      by_contra hc
      have : 2 ^ 255 * 2 ^ (k + 1) < (Q + 1) * 2 ^ (k + 1) :=
        Nat.mul_lt_mul_of_pos_right (by omega) (by positivity)
      have h2 : 2 ^ 255 * 2 ≤ 2 ^ 255 * 2 ^ (k + 1) := Nat.mul_le_mul_left _ (by
        rw [pow_succ]; have : 0 < 2 ^ k := by positivity
        omega)
      omega
    obtain ⟨Q', s1, s2, s3, s4, s5, s6, s7, s8⟩ := divStep_spec b k Q D dv den q h1 h2 h3
      (hden k rfl) hdv hQ255 hq hD
    have := ih Q' (divStep (dv, den, q)).1 (divStep (dv, den, q)).2.1 (divStep (dv, den, q)).2.2
      s1 s2 s3
      (by
        intro j hj
        rw [s4, hj, pow_succ, ← mul_assoc]; omega)
      s5 s6
      (by
        calc (Q' + 1) * 2 ^ k ≤ (2 * Q + 1 + 1) * 2 ^ k := Nat.mul_le_mul_right _ (by omega)
          _ = (Q + 1) * 2 ^ (k + 1) := by rw [pow_succ]; ring
          _ ≤ _ := hQ)
      s7
    simpa using this

theorem divMod_spec {a b : U256} (ha : WF a) (hb : WF b) (hb0 : b.val ≠ 0) :
    ∃ q r, divMod a b = .ok (q, r) ∧ WF q ∧ WF r ∧ q.val = a.val / b.val ∧
      r.val = a.val % b.val := by
  have h0 : WF (⟨0, 0⟩ : U256) := ⟨by norm_num, by norm_num⟩
  have h1 : WF (⟨0, 1⟩ : U256) := ⟨by norm_num, by norm_num⟩
  have v0 : (⟨0, 0⟩ : U256).val = 0 := by simp only [val, zero_mul, zero_add]
  have v1 : (⟨0, 1⟩ : U256).val = 1 := by simp only [val, zero_mul, zero_add]
  unfold divMod
  rw [if_neg (by rw [eq_iff hb h0, v0]; exact hb0)]
  by_cases c1 : gt b a = true
  · rw [if_pos c1]
    rw [gt_iff hb ha] at c1
    exact ⟨_, _, rfl, h0, ha, by rw [v0, Nat.div_eq_of_lt c1], (Nat.mod_eq_of_lt c1).symm⟩
  rw [if_neg c1]
  rw [gt_iff hb ha] at c1
  by_cases c2 : eq b a = true
  · rw [if_pos c2]
    rw [eq_iff hb ha] at c2
    exact ⟨_, _, rfl, h1, h0, by rw [v1, c2, Nat.div_self (by omega)],
      by rw [v0, c2, Nat.mod_self]⟩
  rw [if_neg c2]
  obtain ⟨fa1, fa2⟩ := fls256_spec ha (by omega)
  obtain ⟨fb1, fb2⟩ := fls256_spec hb (by omega)
  have hge : fls256 b ≤ fls256 a := by
    by_contra hc
    have : 2 ^ (fls256 a + 1) ≤ 2 ^ fls256 b := Nat.pow_le_pow_right (by norm_num) (by omega)
    omega
  obtain ⟨sh, hsh⟩ : ∃ sh, fls256 a = fls256 b + sh := ⟨_, (Nat.add_sub_of_le hge).symm⟩
  have hshZ : (fls256 a : ℤ) - fls256 b = (sh : ℤ) := by omega
  have hfa : fls256 a + 1 ≤ 256 := by
    by_contra hc
    have : 2 ^ 256 ≤ 2 ^ fls256 a := Nat.pow_le_pow_right (by norm_num) (by omega)
    have := val_lt ha
    omega
  simp only [hshZ]
  obtain ⟨den, d1, d2, d3⟩ := shl_spec hb sh
  rw [d1]
  simp only [Outcome.bind_ok, Outcome.pure_eq]
  have hup : b.val * 2 ^ sh < 2 ^ (fls256 a + 1) := by
    rw [hsh, show fls256 b + sh + 1 = fls256 b + 1 + sh by ring, pow_add]
    exact Nat.mul_lt_mul_of_pos_right fb2 (by positivity)
  have hden : den.val = b.val * 2 ^ sh := by
    rw [d3, Nat.mod_eq_of_lt]
    exact lt_of_lt_of_le hup (Nat.pow_le_pow_right (by norm_num) hfa)
  have hlow : 2 ^ fls256 a ≤ b.val * 2 ^ sh := by
    rw [hsh, pow_add]; exact Nat.mul_le_mul_right _ fb1
  have hk : ((sh : ℤ) + 1).toNat = sh + 1 := by omega
  rw [hk]
  obtain ⟨r1, r2, r3, r4⟩ := divLoop_spec b.val a.val (sh + 1) 0 a den ⟨0, 0⟩ ha d2 h0
    (by intro j hj; rw [hden, Nat.succ.inj hj])
    (by
      have e1 : a.val < 2 * 2 ^ fls256 a := by rw [← pow_succ']; exact fa2
      rw [pow_succ, ← mul_assoc]; omega)
    v0
    (by
      rw [zero_add, one_mul]
      exact Nat.pow_le_pow_right (by norm_num) (by omega))
    (by rw [zero_mul, zero_add])
  refine ⟨_, _, rfl, r2, r1, ?_, ?_⟩
  · rw [r4, mul_comm, Nat.mul_add_div (by omega), Nat.div_eq_of_lt r3, add_zero]
  · conv_rhs => rw [r4]
    rw [mul_comm, Nat.mul_add_mod, Nat.mod_eq_of_lt r3]

end Shell.U256
