import Verif.Lemmas.Montgomery
import Mathlib.FieldTheory.Finite.Basic

namespace Shell
open MParams
variable {p : MParams} {w N : ℕ}

theorem modExpLoop_spec (g : Good p w N) : ∀ e r b : ℕ, r < N → b ≤ N →
    Mont.modExpLoop p e r b < N ∧
      p.exportInt (Mont.modExpLoop p e r b) = p.exportInt r * p.exportInt b ^ e % N := by
  intro e
  induction e using Nat.strong_induction_on with
  | _ e ih =>
    intro r b hr hb
    rw [Mont.modExpLoop]
    split_ifs with h0 h1
    · refine ⟨hr, ?_⟩
      rw [h0, pow_zero, mul_one, Nat.mod_eq_of_lt]
      exact exportInt_lt g r (by have := g.lt; omega) (Or.inr hr.le)
    · obtain ⟨i1, i2⟩ := ih (e / 2) (Nat.div_lt_self (by omega) (by norm_num)) (Mont.mul p r b)
        (Mont.mul p b b) (mul_lt g hr.le hb) (mul_lt g hb hb).le
      refine ⟨i1, ?_⟩
      rw [i2, mul_export g hr.le hb, mul_export g hb hb]
      conv_rhs => rw [show e = 2 * (e / 2) + 1 by omega]
      rw [Nat.mod_mul_mod, Nat.mul_mod, ← Nat.pow_mod, ← Nat.mul_mod]
      congr 1; ring
    · obtain ⟨i1, i2⟩ := ih (e / 2) (Nat.div_lt_self (by omega) (by norm_num)) r
        (Mont.mul p b b) hr (mul_lt g hb hb).le
      refine ⟨i1, ?_⟩
      rw [i2, mul_export g hb hb]
      conv_rhs => rw [show e = 2 * (e / 2) by omega]
      rw [Nat.mul_mod, ← Nat.pow_mod, ← Nat.mul_mod]
      congr 1; ring

theorem modExp_spec (g : Good p w N) (a e : ℕ) (ha : a ≤ N) :
    Mont.modExp p a e < N ∧ p.exportInt (Mont.modExp p a e) = p.exportInt a ^ e % N := by
  obtain ⟨h1, h2⟩ := modExpLoop_spec g e (Mont.importOne p) a (importOne_lt g) ha
  refine ⟨h1, ?_⟩
  unfold Mont.modExp
  rw [h2, export_importOne g, Nat.mod_mul_mod, one_mul]

/-- The invariant of the extended Euclid loop. -/
theorem invFastLoop_spec (x : ℕ) (hN : N < 2 ^ w) :
    ∀ rj' : ℕ, ∀ (j : Bool) (rj sj sj' : ℕ),
      rj * sj' + rj' * sj = N → sj ≤ N → sj' ≤ N →
      ((rj : ZMod N) = (if j then -1 else 1) * sj * x) →
      ((rj' : ZMod N) = (if j then 1 else -1) * sj' * x) →
      let res := Mont.invFastLoop w j rj rj' sj sj'
      res.2.1 = Nat.gcd rj rj' ∧ res.2.2 ≤ N ∧
        ((res.2.1 : ZMod N) = (if res.1 then -1 else 1) * res.2.2 * x) := by
  intro rj'
  induction rj' using Nat.strong_induction_on with
  | _ rj' ih =>
    intro j rj sj sj' hinv hs hle' h1 h2
    simp only
    rw [Mont.invFastLoop]
    by_cases h0 : rj' = 0
    · rw [dif_pos h0]; subst h0; exact ⟨by simp, hs, h1⟩
    · rw [dif_neg h0]
      have hpos : 0 < rj' := Nat.pos_of_ne_zero h0
      have hq : rj / rj' * rj' + rj % rj' = rj := Nat.div_add_mod' rj rj'
      have hnew : rj' * (sj + rj / rj' * sj') + rj % rj' * sj' = N := by
        rw [← hinv]
        calc rj' * (sj + rj / rj' * sj') + rj % rj' * sj'
            = (rj / rj' * rj' + rj % rj') * sj' + rj' * sj := by ring
          _ = _ := by rw [hq]
      have hle : sj + rj / rj' * sj' ≤ N := by
        calc sj + rj / rj' * sj' ≤ rj' * (sj + rj / rj' * sj') := Nat.le_mul_of_pos_left _ hpos
          _ ≤ N := by omega
      have htr : trunc w ((sj : ℤ) + ((rj / rj' : ℕ) : ℤ) * sj') = sj + rj / rj' * sj' :=
        trunc_eq _ _ _ (by push_cast; ring) (by omega)
      have := ih (rj % rj') (Nat.mod_lt _ hpos) (!j) rj' sj' (sj + rj / rj' * sj') hnew hle' hle
        (by rw [h2]; cases j <;> simp)
        (by
          have e := congrArg (fun n : ℕ => (n : ZMod N)) hq
          push_cast at e
          have e' : ((rj % rj' : ℕ) : ZMod N) = rj - (rj / rj' : ℕ) * rj' := by
            rw [← e]; ring
          rw [e', h1, h2]; cases j <;> push_cast <;> simp <;> ring)
      simp only at this
      dsimp only
      simp only [htr]
      have hg : Nat.gcd rj rj' = Nat.gcd rj' (rj % rj') := by
        rw [Nat.gcd_comm rj rj', Nat.gcd_rec rj' rj, Nat.gcd_comm]
      rw [hg]
      exact this

theorem inverseFast_spec (g : Good p w N) (a : ℕ) (ha : a ≤ N) :
    (Nat.Coprime (p.exportInt a) N → ∃ b, Mont.multiplicativeInverseFast p a = .ok b ∧ b < N ∧
        (p.exportInt a * p.exportInt b) % N = 1 % N) ∧
    (¬ Nat.Coprime (p.exportInt a) N →
        Mont.multiplicativeInverseFast p a = .err .invalidArgument) := by
  have h4 := g.lt
  set x := p.exportInt a with hx
  have hxN : x < N := exportInt_lt g a (by omega) (Or.inr ha)
  have htr : trunc w ((N : ℤ) - x) = N - x := trunc_eq _ _ _ (by omega) (by omega)
  obtain ⟨s1, s2, s3⟩ := invFastLoop_spec (w := w) (N := N) x (by omega) (N - x) false x 1 1
    (by omega) (by omega) (by omega) (by simp) (by rw [cast_sub_le hxN.le]; simp)
  have hg : Nat.gcd x (N - x) = Nat.gcd x N := by
    rw [Nat.gcd_sub_self_right hxN.le]
  unfold Mont.multiplicativeInverseFast Mont.exportInt
  rw [g.hw, g.hN, ← hx]
  simp only
  rw [htr]
  set res := Mont.invFastLoop w false x (N - x) 1 1 with hres
  rw [hg] at s1
  constructor
  · intro hc
    rw [if_neg (by rw [s1]; simpa using hc)]
    have htr2 : trunc w ((N : ℤ) - res.2.2) = N - res.2.2 := trunc_eq _ _ _ (by omega) (by omega)
    rw [htr2]
    refine ⟨_, rfl, importInt_lt g _ (by split_ifs <;> omega), ?_⟩
    rw [export_import g _ (by split_ifs <;> omega), Nat.mul_mod_mod]
    rw [← ZMod.natCast_eq_natCast_iff']
    rw [s1, hc] at s3
    push_cast at s3 ⊢
    rw [s3]
    by_cases hj : res.1 = false
    · simp [hj, mul_comm]
    · have hj' : res.1 = true := by simpa using hj
      simp [hj', Nat.cast_sub s2, mul_comm]
  · intro hc
    rw [if_pos (by rw [s1]; exact hc)]

theorem multiplicativeInverse_spec (g : Good p w N) (hp : N.Prime) (a : ℕ) (ha : a ≤ N)
    (hne : p.exportInt a ≠ 0) :
    Mont.multiplicativeInverse p a < N ∧
      (p.exportInt a * p.exportInt (Mont.multiplicativeInverse p a)) % N = 1 := by
  have h4 := g.lt
  have hx : p.exportInt a < N := exportInt_lt g a (by omega) (Or.inr ha)
  have h2 := hp.two_le
  have ho := g.odd
  have htr : trunc w ((N : ℤ) - 2) = N - 2 := trunc_eq _ _ _ (by omega) (by omega)
  unfold Mont.multiplicativeInverse
  rw [g.hw, g.hN, htr]
  obtain ⟨e1, e2⟩ := modExp_spec g a (N - 2) ha
  refine ⟨e1, ?_⟩
  rw [e2, Nat.mul_mod_mod, ← pow_succ', show N - 2 + 1 = N - 1 by omega]
  haveI : Fact N.Prime := ⟨hp⟩
  have : ((p.exportInt a ^ (N - 1) : ℕ) : ZMod N) = (1 : ℕ) := by
    push_cast
    apply ZMod.pow_card_sub_one_eq_one
    intro h
    rw [ZMod.natCast_eq_zero_iff] at h
    exact hne (Nat.eq_zero_of_dvd_of_lt h hx)
  rw [ZMod.natCast_eq_natCast_iff', Nat.mod_eq_of_lt (by omega : 1 < N)] at this
  exact this

end Shell
