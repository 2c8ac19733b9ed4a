import Verif.Model.Montgomery
import Verif.Lemmas.Core
import Mathlib.Data.ZMod.Basic
import Mathlib.Tactic.LinearCombination
import Mathlib.Tactic.FieldSimp

namespace Shell
open MParams

/-- `Barrett` core estimate: with `cb = ⌊c·2^w/N⌋`, the quotient estimate `⌊cb·x/2^w⌋` is at most
one too small. -/
theorem barrett_core (w N c x : ℕ) (hN : 0 < N) (hx : x < 2 ^ w) :
    (c * 2 ^ w / N * x / 2 ^ w) * N ≤ c * x ∧
    c * x < (c * 2 ^ w / N * x / 2 ^ w) * N + 2 * N := by
  set R := 2 ^ w with hR
  have hRpos : 0 < R := by positivity
  set cb := c * R / N with hcb
  set q := cb * x / R with hq
  have h1 : cb * N ≤ c * R := Nat.div_mul_le_self _ _
  have h2 : c * R < cb * N + N := by
    exact Nat.lt_div_mul_add (a := c * R) hN
  have h3 : q * R ≤ cb * x := Nat.div_mul_le_self _ _
  have h4 : cb * x < q * R + R := by
    exact Nat.lt_div_mul_add (a := cb * x) hRpos
  constructor
  · have : q * N * R ≤ c * x * R := by
      calc q * N * R = (q * R) * N := by ring
        _ ≤ (cb * x) * N := Nat.mul_le_mul_right _ h3
        _ = (cb * N) * x := by ring
        _ ≤ (c * R) * x := Nat.mul_le_mul_right _ h1
        _ = c * x * R := by ring
    exact Nat.le_of_mul_le_mul_right this hRpos
  · have h2' : c * R + 1 ≤ cb * N + N := h2
    have h4' : cb * x + 1 ≤ q * R + R := h4
    have e1 : (c * R) * x ≤ (cb * N + N) * x := Nat.mul_le_mul_right _ (by omega)
    have e2 : (cb * x) * N + N ≤ (q * R + R) * N := by
      calc (cb * x) * N + N = (cb * x + 1) * N := by ring
        _ ≤ _ := Nat.mul_le_mul_right _ h4'
    have e3 : N * x < N * R := Nat.mul_lt_mul_of_pos_left hx hN
    have : c * x * R < (q * N + 2 * N) * R := by nlinarith
    exact Nat.lt_of_mul_lt_mul_right this

/-- The final conditional subtraction. -/
theorem cond_sub_mod (N r : ℕ) (h : r < 2 * N) : (if r ≥ N then r - N else r) = r % N := by
  split_ifs with h1
  · rw [Nat.mod_eq_sub_mod h1, Nat.mod_eq_of_lt (by omega)]
  · rw [Nat.mod_eq_of_lt (by omega)]

theorem cond_sub_trunc (w N r : ℕ) (h : r < 2 * N) (hN : N < 2 ^ w) (hr : r < 2 ^ w) :
    trunc w ((r : ℤ) - if r ≥ N then (N : ℤ) else 0) = r % N := by
  rw [← cond_sub_mod N r h]
  split_ifs with h1
  · exact trunc_eq _ _ _ (by omega) (by omega)
  · exact trunc_eq _ _ _ (by omega) (by omega)

/-- Barrett multiplication followed by truncation. -/
theorem barrett_mul (w N c x : ℕ) (hN : 0 < N) (hw : 2 * N ≤ 2 ^ w) (hc : c < N)
    (hx : x < 2 ^ w) :
    ∃ r, trunc w ((x : ℤ) * c -
        (trunc w (trunc w (c * 2 ^ w / N : ℕ) * x / 2 ^ w : ℕ) : ℤ) * N) = r ∧
      r < 2 * N ∧ r % N = c * x % N := by
  obtain ⟨h1, h2⟩ := barrett_core w N c x hN hx
  have hR : 0 < 2 ^ w := by positivity
  have hcb : c * 2 ^ w / N < 2 ^ w := by
    rw [Nat.div_lt_iff_lt_mul hN]; rw [mul_comm]; exact Nat.mul_lt_mul_of_pos_left hc hR
  have hq : c * 2 ^ w / N * x / 2 ^ w < 2 ^ w := by
    rw [Nat.div_lt_iff_lt_mul hR]
    calc _ ≤ c * 2 ^ w / N * 2 ^ w := Nat.mul_le_mul_left _ hx.le
      _ < _ := Nat.mul_lt_mul_of_pos_right hcb hR
  rw [trunc_eq w _ _ rfl hcb, trunc_eq w _ _ rfl hq]
  refine ⟨c * x - c * 2 ^ w / N * x / 2 ^ w * N, trunc_eq _ _ _ ?_ ?_, ?_, ?_⟩
  · push_cast [h1]; ring
  · omega
  · omega
  · rw [mul_comm (c * 2 ^ w / N * x / 2 ^ w) N] at *
    exact Nat.sub_mul_mod h1

/-! ## Inverses -/

theorem inversesLoop_inv (w N : ℕ) (hodd : N % 2 = 1) (hN : N < 2 ^ w) :
    ∀ k x y : ℕ, k ≤ w → 1 ≤ x → x ≤ N → (1 < N → x < N) → y < 2 ^ w →
      x * 2 ^ w = y * N + 2 ^ k →
      let s := inversesLoop w N k (x, y)
      s.1 * 2 ^ w = s.2 * N + 1 ∧ 1 ≤ s.1 ∧ s.1 ≤ N ∧ (1 < N → s.1 < N) ∧ s.2 < 2 ^ w := by
  intro k
  induction k with
  | zero => intro x y _ h1 h2 h3 h4 h5; simp [inversesLoop]; exact ⟨by simpa using h5, h1, h2, h3, h4⟩
  | succ k ih =>
    intro x y hk hx1 hx hx' hy hinv
    simp only [inversesLoop, inversesStep]
    have hw : 2 ^ w = 2 * 2 ^ (w - 1) := by
      rw [← pow_succ']; congr 1; omega
    have h2w : 2 * 2 ^ w ≤ 2 ^ (2 * w) := by
      rw [← pow_succ']; exact Nat.pow_le_pow_right (by norm_num) (by omega)
    have hyeven : y % 2 = 0 := by
      have e : (x * 2 ^ w) % 2 = 0 := by rw [hw, mul_left_comm]; exact Nat.mul_mod_right _ _
      have e2 : (y * N) % 2 = 0 := by rw [hinv, pow_succ] at e; omega
      rw [Nat.mul_mod, hodd] at e2; omega
    rw [pow_succ] at hinv
    by_cases hxo : x % 2 = 1
    · simp only [hxo, if_true]
      rw [Nat.mod_eq_of_lt (by omega), Nat.mod_eq_of_lt (by omega)]
      apply ih _ _ (by omega)
      · omega
      · omega
      · intro h; have := hx' h; omega
      · omega
      · have e1 : (x + N) / 2 * 2 = x + N := by omega
        have e2 : (y + 2 ^ w) / 2 * 2 = y + 2 ^ w := by omega
        have : ((x + N) / 2 * 2) * 2 ^ w = ((y + 2 ^ w) / 2 * 2) * N + 2 ^ k * 2 := by
          rw [e1, e2]; linarith [mul_comm (2 ^ w) N]
        nlinarith
    · simp only [hxo, if_false]
      apply ih _ _ (by omega)
      · omega
      · omega
      · intro h; have := hx' h; omega
      · omega
      · have e1 : x / 2 * 2 = x := by omega
        have e2 : y / 2 * 2 = y := by omega
        have : (x / 2 * 2) * 2 ^ w = (y / 2 * 2) * N + 2 ^ k * 2 := by
          rw [e1, e2]; exact hinv
        nlinarith

theorem inverses_spec (w N : ℕ) (hodd : N % 2 = 1) (hN : N < 2 ^ w) :
    (inverses w N).1 * 2 ^ w = (inverses w N).2 * N + 1 ∧ (inverses w N).1 ≤ N ∧
      (1 < N → (inverses w N).1 < N) ∧ (inverses w N).2 < 2 ^ w := by
  have h := inversesLoop_inv w N hodd hN w 1 0 le_rfl le_rfl (by omega) (by omega) (by positivity)
    (by simp)
  simp only at h
  obtain ⟨h1, h2, h3, h4, h5⟩ := h
  unfold inverses
  simp only
  rw [Nat.mod_eq_of_lt (by omega), Nat.mod_eq_of_lt h5]
  exact ⟨h1, h3, h4, h5⟩

/-! ## Facts about created parameters -/

/-- Everything the proofs use about a created parameter set. -/
structure Good (p : MParams) (w N : ℕ) : Prop where
  hw : p.w = w
  hN : p.modulus = N
  odd : N % 2 = 1
  lt : 4 * N < 2 ^ w
  rMod : p.rMod = 2 ^ w % N
  rModB : p.rModBarrett = p.rMod * 2 ^ w / N
  inv : p.invR * 2 ^ w = p.invModulus * N + 1
  invR_le : p.invR ≤ N
  invR_lt : 1 < N → p.invR < N
  invN_lt : p.invModulus < 2 ^ w
  invRB : p.invRBarrett = trunc w (p.invR * 2 ^ w / N : ℕ)
  bn : p.barrettNum = 2 ^ w / N
  bnb : p.barrettNumBig = 2 ^ (2 * w - 1) / N

theorem create_ok_iff (w N : ℕ) (p : MParams) :
    create w N = .ok p ↔ N < 2 ^ (w - 2) ∧ N % 2 = 1 ∧ p = make w N := by
  unfold create
  rw [Nat.shiftRight_eq_div_pow]
  have e : N / 2 ^ (w - 2) = 0 ↔ N < 2 ^ (w - 2) := by
    rw [Nat.div_eq_zero_iff]; simp
  by_cases h1 : N < 2 ^ (w - 2)
  · rw [if_neg (by simpa using e.2 h1)]
    by_cases h2 : N % 2 = 0
    · simp [h2]
    · rw [if_neg h2]; simp [h1]; constructor
      · intro h; exact ⟨by omega, h.symm⟩
      · intro h; exact h.2.symm
  · rw [if_pos (by simpa using (not_congr e).2 h1)]; simp [h1]

theorem good_of_create {w N : ℕ} {p : MParams} (h : create w N = .ok p) : Good p w N := by
  obtain ⟨h1, h2, rfl⟩ := (create_ok_iff _ _ _).1 h
  have hw : 2 ≤ w := by
    by_contra hc
    have : w - 2 = 0 := by omega
    rw [this] at h1; omega
  have e : 2 ^ w = 4 * 2 ^ (w - 2) := by
    rw [show (4:ℕ) = 2 ^ 2 by norm_num, ← pow_add]; congr 1; omega
  have lt : 4 * N < 2 ^ w := by omega
  have hNpos : 0 < N := by omega
  obtain ⟨i1, i2, i3, i4⟩ := inverses_spec w N h2 (by omega)
  have hr : 2 ^ w % N < N := Nat.mod_lt _ hNpos
  have hrm : (make w N).rMod = 2 ^ w % N := by
    simp only [make]; exact trunc_eq _ _ _ rfl (by omega)
  refine ⟨rfl, rfl, h2, lt, hrm, ?_, i1, i2, i3, i4, rfl, rfl, rfl⟩
  have : (make w N).rModBarrett = trunc w ((make w N).rMod * 2 ^ w / N : ℕ) := rfl
  rw [this]
  apply trunc_eq _ _ _ rfl
  rw [Nat.div_lt_iff_lt_mul hNpos, mul_comm]
  exact Nat.mul_lt_mul_of_pos_left (by omega) (by positivity)

variable {p : MParams} {w N : ℕ}

theorem Good.pos (g : Good p w N) : 0 < N := by have := g.odd; omega

theorem barrettReduce_eq (g : Good p w N) (x : ℕ) (hx : x < 2 ^ w) :
    p.barrettReduce x = x % N := by
  unfold MParams.barrettReduce
  rw [g.hw, g.hN, g.bn]
  have hN := g.pos
  have hR : 0 < 2 ^ w := by positivity
  obtain ⟨h1, h2⟩ := barrett_core w N 1 x hN hx
  simp only [one_mul] at h1 h2
  have hb : 2 ^ w / N ≤ 2 ^ w := Nat.div_le_self _ _
  have h3 : 2 ^ w / N * x < 2 ^ (2 * w) := by
    rw [two_mul, pow_add]
    calc _ ≤ 2 ^ w * x := Nat.mul_le_mul_right _ hb
      _ < _ := Nat.mul_lt_mul_of_pos_left hx hR
  rw [Nat.mod_eq_of_lt h3]
  have hq : 2 ^ w / N * x / 2 ^ w < 2 ^ w := by
    rw [Nat.div_lt_iff_lt_mul hR, ← pow_add, ← two_mul]; exact h3
  rw [trunc_eq w _ _ rfl hq]
  have h4 := g.lt
  have : trunc w ((x : ℤ) - (2 ^ w / N * x / 2 ^ w : ℕ) * (N : ℤ)) =
      x - 2 ^ w / N * x / 2 ^ w * N := by
    apply trunc_eq _ _ _ _ (by omega)
    push_cast [h1]; ring
  simp only [this]
  rw [cond_sub_mod _ _ (by omega)]
  rw [mul_comm _ N] at *
  exact Nat.sub_mul_mod h1

theorem barrettReduceBigInt_eq (g : Good p w N) (x : ℕ) (hx : x < 2 ^ (2 * w - 1)) :
    p.barrettReduceBigInt x = x % N := by
  unfold MParams.barrettReduceBigInt
  rw [g.hw, g.hN, g.bnb]
  split_ifs with h128
  · rfl
  have hN := g.pos
  obtain ⟨h1, h2⟩ := barrett_core (2 * w - 1) N 1 x hN hx
  simp only [one_mul] at h1 h2
  have h4 := g.lt
  set Q := 2 ^ (2 * w - 1) / N * x / 2 ^ (2 * w - 1) with hQ
  have : trunc w ((trunc w (x : ℤ) : ℤ) - (trunc w (Q : ℤ) : ℤ) * (N : ℤ)) = x - Q * N := by
    apply trunc_eq_of_sub_dvd _ _ _ _ (by omega)
    rw [trunc_coe, trunc_coe]
    have e1 := Int.emod_add_mul_ediv (x : ℤ) (2 ^ w)
    have e2 := Int.emod_add_mul_ediv (Q : ℤ) (2 ^ w)
    refine ⟨-((x : ℤ) / 2 ^ w) + (Q : ℤ) / 2 ^ w * N, ?_⟩
    push_cast [h1]
    linear_combination e1 - N * e2
  simp only [this]
  rw [cond_sub_mod _ _ (by omega)]
  rw [mul_comm _ N] at *
  exact Nat.sub_mul_mod h1

theorem exportInt_eq (g : Good p w N) (a : ℕ) (ha : a < 2 ^ w) (h1 : 1 < N ∨ a ≤ N) :
    p.exportInt a = a * p.invR % N := by
  have hN := g.pos
  have h4 := g.lt
  by_cases hN1 : 1 < N
  · unfold MParams.exportInt
    rw [g.hw, g.hN, g.invRB]
    obtain ⟨r, e1, e2, e3⟩ := barrett_mul w N p.invR a hN (by omega) (g.invR_lt hN1) ha
    simp only [e1]
    rw [cond_sub_mod _ _ e2, e3, mul_comm]
  · have hN1 : N = 1 := by omega
    have hi : p.invR = 1 := by
      have h1 := g.invR_le
      have h2 : p.invR ≠ 0 := by intro h; have := g.inv; rw [h] at this; simp at this
      omega
    have hb : p.invRBarrett = 0 := by
      rw [g.invRB, hN1, hi, trunc_natCast]; simp
    have ha1 : a ≤ 1 := by omega
    unfold MParams.exportInt
    rw [g.hw, g.hN, hb, hi, hN1]
    simp only [zero_mul, Nat.zero_div, Nat.mod_one]
    have e0 : trunc w ((0 : ℕ) : ℤ) = 0 := by rw [trunc_natCast]; simp
    rw [e0, trunc_eq w _ a (by push_cast; ring) ha]
    split_ifs <;> omega

theorem importInt_eq (g : Good p w N) (n : ℕ) (hn : n < 2 ^ w) :
    Mont.importInt p n = n * 2 ^ w % N := by
  have hN := g.pos
  have h4 := g.lt
  unfold Mont.importInt
  rw [g.hw, g.hN, g.rModB]
  have hr : p.rMod < N := by rw [g.rMod]; exact Nat.mod_lt _ hN
  obtain ⟨r, e1, e2, e3⟩ := barrett_mul w N p.rMod n hN (by omega) hr hn
  have hcb : p.rMod * 2 ^ w / N < 2 ^ w := by
    rw [Nat.div_lt_iff_lt_mul hN]; rw [mul_comm]
    exact Nat.mul_lt_mul_of_pos_left hr (by positivity)
  rw [trunc_eq w _ _ rfl hcb] at e1
  simp only [e1]
  rw [cond_sub_trunc _ _ _ e2 (by omega) (by omega), e3, g.rMod, mul_comm n, Nat.mod_mul_mod]

/-! ## Exported values in `ZMod N` -/

theorem Good.zinv (g : Good p w N) : ((p.invR : ZMod N)) * 2 ^ w = 1 := by
  have := congrArg (fun n : ℕ => (n : ZMod N)) g.inv
  push_cast at this
  rw [this]; simp

theorem Good.cast_export (g : Good p w N) (a : ℕ) (ha : a < 2 ^ w) (h1 : 1 < N ∨ a ≤ N) :
    ((p.exportInt a : ℕ) : ZMod N) = a * p.invR := by
  rw [exportInt_eq g a ha h1]; simp

theorem Good.cast_export' (g : Good p w N) (a : ℕ) (ha : a ≤ N) :
    ((p.exportInt a : ℕ) : ZMod N) = a * p.invR :=
  g.cast_export a (by have := g.lt; omega) (Or.inr ha)

theorem exportInt_lt (g : Good p w N) (a : ℕ) (ha : a < 2 ^ w) (h1 : 1 < N ∨ a ≤ N) :
    p.exportInt a < N := by
  rw [exportInt_eq g a ha h1]; exact Nat.mod_lt _ g.pos

/-- To identify an exported value with `x mod N`, compare in `ZMod N`. -/
theorem Good.export_eq_mod (g : Good p w N) (a x : ℕ) (ha : a < N)
    (h : (a : ZMod N) = x * 2 ^ w) : p.exportInt a = x % N := by
  have hlt := exportInt_lt g a (by have := g.lt; omega) (Or.inr ha.le)
  have : ((p.exportInt a : ℕ) : ZMod N) = (x : ℕ) := by
    rw [g.cast_export' a ha.le, h, mul_assoc, mul_comm _ (p.invR : ZMod N), g.zinv, mul_one]
  rw [ZMod.natCast_eq_natCast_iff'] at this
  rw [Nat.mod_eq_of_lt hlt] at this
  exact this

/-- The representation is `export * 2^w` in `ZMod N`. -/
theorem Good.repr (g : Good p w N) (a : ℕ) (ha : a ≤ N) :
    (a : ZMod N) = (p.exportInt a : ℕ) * 2 ^ w := by
  rw [g.cast_export' a ha, mul_assoc, g.zinv, mul_one]

theorem Good.export_inj (g : Good p w N) {a b : ℕ} (ha : a < N) (hb : b < N)
    (h : p.exportInt a = p.exportInt b) : a = b := by
  have : (a : ZMod N) = (b : ℕ) := by rw [g.repr a ha.le, g.repr b hb.le, h]
  rw [ZMod.natCast_eq_natCast_iff', Nat.mod_eq_of_lt ha, Nat.mod_eq_of_lt hb] at this
  exact this

/-! ## The arithmetic members -/

/-- Montgomery reduction (`REDC`). -/
theorem redc (g : Good p w N) (t u : ℕ) (ht : t < N * 2 ^ w)
    (hu : u = t * p.invModulus % 2 ^ w) :
    ∃ m, (t + N * u) / 2 ^ w = m ∧ m < 2 * N ∧ m * 2 ^ w = t + N * u ∧
      t + N * u < 2 ^ (2 * w) := by
  have hR : 0 < 2 ^ w := by positivity
  have hu' : u < 2 ^ w := by rw [hu]; exact Nat.mod_lt _ hR
  have h4 := g.lt
  have hd : 2 ^ w ∣ t + N * u := by
    have e : t + N * u ≡ t + N * (t * p.invModulus) [MOD 2 ^ w] := by
      apply Nat.ModEq.add_left
      apply Nat.ModEq.mul_left
      rw [hu]; exact Nat.mod_modEq _ _
    have e2 : t + N * (t * p.invModulus) = 2 ^ w * (t * p.invR) := by
      have := g.inv
      calc t + N * (t * p.invModulus) = t * (p.invModulus * N + 1) := by ring
        _ = t * (p.invR * 2 ^ w) := by rw [← this]
        _ = _ := by ring
    rw [e2] at e
    exact (Nat.modEq_zero_iff_dvd.1 (e.trans (by simp [Nat.ModEq])))
  have hb : t + N * u < 2 * N * 2 ^ w := by
    have : N * u < N * 2 ^ w := Nat.mul_lt_mul_of_pos_left hu' g.pos
    linarith
  refine ⟨_, rfl, ?_, Nat.div_mul_cancel hd, ?_⟩
  · rw [Nat.div_lt_iff_lt_mul hR]; exact hb
  · rw [two_mul, pow_add]
    exact lt_of_lt_of_le hb (Nat.mul_le_mul_right _ (by omega))

theorem redc_result (g : Good p w N) (t m u : ℕ) (hm : m < 2 * N)
    (h : m * 2 ^ w = t + N * u) :
    (if trunc w (m : ℤ) ≥ N then trunc w (m : ℤ) - N else trunc w (m : ℤ)) < N ∧
    ((if trunc w (m : ℤ) ≥ N then trunc w (m : ℤ) - N else trunc w (m : ℤ) : ℕ) : ZMod N) *
      2 ^ w = t := by
  have h4 := g.lt
  rw [trunc_eq w _ _ rfl (by omega), cond_sub_mod _ _ hm]
  refine ⟨Nat.mod_lt _ g.pos, ?_⟩
  have := congrArg (fun n : ℕ => (n : ZMod N)) h
  push_cast at this
  rw [ZMod.natCast_mod, this]; simp

theorem mul_core (g : Good p w N) (a b : ℕ) (hab : a * b < N * 2 ^ w) :
    Mont.mul p a b < N ∧ ((Mont.mul p a b : ℕ) : ZMod N) * 2 ^ w = a * b := by
  have h4 := g.lt
  have hR : 0 < 2 ^ w := by positivity
  have h2 : a * b < 2 ^ (2 * w) := by
    rw [two_mul, pow_add]; exact lt_of_lt_of_le hab (Nat.mul_le_mul_right _ (by omega))
  unfold Mont.mul
  rw [g.hw, g.hN, Nat.mod_eq_of_lt h2]
  simp only
  have eu : trunc w (((a * b * p.invModulus) % 2 ^ (2 * w) : ℕ) : ℤ) =
      a * b * p.invModulus % 2 ^ w := by
    rw [trunc_natCast, two_mul, pow_add, Nat.mod_mul_right_mod]
  rw [eu]
  obtain ⟨m, e1, e2, e3, e4⟩ := redc g (a * b) _ hab rfl
  rw [Nat.mod_eq_of_lt e4, e1]
  have := redc_result g (a * b) m _ e2 e3
  push_cast at this ⊢
  exact this

theorem Good.mul_bound (g : Good p w N) {a b : ℕ} (ha : a ≤ N) (hb : b ≤ N) :
    a * b < N * 2 ^ w := by
  have h4 := g.lt
  calc a * b ≤ N * N := Nat.mul_le_mul ha hb
    _ < N * 2 ^ w := Nat.mul_lt_mul_of_pos_left (by omega) g.pos

theorem mul_lt (g : Good p w N) {a b : ℕ} (ha : a ≤ N) (hb : b ≤ N) : Mont.mul p a b < N :=
  (mul_core g a b (g.mul_bound ha hb)).1

theorem mul_export (g : Good p w N) {a b : ℕ} (ha : a ≤ N) (hb : b ≤ N) :
    p.exportInt (Mont.mul p a b) = p.exportInt a * p.exportInt b % N := by
  obtain ⟨h1, h2⟩ := mul_core g a b
    (g.mul_bound ha hb)
  apply g.export_eq_mod _ _ h1
  push_cast
  rw [g.cast_export' a ha, g.cast_export' b hb]
  have h3 := g.zinv
  have : ((Mont.mul p a b : ℕ) : ZMod N) = a * b * p.invR := by
    rw [← h2, mul_assoc, mul_comm (2 ^ w) (p.invR : ZMod N), h3, mul_one]
  rw [this]
  linear_combination (-(a : ZMod N) * b * p.invR) * h3

theorem fusedMulAdd_core (g : Good p w N) {s a b : ℕ} (hs : s ≤ N) (ha : a ≤ N) (hb : b ≤ N) :
    Mont.fusedMulAdd p s a b < N ∧
      ((Mont.fusedMulAdd p s a b : ℕ) : ZMod N) * 2 ^ w = p.rMod * s + a * b := by
  have h4 := g.lt
  have hR : 0 < 2 ^ w := by positivity
  have hr : p.rMod < N := by rw [g.rMod]; exact Nat.mod_lt _ g.pos
  have ht : p.rMod * s + a * b < N * 2 ^ w := by
    have e1 : p.rMod * s ≤ N * N := Nat.mul_le_mul hr.le hs
    have e2 : a * b ≤ N * N := Nat.mul_le_mul ha hb
    have e3 : N * (4 * N) < N * 2 ^ w := Nat.mul_lt_mul_of_pos_left h4 g.pos
    nlinarith
  have h2 : p.rMod * s + a * b < 2 ^ (2 * w) := by
    rw [two_mul, pow_add]; exact lt_of_lt_of_le ht (Nat.mul_le_mul_right _ (by omega))
  unfold Mont.fusedMulAdd
  rw [g.hw, g.hN, Nat.mod_eq_of_lt h2]
  simp only
  set t := p.rMod * s + a * b
  have eu : trunc w ((trunc w ((t : ℕ) : ℤ) : ℤ) * (p.invModulus : ℤ)) =
      t * p.invModulus % 2 ^ w := by
    rw [trunc_natCast, ← Nat.cast_mul, trunc_natCast, Nat.mod_mul_mod]
  rw [eu]
  obtain ⟨m, e1, e2, e3, e4⟩ := redc g t _ ht rfl
  rw [Nat.mod_eq_of_lt e4, e1]
  have := redc_result g t m _ e2 e3
  refine ⟨this.1, ?_⟩
  rw [this.2]; simp [t]

theorem Good.cast_rMod (g : Good p w N) : (p.rMod : ZMod N) = 2 ^ w := by
  rw [g.rMod]; simp

theorem fusedMulAdd_export (g : Good p w N) {s a b : ℕ} (hs : s ≤ N) (ha : a ≤ N) (hb : b ≤ N) :
    p.exportInt (Mont.fusedMulAdd p s a b) =
      (p.exportInt s + p.exportInt a * p.exportInt b) % N := by
  obtain ⟨h1, h2⟩ := fusedMulAdd_core g hs ha hb
  apply g.export_eq_mod _ _ h1
  push_cast
  rw [g.cast_export' a ha, g.cast_export' b hb, g.cast_export' s hs]
  have h3 := g.zinv
  rw [g.cast_rMod] at h2
  have : ((Mont.fusedMulAdd p s a b : ℕ) : ZMod N) = (2 ^ w * s + a * b) * p.invR := by
    rw [← h2, mul_assoc, mul_comm (2 ^ w) (p.invR : ZMod N), h3, mul_one]
  rw [this]
  linear_combination (-(a : ZMod N) * b * p.invR) * h3

theorem add_eq (g : Good p w N) {a b : ℕ} (h : a + b < 2 ^ w) :
    Mont.add p a b = (a + b) % N := by
  unfold Mont.add
  rw [g.hw, trunc_eq w _ (a + b) (by push_cast; ring) h, barrettReduce_eq g _ h]

theorem sub_eq (g : Good p w N) {a b : ℕ} (hb : b ≤ N) (h : a + (N - b) < 2 ^ w) :
    Mont.sub p a b = (a + (N - b)) % N := by
  unfold Mont.sub
  rw [g.hw, g.hN, trunc_eq w _ (a + (N - b)) (by push_cast [hb]; ring) h, barrettReduce_eq g _ h]

theorem add_export (g : Good p w N) {a b : ℕ} (ha : a ≤ N) (hb : b ≤ N) :
    Mont.add p a b < N ∧
    p.exportInt (Mont.add p a b) = (p.exportInt a + p.exportInt b) % N := by
  have h4 := g.lt
  rw [add_eq g (by omega)]
  have hlt : (a + b) % N < N := Nat.mod_lt _ g.pos
  refine ⟨hlt, ?_⟩
  apply g.export_eq_mod _ _ hlt
  push_cast
  rw [ZMod.natCast_mod]
  push_cast
  rw [add_mul, ← g.repr a ha, ← g.repr b hb]

theorem cast_sub_le {b : ℕ} (hb : b ≤ N) : ((N - b : ℕ) : ZMod N) = -b := by
  rw [Nat.cast_sub hb]; simp

theorem sub_export (g : Good p w N) {a b : ℕ} (ha : a ≤ N) (hb : b ≤ N) :
    Mont.sub p a b < N ∧
    p.exportInt (Mont.sub p a b) = (p.exportInt a + (N - p.exportInt b)) % N := by
  have h4 := g.lt
  rw [sub_eq g hb (by omega)]
  have hlt : (a + (N - b)) % N < N := Nat.mod_lt _ g.pos
  refine ⟨hlt, ?_⟩
  apply g.export_eq_mod _ _ hlt
  rw [ZMod.natCast_mod]
  push_cast
  rw [cast_sub_le hb, cast_sub_le (exportInt_lt g b (by omega) (Or.inr hb)).le,
    add_mul, ← g.repr a ha, neg_mul, ← g.repr b hb]

theorem getConstant_eq (g : Good p w N) {c : ℕ} (hc : c ≤ N) :
    Mont.getConstant p c = (p.exportInt c, p.exportInt c * 2 ^ w / N) := by
  have h4 := g.lt
  unfold Mont.getConstant Mont.exportInt
  rw [g.hw, g.hN]
  have := exportInt_lt g c (by omega) (Or.inr hc)
  simp only
  rw [trunc_eq w _ _ rfl]
  rw [Nat.div_lt_iff_lt_mul g.pos, mul_comm]
  exact Nat.mul_lt_mul_of_pos_left this (by positivity)

theorem mulConstant_eq (g : Good p w N) {a k : ℕ} (ha : a < 2 ^ w) (hk : k < N) :
    Mont.mulConstant p a k (k * 2 ^ w / N) = a * k % N := by
  have h4 := g.lt
  have hN := g.pos
  unfold Mont.mulConstant
  rw [g.hw, g.hN]
  obtain ⟨r, e1, e2, e3⟩ := barrett_mul w N k a hN (by omega) hk ha
  have hcb : k * 2 ^ w / N < 2 ^ w := by
    rw [Nat.div_lt_iff_lt_mul hN]; rw [mul_comm]
    exact Nat.mul_lt_mul_of_pos_left hk (by positivity)
  rw [trunc_eq w _ _ rfl hcb] at e1
  simp only [e1]
  rw [cond_sub_trunc _ _ _ e2 (by omega) (by omega), e3, mul_comm]

theorem mulConstant_export (g : Good p w N) {a c : ℕ} (ha : a ≤ N) (hc : c ≤ N) :
    Mont.mulConstant p a (Mont.getConstant p c).1 (Mont.getConstant p c).2 < N ∧
    p.exportInt (Mont.mulConstant p a (Mont.getConstant p c).1 (Mont.getConstant p c).2) =
      p.exportInt a * p.exportInt c % N := by
  have h4 := g.lt
  rw [getConstant_eq g hc]
  simp only
  rw [mulConstant_eq g (by omega) (exportInt_lt g c (by omega) (Or.inr hc))]
  have hlt := Nat.mod_lt (a * p.exportInt c) g.pos
  refine ⟨hlt, ?_⟩
  apply g.export_eq_mod _ _ hlt
  rw [ZMod.natCast_mod]
  push_cast
  rw [g.repr a ha]; ring

theorem fusedMulConstantAdd_eq (g : Good p w N) {s a k : ℕ} (hs : s ≤ N) (ha : a ≤ N)
    (hk : k < N) :
    Mont.fusedMulConstantAdd p s a k (k * 2 ^ w / N) = (s + a * k) % N := by
  have h4 := g.lt
  have hN := g.pos
  have hR : 0 < 2 ^ w := by positivity
  unfold Mont.fusedMulConstantAdd
  rw [g.hw, g.hN, g.bn]
  simp only
  set R := 2 ^ w with hRdef
  set cb := k * R / N
  set bn := R / N
  set q := (cb * a + bn * s) / R with hq
  have c1 : cb * N ≤ k * R := Nat.div_mul_le_self _ _
  have c2 : k * R < cb * N + N := by
    exact Nat.lt_div_mul_add (a := k * R) hN
  have b1 : bn * N ≤ R := Nat.div_mul_le_self _ _
  have b2 : R < bn * N + N := by
    exact Nat.lt_div_mul_add (a := R) hN
  have q1 : q * R ≤ cb * a + bn * s := Nat.div_mul_le_self _ _
  have q2 : cb * a + bn * s < q * R + R := by
    exact Nat.lt_div_mul_add (a := cb * a + bn * s) hR
  have hle : q * N ≤ s + a * k := by
    have : q * N * R ≤ (s + a * k) * R := by
      calc q * N * R = (q * R) * N := by ring
        _ ≤ (cb * a + bn * s) * N := Nat.mul_le_mul_right _ q1
        _ = (cb * N) * a + (bn * N) * s := by ring
        _ ≤ (k * R) * a + R * s :=
          Nat.add_le_add (Nat.mul_le_mul_right _ c1) (Nat.mul_le_mul_right _ b1)
        _ = _ := by ring
    exact Nat.le_of_mul_le_mul_right this hR
  have hlt : s + a * k < q * N + 2 * N := by
    have e1 : (k * R) * a ≤ (cb * N + N) * a := Nat.mul_le_mul_right _ c2.le
    have e2 : R * s ≤ (bn * N + N) * s := Nat.mul_le_mul_right _ b2.le
    have e3 : (cb * a + bn * s) * N ≤ (q * R + R) * N := Nat.mul_le_mul_right _ q2.le
    have e4 : N * a + N * s < N * R := by
      rw [← mul_add]; exact Nat.mul_lt_mul_of_pos_left (by omega) hN
    have : (s + a * k) * R < (q * N + 2 * N) * R := by nlinarith
    exact Nat.lt_of_mul_lt_mul_right this
  have hcb : cb < R := by
    rw [Nat.div_lt_iff_lt_mul hN]; rw [mul_comm]; exact Nat.mul_lt_mul_of_pos_left hk hR
  have hbn : bn ≤ R := Nat.div_le_self _ _
  have hsum : cb * a + bn * s < R * R := by
    calc cb * a + bn * s ≤ R * a + R * s :=
          Nat.add_le_add (Nat.mul_le_mul_right _ hcb.le) (Nat.mul_le_mul_right _ hbn)
      _ = R * (a + s) := by ring
      _ < R * R := Nat.mul_lt_mul_of_pos_left (by omega) hR
  have h2 : cb * a + bn * s < 2 ^ (2 * w) := by rw [two_mul, pow_add]; exact hsum
  rw [Nat.mod_eq_of_lt h2]
  have hqR : q < R := by rw [hq, Nat.div_lt_iff_lt_mul hR]; exact hsum
  rw [trunc_eq w _ _ rfl hqR]
  have : trunc w ((s : ℤ) + ((a : ℤ) * k - (q : ℤ) * N)) = s + a * k - q * N := by
    apply trunc_eq _ _ _ _ (by omega)
    push_cast [hle]; ring
  simp only [this]
  rw [cond_sub_trunc _ _ _ (by omega) (by omega) (by omega)]
  rw [mul_comm q N] at *
  exact Nat.sub_mul_mod hle

theorem fusedMulConstantAdd_export (g : Good p w N) {s a c : ℕ} (hs : s ≤ N) (ha : a ≤ N)
    (hc : c ≤ N) :
    Mont.fusedMulConstantAdd p s a (Mont.getConstant p c).1 (Mont.getConstant p c).2 < N ∧
    p.exportInt (Mont.fusedMulConstantAdd p s a (Mont.getConstant p c).1
      (Mont.getConstant p c).2) = (p.exportInt s + p.exportInt a * p.exportInt c) % N := by
  have h4 := g.lt
  rw [getConstant_eq g hc]
  simp only
  rw [fusedMulConstantAdd_eq g hs ha (exportInt_lt g c (by omega) (Or.inr hc))]
  have hlt := Nat.mod_lt (s + a * p.exportInt c) g.pos
  refine ⟨hlt, ?_⟩
  apply g.export_eq_mod _ _ hlt
  rw [ZMod.natCast_mod]
  push_cast
  rw [g.repr a ha, g.repr s hs]; ring

/-! ## Import -/

theorem importInt_lt (g : Good p w N) (n : ℕ) (hn : n < 2 ^ w) : Mont.importInt p n < N := by
  rw [importInt_eq g n hn]; exact Nat.mod_lt _ g.pos

theorem export_import (g : Good p w N) (n : ℕ) (hn : n < 2 ^ w) :
    p.exportInt (Mont.importInt p n) = n % N := by
  apply g.export_eq_mod _ _ (importInt_lt g n hn)
  rw [importInt_eq g n hn]; simp

theorem import_export (g : Good p w N) (a : ℕ) (ha : a < N) :
    Mont.importInt p (p.exportInt a) = a := by
  have h4 := g.lt
  have he := exportInt_lt g a (by omega) (Or.inr ha.le)
  apply g.export_inj (importInt_lt g _ (by omega)) ha
  rw [export_import g _ (by omega), Nat.mod_eq_of_lt he]

theorem importOne_lt (g : Good p w N) : Mont.importOne p < N := by
  unfold Mont.importOne; rw [g.rMod]; exact Nat.mod_lt _ g.pos

theorem export_importOne (g : Good p w N) : p.exportInt (Mont.importOne p) = 1 % N := by
  apply g.export_eq_mod _ _ (importOne_lt g)
  unfold Mont.importOne; rw [g.cast_rMod]; simp

theorem export_zero (g : Good p w N) : p.exportInt 0 = 0 := by
  rw [g.export_eq_mod 0 0 g.pos (by simp)]; simp

end Shell
