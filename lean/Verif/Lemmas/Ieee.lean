import Verif.Spec.Ieee
import Verif.Lemmas.RnsEstimate
/-!
# Lemmas on `double`s with a bounded exponent
-/

namespace Shell.Ieee
open Spec DoubleError RnsEstimate RnsCtStore Rns Rns.Res

/-! ### Rounding -/

section
variable {x y : ℝ}

theorem rnd_zero : Double.rnd (0 : ℝ) = 0 := by simp [Double.rnd]

theorem rnd_le (h : 0 ≤ x) : Double.rnd x ≤ 2 * x := by
  have := (Double.rnd_bounds h).2
  have h2 : x / 2 ^ 53 ≤ x := div_le_self h (by norm_num)
  linarith

theorem rnd_low (h : 0 ≤ x) : x / 2 ≤ Double.rnd x := by
  have := (Double.rnd_bounds h).1
  have h2 : x / 2 ^ 53 ≤ x / 2 := div_le_div_of_nonneg_left h (by norm_num) (by norm_num)
  linarith

theorem pow_half (s : ℕ) : (1 : ℝ) / 2 ^ s / 2 = 1 / 2 ^ (s + 1) := by
  rw [pow_succ, div_div]

/-- A result with an exponent that is not extreme is the one of unbounded exponents. -/
theorem round_eq {cast : ℕ → ℝ} (h : 0 ≤ x) (hr : x = 0 ∨ 1 / 2 ^ 1022 ≤ x ∧ x ≤ 2 ^ 1022) :
    (Val.round x : Val cast) = .fin (Double.rnd x) := by
  unfold Val.round
  rcases hr with rfl | ⟨h1, h2⟩
  · simp [rnd_zero]
  · have h0 : x ≠ 0 := by
      rintro rfl
      have : (0 : ℝ) < 1 / 2 ^ 1022 := by positivity
      linarith
    rw [if_neg h0, abs_of_nonneg h, if_neg (not_lt.mpr h1), abs_of_nonneg (Double.rnd_nonneg h), if_pos]
    refine lt_of_le_of_lt (rnd_le h) (lt_of_le_of_lt (mul_le_mul_of_nonneg_left h2 (by norm_num)) ?_)
    rw [← pow_succ']
    exact pow_lt_pow_right₀ (by norm_num) (by norm_num)

/-- The same, for results that are not extreme. -/
theorem round_result {cast : ℕ → ℝ} (h : 0 ≤ x)
    (hr : Double.rnd x = 0 ∨ 1 / 2 ^ 1020 ≤ Double.rnd x ∧ Double.rnd x ≤ 2 ^ 1020) :
    (Val.round x : Val cast) = .fin (Double.rnd x) := by
  have h1 := rnd_le h
  have h2 := rnd_low h
  refine round_eq h ?_
  rcases hr with hr | ⟨h3, h4⟩
  · left; linarith
  · right
    have e1 := pow_half 1020
    have e2 := pow_half 1021
    have e3 : (2 : ℝ) ^ 1022 = 2 ^ 1020 * 4 := by rw [show (1022 : ℕ) = 1020 + 2 by rfl, pow_add]; norm_num
    have p : (0 : ℝ) < 1 / 2 ^ 1020 := by positivity
    have p2 : (0 : ℝ) < 2 ^ 1020 := by positivity
    generalize (2 : ℝ) ^ 1022 = a at *
    generalize (2 : ℝ) ^ 1021 = b at *
    generalize (2 : ℝ) ^ 1020 = c at *
    constructor
    · show 1 / a ≤ x
      have : (1 : ℝ) / a = 1 / b / 2 := by
        simpa using e2.symm
      rw [this, show (1 : ℝ) / b = 1 / c / 2 by simpa using e1.symm]
      linarith
    · rw [e3]; linarith

end

/-! ### Sizes -/

section
variable {a b : Mag} {x y : ℝ}

theorem inv_pow_pos (s : ℕ) : (0 : ℝ) < 1 / 2 ^ s := by positivity

theorem has_nonneg (h : a.Has x) : 0 ≤ x := by
  rcases h with ⟨rfl, -⟩ | h
  · exact le_rfl
  · exact (inv_pow_pos _).le.trans h.1

theorem has_ne (h : a.Has x) (hp : a.pos = true) : x ≠ 0 := by
  rcases h with ⟨-, h⟩ | h
  · rw [hp] at h; cases h
  · exact ((inv_pow_pos _).trans_le h.1).ne'

theorem inv_pow_anti {s t : ℕ} (h : s ≤ t) : (1 : ℝ) / 2 ^ t ≤ 1 / 2 ^ s :=
  one_div_le_one_div_of_le (by positivity) (pow_le_pow_right₀ (by norm_num) h)

theorem pow_mono {s t : ℕ} (h : s ≤ t) : (2 : ℝ) ^ s ≤ 2 ^ t := pow_le_pow_right₀ (by norm_num) h

/-- Rounding adds one to the size. -/
theorem rnd_size {s t : ℕ} (hs : 1 / 2 ^ s ≤ x) (ht : x ≤ 2 ^ s) (h : s + 1 ≤ t) :
    1 / 2 ^ t ≤ Double.rnd x ∧ Double.rnd x ≤ 2 ^ t := by
  have h0 : 0 ≤ x := (inv_pow_pos _).le.trans hs
  have h1 := rnd_le h0
  have h2 := rnd_low h0
  constructor
  · refine (inv_pow_anti h).trans ?_
    rw [← pow_half]; linarith
  · refine le_trans ?_ (pow_mono h)
    rw [pow_succ]; linarith

theorem has_add (ha : a.Has x) (hb : b.Has y) : (a + b).Has (Double.rnd (x + y)) ∧
    (x + y = 0 ∨ 1 / 2 ^ (a + b).s ≤ x + y ∧ x + y ≤ 2 ^ (a + b).s) := by
  have key : ∀ {z : ℝ}, 1 / 2 ^ (max a.s b.s) ≤ z → z ≤ 2 ^ (max a.s b.s) * 2 →
      (a + b).Has (Double.rnd z) ∧ (z = 0 ∨ 1 / 2 ^ (a + b).s ≤ z ∧ z ≤ 2 ^ (a + b).s) := by
    intro z h1 h2
    rw [← pow_succ] at h2
    refine ⟨.inr (rnd_size ((inv_pow_anti (Nat.le_succ _)).trans h1) h2 le_rfl), .inr ⟨?_, ?_⟩⟩
    · exact (inv_pow_anti (show max a.s b.s ≤ max a.s b.s + 2 by omega)).trans h1
    · exact h2.trans (pow_mono (show max a.s b.s + 1 ≤ max a.s b.s + 2 by omega))
  have pa := inv_pow_anti (le_max_left a.s b.s)
  have pb := inv_pow_anti (le_max_right a.s b.s)
  have qa := pow_mono (le_max_left a.s b.s)
  have qb := pow_mono (le_max_right a.s b.s)
  have p0 : (0 : ℝ) < 2 ^ max a.s b.s := by positivity
  have n1 := inv_pow_pos a.s
  have n2 := inv_pow_pos b.s
  rcases ha with ⟨rfl, ha⟩ | ⟨h1, h2⟩
  · rcases hb with ⟨rfl, hb⟩ | ⟨h3, h4⟩
    · refine ⟨.inl ⟨by rw [add_zero, rnd_zero], ?_⟩, .inl (add_zero _)⟩
      show (a.pos || b.pos) = false
      rw [ha, hb]; rfl
    · rw [zero_add]; exact key (by linarith) (by linarith)
  · rcases hb with ⟨rfl, hb⟩ | ⟨h3, h4⟩
    · rw [add_zero]; exact key (by linarith) (by linarith)
    · exact key (by linarith) (by linarith)

theorem has_mul (ha : a.Has x) (hb : b.Has y) : (a * b).Has (Double.rnd (x * y)) ∧
    (x * y = 0 ∨ 1 / 2 ^ (a * b).s ≤ x * y ∧ x * y ≤ 2 ^ (a * b).s) := by
  rcases ha with ⟨rfl, ha⟩ | ⟨h1, h2⟩
  · refine ⟨.inl ⟨by rw [zero_mul, rnd_zero], ?_⟩, .inl (zero_mul _)⟩
    show (a.pos && b.pos) = false
    rw [ha]; rfl
  · rcases hb with ⟨rfl, hb⟩ | ⟨h3, h4⟩
    · refine ⟨.inl ⟨by rw [mul_zero, rnd_zero], ?_⟩, .inl (mul_zero _)⟩
      show (a.pos && b.pos) = false
      rw [hb]; simp
    · have n1 := inv_pow_pos a.s
      have n2 := inv_pow_pos b.s
      have k1 : 1 / 2 ^ (a.s + b.s) ≤ x * y := by
        rw [pow_add, ← one_div_mul_one_div]
        exact mul_le_mul h1 h3 n2.le (n1.le.trans h1)
      have k2 : x * y ≤ 2 ^ (a.s + b.s) := by
        rw [pow_add]
        exact mul_le_mul h2 h4 (n2.le.trans h3) (by positivity)
      exact ⟨.inr (rnd_size k1 k2 le_rfl), .inr ⟨(inv_pow_anti (Nat.le_succ _)).trans k1, k2.trans (pow_mono (Nat.le_succ _))⟩⟩

theorem has_div (ha : a.Has x) (hb : b.Has y) : (a / b).Has (Double.rnd (x / y)) ∧
    (x / y = 0 ∨ 1 / 2 ^ (a / b).s ≤ x / y ∧ x / y ≤ 2 ^ (a / b).s) := by
  rcases ha with ⟨rfl, ha⟩ | ⟨h1, h2⟩
  · refine ⟨.inl ⟨by rw [zero_div, rnd_zero], ?_⟩, .inl (zero_div _)⟩
    show (a.pos && b.pos) = false
    rw [ha]; rfl
  · rcases hb with ⟨rfl, hb⟩ | ⟨h3, h4⟩
    · refine ⟨.inl ⟨by rw [div_zero, rnd_zero], ?_⟩, .inl (div_zero _)⟩
      show (a.pos && b.pos) = false
      rw [hb]; simp
    · have n1 := inv_pow_pos a.s
      have n2 := inv_pow_pos b.s
      have hy : 0 < y := n2.trans_le h3
      have hle : a.s + b.s + 1 ≤ (a / b).s := by
        show a.s + b.s + 1 ≤ a.s + b.s + if b.pos then 1 else 2000
        split_ifs <;> omega
      have k1 : 1 / 2 ^ (a.s + b.s) ≤ x / y := by
        rw [le_div_iff₀ hy, pow_add, ← one_div_mul_one_div, mul_assoc]
        have : 1 / 2 ^ b.s * y ≤ 1 := by
          rw [one_div, inv_mul_le_iff₀ (by positivity), mul_one]; exact h4
        nlinarith
      have k2 : x / y ≤ 2 ^ (a.s + b.s) := by
        rw [div_le_iff₀ hy, pow_add, mul_assoc]
        have : 1 ≤ 2 ^ b.s * y := by
          rw [div_le_iff₀ (by positivity)] at h3; linarith
        have p : (0 : ℝ) < 2 ^ a.s := by positivity
        nlinarith
      exact ⟨.inr (rnd_size k1 k2 hle), .inr ⟨(inv_pow_anti (by omega)).trans k1, k2.trans (pow_mono (by omega))⟩⟩

theorem has_sqrt (ha : a.Has x) : (sqrt a).Has (Double.rnd √x) ∧
    (√x = 0 ∨ 1 / 2 ^ (sqrt a).s ≤ √x ∧ √x ≤ 2 ^ (sqrt a).s) := by
  rcases ha with ⟨rfl, ha⟩ | ⟨h1, h2⟩
  · exact ⟨.inl ⟨by rw [Real.sqrt_zero, rnd_zero], ha⟩, .inl Real.sqrt_zero⟩
  · have k1 : 1 / 2 ^ a.s ≤ √x := by
      refine Real.le_sqrt_of_sq_le (le_trans ?_ h1)
      rw [sq]
      exact mul_le_of_le_one_left (inv_pow_pos _).le
        (div_le_one_of_le₀ (one_le_pow₀ (by norm_num)) (by positivity))
    have k2 : √x ≤ 2 ^ a.s := by
      rw [Real.sqrt_le_left (by positivity), sq]
      refine h2.trans (le_mul_of_one_le_left (by positivity) (one_le_pow₀ (by norm_num)))
    exact ⟨.inr (rnd_size k1 k2 le_rfl), .inr ⟨(inv_pow_anti (Nat.le_succ _)).trans k1, k2.trans (pow_mono (Nat.le_succ _))⟩⟩

theorem has_cast {c : ℕ} {cast : ℕ → ℝ} (hc : Converts c cast) (h2 : c ≤ 2) (n : ℕ) : (n : Mag).Has (cast n) := by
  rcases Nat.eq_zero_or_pos n with rfl | hn
  · left
    refine ⟨?_, rfl⟩
    have := hc.1 0 (by norm_num)
    simpa using this
  · right
    obtain ⟨-, l, u⟩ := (hc.2 n).mono h2
    have e1 : (2 : ℝ) ^ Nat.log 2 n ≤ n := by exact_mod_cast Nat.pow_log_le_self 2 hn.ne'
    have e2 : (n : ℝ) ≤ 2 ^ (Nat.log 2 n + 1) := by exact_mod_cast (Nat.lt_pow_succ_log_self (by norm_num) n).le
    have e3 : (1 : ℝ) ≤ n := by exact_mod_cast hn
    show 1 / 2 ^ (Nat.log 2 n + 2) ≤ cast n ∧ cast n ≤ 2 ^ (Nat.log 2 n + 2)
    constructor
    · have q : (1 : ℝ) / 2 ^ (Nat.log 2 n + 2) ≤ 1 / 2 ^ 1 := inv_pow_anti (by omega)
      refine q.trans (le_trans ?_ l)
      norm_num at l ⊢
      linarith
    · refine u.trans ?_
      rw [pow_succ _ (Nat.log 2 n + 1)]
      refine mul_le_mul e2 (by norm_num) (by positivity) (by positivity)

end

/-! ### Estimates together with their sizes -/

/-- An estimate with unbounded and with bounded exponent, and its size. -/
structure Sized (c : ℕ) (cast : ℕ → ℝ) (hc : Converts c cast) (h2 : c ≤ 2) where
  mag : Mag
  dbl : Dbl cast
  ieee : Val cast
  has : mag.Has dbl.val
  ok : mag.s ≤ 1022 → ieee = .fin dbl.val

section
variable {c : ℕ} {cast : ℕ → ℝ} {hc : Converts c cast} {h2 : c ≤ 2}

theorem range_mono {s : ℕ} {x : ℝ} (h : s ≤ 1022) (hx : x = 0 ∨ 1 / 2 ^ s ≤ x ∧ x ≤ 2 ^ s) :
    x = 0 ∨ 1 / 2 ^ 1022 ≤ x ∧ x ≤ 2 ^ 1022 :=
  hx.imp id fun k => ⟨(inv_pow_anti h).trans k.1, k.2.trans (pow_mono h)⟩

noncomputable instance : Add (Sized c cast hc h2) := ⟨fun a b => ⟨a.mag + b.mag, a.dbl + b.dbl, a.ieee + b.ieee,
  (has_add a.has b.has).1, fun h => by
    have hs : max a.mag.s b.mag.s + 2 ≤ 1022 := h
    rw [a.ok (by omega), b.ok (by omega)]
    exact round_eq (add_nonneg (has_nonneg a.has) (has_nonneg b.has)) (range_mono h (has_add a.has b.has).2)⟩⟩

noncomputable instance : Mul (Sized c cast hc h2) := ⟨fun a b => ⟨a.mag * b.mag, a.dbl * b.dbl, a.ieee * b.ieee,
  (has_mul a.has b.has).1, fun h => by
    have hs : a.mag.s + b.mag.s + 1 ≤ 1022 := h
    rw [a.ok (by omega), b.ok (by omega)]
    exact round_eq (mul_nonneg (has_nonneg a.has) (has_nonneg b.has)) (range_mono h (has_mul a.has b.has).2)⟩⟩

noncomputable instance : Div (Sized c cast hc h2) := ⟨fun a b => ⟨a.mag / b.mag, a.dbl / b.dbl, a.ieee / b.ieee,
  (has_div a.has b.has).1, fun h => by
    have hs : a.mag.s + b.mag.s + (if b.mag.pos then 1 else 2000) ≤ 1022 := h
    cases hp : b.mag.pos with
    | false => rw [hp] at hs; simp at hs
    | true =>
      rw [a.ok (by omega), b.ok (by omega)]
      refine Eq.trans (if_neg (has_ne b.has hp)) ?_
      exact round_eq (div_nonneg (has_nonneg a.has) (has_nonneg b.has)) (range_mono h (has_div a.has b.has).2)⟩⟩

noncomputable instance : NatCast (Sized c cast hc h2) := ⟨fun n => ⟨n, n, n, has_cast hc h2 n, fun _ => rfl⟩⟩

noncomputable instance : Sqrt (Sized c cast hc h2) := ⟨fun a => ⟨sqrt a.mag, sqrt a.dbl, sqrt a.ieee,
  (has_sqrt a.has).1, fun h => by
    have hs : a.mag.s + 1 ≤ 1022 := h
    rw [a.ok (by omega)]
    refine Eq.trans (if_neg (not_lt.mpr (has_nonneg a.has))) ?_
    exact round_eq (Real.sqrt_nonneg _) (range_mono h (has_sqrt a.has).2)⟩⟩

noncomputable instance : Zero (Sized c cast hc h2) := ⟨⟨0, 0, 0, .inl ⟨rfl, rfl⟩, fun _ => rfl⟩⟩

theorem hom_mag : IsHom (Sized.mag (c := c) (cast := cast) (hc := hc) (h2 := h2)) :=
  ⟨fun _ _ => rfl, fun _ _ => rfl, fun _ _ => rfl, fun _ => rfl⟩

theorem hom_sized : IsHom (Sized.dbl (c := c) (cast := cast) (hc := hc) (h2 := h2)) :=
  ⟨fun _ _ => rfl, fun _ _ => rfl, fun _ _ => rfl, fun _ => rfl⟩

theorem hom_ieee : IsHom (Sized.ieee (c := c) (cast := cast) (hc := hc) (h2 := h2)) :=
  ⟨fun _ _ => rfl, fun _ _ => rfl, fun _ _ => rfl, fun _ => rfl⟩

end

/-! ### The constants -/

theorem log_le {n k : ℕ} (h : n < 2 ^ (k + 1)) : Nat.log 2 n ≤ k := Nat.lt_succ_iff.mp (Nat.log_lt_of_lt_pow' (by omega) h)

section
variable (a b : Mag)

theorem add_s : (a + b).s = max a.s b.s + 2 := rfl
theorem mul_s : (a * b).s = a.s + b.s + 1 := rfl
theorem div_s : (a / b).s = a.s + b.s + if b.pos then 1 else 2000 := rfl
theorem sqrt_s : (sqrt a).s = a.s + 1 := rfl
theorem cast_s (n : ℕ) : (n : Mag).s = Nat.log 2 n + 2 := rfl

end

theorem shl1_inv {k x : ℕ} (h : shl1 k = .ok x) : x = 2 ^ k ∧ k < 31 := by
  unfold shl1 at h
  split_ifs at h with hk
  cases h
  exact ⟨rfl, hk⟩

section
variable {logN logT : ℕ} (hN : logN < 31) (hT : logT < 2 ^ 31)
include hN hT

theorem mag_consts : let K := consts (⟨logN, logT, ⟨100, false⟩⟩ : RParams Mag)
    K.plaintext.s ≤ 110 ∧ K.secretKey.s ≤ 1022 ∧ K.publicKey.s ≤ 1022 ∧
      ∀ n b d e, n < 2 ^ 31 → d < 2 ^ 31 → K.switch n b d = .ok e → e.s ≤ 1022 := by
  have p2 : (2 : ℕ) ^ logN < 2 ^ 31 := Nat.pow_lt_pow_right (by norm_num) hN
  have c3 : ((3 : ℕ) : Mag).s ≤ 3 := by decide
  have c6 : ((6 : ℕ) : Mag).s ≤ 4 := by decide
  have c8 : ((8 : ℕ) : Mag).s ≤ 5 := by decide
  have q3 : (sqrt ((3 : ℕ) : Mag)).pos = true := rfl
  have cT : ((logT ^ 2 : ℕ) : Mag).s ≤ 63 := by
    have : logT ^ 2 < 2 ^ (61 + 1) := by
      have := Nat.pow_lt_pow_left hT (n := 2) (by norm_num)
      exact this.trans_le (by norm_num)
    have := log_le this
    rw [cast_s]; omega
  have cN : ((2 ^ logN : ℕ) : Mag).s ≤ 32 := by
    have := log_le (k := 30) p2
    rw [cast_s]; omega
  have c72 : ((72 * 2 ^ logN : ℕ) : Mag).s ≤ 39 := by
    have := log_le (n := 72 * 2 ^ logN) (k := 37) (by omega)
    rw [cast_s]; omega
  intro K
  refine ⟨?_, ?_, ?_, fun n b d e hn hd h => ?_⟩
  · show (RParams.bPlaintext (E := Mag) _).s ≤ _
    simp only [RParams.bPlaintext, RParams.exportT, mul_s, sqrt_s]; omega
  · show (RParams.bSecretKey (E := Mag) _).s ≤ _
    simp only [RParams.bSecretKey, RParams.exportT, mul_s, add_s, sqrt_s]; omega
  · show (RParams.bPublicKey (E := Mag) _).s ≤ _
    simp only [RParams.bPublicKey, RParams.exportT, mul_s, add_s, sqrt_s]; omega
  · obtain ⟨x, hx, h⟩ := bind_inv h
    obtain ⟨y, hy, h⟩ := bind_inv h
    cases h
    obtain ⟨rfl, hx'⟩ := shl1_inv hx
    obtain ⟨rfl, -⟩ := shl1_inv hy
    have hb : ((2 ^ b : ℕ) : Mag).s ≤ 32 := by
      have := log_le (k := 30) (Nat.pow_lt_pow_right (by norm_num) hx' : 2 ^ b < 2 ^ 31)
      rw [cast_s]; omega
    have h1 := log_le (k := 30) hn
    have h2 := log_le (k := 30) hd
    simp only [RParams.exportT, mul_s, div_s, q3, sqrt_s, cast_s n, cast_s d, if_true]
    omega

end

section
variable {c : ℕ} {cast : ℕ → ℝ}

/-- The constants with unbounded and with bounded exponents agree. -/
structure Agree (K : Consts (Dbl cast)) (K' : Consts (Val cast)) : Prop where
  plaintext : K'.plaintext = lift K.plaintext
  plaintextHas : ∃ a : Mag, a.s ≤ 110 ∧ a.Has K.plaintext.val
  secretKey : K'.secretKey = lift K.secretKey
  publicKey : K'.publicKey = lift K.publicKey
  switch : ∀ n b d, n < 2 ^ 31 → d < 2 ^ 31 → K'.switch n b d = lift <$> K.switch n b d
  switchNonneg : ∀ n b d e, K.switch n b d = .ok e → 0 ≤ e.val

theorem consts_agree (hc : Converts c cast) (h2 : c ≤ 2) {P : RParams (Dbl cast)} (hP : ChosenParams P) :
    Agree (consts P) (consts (ieeeParams P)) := by
  obtain ⟨hN, hT, hσ⟩ := hP
  let Q : RParams (Sized c cast hc h2) := ⟨P.logN, P.logT, ⟨⟨100, false⟩, P.sigma, .fin P.sigma.val,
    hσ.imp (fun h => ⟨h, rfl⟩) id, fun _ => rfl⟩⟩
  have eD : (consts Q).map Sized.dbl = consts P := consts_map hom_sized (fun _ => rfl) Q
  have eI : (consts Q).map Sized.ieee = consts (ieeeParams P) := consts_map hom_ieee (fun _ => rfl) Q
  have eM : (consts Q).map Sized.mag = _ := consts_map hom_mag (fun _ => rfl) Q
  have hm := mag_consts hN hT
  rw [show consts (⟨P.logN, P.logT, ⟨100, false⟩⟩ : RParams Mag) = (consts Q).map Sized.mag from eM.symm] at hm
  obtain ⟨m1, m2, m3, m4⟩ := hm
  rw [← eD, ← eI]
  generalize consts Q = K at *
  refine ⟨K.plaintext.ok (m1.trans (by norm_num)), ⟨_, m1, K.plaintext.has⟩, K.secretKey.ok m2, K.publicKey.ok m3,
    fun n b d hn hd => ?_, fun n b d e h => ?_⟩
  · have := m4 n b d
    show Sized.ieee <$> K.switch n b d = lift <$> (Sized.dbl <$> K.switch n b d)
    change ∀ e, _ → _ → Sized.mag <$> K.switch n b d = .ok e → _ at this
    cases hs : K.switch n b d with
    | ok s =>
      rw [hs] at this
      exact congrArg Outcome.ok (s.ok (this s.mag hn hd rfl))
    | err s => rfl
    | ub s => rfl
  · change Sized.dbl <$> K.switch n b d = .ok e at h
    cases hs : K.switch n b d with
    | ok s => rw [hs] at h; cases h; exact has_nonneg s.has
    | err s => rw [hs] at h; cases h
    | ub s => rw [hs] at h; cases h

end

/-! ### The calls -/

section
variable {c : ℕ} {cast : ℕ → ℝ}

theorem ordinary_nonneg {x : ℝ} (h : Ordinary x) : 0 ≤ x := by
  rcases h with rfl | h
  · exact le_rfl
  · exact (inv_pow_pos _).le.trans h.1

theorem round_ordinary {x : ℝ} (h : 0 ≤ x) (hr : Ordinary (Double.rnd x)) :
    (Val.round x : Val cast) = .fin (Double.rnd x) :=
  round_result h (hr.imp id fun k => ⟨(inv_pow_anti (by norm_num)).trans k.1, k.2.trans (pow_mono (by norm_num))⟩)

theorem lift_add {a b : Dbl cast} (ha : 0 ≤ a.val) (hb : 0 ≤ b.val) (h : Ordinary (a + b).val) :
    lift a + lift b = lift (a + b) := round_ordinary (add_nonneg ha hb) h

theorem lift_mul {a b : Dbl cast} (ha : 0 ≤ a.val) (hb : 0 ≤ b.val) (h : Ordinary (a * b).val) :
    lift a * lift b = lift (a * b) := round_ordinary (mul_nonneg ha hb) h

theorem lift_half (hc : Converts c cast) (h2 : c ≤ 2) {z : ℕ} (hz : z < 2 ^ 256) :
    (z : Val cast) / ((2 : ℕ) : Val cast) = lift ((z : Dbl cast) / ((2 : ℕ) : Dbl cast)) ∧
      0 ≤ ((z : Dbl cast) / ((2 : ℕ) : Dbl cast)).val := by
  let w : Sized c cast hc h2 := (z : Sized c cast hc h2) / ((2 : ℕ) : Sized c cast hc h2)
  refine ⟨w.ok ?_, has_nonneg w.has⟩
  show ((z : Mag) / ((2 : ℕ) : Mag)).s ≤ 1022
  have := log_le (k := 255) hz
  have e : ((2 : ℕ) : Mag).pos = true := rfl
  have e2 : ((2 : ℕ) : Mag).s ≤ 3 := by decide
  rw [div_s, e, if_pos rfl, cast_s]
  omega

/-- The product inside a sum. -/
theorem lift_fused {a b k : Dbl cast} {m : Mag} (ha : 0 ≤ a.val) (hb : Ordinary b.val) (hm : m.s ≤ 110)
    (hk : m.Has k.val) (h : Ordinary (a + b * k).val) : lift a + lift b * lift k = lift (a + b * k) := by
  have kn := has_nonneg hk
  have bn := ordinary_nonneg hb
  have pn : 0 ≤ b.val * k.val := mul_nonneg bn kn
  have e : lift b * lift k = lift (b * k) := by
    refine round_result pn ?_
    have up : Double.rnd (b.val * k.val) ≤ 2 ^ 1020 := by
      have h1 := rnd_low (add_nonneg ha (Double.rnd_nonneg pn))
      have h2 : Double.rnd (a.val + Double.rnd (b.val * k.val)) ≤ 2 ^ 1000 := by
        rcases h with h | h
        · exact (le_of_eq h).trans (by positivity)
        · exact h.2
      have h3 : (2 : ℝ) ^ 1001 ≤ 2 ^ 1020 := pow_mono (by norm_num)
      rw [pow_succ _ 1000] at h3
      have h4 := Double.rnd_nonneg pn
      have h5 : Double.rnd (b.val * k.val) / 2 ≤ 2 ^ 1000 :=
        le_trans (div_le_div_of_nonneg_right (le_add_of_nonneg_left ha) (by norm_num)) (h1.trans h2)
      generalize (2 : ℝ) ^ 1000 = w at *
      linarith
    rcases hb with hb | hb
    · left; rw [hb, zero_mul, rnd_zero]
    · rcases hk with ⟨hk, -⟩ | hk
      · left; rw [hk, mul_zero, rnd_zero]
      · right
        refine ⟨?_, up⟩
        have h1 : 1 / 2 ^ (900 + 110) ≤ b.val * k.val := by
          rw [pow_add, ← one_div_mul_one_div]
          exact mul_le_mul hb.1 ((inv_pow_anti hm).trans hk.1) (inv_pow_pos _).le bn
        have h2 := rnd_low pn
        refine le_trans ?_ h2
        refine (inv_pow_anti (show 900 + 110 + 1 ≤ 1020 by norm_num)).trans ?_
        rw [← pow_half]
        linarith
  rw [e]
  exact lift_add ha (Double.rnd_nonneg pn) h

/-- The outcomes agree if the result is ordinary. -/
def OAgree (o : Outcome (Dbl cast)) (o' : Outcome (Val cast)) : Prop :=
  (∀ d, o = .ok d → Ordinary d.val → o' = .ok (lift d)) ∧ (∀ s, o = .err s → o' = .err s) ∧
    ∀ s, o = .ub s → o' = .ub s

theorem oagree_ok {d : Dbl cast} {v : Val cast} (h : Ordinary d.val → v = lift d) :
    OAgree (.ok d) (.ok v) :=
  ⟨fun e he ho => by (cases he; rw [h ho]), fun s h => by (cases h), fun s h => by (cases h)⟩

theorem oagree_map (o : Outcome (Dbl cast)) : OAgree o (lift <$> o) :=
  ⟨fun d h _ => by rw [h]; rfl, fun s h => by rw [h]; rfl, fun s h => by rw [h]; rfl⟩

theorem oagree_bind {α : Type} {o : Outcome α} {f : α → Outcome (Dbl cast)} {g : α → Outcome (Val cast)}
    (h : ∀ a, o = .ok a → OAgree (f a) (g a)) : OAgree (o >>= f) (o >>= g) := by
  cases o with
  | ok a => exact h a rfl
  | err s => exact ⟨fun _ h => by (cases h), fun _ h => by (cases h; rfl), fun _ h => by (cases h)⟩
  | ub s => exact ⟨fun _ h => by (cases h), fun _ h => by (cases h), fun _ h => by (cases h; rfl)⟩

theorem rd_ordinary {es : List (Dbl cast)} (hes : ∀ e ∈ es, Ordinary e.val) {a : ℕ} {e : Dbl cast} (h : rd es a = .ok e) :
    Ordinary e.val := hes e (rd_mem h)

/-- A call does the same to the estimates. -/
def EAgree (es : List (Dbl cast)) : Effect (Dbl cast) → Effect (Val cast) → Prop
  | .none, .none => True
  | .push o, .push o' => OAgree o o'
  | .set a o, .set a' o' => a = a' ∧ OAgree o o' ∧ ∀ d, o = .ok d → a < es.length
  | _, _ => False

theorem step_agree {m : Mem} {es : List (Dbl cast)} {r : Res Mem} {f : Effect (Dbl cast)} {f' : Effect (Val cast)}
    (h : EAgree es f f') (ho : ∀ e ∈ (step m es r f).1.2, Ordinary e.val) :
    step m (es.map lift) r f' = mapRes (Prod.map id (List.map lift)) (step m es r f) := by
  obtain ⟨m', o⟩ := r
  cases o with
  | err s => rfl
  | ub s => rfl
  | ok u =>
    cases f with
    | none => cases f' with
      | none => rfl
      | push o' => exact h.elim
      | set a o' => exact h.elim
    | push o => cases f' with
      | none => exact h.elim
      | set a o' => exact h.elim
      | push o' =>
        obtain ⟨h1, h2, h3⟩ := h
        cases o with
        | ok d =>
          rw [h1 d rfl (ho d (by simp [step, withTemp]))]
          simp [step, withTemp, mapRes]
        | err s => rw [h2 s rfl]; rfl
        | ub s => rw [h3 s rfl]; rfl
    | set a o => cases f' with
      | none => exact h.elim
      | push o' => exact h.elim
      | set a' o' =>
        obtain ⟨rfl, ⟨h1, h2, h3⟩, h4⟩ := h
        cases o with
        | ok d =>
          rw [h1 d rfl (ho d (by simp only [step, withTemp]; exact List.mem_set (h4 d rfl) d))]
          simp [step, withTemp, mapRes, List.map_set]
        | err s => rw [h2 s rfl]; rfl
        | ub s => rw [h3 s rfl]; rfl

/-- Programs: all states on the way are ordinary. -/
theorem runWith_agree {C : Type} {run : Mem → C → Res Mem} {f : Mem → List (Dbl cast) → C → Effect (Dbl cast)}
    {f' : Mem → List (Val cast) → C → Effect (Val cast)} (cs : List C)
    (h : ∀ m es, ∀ k ∈ cs, OrdinaryState m es → EAgree es (f m es k) (f' m (es.map lift) k)) (m : Mem)
    (es : List (Dbl cast))
    (ho : ∀ i, OrdinaryState (runWith run f m es (cs.take i)).2.1 (runWith run f m es (cs.take i)).2.2) :
    runWith run f' m (es.map lift) cs =
      ((runWith run f m es cs).1, (runWith run f m es cs).2.1, (runWith run f m es cs).2.2.map lift) := by
  induction cs generalizing m es with
  | nil => rfl
  | cons k cs ih =>
    have e := step_agree (m := m) (r := run m k) (h m es k (by simp) (ho 0)) (ho 1).1
    simp only [runWith]
    rw [e]
    show ((step m es (run m k) (f m es k)).2 :: (runWith run f' (step m es (run m k) (f m es k)).1.1
      (List.map lift (step m es (run m k) (f m es k)).1.2) cs).1, (runWith run f' (step m es (run m k) (f m es k)).1.1
      (List.map lift (step m es (run m k) (f m es k)).1.2) cs).2) = _
    rw [ih (fun m es k hk => h m es k (List.mem_cons_of_mem _ hk)) _ _ fun i => ho (i + 1)]

variable (hc : Converts c cast) (h2 : c ≤ 2) {K : Consts (Dbl cast)} {K' : Consts (Val cast)} (hK : Agree K K')
include hc h2 hK

theorem afterSwitch_agree {g : RGadget} (hg : g.dimension < 2 ^ 31) {n : ℕ} (hn : n < 2 ^ 31) {e : Dbl cast}
    (he : 0 ≤ e.val) : OAgree (afterSwitch K g n e) (afterSwitch K' g n (lift e)) := by
  unfold afterSwitch
  refine oagree_bind fun b _ => ?_
  rw [hK.switch n b g.dimension hn hg]
  cases hs : K.switch n b g.dimension with
  | ok s => exact oagree_ok fun h => lift_add he (hK.switchNonneg _ _ _ _ hs) h
  | err s => exact ⟨fun _ h => by (cases h), fun _ h => by (cases h; rfl), fun _ h => by (cases h)⟩
  | ub s => exact ⟨fun _ h => by (cases h), fun _ h => by (cases h), fun _ h => by (cases h; rfl)⟩

theorem bgvOp_agree {es : List (Dbl cast)} (hes : ∀ e ∈ es, Ordinary e.val) {e : Dbl cast} (he : Ordinary e.val)
    {op : RnsCtStore.Op} (hz : ∀ z, op = .scale z → z < 2 ^ 256) :
    OAgree (bgvOp K es e op) (bgvOp K' (es.map lift) (lift e) op) := by
  have hn := ordinary_nonneg he
  obtain ⟨m, hm, hp⟩ := hK.plaintextHas
  cases op with
  | negate => exact oagree_ok fun _ => rfl
  | addPlain i => exact oagree_ok fun _ => rfl
  | subPlain i => exact oagree_ok fun _ => rfl
  | reduce => exact oagree_ok fun _ => rfl
  | add b =>
    simp only [bgvOp, rd_map, bind_map]
    exact oagree_bind fun y hy => oagree_ok fun h => lift_add hn (ordinary_nonneg (rd_ordinary hes hy)) h
  | sub b =>
    simp only [bgvOp, rd_map, bind_map]
    exact oagree_bind fun y hy => oagree_ok fun h => lift_add hn (ordinary_nonneg (rd_ordinary hes hy)) h
  | absorb i =>
    simp only [bgvOp, hK.plaintext]
    exact oagree_ok fun h => lift_mul hn (has_nonneg hp) h
  | scale z =>
    obtain ⟨h3, h4⟩ := lift_half hc h2 (hz z rfl)
    simp only [bgvOp, h3]
    exact oagree_ok fun h => lift_mul hn h4 h
  | fused b i =>
    simp only [bgvOp, rd_map, bind_map, hK.plaintext]
    exact oagree_bind fun y hy => oagree_ok fun h => lift_fused hn (rd_ordinary hes hy) hm hp h

theorem bfvOp_agree {es : List (Dbl cast)} (hes : ∀ e ∈ es, Ordinary e.val) {e : Dbl cast} (he : Ordinary e.val)
    {op : RnsBfvStore.Op} (hz : ∀ z, op = .scale z → z < 2 ^ 256) :
    OAgree (bfvOp K es e op) (bfvOp K' (es.map lift) (lift e) op) := by
  have hn := ordinary_nonneg he
  obtain ⟨m, hm, hp⟩ := hK.plaintextHas
  cases op with
  | negate => exact oagree_ok fun _ => rfl
  | addPlain i => exact oagree_ok fun _ => rfl
  | subPlain i => exact oagree_ok fun _ => rfl
  | reduce => exact oagree_ok fun _ => rfl
  | add b =>
    simp only [bfvOp, rd_map, bind_map]
    exact oagree_bind fun y hy => oagree_ok fun h => lift_add hn (ordinary_nonneg (rd_ordinary hes hy)) h
  | sub b =>
    simp only [bfvOp, rd_map, bind_map]
    exact oagree_bind fun y hy => oagree_ok fun h => lift_add hn (ordinary_nonneg (rd_ordinary hes hy)) h
  | absorb i =>
    simp only [bfvOp, hK.plaintext]
    exact oagree_ok fun h => lift_mul hn (has_nonneg hp) h
  | absorbSimple i =>
    simp only [bfvOp, hK.plaintext]
    exact oagree_ok fun h => lift_mul hn (has_nonneg hp) h
  | scale z =>
    obtain ⟨h3, h4⟩ := lift_half hc h2 (hz z rfl)
    simp only [bfvOp, h3]
    exact oagree_ok fun h => lift_mul hn h4 h
  | fused b i =>
    simp only [bfvOp, rd_map, bind_map, hK.plaintext]
    exact oagree_bind fun y hy => oagree_ok fun h => lift_fused hn (rd_ordinary hes hy) hm hp h

theorem bgv_agree {v : Given} (hv : IntDimensions v) {m : Mem} {es : List (Dbl cast)} (hs : OrdinaryState m es)
    {k : RnsCtStore.Call} (hz : BgvScalars [k]) :
    EAgree es (bgvEffect K v m es k) (bgvEffect K' v m (es.map lift) k) := by
  obtain ⟨hes, hm⟩ := hs
  cases k with
  | encode u lev => trivial
  | input i => exact oagree_ok fun _ => hK.secretKey
  | received i => exact oagree_ok fun _ => hK.publicKey
  | copy a => simp only [bgvEffect, rd_map]; exact oagree_map _
  | opNew a op =>
    simp only [bgvEffect, rd_map, bind_map]
    exact oagree_bind fun e he => bgvOp_agree hc h2 hK hes (rd_ordinary hes he)
      fun z hop => hz a z (.inl (by simp [hop]))
  | opIn a op =>
    simp only [bgvEffect, rd_map, bind_map]
    refine ⟨rfl, oagree_bind fun e he => bgvOp_agree hc h2 hK hes (rd_ordinary hes he)
      fun z hop => hz a z (.inr (by simp [hop])), fun d h => ?_⟩
    obtain ⟨e, he, -⟩ := bind_inv h
    exact rd_lt he
  | mul a b =>
    simp only [bgvEffect, rd_map, bind_map]
    exact oagree_bind fun x hx => oagree_bind fun y hy => oagree_ok fun h =>
      lift_mul (ordinary_nonneg (rd_ordinary hes hx)) (ordinary_nonneg (rd_ordinary hes hy)) h
  | substitute a j => simp only [bgvEffect, rd_map]; exact oagree_map _
  | relin a lev =>
    simp only [bgvEffect, rd_map, bind_map]
    refine oagree_bind fun x hx => oagree_bind fun e he => afterSwitch_agree hc h2 hK (hv.1 lev) ?_
      (ordinary_nonneg (rd_ordinary hes he))
    exact (Nat.sub_le _ _).trans_lt (hm x (rd_mem hx))
  | galois a lev p =>
    simp only [bgvEffect, rd_map, bind_map]
    exact oagree_bind fun e he => afterSwitch_agree hc h2 hK (hv.2 lev p) (by norm_num)
      (ordinary_nonneg (rd_ordinary hes he))

theorem bfv_agree {v : Given} (hv : IntDimensions v) {m : Mem} {es : List (Dbl cast)} (hs : OrdinaryState m es)
    {k : RnsBfvStore.Call} (hz : BfvScalars [k]) :
    EAgree es (bfvEffect K v m es k) (bfvEffect K' v m (es.map lift) k) := by
  obtain ⟨hes, hm⟩ := hs
  cases k with
  | encode u lev scaled => trivial
  | input i => exact oagree_ok fun _ => hK.secretKey
  | received i => exact oagree_ok fun _ => hK.publicKey
  | copy a => simp only [bfvEffect, rd_map]; exact oagree_map _
  | opNew a op =>
    simp only [bfvEffect, rd_map, bind_map]
    exact oagree_bind fun e he => bfvOp_agree hc h2 hK hes (rd_ordinary hes he)
      fun z hop => hz a z (.inl (by simp [hop]))
  | opIn a op =>
    simp only [bfvEffect, rd_map, bind_map]
    refine ⟨rfl, oagree_bind fun e he => bfvOp_agree hc h2 hK hes (rd_ordinary hes he)
      fun z hop => hz a z (.inr (by simp [hop])), fun d h => ?_⟩
    obtain ⟨e, he, -⟩ := bind_inv h
    exact rd_lt he
  | mul a b =>
    simp only [bfvEffect, rd_map, bind_map]
    exact oagree_bind fun x hx => oagree_bind fun y hy => oagree_ok fun h =>
      lift_mul (ordinary_nonneg (rd_ordinary hes hx)) (ordinary_nonneg (rd_ordinary hes hy)) h
  | substitute a j => simp only [bfvEffect, rd_map]; exact oagree_map _
  | relin a lev =>
    simp only [bfvEffect, rd_map, bind_map]
    refine oagree_bind fun x hx => oagree_bind fun e he => afterSwitch_agree hc h2 hK (hv.1 lev) ?_
      (ordinary_nonneg (rd_ordinary hes he))
    exact (Nat.sub_le _ _).trans_lt (hm x (rd_mem hx))
  | galois a lev p =>
    simp only [bfvEffect, rd_map, bind_map]
    exact oagree_bind fun e he => afterSwitch_agree hc h2 hK (hv.2 lev p) (by norm_num)
      (ordinary_nonneg (rd_ordinary hes he))

end

/-! ### Infinite estimates stay -/

section
variable {cast : ℕ → ℝ} {a b : Val cast}

theorem finite_add (h : IsFinite (a + b)) : IsFinite a ∧ IsFinite b := by
  obtain ⟨x, h⟩ := h
  cases a <;> cases b <;> first
    | exact ⟨⟨_, rfl⟩, ⟨_, rfl⟩⟩
    | cases h

theorem finite_mul (h : IsFinite (a * b)) : IsFinite a ∧ IsFinite b := by
  obtain ⟨x, h⟩ := h
  cases a with
  | nan => cases h
  | fin y => cases b with
    | fin z => exact ⟨⟨_, rfl⟩, ⟨_, rfl⟩⟩
    | nan => cases h
    | inf =>
      change (if y = 0 then _ else _) = _ at h
      split_ifs at h
  | inf => cases b with
    | nan => cases h
    | inf => cases h
    | fin z =>
      change (if z = 0 then _ else _) = _ at h
      split_ifs at h

/-- All of the estimates with the given numbers are finite. -/
def FiniteAt (es : List (Val cast)) (l : List ℕ) : Prop := ∀ j ∈ l, ∀ v, es[j]? = some v → IsFinite v

theorem rd_get {α : Type} {l : List α} {j : ℕ} {x : α} (h : rd l j = .ok x) : l[j]? = some x := by
  unfold rd at h
  cases hj : l[j]? with
  | none => rw [hj] at h; cases h
  | some y => rw [hj] at h; cases h; rfl

theorem finite_one {es : List (Val cast)} {j : ℕ} {e : Val cast} (he : rd es j = .ok e) (h : IsFinite e) :
    FiniteAt es [j] := by
  intro k hk v hv
  rw [List.mem_singleton.mp hk, rd_get he] at hv
  cases hv
  exact h

theorem finite_two {es : List (Val cast)} {j k : ℕ} {e f : Val cast} (he : rd es j = .ok e) (hf : rd es k = .ok f)
    (h : IsFinite e) (h' : IsFinite f) : FiniteAt es [j, k] := by
  intro i hi v hv
  rcases List.mem_cons.mp hi with rfl | hi
  · exact finite_one he h _ (by simp) v hv
  · exact finite_one hf h' _ hi v hv

theorem new_ok {E : Type} {o : Outcome E} {e : E} (h : newEstimate (.push o) = some e) : o = .ok e := by
  cases o <;> cases h
  rfl

theorem new_set {E : Type} {j : ℕ} {o : Outcome E} {e : E} (h : newEstimate (.set j o) = some e) : o = .ok e := by
  cases o <;> cases h
  rfl

theorem switch_finite {K : Consts (Val cast)} {g : RGadget} {n : ℕ} {e r : Val cast} (h : afterSwitch K g n e = .ok r)
    (hr : IsFinite r) : IsFinite e := by
  obtain ⟨b, -, h⟩ := bind_inv h
  obtain ⟨s, -, h⟩ := bind_inv h
  cases h
  exact (finite_add hr).1

theorem bgvOp_finite {K : Consts (Val cast)} {es : List (Val cast)} {j : ℕ} {op : RnsCtStore.Op} {r : Val cast}
    (h : (do bgvOp K es (← rd es j) op) = .ok r) (hr : IsFinite r) : FiniteAt es (bgvOperands (.opNew j op)) := by
  obtain ⟨e, he, h⟩ := bind_inv h
  cases op with
  | negate => cases h; exact finite_one he hr
  | addPlain i => cases h; exact finite_one he hr
  | subPlain i => cases h; exact finite_one he hr
  | reduce => cases h; exact finite_one he hr
  | absorb i => cases h; exact finite_one he (finite_mul hr).1
  | scale z => cases h; exact finite_one he (finite_mul hr).1
  | add b =>
    obtain ⟨y, hy, h⟩ := bind_inv h
    cases h
    exact finite_two he hy (finite_add hr).1 (finite_add hr).2
  | sub b =>
    obtain ⟨y, hy, h⟩ := bind_inv h
    cases h
    exact finite_two he hy (finite_add hr).1 (finite_add hr).2
  | fused b i =>
    obtain ⟨y, hy, h⟩ := bind_inv h
    cases h
    exact finite_two he hy (finite_add hr).1 (finite_mul (finite_add hr).2).1

theorem bfvOp_finite {K : Consts (Val cast)} {es : List (Val cast)} {j : ℕ} {op : RnsBfvStore.Op} {r : Val cast}
    (h : (do bfvOp K es (← rd es j) op) = .ok r) (hr : IsFinite r) : FiniteAt es (bfvOperands (.opNew j op)) := by
  obtain ⟨e, he, h⟩ := bind_inv h
  cases op with
  | negate => cases h; exact finite_one he hr
  | addPlain i => cases h; exact finite_one he hr
  | subPlain i => cases h; exact finite_one he hr
  | reduce => cases h; exact finite_one he hr
  | absorb i => cases h; exact finite_one he (finite_mul hr).1
  | absorbSimple i => cases h; exact finite_one he (finite_mul hr).1
  | scale z => cases h; exact finite_one he (finite_mul hr).1
  | add b =>
    obtain ⟨y, hy, h⟩ := bind_inv h
    cases h
    exact finite_two he hy (finite_add hr).1 (finite_add hr).2
  | sub b =>
    obtain ⟨y, hy, h⟩ := bind_inv h
    cases h
    exact finite_two he hy (finite_add hr).1 (finite_add hr).2
  | fused b i =>
    obtain ⟨y, hy, h⟩ := bind_inv h
    cases h
    exact finite_two he hy (finite_add hr).1 (finite_mul (finite_add hr).2).1

end

end Shell.Ieee
