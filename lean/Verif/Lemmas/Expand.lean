import Verif.Spec.Expand
import Verif.Spec.Poly
import Verif.Lemmas.SymSwitch
import Verif.Model.Expand
import Verif.Lemmas.Loop
/-!
Facts about substitutions and about the expansion of integer polynomials.
-/

namespace Shell.Expand
open Spec Finset

section
variable {R : Type*} [CommRing R] {n : ℕ}

/-- The coefficient of `X^k` in `X^m` modulo `X^n + 1`. -/
def sgn (R : Type*) [CommRing R] (n m k : ℕ) : R :=
  if m % (2 * n) = k then 1 else if m % (2 * n) = k + n then -1 else 0

theorem substPow_eq (e : ℕ) (f : Fin n → R) (k : Fin n) :
    substPow e f k = ∑ j : Fin n, sgn R n (j * e) k * f j := by
  unfold substPow sgn
  refine sum_congr rfl fun j _ => ?_
  split_ifs <;> simp

theorem sgn_add (m k : ℕ) (hk : k < n) : sgn R n (m + n) k = -sgn R n m k := by
  unfold sgn
  have hn : 0 < n := by omega
  have hr : m % (2 * n) < 2 * n := Nat.mod_lt _ (by omega)
  have e : (m + n) % (2 * n) = if m % (2 * n) < n then m % (2 * n) + n else m % (2 * n) - n := by
    rw [Nat.add_mod, Nat.mod_eq_of_lt (show n < 2 * n by omega)]
    split_ifs with h
    · exact Nat.mod_eq_of_lt (by omega)
    · rw [show m % (2 * n) + n = (m % (2 * n) - n) + 2 * n by omega, Nat.add_mod_right,
        Nat.mod_eq_of_lt (by omega)]
  rw [e]
  split_ifs <;> first | omega | simp

theorem sgn_mod (m k : ℕ) : sgn R n (m % (2 * n)) k = sgn R n m k := by
  unfold sgn; rw [Nat.mod_mod]

theorem sgn_congr {m m' : ℕ} (h : m % (2 * n) = m' % (2 * n)) (k : ℕ) : sgn R n m k = sgn R n m' k := by
  unfold sgn; rw [h]

/-- Composition of substitutions. -/
theorem substPow_comp (a b : ℕ) (ha : a % 2 = 1) (f : Fin n → R) :
    substPow a (substPow b f) = substPow (a * b) f := by
  funext k
  have hn : 0 < n := Fin.pos k
  rw [substPow_eq, substPow_eq]
  simp only [substPow_eq, mul_sum]
  rw [sum_comm]
  refine sum_congr rfl fun j _ => ?_
  simp only [← mul_assoc]
  rw [← sum_mul]
  congr 1
  set m := (j : ℕ) * b with hm
  set r := m % (2 * n) with hr
  have hr2 : r < 2 * n := Nat.mod_lt _ (by omega)
  have hma : (m * a) % (2 * n) = (r * a) % (2 * n) := by rw [hr, Nat.mod_mul_mod]
  have e1 : sgn R n (j * a * b) k = sgn R n (r * a) k := by
    apply sgn_congr
    rw [← hma, hm]
    congr 1
    ring
  rw [e1]
  by_cases h : r < n
  · rw [sum_eq_single_of_mem (⟨r, h⟩ : Fin n) (mem_univ _)]
    · have : sgn R n m r = 1 := by unfold sgn; rw [if_pos hr.symm]
      rw [this, mul_one]
    · intro i _ hi
      have : sgn R n m i = 0 := by
        unfold sgn
        rw [if_neg (fun e => hi (Fin.ext (by rw [← hr] at e; simpa using e.symm))),
          if_neg (by rw [← hr]; omega)]
      rw [this, mul_zero]
  · rw [sum_eq_single_of_mem (⟨r - n, by omega⟩ : Fin n) (mem_univ _)]
    · have : sgn R n m (r - n) = -1 := by
        unfold sgn; rw [← hr, if_neg (by omega), if_pos (by omega)]
      rw [this, mul_neg, mul_one]
      rw [← sgn_add _ _ k.isLt]
      apply sgn_congr
      obtain ⟨c, hc⟩ : ∃ c, a = 2 * c + 1 := ⟨a / 2, by omega⟩
      obtain ⟨d, hd⟩ : ∃ d, r = d + n := ⟨r - n, by omega⟩
      show ((r - n) * a + n) % (2 * n) = r * a % (2 * n)
      rw [hd, Nat.add_sub_cancel, hc]
      rw [show (d + n) * (2 * c + 1) = d * (2 * c + 1) + n + 2 * n * c by ring, Nat.add_mul_mod_self_left]
    · intro i _ hi
      have : sgn R n m i = 0 := by
        unfold sgn
        rw [← hr, if_neg (by omega), if_neg]
        intro e
        exact hi (Fin.ext (by simp; omega))
      rw [this, mul_zero]

theorem substPow_mod (e : ℕ) (f : Fin n → R) : substPow (e % (2 * n)) f = substPow e f := by
  funext k
  rw [substPow_eq, substPow_eq]
  refine sum_congr rfl fun j _ => ?_
  rw [sgn_congr (show (j * (e % (2 * n))) % (2 * n) = (j * e) % (2 * n) by rw [Nat.mul_mod_mod])]

theorem substPow_one (f : Fin n → R) : substPow 1 f = f := by
  funext k
  rw [substPow_eq, sum_eq_single_of_mem k (mem_univ _)]
  · unfold sgn; rw [if_pos (by rw [mul_one]; exact Nat.mod_eq_of_lt (by omega)), one_mul]
  · intro j _ hj
    unfold sgn
    rw [mul_one, Nat.mod_eq_of_lt (by omega), if_neg (fun e => hj (Fin.ext e)), if_neg (by omega), zero_mul]

theorem substPow_add (e : ℕ) (f g : Fin n → R) : substPow e (f + g) = substPow e f + substPow e g := by
  funext k
  simp only [substPow_eq, Pi.add_apply, mul_add, sum_add_distrib]

theorem substPow_sub (e : ℕ) (f g : Fin n → R) : substPow e (f - g) = substPow e f - substPow e g := by
  funext k
  simp only [substPow_eq, Pi.sub_apply, mul_sub, sum_sub_distrib]

/-- Substitution by an odd power (`n` a power of two) permutes the coefficients up to sign. -/
theorem substPow_single (l : ℕ) (e : ℕ) (he : e % 2 = 1) (f : Fin (2 ^ l) → R) (k : Fin (2 ^ l)) :
    substPow e f k = 0 ∨ ∃ j, substPow e f k = f j ∨ substPow e f k = -f j := by
  by_cases h : ∃ j : Fin (2 ^ l), sgn R (2 ^ l) (j * e) k ≠ 0
  · obtain ⟨j, hj⟩ := h
    right
    have hres : ∀ j : Fin (2 ^ l), sgn R (2 ^ l) (j * e) k ≠ 0 → (j * e) % 2 ^ l = k := by
      intro j hj
      unfold sgn at hj
      have hk := k.isLt
      have hd : (j * e) % (2 * 2 ^ l) % 2 ^ l = (j * e) % 2 ^ l := Nat.mod_mul_left_mod _ _ _
      split_ifs at hj with h1 h2
      · rw [← hd, h1, Nat.mod_eq_of_lt hk]
      · rw [← hd, h2, Nat.add_mod_right, Nat.mod_eq_of_lt hk]
      · exact absurd rfl hj
    have huniq : ∀ i : Fin (2 ^ l), sgn R (2 ^ l) (i * e) k ≠ 0 → i = j := by
      intro i hi
      have h1 := hres i hi
      have h2 := hres j hj
      have hc : Nat.Coprime (2 ^ l) e := by
        apply Nat.Coprime.pow_left
        rw [Nat.coprime_two_left, Nat.odd_iff]; exact he
      have h3 : (i : ℕ) * e ≡ j * e [MOD 2 ^ l] := h1.trans h2.symm
      have h4 := Nat.ModEq.cancel_right_of_coprime hc h3
      unfold Nat.ModEq at h4
      rw [Nat.mod_eq_of_lt i.isLt, Nat.mod_eq_of_lt j.isLt] at h4
      exact Fin.ext h4
    refine ⟨j, ?_⟩
    rw [substPow_eq, sum_eq_single_of_mem j (mem_univ _)]
    · unfold sgn at hj ⊢
      split_ifs at hj ⊢ with h1 h2
      · left; rw [one_mul]
      · right; rw [neg_mul, one_mul]
      · exact absurd rfl hj
    · intro i _ hi
      by_cases hz : sgn R (2 ^ l) (i * e) k = 0
      · rw [hz, zero_mul]
      · exact absurd (huniq i hz) hi
  · left
    rw [substPow_eq]
    refine sum_eq_zero fun j _ => ?_
    have : sgn R (2 ^ l) (j * e) k = 0 := by
      by_contra hc; exact h ⟨j, hc⟩
    rw [this, zero_mul]
end

/-! ### Small differences -/

section
variable {n : ℕ}

theorem _root_.Shell.Spec.Small.add {t a b : ℤ} {d e : Fin n → ℤ} (h1 : Small t a d) (h2 : Small t b e) :
    Small t (a + b) (d + e) := fun i =>
  ⟨dvd_add (h1 i).1 (h2 i).1, (abs_add_le _ _).trans (add_le_add (h1 i).2 (h2 i).2)⟩

theorem _root_.Shell.Spec.Small.sub {t a b : ℤ} {d e : Fin n → ℤ} (h1 : Small t a d) (h2 : Small t b e) :
    Small t (a + b) (d - e) := fun i =>
  ⟨dvd_sub (h1 i).1 (h2 i).1, (abs_sub _ _).trans (add_le_add (h1 i).2 (h2 i).2)⟩

theorem _root_.Shell.Spec.Small.subst {l : ℕ} {t b : ℤ} (hb : 0 ≤ b) {d : Fin (2 ^ l) → ℤ} (h : Small t b d) (e : ℕ)
    (he : e % 2 = 1) : Small t b (substPow e d) := by
  intro i
  rcases substPow_single l e he d i with h0 | ⟨j, h1 | h1⟩
  · rw [h0]; exact ⟨dvd_zero _, by simpa using hb⟩
  · rw [h1]; exact h j
  · rw [h1, abs_neg]; exact ⟨(dvd_neg).mpr (h j).1, (h j).2⟩

theorem _root_.Shell.Spec.Small.mono {t a b : ℤ} {d : Fin n → ℤ} (h : Small t a d) (hab : a ≤ b) : Small t b d :=
  fun i => ⟨(h i).1, (h i).2.trans hab⟩
end

/-! ### The monomial -/

/-- The integer monomial `-X^(n - c)`. -/
def monoZ (n c : ℕ) : Fin n → ℤ := fun i => if (i : ℕ) = n - c then -1 else 0

theorem negMul_monoZ {n : ℕ} (c : ℕ) (hc : 0 < c) (hcn : c ≤ n) (g : Fin n → ℤ) (i : Fin n) :
    negMul g (monoZ n c) i =
      if i + c < n then coef g (i + c) else -coef g (i + c - n) := by
  unfold negMul
  have hi := i.isLt
  have e : ∀ a : Fin n, (∑ j : Fin n, if (a : ℕ) + j = i then g a * monoZ n c j else
      if (a : ℕ) + j = i + n then -(g a * monoZ n c j) else 0) =
      if (a : ℕ) + (n - c) = i then -g a else if (a : ℕ) + (n - c) = i + n then g a else 0 := by
    intro a
    rw [sum_eq_single_of_mem (⟨n - c, by omega⟩ : Fin n) (mem_univ _)]
    · unfold monoZ; simp
    · intro j _ hj
      have : monoZ n c j = 0 := by
        unfold monoZ; rw [if_neg (fun e => hj (Fin.ext e))]
      rw [this]; simp
  rw [sum_congr rfl fun a _ => e a]
  by_cases h : (i : ℕ) + c < n
  · rw [if_pos h, sum_eq_single_of_mem (⟨i + c, h⟩ : Fin n) (mem_univ _)]
    · unfold coef; rw [dif_pos h, if_neg (by simp; omega), if_pos (by simp; omega)]
    · intro a _ ha
      rw [if_neg (by omega), if_neg]
      intro hh; exact ha (Fin.ext (by simp; omega))
  · rw [if_neg h, sum_eq_single_of_mem (⟨i + c - n, by omega⟩ : Fin n) (mem_univ _)]
    · unfold coef; rw [dif_pos (by omega), if_pos (by simp; omega)]
    · intro a _ ha
      rw [if_neg, if_neg (by omega)]
      intro hh; exact ha (Fin.ext (by simp; omega))

theorem _root_.Shell.Spec.Small.mono_mul {n : ℕ} {t b : ℤ} {d : Fin n → ℤ} (h : Small t b d) (c : ℕ)
    (hc : 0 < c) (hcn : c ≤ n) : Small t b (negMul d (monoZ n c)) := by
  intro i
  have hi := i.isLt
  rw [negMul_monoZ c hc hcn]
  split_ifs with h1
  · unfold coef; rw [dif_pos h1]; exact h _
  · unfold coef; rw [dif_pos (by omega), abs_neg]; exact ⟨(dvd_neg).mpr (h _).1, (h _).2⟩

theorem negMul_sub_left {n : ℕ} (f g s : Fin n → ℤ) : negMul (f - g) s = negMul f s - negMul g s := by
  funext k
  simp only [negMul, Pi.sub_apply, ← sum_sub_distrib]
  refine sum_congr rfl fun i _ => sum_congr rfl fun j _ => ?_
  split_ifs <;> ring

/-! ### One level -/

theorem expandTo_zero {n : ℕ} (f : Fin n → ℤ) : expandTo 0 0 f = f := by
  funext i
  unfold expandTo coef
  simp

/-- At level `j` the substitution changes the sign of the odd multiples of `2^j`. -/
theorem subst_expandTo {l j : ℕ} (hj : j < l) (k : ℕ) (f : Fin (2 ^ l) → ℤ) (i : Fin (2 ^ l)) :
    substPow ((2 ^ l >>> j) + 1) (expandTo j k f) i =
      if 2 ^ (j + 1) ∣ (i : ℕ) then expandTo j k f i else -expandTo j k f i := by
  have hdiv : 2 ^ l >>> j = 2 ^ (l - j) := by
    rw [Nat.shiftRight_eq_div_pow, Nat.pow_div (by omega) (by norm_num)]
  have hsplit : 2 ^ l = 2 ^ j * 2 ^ (l - j) := by rw [← pow_add]; congr 1; omega
  have hi := i.isLt
  rw [hdiv, substPow_eq]
  have hmul : ∀ u : ℕ, (2 ^ j * u) * (2 ^ (l - j) + 1) = 2 ^ l * u + 2 ^ j * u := by
    intro u; rw [hsplit]; ring
  have hsg : ∀ u v : ℕ, 2 ^ j * u < 2 ^ l → v < 2 ^ l →
      sgn ℤ (2 ^ l) (2 ^ j * u * (2 ^ (l - j) + 1)) v =
        if 2 ^ j * u = v then (if u % 2 = 0 then 1 else -1) else 0 := by
    intro u v hu hv
    unfold sgn
    rw [hmul]
    have hm : (2 ^ l * u + 2 ^ j * u) % (2 * 2 ^ l) = if u % 2 = 0 then 2 ^ j * u else 2 ^ j * u + 2 ^ l := by
      rcases Nat.mod_two_eq_zero_or_one u with h | h
      · rw [if_pos h]
        obtain ⟨c, hc⟩ : ∃ c, u = 2 * c := ⟨u / 2, by omega⟩
        rw [show 2 ^ l * u = 2 * 2 ^ l * c by rw [hc]; ring, Nat.mul_add_mod,
          Nat.mod_eq_of_lt (by omega)]
      · rw [if_neg (by omega)]
        obtain ⟨c, hc⟩ : ∃ c, u = 2 * c + 1 := ⟨u / 2, by omega⟩
        rw [show 2 ^ l * u + 2 ^ j * u = 2 * 2 ^ l * c + (2 ^ j * u + 2 ^ l) by
          nth_rw 1 [hc]; ring, Nat.mul_add_mod, Nat.mod_eq_of_lt (by omega)]
    rw [hm]
    split_ifs <;> first | omega | rfl
  rw [sum_eq_single_of_mem i (mem_univ _)]
  · by_cases hd : 2 ^ j ∣ (i : ℕ)
    · obtain ⟨u, hu⟩ := hd
      have := hsg u i (by omega) hi
      rw [if_pos hu.symm] at this
      rw [hu] at this ⊢
      rw [this]
      have hiff : (2 ^ (j + 1) ∣ 2 ^ j * u) ↔ u % 2 = 0 := by
        rw [pow_succ, Nat.mul_dvd_mul_iff_left (by positivity), Nat.dvd_iff_mod_eq_zero]
      simp only [hiff]
      split_ifs <;> ring
    · have : expandTo j k f i = 0 := by unfold expandTo; rw [if_neg hd]
      rw [this]; simp
  · intro m _ hm
    by_cases hd : 2 ^ j ∣ (m : ℕ)
    · obtain ⟨u, hu⟩ := hd
      have := hsg u i (by have := m.isLt; omega) hi
      rw [hu, this, if_neg (by rw [← hu]; exact fun e => hm (Fin.ext e)), zero_mul]
    · have : expandTo j k f m = 0 := by unfold expandTo; rw [if_neg hd]
      rw [this, mul_zero]

theorem expand_even {l j : ℕ} (hj : j < l) (k : ℕ) (f : Fin (2 ^ l) → ℤ) :
    expandTo j k f + substPow ((2 ^ l >>> j) + 1) (expandTo j k f) = expandTo (j + 1) k f := by
  funext i
  rw [Pi.add_apply, subst_expandTo hj]
  by_cases h : 2 ^ (j + 1) ∣ (i : ℕ)
  · rw [if_pos h]
    unfold expandTo
    rw [if_pos h, if_pos ((pow_dvd_pow 2 (Nat.le_succ j)).trans h)]
    ring
  · rw [if_neg h]
    conv_rhs => unfold expandTo
    rw [if_neg h]; ring

theorem expand_odd {l j : ℕ} (hj : j < l) (k : ℕ) (f : Fin (2 ^ l) → ℤ) :
    negMul (expandTo j k f - substPow ((2 ^ l >>> j) + 1) (expandTo j k f)) (monoZ (2 ^ l) (2 ^ j)) =
      expandTo (j + 1) (k + 2 ^ j) f := by
  funext i
  have hi := i.isLt
  have hpos : 0 < 2 ^ j := by positivity
  have hle : 2 ^ j ≤ 2 ^ l := Nat.pow_le_pow_right (by norm_num) hj.le
  have hdl : 2 ^ (j + 1) ∣ 2 ^ l := pow_dvd_pow 2 hj
  rw [negMul_monoZ _ hpos hle]
  have hval : ∀ m (hm : m < 2 ^ l),
      coef (expandTo j k f - substPow ((2 ^ l >>> j) + 1) (expandTo j k f)) m =
        if 2 ^ (j + 1) ∣ m then 0 else if 2 ^ j ∣ m then 2 * (2 ^ j * coef f (m + k)) else 0 := by
    intro m hm
    conv_lhs => unfold coef
    rw [dif_pos hm, Pi.sub_apply, subst_expandTo hj]
    by_cases h1 : 2 ^ (j + 1) ∣ m
    · simp only [h1, if_true]; simp
    · simp only [h1, if_false]
      unfold expandTo
      split_ifs <;> ring_nf
  have hodd : ∀ m : ℕ, (¬ 2 ^ (j + 1) ∣ m + 2 ^ j ∧ 2 ^ j ∣ m + 2 ^ j) ↔ 2 ^ (j + 1) ∣ m := by
    intro m
    rw [Nat.dvd_add_left (dvd_refl _)]
    constructor
    · rintro ⟨h1, u, hu⟩
      rw [hu] at h1 ⊢
      rw [show 2 ^ j * u + 2 ^ j = 2 ^ j * (u + 1) by ring, pow_succ,
        Nat.mul_dvd_mul_iff_left hpos] at h1
      rw [pow_succ, Nat.mul_dvd_mul_iff_left hpos]
      omega
    · intro h
      have h2 : 2 ^ j ∣ m := (pow_dvd_pow 2 (Nat.le_succ j)).trans h
      refine ⟨fun h3 => ?_, h2⟩
      have := (Nat.dvd_add_right h).mp h3
      have := Nat.le_of_dvd hpos this
      rw [pow_succ] at this
      omega
  unfold expandTo
  by_cases h : (i : ℕ) + 2 ^ j < 2 ^ l
  · rw [if_pos h]
    have := hval _ h
    unfold expandTo at this
    rw [this]
    by_cases hd : 2 ^ (j + 1) ∣ (i : ℕ)
    · obtain ⟨h1, h2⟩ := (hodd i).mpr hd
      rw [if_neg h1, if_pos h2, if_pos hd, show (i : ℕ) + 2 ^ j + k = i + (k + 2 ^ j) by ring]
      ring
    · rw [if_neg hd]
      by_cases h1 : 2 ^ (j + 1) ∣ (i : ℕ) + 2 ^ j
      · rw [if_pos h1]
      · rw [if_neg h1, if_neg (fun h2 => hd ((hodd i).mp ⟨h1, h2⟩))]
  · rw [if_neg h]
    have hlt : (i : ℕ) + 2 ^ j - 2 ^ l < 2 ^ l := by omega
    have := hval _ hlt
    unfold expandTo at this
    rw [this]
    -- wrapped positions are below `2^j`
    have hdi : ¬ 2 ^ (j + 1) ∣ (i : ℕ) := by
      intro hd
      obtain ⟨u, hu⟩ := hd
      obtain ⟨v, hv⟩ := hdl
      have : u < v := by
        by_contra hc
        have := Nat.mul_le_mul_left (2 ^ (j + 1)) (not_lt.mp hc)
        omega
      have : 2 ^ (j + 1) * (u + 1) ≤ 2 ^ (j + 1) * v := Nat.mul_le_mul_left _ this
      rw [mul_add, mul_one, ← hv, ← hu, pow_succ] at this
      omega
    rw [if_neg hdi]
    have hz : ¬ (¬ 2 ^ (j + 1) ∣ (i : ℕ) + 2 ^ j - 2 ^ l ∧ 2 ^ j ∣ (i : ℕ) + 2 ^ j - 2 ^ l) := by
      rintro ⟨h1, u, hu⟩
      rcases Nat.eq_zero_or_pos u with hu0 | hu0
      · apply h1; rw [hu, hu0, mul_zero]; exact dvd_zero _
      · have : 2 ^ j * 1 ≤ 2 ^ j * u := Nat.mul_le_mul_left _ hu0
        omega
    by_cases h1 : 2 ^ (j + 1) ∣ (i : ℕ) + 2 ^ j - 2 ^ l
    · rw [if_pos h1]; rfl
    · rw [if_neg h1, if_neg (fun h2 => hz ⟨h1, h2⟩)]; rfl

end Shell.Expand
