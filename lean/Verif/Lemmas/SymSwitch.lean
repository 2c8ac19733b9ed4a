import Verif.Lemmas.Symmetric
import Mathlib.Algebra.Order.BigOperators.Ring.Finset
import Mathlib.Tactic.Abel
import Mathlib.Algebra.Order.Group.Abs
import Mathlib.Algebra.Order.BigOperators.Group.Finset
/-! Modulus switching, substitution and lazy accumulation in the symmetric layer. -/

namespace Shell
open Finset Spec NttRing

/-! ### Phases of coefficient vectors -/
section
variable {R : Type} [CommRing R] {n : ℕ}

/-- Horner evaluation of the inner product with the key's powers, on coefficient vectors. -/
def hphase (s : Fin n → R) : List (Fin n → R) → (Fin n → R)
  | [] => 0
  | c :: cs => c + negMul s (hphase s cs)

theorem negMul_zero (s : Fin n → R) : negMul s 0 = 0 := by
  funext k; simp [negMul]

theorem negMul_add (s f g : Fin n → R) : negMul s (f + g) = negMul s f + negMul s g := by
  funext k
  simp only [negMul, Pi.add_apply, ← sum_add_distrib]
  refine sum_congr rfl fun i _ => sum_congr rfl fun j _ => ?_
  split_ifs <;> ring

theorem negMul_smul (s f : Fin n → R) (c : R) :
    negMul s (fun i => c * f i) = fun i => c * negMul s f i := by
  funext k
  simp only [negMul, mul_sum]
  refine sum_congr rfl fun i _ => sum_congr rfl fun j _ => ?_
  split_ifs <;> ring

theorem negMul_lin (s f g : Fin n → R) (a b : R) :
    negMul s (fun i => a * f i - b * g i) = fun i => a * negMul s f i - b * negMul s g i := by
  funext k
  simp only [negMul, mul_sum, ← sum_sub_distrib]
  refine sum_congr rfl fun i _ => sum_congr rfl fun j _ => ?_
  split_ifs <;> ring

/-- The phase is linear in the components. -/
theorem hphase_lin {ι : Type} (s : Fin n → R) (a b : R) (F G : ι → Fin n → R) (L : List ι) :
    hphase s (L.map fun x => fun i => a * F x i - b * G x i) =
      fun i => a * hphase s (L.map F) i - b * hphase s (L.map G) i := by
  induction L with
  | nil => funext i; simp [hphase]
  | cons x L ih =>
    simp only [List.map_cons, hphase]
    rw [ih, negMul_lin]
    funext i
    simp only [Pi.add_apply]
    ring

theorem toNtt_hphase {C : Ctx} (h : C.Ok) (s : C.Poly) (L : List C.Poly) :
    C.toNtt (hphase s L) = phase (C.toNtt s) (L.map C.toNtt) := by
  induction L with
  | nil => simp only [hphase, List.map_nil, phase_nil]; exact toNtt_zero
  | cons x L ih => simp only [hphase, List.map_cons, phase_cons]; rw [toNtt_add, toNtt_negMul h, ih]

theorem modq_hphase {q : ℕ} (s : Fin n → ℤ) (L : List (Fin n → ℤ)) :
    modq q (hphase s L) = hphase (modq q s) (L.map (modq q)) := by
  induction L with
  | nil => funext i; simp [hphase, modq]
  | cons x L ih => simp only [hphase, List.map_cons]; rw [modq_add, modq_negMul, ih]

/-- `sum_i |s_i|`. -/
def Spec.norm1 (s : Fin n → ℤ) : ℤ := ∑ i, |s i|

theorem norm1_nonneg (s : Fin n → ℤ) : 0 ≤ norm1 s := sum_nonneg fun i _ => abs_nonneg _

theorem negMul_bound (s f : Fin n → ℤ) (M : ℤ) (hM : 0 ≤ M) (hf : ∀ i, |f i| ≤ M) (k : Fin n) :
    |negMul s f k| ≤ norm1 s * M := by
  unfold negMul norm1
  rw [sum_mul]
  refine (abs_sum_le_sum_abs _ _).trans (sum_le_sum fun i _ => ?_)
  -- at most one `j` contributes
  have hone : ∀ j : Fin n, |if (i : ℕ) + j = k then s i * f j else
      if (i : ℕ) + j = k + n then -(s i * f j) else 0| ≤
      if (i : ℕ) + j = k ∨ (i : ℕ) + j = k + n then |s i| * M else 0 := by
    intro j
    have hb : |s i * f j| ≤ |s i| * M := by
      rw [abs_mul]; exact mul_le_mul_of_nonneg_left (hf j) (abs_nonneg _)
    split_ifs with h1 h2 h3 <;> first
      | exact hb
      | (rw [abs_neg]; exact hb)
      | (exfalso; tauto)
      | simp
  refine (abs_sum_le_sum_abs _ _).trans ((sum_le_sum fun j _ => hone j).trans ?_)
  rw [sum_ite, sum_const_zero, add_zero, sum_const, nsmul_eq_mul]
  have hcard : #{x : Fin n | (i : ℕ) + x = k ∨ (i : ℕ) + x = k + n} ≤ 1 := by
    rw [card_le_one]
    intro a ha b hb
    simp only [mem_filter, mem_univ, true_and] at ha hb
    apply Fin.ext
    have := a.2; have := b.2; have := i.2; have := k.2
    omega
  have hnn : 0 ≤ |s i| * M := mul_nonneg (abs_nonneg _) hM
  have : ((#{x : Fin n | (i : ℕ) + x = k ∨ (i : ℕ) + x = k + n} : ℕ) : ℤ) ≤ 1 := by
    exact_mod_cast hcard
  nlinarith

theorem hphase_bound (s : Fin n → ℤ) (M : ℤ) (hM : 0 ≤ M) (L : List (Fin n → ℤ))
    (hL : ∀ f ∈ L, ∀ i, |f i| ≤ M) (k : Fin n) :
    |hphase s L k| ≤ M * ∑ j ∈ range L.length, norm1 s ^ j := by
  induction L generalizing k with
  | nil => simp [hphase]
  | cons x L ih =>
    have ih' := fun i => ih (fun f hf => hL f (by simp [hf])) i
    have hs := norm1_nonneg s
    have hnn : 0 ≤ M * ∑ j ∈ range L.length, norm1 s ^ j :=
      mul_nonneg hM (sum_nonneg fun j _ => pow_nonneg hs j)
    simp only [hphase, Pi.add_apply]
    refine (abs_add_le _ _).trans ?_
    have h1 := hL x (by simp) k
    have h2 := negMul_bound s (hphase s L) _ hnn ih' k
    rw [List.length_cons, sum_range_succ', pow_zero]
    have : ∑ j ∈ range L.length, norm1 s ^ (j + 1) =
        norm1 s * ∑ j ∈ range L.length, norm1 s ^ j := by
      rw [mul_sum]; exact sum_congr rfl fun j _ => by ring
    rw [this]
    linarith

end

namespace Sym
variable {C D : Ctx}

/-! ### Modulus switching -/

/-- The integer a switched coefficient stands for. -/
def switchInt (p q t x : ℕ) : ℤ :=
  let y : ℤ := (x * q / p : ℕ)
  let delta := ((x : ℤ) - y) % t
  if delta ≥ (t >>> 1 : ℕ) then y + delta - t else y + delta

theorem switchCoeff_cast {w p q t x : ℕ} (hp : 4 * p < 2 ^ w) (hqp : q ≤ p) (ht : 0 < t)
    (htq : t ≤ q) (hx : x < p) :
    ((switchCoeff w p q t x : ℕ) : ZMod q) = (switchInt p q t x : ZMod q) := by
  have hy : x * q / p ≤ x := by
    apply Nat.div_le_of_le_mul
    rw [Nat.mul_comm p x]; exact Nat.mul_le_mul_left x hqp
  have hyq : x * q / p < q := by
    rw [Nat.div_lt_iff_lt_mul (by omega)]
    rw [Nat.mul_comm]; exact Nat.mul_lt_mul_of_pos_left hx (by omega)
  generalize hY : x * q / p = y at hy hyq
  have hdelta : trunc w ((x : ℤ) - (y % 2 ^ w : ℕ)) % t = (x - y) % t := by
    rw [Nat.mod_eq_of_lt (show y < 2 ^ w by omega), trunc_eq w _ (x - y) (by omega) (by omega)]
  have hlt := Nat.mod_lt (x - y) ht
  unfold switchCoeff switchInt
  simp only [hY, hdelta]
  have hd2 : ((x : ℤ) - (y : ℕ)) % t = ((x - y) % t : ℕ) := by
    rw [show ((x : ℤ) - (y : ℕ)) = ((x - y : ℕ) : ℤ) by omega]; norm_cast
  rw [hd2]
  generalize (x - y) % t = d at hlt
  rw [Nat.mod_eq_of_lt (show y < 2 ^ w by omega), Nat.mod_eq_of_lt (show y + d < 2 ^ w by omega)]
  by_cases h : d ≥ t >>> 1
  · rw [if_pos h, if_pos (by exact_mod_cast h)]
    rw [trunc_eq w _ (y + d + (q - t)) (by omega) (by omega)]
    push_cast [htq]
    simp
    ring
  · rw [if_neg h, if_neg (by intro hc; exact h (by exact_mod_cast hc))]
    push_cast; rfl

theorem switchInt_spec {p q t x : ℕ} (hp : 0 < p) (ht : 0 < t) :
    switchInt p q t x ≡ x [ZMOD t] ∧
    |(p : ℤ) * switchInt p q t x - q * x| ≤ p * ((t + 1) / 2 + 1 : ℕ) := by
  have h1 := Nat.div_add_mod (x * q) p
  have h2 := Nat.mod_lt (x * q) hp
  generalize hY : x * q / p = y at h1
  generalize x * q % p = r at h1 h2
  have hpos : (0 : ℤ) < t := by exact_mod_cast ht
  have e1 := Int.emod_nonneg ((x : ℤ) - (y : ℕ)) hpos.ne'
  have e2 := Int.emod_lt_of_pos ((x : ℤ) - (y : ℕ)) hpos
  have e3 : ((x : ℤ) - (y : ℕ)) % t ≡ (x : ℤ) - y [ZMOD t] := Int.mod_modEq _ _
  unfold switchInt
  simp only [hY]
  generalize ((x : ℤ) - (y : ℕ)) % t = d at e1 e2 e3
  rw [Nat.shiftRight_eq_div_pow, pow_one]
  have h1' : (p : ℤ) * y + r = x * q := by exact_mod_cast h1
  have h2' : (r : ℤ) < p := by exact_mod_cast h2
  have h0 : (0 : ℤ) ≤ r := by positivity
  have hp' : (0 : ℤ) < p := by exact_mod_cast hp
  have hB : (((t + 1) / 2 + 1 : ℕ) : ℤ) = ((t : ℤ) + 1) / 2 + 1 := by push_cast; rfl
  rw [hB]
  by_cases h : d ≥ (t / 2 : ℕ)
  · rw [if_pos h]
    constructor
    · have : (y : ℤ) + d - t ≡ y + (x - y) - 0 [ZMOD t] :=
        (Int.ModEq.add_left _ e3).sub (by simp [Int.ModEq])
      simpa using this
    · have hd1 : -(((t : ℤ) + 1) / 2) ≤ d - t := by push_cast at h; omega
      have hd2 : d - t ≤ ((t : ℤ) + 1) / 2 := by omega
      have : (p : ℤ) * (y + d - t) - q * x = p * (d - t) - r := by linarith
      rw [this, abs_le]
      constructor <;> nlinarith
  · rw [if_neg h]
    constructor
    · have : (y : ℤ) + d ≡ y + (x - y) [ZMOD t] := Int.ModEq.add_left _ e3
      simpa using this
    · have hd2 : d ≤ ((t : ℤ) + 1) / 2 := by push_cast at h; omega
      have : (p : ℤ) * (y + d) - q * x = p * d - r := by linarith
      rw [this, abs_le]
      constructor <;> nlinarith

/-- Key coefficients keep their integer value. -/
theorem switchKeyCoeff_cast {w p q : ℕ} [NeZero p] (hp : p < 2 ^ w) (hq : 0 < q) (hqp : q ≤ p) (s : ℤ)
    (h1 : -(p : ℤ) < 2 * s) (h2 : 2 * s ≤ p) :
    ((switchKeyCoeff w p q (s : ZMod p).val : ℕ) : ZMod q) = (s : ZMod q) := by
  have hc := centered_eq p s h1 h2
  have hx := ZMod.val_lt (s : ZMod p)
  unfold centered at hc
  generalize (s : ZMod p).val = x at hc hx
  unfold switchKeyCoeff
  rw [Nat.shiftRight_eq_div_pow, pow_one]
  have hpq : 2 * (p % q) < p := by
    have h1 := Nat.div_add_mod p q
    have h2 : 1 ≤ p / q := Nat.div_pos hqp hq
    have h3 := Nat.mod_lt p hq
    nlinarith
  by_cases h : 2 * x ≤ p
  · rw [if_pos h] at hc
    rw [if_neg (by omega), ← hc]; simp
  · rw [if_neg h] at hc
    rw [if_pos (by omega), trunc_eq w _ (x - p % q) (by omega) (by omega), ← hc]
    push_cast [show p % q ≤ x by omega]
    simp

end Sym
end Shell
