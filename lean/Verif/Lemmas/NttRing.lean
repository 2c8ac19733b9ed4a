import Verif.Model.NttRing
import Verif.Spec.Poly
import Verif.Lemmas.Bitrev
import Mathlib.Data.ZMod.Basic
import Mathlib.Algebra.Field.ZMod
import Mathlib.Algebra.Field.GeomSum
import Verif.Lemmas.Tactics
/-!
The transform is a ring isomorphism from the negacyclic ring.
-/

namespace Shell.NttRing
open Finset Spec

section
variable {R : Type*} [CommRing R] {n : ℕ}

theorem ev_add (f g : Fin n → R) (x : R) : ev (f + g) x = ev f x + ev g x := by
  simp [ev, add_mul, sum_add_distrib]

theorem ev_sub (f g : Fin n → R) (x : R) : ev (f - g) x = ev f x - ev g x := by
  simp [ev, sub_mul, sum_sub_distrib]

theorem ev_neg (f : Fin n → R) (x : R) : ev (-f) x = - ev f x := by
  simp [ev, sum_neg_distrib]

theorem ev_smul (c : R) (f : Fin n → R) (x : R) : ev (fun i => c * f i) x = c * ev f x := by
  simp [ev, mul_sum, mul_assoc]

/-- Shared core: a coefficient `c` at a signed exponent `m < 2n`. -/
theorem sum_signed (c x : R) (hx : x ^ n = -1) (m : ℕ) (hm : m < 2 * n) :
    ∑ k : Fin n, (if m = (k : ℕ) then c else if m = k + n then -c else 0) * x ^ (k : ℕ) = c * x ^ m := by
  by_cases h : m < n
  · rw [sum_eq_single (⟨m, h⟩ : Fin n)]
    · simp
    · intro k _ hk
      have h1 : m ≠ (k : ℕ) := fun hc => hk (Fin.ext hc.symm)
      rw [if_neg h1, if_neg (by omega), zero_mul]
    · simp
  · have hlt : m - n < n := by omega
    rw [sum_eq_single (⟨m - n, hlt⟩ : Fin n)]
    · simp only
      rw [if_neg (by omega), if_pos (by omega)]
      have : x ^ m = x ^ (m - n) * x ^ n := by rw [← pow_add]; congr 1; omega
      rw [this, hx]; ring
    · intro k _ hk
      have h1 : m ≠ (k : ℕ) + n := fun hc => hk (Fin.ext (by simp only; omega))
      have h2 := k.2
      rw [if_neg (by omega), if_neg h1, zero_mul]
    · simp

theorem ev_negMul (f g : Fin n → R) (x : R) (hx : x ^ n = -1) :
    ev (negMul f g) x = ev f x * ev g x := by
  unfold ev negMul
  simp only [sum_mul]
  rw [sum_comm]
  apply sum_congr rfl
  intro i _
  rw [sum_comm, mul_sum]
  apply sum_congr rfl
  intro j _
  rw [sum_signed (f i * g j) x hx (i + j) (by have := i.2; have := j.2; omega), pow_add]
  ring

theorem pow_two_n {x : R} (hx : x ^ n = -1) : x ^ (2 * n) = 1 := by
  rw [mul_comm, pow_mul, hx]; ring

theorem pow_mod_two_n {x : R} (hx : x ^ n = -1) (m : ℕ) : x ^ (m % (2 * n)) = x ^ m := by
  conv_rhs => rw [← Nat.div_add_mod m (2 * n), pow_add, pow_mul, pow_two_n hx, one_pow, one_mul]

theorem ev_substPow (e : ℕ) (f : Fin n → R) (x : R) (hx : x ^ n = -1) :
    ev (substPow e f) x = ev f (x ^ e) := by
  unfold ev substPow
  simp only [sum_mul]
  rw [sum_comm]
  apply sum_congr rfl
  intro j _
  have hn : 0 < n := by have := j.2; omega
  rw [sum_signed (f j) x hx ((j * e) % (2 * n)) (Nat.mod_lt _ (by omega)), pow_mod_two_n hx,
    ← pow_mul, mul_comm e]

end

section
variable {N : ℕ} {psi : ZMod N} {l : ℕ}

theorem point_pow (h : psi ^ 2 ^ l = -1) (i : ℕ) : point psi l i ^ 2 ^ l = -1 := by
  unfold point
  rw [← pow_mul, mul_comm, pow_mul, h, pow_add, pow_mul]
  ring

theorem ntt_add (f g : Fin (2 ^ l) → ZMod N) : ntt psi l (f + g) = ntt psi l f + ntt psi l g := by
  funext i; simp [ntt, ev_add]

theorem ntt_sub (f g : Fin (2 ^ l) → ZMod N) : ntt psi l (f - g) = ntt psi l f - ntt psi l g := by
  funext i; simp [ntt, ev_sub]

theorem ntt_neg (f : Fin (2 ^ l) → ZMod N) : ntt psi l (-f) = - ntt psi l f := by
  funext i; simp [ntt, ev_neg]

theorem ntt_smul (c : ZMod N) (f : Fin (2 ^ l) → ZMod N) :
    ntt psi l (fun i => c * f i) = fun i => c * ntt psi l f i := by
  funext i; simp [ntt, ev_smul]

theorem ntt_zero : ntt psi l (0 : Fin (2 ^ l) → ZMod N) = 0 := by
  funext i; simp [ntt, ev]

theorem ntt_negMul (h : psi ^ 2 ^ l = -1) (f g : Fin (2 ^ l) → ZMod N) :
    ntt psi l (negMul f g) = ntt psi l f * ntt psi l g := by
  funext i
  simp only [ntt, Pi.mul_apply]
  exact ev_negMul f g _ (point_pow h i)

theorem ntt_substPow (h : psi ^ 2 ^ l = -1) (hl : l ≤ 32) (k : ℕ) (hk : k % 2 = 1)
    (f : Fin (2 ^ l) → ZMod N) : ntt psi l (substPow k f) = subst l k (ntt psi l f) := by
  funext x
  simp only [ntt, subst]
  rw [ev_substPow k f _ (point_pow h x)]
  congr 1
  set b := Ntt.bitrev x l with hb
  set m := ((k - 1) / 2 + b * k) % 2 ^ l with hm
  have hm' : m < 2 ^ l := Nat.mod_lt _ (by positivity)
  have hbm : Ntt.bitrev m l < 2 ^ l := Ntt.bitrev_lt l m hl
  have e1 : ((Fin.ofNat (2 ^ l) (Ntt.bitrev m l)) : ℕ) = Ntt.bitrev m l := by
    simp [Fin.ofNat, Nat.mod_eq_of_lt hbm]
  rw [e1]
  unfold point
  rw [Ntt.bitrev_invol l m hl hm', ← hb, ← pow_mul]
  rw [← pow_mod_two_n h ((1 + 2 * b) * k), ← pow_mod_two_n h (1 + 2 * m)]
  congr 1
  have e2 : (1 + 2 * b) * k = 1 + 2 * ((k - 1) / 2 + b * k) := by
    have : k = 2 * ((k - 1) / 2) + 1 := by omega
    nlinarith
  rw [e2]
  have e3 := Nat.div_add_mod ((k - 1) / 2 + b * k) (2 ^ l)
  rw [← hm] at e3
  conv_lhs => rw [← e3]
  rw [show 1 + 2 * (2 ^ l * (((k - 1) / 2 + b * k) / 2 ^ l) + m) =
    1 + 2 * m + 2 * 2 ^ l * (((k - 1) / 2 + b * k) / 2 ^ l) by ring, Nat.add_mul_mod_self_left]

/-! Inverse. -/

theorem point_inv (h : psi ^ 2 ^ l = -1) (i j : ℕ) (hj : j ≤ 2 * 2 ^ l) :
    point psi l i ^ (2 * 2 ^ l - j) * point psi l i ^ j = 1 := by
  rw [← pow_add, Nat.sub_add_cancel hj, pow_two_n (point_pow h i)]

/-- Sum of a power of all the evaluation points. -/
theorem sum_point (hp : N.Prime) (hodd : N % 2 = 1) (h : psi ^ 2 ^ l = -1) (hl : l ≤ 32) (d : ℕ)
    (hd : 0 < d) (hd2 : d < 2 * 2 ^ l) (hdn : d ≠ 2 ^ l) :
    ∑ i : Fin (2 ^ l), point psi l i ^ d = 0 := by
  haveI : Fact N.Prime := ⟨hp⟩
  have h1 : ∑ i : Fin (2 ^ l), point psi l i ^ d =
      ∑ i ∈ range (2 ^ l), (psi ^ (1 + 2 * i)) ^ d := by
    rw [← Fin.sum_univ_eq_sum_range (fun i => (psi ^ (1 + 2 * i)) ^ d)]
    apply sum_bij' (fun (i : Fin (2 ^ l)) _ => (⟨Ntt.bitrev i l, Ntt.bitrev_lt l i hl⟩ : Fin (2 ^ l)))
      (fun (i : Fin (2 ^ l)) _ => (⟨Ntt.bitrev i l, Ntt.bitrev_lt l i hl⟩ : Fin (2 ^ l)))
    · intro a _; exact mem_univ _
    · intro a _; exact mem_univ _
    · intro a _; exact Fin.ext (Ntt.bitrev_invol l a hl a.2)
    · intro a _; exact Fin.ext (Ntt.bitrev_invol l a hl a.2)
    · intro a _; rfl
  rw [h1]
  have h2 : ∀ i, (psi ^ (1 + 2 * i)) ^ d = psi ^ d * (psi ^ (2 * d)) ^ i := by
    intro i; rw [← pow_mul, ← pow_mul, ← pow_add]; congr 1; ring
  simp only [h2]
  rw [← mul_sum]
  have hr1 : (psi ^ (2 * d)) ^ 2 ^ l = 1 := by
    rw [← pow_mul, show 2 * d * 2 ^ l = 2 * 2 ^ l * d by ring, pow_mul, pow_two_n h, one_pow]
  have hne : psi ^ (2 * d) ≠ 1 := by
    intro hc
    -- the order of psi is 2n
    have hord : orderOf psi = 2 ^ (l + 1) := by
      apply orderOf_eq_prime_pow
      · rw [h]
        intro h3
        have : (2 : ZMod N) = 0 := by linear_combination -h3
        have h4 := (ZMod.natCast_eq_zero_iff 2 N).mp (by exact_mod_cast this)
        have := Nat.le_of_dvd (by norm_num) h4
        have := hp.two_le
        omega
      · rw [pow_succ, mul_comm, pow_two_n h]
    have h3 := orderOf_dvd_of_pow_eq_one hc
    rw [hord, pow_succ, mul_comm] at h3
    obtain ⟨c, hc⟩ := Nat.dvd_of_mul_dvd_mul_left (by norm_num) h3
    have : c = 1 := by
      rcases Nat.lt_or_ge c 1 with hc0 | hc1
      · have : c = 0 := by omega
        subst this; omega
      · by_contra hc2
        have : 2 ^ l * 2 ≤ 2 ^ l * c := Nat.mul_le_mul_left _ (by omega)
        omega
    subst this; omega
  have := geom_sum_eq hne (2 ^ l)
  rw [this, hr1, sub_self, zero_div, mul_zero]

theorem intt_ntt (hp : N.Prime) (hodd : N % 2 = 1) (h : psi ^ 2 ^ l = -1) (hl : l ≤ 32)
    (f : Fin (2 ^ l) → ZMod N) : intt psi l (ntt psi l f) = f := by
  haveI : Fact N.Prime := ⟨hp⟩
  funext j
  have hn0 : ((2 ^ l : ℕ) : ZMod N) ≠ 0 := by
    rw [Ne, ZMod.natCast_eq_zero_iff]
    intro hd
    have := (Nat.prime_dvd_prime_iff_eq hp Nat.prime_two).mp (hp.dvd_of_dvd_pow hd)
    omega
  unfold intt
  rw [inv_mul_eq_iff_eq_mul₀ hn0]
  simp only [ntt, ev, sum_mul]
  rw [sum_comm, sum_eq_single j]
  · have : ∀ i : Fin (2 ^ l), f j * point psi l i ^ (j : ℕ) * point psi l i ^ (2 * 2 ^ l - (j : ℕ)) =
        f j := by
      intro i
      have := point_inv h i j (by have := j.2; omega)
      linear_combination (f j) * this
    simp only [this]
    simp
  · intro k _ hkj
    have hk := k.2
    have hj := j.2
    have hne : (k : ℕ) ≠ j := fun hc => hkj (Fin.ext hc)
    have e : ∀ i : Fin (2 ^ l), f k * point psi l i ^ (k : ℕ) * point psi l i ^ (2 * 2 ^ l - (j : ℕ)) =
        f k * point psi l i ^ ((2 * 2 ^ l + (k : ℕ) - j) % (2 * 2 ^ l)) := by
      intro i
      rw [pow_mod_two_n (point_pow h i), mul_assoc, ← pow_add]
      congr 2; omega
    simp only [e]
    rw [← mul_sum]
    have hlt : (2 * 2 ^ l + (k : ℕ) - j) % (2 * 2 ^ l) < 2 * 2 ^ l := Nat.mod_lt _ (by positivity)
    by_cases hc : (k : ℕ) < j
    · have e2 : (2 * 2 ^ l + (k : ℕ) - j) % (2 * 2 ^ l) = 2 * 2 ^ l + k - j :=
        Nat.mod_eq_of_lt (by omega)
      rw [e2, sum_point hp hodd h hl _ (by omega) (by omega) (by omega), mul_zero]
    · have e2 : (2 * 2 ^ l + (k : ℕ) - j) % (2 * 2 ^ l) = k - j := by
        rw [show 2 * 2 ^ l + (k : ℕ) - j = (k - j) + 2 * 2 ^ l by omega, Nat.add_mod_right]
        exact Nat.mod_eq_of_lt (by omega)
      rw [e2, sum_point hp hodd h hl _ (by omega) (by omega) (by omega), mul_zero]
  · simp

theorem ntt_injective (hp : N.Prime) (hodd : N % 2 = 1) (h : psi ^ 2 ^ l = -1) (hl : l ≤ 32) :
    Function.Injective (ntt psi l) :=
  Function.LeftInverse.injective (intt_ntt hp hodd h hl)

theorem ntt_intt (hp : N.Prime) (hodd : N % 2 = 1) (h : psi ^ 2 ^ l = -1) (hl : l ≤ 32)
    (F : Fin (2 ^ l) → ZMod N) : ntt psi l (intt psi l F) = F := by
  haveI : Fact N.Prime := ⟨hp⟩
  have hsurj := Finite.surjective_of_injective (ntt_injective hp hodd h hl)
  obtain ⟨f, rfl⟩ := hsurj F
  rw [intt_ntt hp hodd h hl]

theorem subst_mul {R : Type*} [CommRing R] (k : ℕ) (F G : Fin (2 ^ l) → R) :
    subst l k (F * G) = subst l k F * subst l k G := rfl
theorem subst_add {R : Type*} [CommRing R] (k : ℕ) (F G : Fin (2 ^ l) → R) :
    subst l k (F + G) = subst l k F + subst l k G := rfl
theorem subst_sub {R : Type*} [CommRing R] (k : ℕ) (F G : Fin (2 ^ l) → R) :
    subst l k (F - G) = subst l k F - subst l k G := rfl
theorem subst_neg {R : Type*} [CommRing R] (k : ℕ) (F : Fin (2 ^ l) → R) :
    subst l k (-F) = -subst l k F := rfl
theorem subst_one {R : Type*} [CommRing R] (k : ℕ) :
    subst l k (1 : Fin (2 ^ l) → R) = 1 := rfl

/-- Substituting `a` and then `b` is substituting `a*b`. -/
theorem subst_subst {R : Type*} (hl : l ≤ 32) (a b : ℕ) (ha : a % 2 = 1) (hb : b % 2 = 1)
    (F : Fin (2 ^ l) → R) : subst l b (subst l a F) = subst l ((a * b) % (2 * 2 ^ l)) F := by
  funext x
  simp only [subst]
  congr 1
  set y := Ntt.bitrev x l with hy
  set m := ((b - 1) / 2 + y * b) % 2 ^ l with hm
  have hm' : m < 2 ^ l := Nat.mod_lt _ (by positivity)
  have hbm : Ntt.bitrev m l < 2 ^ l := Ntt.bitrev_lt l m hl
  have e1 : ((Fin.ofNat (2 ^ l) (Ntt.bitrev m l)) : ℕ) = Ntt.bitrev m l := by
    simp [Fin.ofNat, Nat.mod_eq_of_lt hbm]
  rw [e1, Ntt.bitrev_invol l m hl hm']
  congr 2
  -- indices agree
  obtain ⟨a', rfl⟩ : ∃ a', a = 2 * a' + 1 := ⟨a / 2, by omega⟩
  obtain ⟨b', rfl⟩ : ∃ b', b = 2 * b' + 1 := ⟨b / 2, by omega⟩
  have d1 : (2 * a' + 1 - 1) / 2 = a' := by omega
  have d2 : (2 * b' + 1 - 1) / 2 = b' := by omega
  rw [d1]
  rw [d2] at hm
  set c := ((2 * a' + 1) * (2 * b' + 1)) % (2 * 2 ^ l) with hc
  have hcm := Nat.div_add_mod ((2 * a' + 1) * (2 * b' + 1)) (2 * 2 ^ l)
  rw [← hc] at hcm
  set t := ((2 * a' + 1) * (2 * b' + 1)) / (2 * 2 ^ l) with ht
  have hodd : c % 2 = 1 := by
    have e : (2 * a' + 1) * (2 * b' + 1) = 2 * (2 * a' * b' + a' + b') + 1 := by ring
    have e2 : 2 * 2 ^ l * t = 2 * (2 ^ l * t) := by ring
    omega
  obtain ⟨c', hc'⟩ : ∃ c', c = 2 * c' + 1 := ⟨c / 2, by omega⟩
  have hcc : 2 ^ l * t + c' = 2 * a' * b' + a' + b' := by
    have e : (2 * a' + 1) * (2 * b' + 1) = 2 * (2 * a' * b' + a' + b') + 1 := by ring
    have e2 : 2 * 2 ^ l * t = 2 * (2 ^ l * t) := by ring
    omega
  rw [hc', show (2 * c' + 1 - 1) / 2 = c' by omega]
  have hmm : (a' + m * (2 * a' + 1)) % 2 ^ l =
      (a' + (b' + y * (2 * b' + 1)) * (2 * a' + 1)) % 2 ^ l := by
    rw [hm]
    exact Nat.ModEq.add_left _ (Nat.ModEq.mul_right _ (Nat.mod_modEq _ _))
  rw [hmm]
  have e3 : a' + (b' + y * (2 * b' + 1)) * (2 * a' + 1) =
      c' + y * (2 * c' + 1) + 2 ^ l * (t + 2 * y * t) := by
    have : a' + (b' + y * (2 * b' + 1)) * (2 * a' + 1) =
      (2 * a' * b' + a' + b') + y * (2 * (2 * a' * b' + a' + b') + 1) := by ring
    rw [this, ← hcc]; ring
  rw [e3, Nat.add_mul_mod_self_left]

end

end Shell.NttRing
