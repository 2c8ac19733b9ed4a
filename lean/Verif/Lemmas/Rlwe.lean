import Verif.Spec.Rlwe
import Verif.Spec.Poly
import Verif.Model.Symmetric
import Verif.Lemmas.NttRing
import Verif.Lemmas.Loop
import Verif.Lemmas.Core
import Verif.Lemmas.Tactics
import Mathlib.Algebra.Ring.Pi
/-! Lemmas about phases, centred representatives and the NTT of a context. -/

namespace Shell
open Finset Spec NttRing

/-! ### Phases -/
section
variable {R : Type} [CommRing R]

theorem getD_eq_zero {c : List R} {i : ℕ} (h : c.length ≤ i) : c.getD i 0 = 0 := by
  simp [List.getD_eq_getElem?_getD, h]

theorem phase_eq (s : R) (c : List R) {m : ℕ} (hm : c.length ≤ m) :
    phase s c = ∑ i ∈ range m, c.getD i 0 * s ^ i := by
  unfold phase
  apply sum_subset
  · intro x hx; simp at *; omega
  · intro x _ hx
    rw [getD_eq_zero (by simpa using hx), zero_mul]

theorem phase_ext (s : R) {c d : List R} (h : ∀ i, c.getD i 0 = d.getD i 0) :
    phase s c = phase s d := by
  rw [phase_eq s c (le_max_left c.length d.length), phase_eq s d (le_max_right c.length d.length)]
  exact sum_congr rfl fun i _ => by rw [h i]

theorem phase_nil (s : R) : phase s [] = 0 := by simp [phase]

theorem phase_cons (s a : R) (c : List R) : phase s (a :: c) = a + s * phase s c := by
  unfold phase
  rw [List.length_cons, sum_range_succ', add_comm, mul_sum]
  congr 1
  · simp
  · apply sum_congr rfl
    intro i _
    simp only [List.getD_cons_succ]
    ring

theorem phase_map_mul (s b : R) (c : List R) : phase s (c.map (· * b)) = phase s c * b := by
  induction c with
  | nil => simp [phase_nil]
  | cons a c ih => rw [List.map_cons, phase_cons, phase_cons, ih]; ring

theorem phase_comb (s : R) {x y r : List R} (f : R → R → R)
    (hf : ∀ a b u, f a b * u = f (a * u) (b * u))
    (hadd : ∀ g h : ℕ → R, ∀ m, ∑ i ∈ range m, f (g i) (h i) =
      f (∑ i ∈ range m, g i) (∑ i ∈ range m, h i))
    (h : ∀ i, r.getD i 0 = f (x.getD i 0) (y.getD i 0)) :
    phase s r = f (phase s x) (phase s y) := by
  set m := max r.length (max x.length y.length)
  rw [phase_eq s r (m := m) (by simp [m]), phase_eq s x (m := m) (by simp [m]),
    phase_eq s y (m := m) (by simp [m]), ← hadd]
  exact sum_congr rfl fun i _ => by rw [h i, hf]

theorem phase_add (s : R) {x y r : List R} (h : ∀ i, r.getD i 0 = x.getD i 0 + y.getD i 0) :
    phase s r = phase s x + phase s y :=
  phase_comb s (· + ·) (fun a b u => by ring) (fun g h m => sum_add_distrib) h

theorem phase_sub (s : R) {x y r : List R} (h : ∀ i, r.getD i 0 = x.getD i 0 - y.getD i 0) :
    phase s r = phase s x - phase s y :=
  phase_comb s (· - ·) (fun a b u => by ring) (fun g h m => by simp [sum_sub_distrib]) h

theorem phase_set (s : R) (c : List R) {i : ℕ} (hi : i < c.length) (x : R) :
    phase s (c.set i (c.getD i 0 + x)) = phase s c + x * s ^ i := by
  unfold phase
  rw [List.length_set, ← sum_erase_add _ _ (mem_range.mpr hi),
    ← sum_erase_add (range c.length) (fun i => c.getD i 0 * s ^ i) (mem_range.mpr hi)]
  rw [getD_set _ _ _ _ _ hi, if_pos rfl]
  have : ∀ j ∈ (range c.length).erase i,
      (c.set i (c.getD i 0 + x)).getD j 0 * s ^ j = c.getD j 0 * s ^ j := by
    intro j hj
    rw [getD_set _ _ _ _ _ hi, if_neg (by simp at hj; omega)]
  rw [sum_congr rfl this]; ring

theorem phase_replicate_zero (s : R) (k : ℕ) : phase s (List.replicate k (0 : R)) = 0 := by
  unfold phase
  apply sum_eq_zero
  intro i hi
  simp at hi
  simp [hi]

end

/-! ### Centred representatives -/

theorem centered_cast (q : ℕ) [NeZero q] (x : ZMod q) : (centered q x : ZMod q) = x := by
  unfold centered
  split_ifs <;> simp

theorem centered_bound (q : ℕ) [NeZero q] (x : ZMod q) :
    -(q : ℤ) < 2 * centered q x ∧ 2 * centered q x ≤ q := by
  have := ZMod.val_lt x
  unfold centered
  split_ifs <;> constructor <;> omega

theorem centered_eq (q : ℕ) [NeZero q] (x : ℤ) (h1 : -(q : ℤ) < 2 * x) (h2 : 2 * x ≤ q) :
    centered q (x : ZMod q) = x := by
  have hc := centered_bound q (x : ZMod q)
  have h3 := centered_cast q (x : ZMod q)
  rw [ZMod.intCast_eq_intCast_iff] at h3
  obtain ⟨k, hk⟩ := h3.dvd
  have h4 : x - centered q (x : ZMod q) < q := by omega
  have h5 : -(q : ℤ) < x - centered q (x : ZMod q) := by omega
  have hq : (0 : ℤ) < q := by have := NeZero.pos q; omega
  rw [hk] at h4 h5
  have : k < 1 := by nlinarith
  have : -1 < k := by nlinarith
  have : k = 0 := by omega
  rw [this, mul_zero] at hk
  omega

/-! ### Contexts -/

/-- Contexts obtained from successful parameter creation with a prime modulus (`ctx_of_params`). -/
structure Ctx.Ok (C : Ctx) : Prop where
  prime : C.q.Prime
  odd : C.q % 2 = 1
  fits : 4 * C.q < 2 ^ C.w
  l1 : 1 ≤ C.l
  l15 : C.l ≤ 15
  root : C.psi ^ 2 ^ C.l = -1

variable {C : Ctx}

theorem Ctx.Ok.neZero (h : C.Ok) : NeZero C.q := ⟨h.prime.ne_zero⟩

theorem Ctx.Ok.l32 (h : C.Ok) : C.l ≤ 32 := by have := h.l15; omega

theorem toNtt_add (f g : C.Poly) : C.toNtt (f + g) = C.toNtt f + C.toNtt g := ntt_add f g
theorem toNtt_sub (f g : C.Poly) : C.toNtt (f - g) = C.toNtt f - C.toNtt g := ntt_sub f g
theorem toNtt_neg (f : C.Poly) : C.toNtt (-f) = -C.toNtt f := ntt_neg f
theorem toNtt_zero : C.toNtt 0 = 0 := ntt_zero
theorem toNtt_smul (c : ZMod C.q) (f : C.Poly) : C.toNtt (scalarMul c f) = scalarMul c (C.toNtt f) :=
  ntt_smul c f
theorem toNtt_negMul (h : C.Ok) (f g : C.Poly) : C.toNtt (negMul f g) = C.toNtt f * C.toNtt g :=
  ntt_negMul h.root f g
theorem toNtt_substPow (h : C.Ok) (k : ℕ) (hk : k % 2 = 1) (f : C.Poly) :
    C.toNtt (substPow k f) = subst C.l k (C.toNtt f) :=
  ntt_substPow h.root h.l32 k hk f
theorem fromNtt_toNtt (h : C.Ok) (f : C.Poly) : C.fromNtt (C.toNtt f) = f :=
  intt_ntt h.prime h.odd h.root h.l32 f
theorem toNtt_fromNtt (h : C.Ok) (f : C.Poly) : C.toNtt (C.fromNtt f) = f :=
  ntt_intt h.prime h.odd h.root h.l32 f
theorem toNtt_inj (h : C.Ok) {f g : C.Poly} (e : C.toNtt f = C.toNtt g) : f = g :=
  ntt_injective h.prime h.odd h.root h.l32 e

/-! ### Integer vectors -/
section
variable {n q : ℕ}

theorem modq_add (f g : Fin n → ℤ) : modq q (f + g) = modq q f + modq q g := by
  funext i; simp [modq]
theorem modq_sub (f g : Fin n → ℤ) : modq q (f - g) = modq q f - modq q g := by
  funext i; simp [modq]
theorem modq_neg (f : Fin n → ℤ) : modq q (-f) = -modq q f := by
  funext i; simp [modq]
theorem modq_smul (c : ℤ) (f : Fin n → ℤ) :
    modq q (fun i => c * f i) = scalarMul (c : ZMod q) (modq q f) := by
  funext i; simp [modq, scalarMul]
theorem modq_negMul (f g : Fin n → ℤ) : modq q (negMul f g) = negMul (modq q f) (modq q g) := by
  funext i
  simp only [modq, negMul]
  push_cast
  simp only [Int.cast_sum, apply_ite (Int.cast : ℤ → ZMod q), Int.cast_mul, Int.cast_neg, Int.cast_zero]
theorem modq_substPow (k : ℕ) (f : Fin n → ℤ) :
    modq q (substPow k f) = substPow k (modq q f) := by
  funext i
  simp only [modq, substPow]
  push_cast
  simp only [Int.cast_sum, apply_ite (Int.cast : ℤ → ZMod q), Int.cast_neg, Int.cast_zero]

theorem exists_modq (F : Fin n → ZMod q) : ∃ f : Fin n → ℤ, modq q f = F :=
  ⟨fun i => (F i).cast, by funext i; simp [modq]⟩

end

end Shell
