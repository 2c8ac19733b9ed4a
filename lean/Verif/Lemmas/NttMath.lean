import Verif.Lemmas.Bitrev
import Mathlib.Algebra.BigOperators.Ring.Finset
import Mathlib.Algebra.BigOperators.Intervals
/-!
The transforms as functions on index-to-value maps over a commutative ring, layer by layer, and the
algebra behind them.
-/

namespace Shell.Ntt
open Finset
variable {R : Type} [CommRing R]

/-- One Cooley-Tukey layer with half block size `h`; block `b` uses the factor `T b`. -/
def mct (T : ℕ → R) (h : ℕ) (f : ℕ → R) (x : ℕ) : R :=
  if x % (2 * h) < h then f x + T (x / (2 * h)) * f (x + h)
  else f (x - h) - T (x / (2 * h)) * f x

/-- One Gentleman-Sande layer. -/
def mgs (T : ℕ → R) (h : ℕ) (f : ℕ → R) (x : ℕ) : R :=
  if x % (2 * h) < h then f x + f (x + h)
  else (f (x - h) - f x) * T (x / (2 * h))

theorem block_low {h b j : ℕ} (hj : j < h) :
    (b * (2 * h) + j) % (2 * h) = j ∧ (b * (2 * h) + j) / (2 * h) = b := by
  have : 0 < 2 * h := by omega
  constructor
  · rw [mul_comm, Nat.mul_add_mod, Nat.mod_eq_of_lt (by omega)]
  · rw [mul_comm, Nat.mul_add_div this, Nat.div_eq_of_lt (by omega), add_zero]

theorem block_high {h b j : ℕ} (hj : j < h) :
    (b * (2 * h) + j + h) % (2 * h) = j + h ∧ (b * (2 * h) + j + h) / (2 * h) = b := by
  have : 0 < 2 * h := by omega
  rw [add_assoc]
  constructor
  · rw [mul_comm, Nat.mul_add_mod, Nat.mod_eq_of_lt (by omega)]
  · rw [mul_comm, Nat.mul_add_div this, Nat.div_eq_of_lt (by omega), add_zero]

theorem mct_low (T : ℕ → R) (h : ℕ) (f : ℕ → R) {b j : ℕ} (hj : j < h) :
    mct T h f (b * (2 * h) + j) = f (b * (2 * h) + j) + T b * f (b * (2 * h) + j + h) := by
  obtain ⟨h1, h2⟩ := block_low (b := b) hj
  unfold mct; rw [h1, h2, if_pos hj]

theorem mct_high (T : ℕ → R) (h : ℕ) (f : ℕ → R) {b j : ℕ} (hj : j < h) :
    mct T h f (b * (2 * h) + j + h) = f (b * (2 * h) + j) - T b * f (b * (2 * h) + j + h) := by
  obtain ⟨h1, h2⟩ := block_high (b := b) hj
  unfold mct; rw [h1, h2, if_neg (by omega), Nat.add_sub_cancel]

theorem mgs_low (T : ℕ → R) (h : ℕ) (f : ℕ → R) {b j : ℕ} (hj : j < h) :
    mgs T h f (b * (2 * h) + j) = f (b * (2 * h) + j) + f (b * (2 * h) + j + h) := by
  obtain ⟨h1, h2⟩ := block_low (b := b) hj
  unfold mgs; rw [h1, if_pos hj]

theorem mgs_high (T : ℕ → R) (h : ℕ) (f : ℕ → R) {b j : ℕ} (hj : j < h) :
    mgs T h f (b * (2 * h) + j + h) = (f (b * (2 * h) + j) - f (b * (2 * h) + j + h)) * T b := by
  obtain ⟨h1, h2⟩ := block_high (b := b) hj
  unfold mgs; rw [h1, h2, if_neg (by omega), Nat.add_sub_cancel]

/-- Every index is in the low or the high half of its block. -/
theorem block_cases {h : ℕ} (hh : 0 < h) (x : ℕ) :
    ∃ b j, j < h ∧ (x = b * (2 * h) + j ∨ x = b * (2 * h) + j + h) := by
  have hd := Nat.div_add_mod x (2 * h)
  have hlt := Nat.mod_lt x (show 2 * h > 0 by omega)
  by_cases hc : x % (2 * h) < h
  · exact ⟨x / (2 * h), x % (2 * h), hc, Or.inl (by rw [mul_comm]; exact hd.symm)⟩
  · refine ⟨x / (2 * h), x % (2 * h) - h, by omega, Or.inr ?_⟩
    rw [mul_comm (x / (2 * h))]; omega

/-- A Gentleman-Sande layer undoes a Cooley-Tukey layer up to the factor 2. -/
theorem mgs_mct (T U : ℕ → R) {h : ℕ} (hh : 0 < h) (f : ℕ → R) (x : ℕ)
    (hTU : T (x / (2 * h)) * U (x / (2 * h)) = 1) : mgs U h (mct T h f) x = 2 * f x := by
  obtain ⟨b, j, hj, rfl | rfl⟩ := block_cases hh x
  · rw [mgs_low _ _ _ hj, mct_low _ _ _ hj, mct_high _ _ _ hj]; ring
  · rw [(block_high hj).2] at hTU
    rw [mgs_high _ _ _ hj, mct_low _ _ _ hj, mct_high _ _ _ hj]
    linear_combination (2 * f (b * (2 * h) + j + h)) * hTU

theorem mct_mgs (T U : ℕ → R) {h : ℕ} (hh : 0 < h) (f : ℕ → R) (x : ℕ)
    (hTU : T (x / (2 * h)) * U (x / (2 * h)) = 1) : mct T h (mgs U h f) x = 2 * f x := by
  obtain ⟨b, j, hj, rfl | rfl⟩ := block_cases hh x
  · rw [(block_low hj).2] at hTU
    rw [mct_low _ _ _ hj, mgs_low _ _ _ hj, mgs_high _ _ _ hj]
    linear_combination (f (b * (2 * h) + j) - f (b * (2 * h) + j + h)) * hTU
  · rw [(block_high hj).2] at hTU
    rw [mct_high _ _ _ hj, mgs_low _ _ _ hj, mgs_high _ _ _ hj]
    linear_combination (-(f (b * (2 * h) + j) - f (b * (2 * h) + j + h))) * hTU

theorem mct_smul (T : ℕ → R) (h : ℕ) (c : R) (f : ℕ → R) (x : ℕ) :
    mct T h (fun y => c * f y) x = c * mct T h f x := by
  unfold mct; split_ifs <;> ring

theorem mgs_smul (T : ℕ → R) (h : ℕ) (c : R) (f : ℕ → R) (x : ℕ) :
    mgs T h (fun y => c * f y) x = c * mgs T h f x := by
  unfold mgs; split_ifs <;> ring

/-- The forward transform after `d` of `L` layers; `T d b` is the factor of block `b` in layer `d`. -/
def mfwd (T : ℕ → ℕ → R) (L : ℕ) : ℕ → (ℕ → R) → ℕ → R
  | 0, f => f
  | d + 1, f => mct (T d) (2 ^ (L - 1 - d)) (mfwd T L d f)

/-- The evaluation invariant of the forward transform. -/
theorem mfwd_eval (T : ℕ → ℕ → R) (L : ℕ) (psi : R) (hL : L ≤ 32) (hpsi : psi ^ 2 ^ L = -1)
    (f : ℕ → R) : ∀ d ≤ L, (∀ e < d, ∀ b < 2 ^ e, T e b = psi ^ bitrev (2 ^ e + b) L) →
      ∀ b < 2 ^ d, ∀ x : R, x ^ 2 ^ (L - d) = psi ^ (2 ^ (L - d) * (1 + 2 * bitrev b d)) →
        ∑ j ∈ range (2 ^ (L - d)), mfwd T L d f (b * 2 ^ (L - d) + j) * x ^ j =
          ∑ j ∈ range (2 ^ L), f j * x ^ j := by
  intro d
  induction d with
  | zero =>
    intro _ _ b hb x _
    have : b = 0 := by simpa using hb
    subst this
    simp [mfwd]
  | succ d ih =>
    intro hd hT b hb x hx
    set h := 2 ^ (L - 1 - d) with hh
    have eh : 2 ^ (L - (d + 1)) = h := by rw [hh]; congr 1; omega
    have eh2 : 2 ^ (L - d) = 2 * h := by rw [hh, ← pow_succ']; congr 1; omega
    rw [eh] at hx ⊢
    -- the parent block
    have hb2 : b / 2 < 2 ^ d := by rw [pow_succ] at hb; omega
    have hTb : T d (b / 2) = psi ^ (h * (1 + 2 * bitrev (b / 2) d)) := by
      rw [hT d (by omega) _ hb2, bitrev_fwd_index d L _ hL (by omega) hb2]
    have key : ∀ v : ℕ → R, (∑ j ∈ range (2 * h), v (b / 2 * (2 * h) + j) * x ^ j) =
        ∑ j ∈ range h, (v (b / 2 * (2 * h) + j) + x ^ h * v (b / 2 * (2 * h) + j + h)) * x ^ j := by
      intro v
      rw [two_mul, sum_range_add, ← sum_add_distrib]
      apply sum_congr rfl
      intro j _
      rw [pow_add, show b / 2 * (h + h) + (h + j) = b / 2 * (h + h) + j + h by ring]; ring
    have parent := ih (by omega) (fun e he => hT e (by omega)) (b / 2) hb2 x
    rw [eh2] at parent
    rcases Nat.even_or_odd' b with ⟨c, hc | hc⟩
    · -- left child
      have hbc : b / 2 = c := by omega
      have hxx : x ^ h = T d (b / 2) := by
        rw [hx, hTb, hbc, hc, bitrev_two_mul _ _ (by omega)]
      rw [← parent, key]
      · apply sum_congr rfl
        intro j hj
        rw [mem_range] at hj
        rw [hxx]
        have : b * h + j = b / 2 * (2 * h) + j := by rw [hbc, hc]; ring
        rw [this, mfwd, ← hh, mct_low _ _ _ hj]
      · rw [mul_comm 2 h, pow_mul, hxx, hTb, ← pow_mul]; congr 1; ring
    · have hbc : b / 2 = c := by omega
      have hxx : x ^ h = - T d (b / 2) := by
        rw [hx, hTb, hbc, hc, bitrev_two_mul_add _ _ (by omega)]
        have : h * (1 + 2 * (2 ^ d + bitrev c d)) = 2 ^ L + h * (1 + 2 * bitrev c d) := by
          have : 2 ^ L = h * 2 * 2 ^ d := by
            rw [mul_comm h 2, ← eh2, ← pow_add]; congr 1; omega
          rw [this]; ring
        rw [this, pow_add, hpsi]; ring
      rw [← parent, key]
      · apply sum_congr rfl
        intro j hj
        rw [mem_range] at hj
        rw [hxx]
        have : b * h + j = b / 2 * (2 * h) + j + h := by rw [hbc, hc]; ring
        rw [this, mfwd, ← hh, mct_high _ _ _ hj]; ring
      · rw [mul_comm 2 h, pow_mul, hxx, hTb, neg_pow_two, ← pow_mul]; congr 1; ring

/-- The forward transform evaluates at the odd powers of `psi`, in bit-reversed order. -/
theorem mfwd_final (T : ℕ → ℕ → R) (L : ℕ) (psi : R) (hL : L ≤ 32) (hpsi : psi ^ 2 ^ L = -1)
    (f : ℕ → R) (hT : ∀ e < L, ∀ b < 2 ^ e, T e b = psi ^ bitrev (2 ^ e + b) L) (b : ℕ)
    (hb : b < 2 ^ L) :
    mfwd T L L f b = ∑ j ∈ range (2 ^ L), f j * (psi ^ (1 + 2 * bitrev b L)) ^ j := by
  have := mfwd_eval T L psi hL hpsi f L le_rfl hT b hb (psi ^ (1 + 2 * bitrev b L)) (by simp)
  rw [← this]
  simp

theorem mct_congr {T T' : ℕ → R} {h nb : ℕ} (hh : 0 < h) {f f' : ℕ → R}
    (hT : ∀ b < nb, T b = T' b) (hf : ∀ x < nb * (2 * h), f x = f' x) :
    ∀ x < nb * (2 * h), mct T h f x = mct T' h f' x := by
  intro x hx
  obtain ⟨b, j, hj, rfl | rfl⟩ := block_cases hh x
  · have hb : b < nb := by
      by_contra hc
      have : nb * (2 * h) ≤ b * (2 * h) := Nat.mul_le_mul_right _ (by omega)
      omega
    have : (b + 1) * (2 * h) ≤ nb * (2 * h) := Nat.mul_le_mul_right _ hb
    rw [add_mul, one_mul] at this
    rw [mct_low _ _ _ hj, mct_low _ _ _ hj, hT b hb, hf _ (by omega), hf _ (by omega)]
  · have hb : b < nb := by
      by_contra hc
      have : nb * (2 * h) ≤ b * (2 * h) := Nat.mul_le_mul_right _ (by omega)
      omega
    have : (b + 1) * (2 * h) ≤ nb * (2 * h) := Nat.mul_le_mul_right _ hb
    rw [add_mul, one_mul] at this
    rw [mct_high _ _ _ hj, mct_high _ _ _ hj, hT b hb, hf _ (by omega), hf _ (by omega)]

theorem mgs_congr {T T' : ℕ → R} {h nb : ℕ} (hh : 0 < h) {f f' : ℕ → R}
    (hT : ∀ b < nb, T b = T' b) (hf : ∀ x < nb * (2 * h), f x = f' x) :
    ∀ x < nb * (2 * h), mgs T h f x = mgs T' h f' x := by
  intro x hx
  obtain ⟨b, j, hj, rfl | rfl⟩ := block_cases hh x
  · have hb : b < nb := by
      by_contra hc
      have : nb * (2 * h) ≤ b * (2 * h) := Nat.mul_le_mul_right _ (by omega)
      omega
    have : (b + 1) * (2 * h) ≤ nb * (2 * h) := Nat.mul_le_mul_right _ hb
    rw [add_mul, one_mul] at this
    rw [mgs_low _ _ _ hj, mgs_low _ _ _ hj, hf _ (by omega), hf _ (by omega)]
  · have hb : b < nb := by
      by_contra hc
      have : nb * (2 * h) ≤ b * (2 * h) := Nat.mul_le_mul_right _ (by omega)
      omega
    have : (b + 1) * (2 * h) ≤ nb * (2 * h) := Nat.mul_le_mul_right _ hb
    rw [add_mul, one_mul] at this
    rw [mgs_high _ _ _ hj, mgs_high _ _ _ hj, hT b hb, hf _ (by omega), hf _ (by omega)]

/-- The inverse transform after `i` layers; `U i b` is the factor of block `b` in layer `i`. -/
def minv (U : ℕ → ℕ → R) : ℕ → (ℕ → R) → ℕ → R
  | 0, f => f
  | i + 1, f => mgs (U i) (2 ^ i) (minv U i f)

theorem blocks_eq {L i : ℕ} (hi : i < L) : 2 ^ (L - 1 - i) * (2 * 2 ^ i) = 2 ^ L := by
  rw [← pow_succ', ← pow_add]; congr 1; omega

/-- Undoing: applying `i` inverse layers to a full forward transform leaves the first `L - i` forward
layers, scaled by `2^i`. -/
theorem minv_mfwd (T U : ℕ → ℕ → R) (L : ℕ) (f : ℕ → R)
    (hTU : ∀ i < L, ∀ b < 2 ^ (L - 1 - i), T (L - 1 - i) b * U i b = 1) :
    ∀ i ≤ L, ∀ x < 2 ^ L, minv U i (mfwd T L L f) x = 2 ^ i * mfwd T L (L - i) f x := by
  intro i
  induction i with
  | zero => intro _ x _; simp [minv]
  | succ i ih =>
    intro hi x hx
    have hb := blocks_eq (L := L) (i := i) (by omega)
    have hp : 0 < 2 ^ i := by positivity
    rw [minv]
    have e : L - i = (L - 1 - i) + 1 := by omega
    have c := mgs_congr (T := U i) (T' := U i) (nb := 2 ^ (L - 1 - i)) hp (fun _ _ => rfl)
      (fun y hy => ih (by omega) y (by rw [← hb]; exact hy)) x (by rw [hb]; exact hx)
    rw [c, mgs_smul, e, mfwd, show L - 1 - (L - 1 - i) = i by omega, mgs_mct _ _ hp]
    · rw [show L - (i + 1) = L - 1 - i by omega, pow_succ]; ring
    · apply hTU i (by omega)
      rw [Nat.div_lt_iff_lt_mul (by positivity), hb]; exact hx

/-- Applying `d` forward layers to a full inverse transform leaves the first `L - d` inverse layers,
scaled by `2^d`. -/
theorem mfwd_minv (T U : ℕ → ℕ → R) (L : ℕ) (f : ℕ → R)
    (hTU : ∀ i < L, ∀ b < 2 ^ (L - 1 - i), T (L - 1 - i) b * U i b = 1) :
    ∀ d ≤ L, ∀ x < 2 ^ L, mfwd T L d (minv U L f) x = 2 ^ d * minv U (L - d) f x := by
  intro d
  induction d with
  | zero => intro _ x _; simp [mfwd]
  | succ d ih =>
    intro hd x hx
    have hb := blocks_eq (L := L) (i := L - 1 - d) (by omega)
    have hp : 0 < 2 ^ (L - 1 - d) := by positivity
    rw [mfwd]
    have c := mct_congr (T := T d) (T' := T d) (nb := 2 ^ (L - 1 - (L - 1 - d))) hp (fun _ _ => rfl)
      (fun y hy => ih (by omega) y (by rw [← hb]; exact hy)) x (by rw [hb]; exact hx)
    rw [c, mct_smul, show L - d = (L - 1 - d) + 1 by omega, minv, mct_mgs _ _ hp]
    · rw [show L - (d + 1) = L - 1 - d by omega, pow_succ]; ring
    · have := hTU (L - 1 - d) (by omega) (x / (2 * 2 ^ (L - 1 - d)))
        (by rw [Nat.div_lt_iff_lt_mul (by positivity), hb]; exact hx)
      rwa [show L - 1 - (L - 1 - d) = d by omega] at this

theorem minv_smul (U : ℕ → ℕ → R) (c : R) (f : ℕ → R) : ∀ i x,
    minv U i (fun y => c * f y) x = c * minv U i f x := by
  intro i
  induction i with
  | zero => intro x; rfl
  | succ i ih =>
    intro x
    rw [minv, minv, ← mgs_smul]
    congr 1; funext y; exact ih y

theorem mfwd_smul (T : ℕ → ℕ → R) (L : ℕ) (c : R) (f : ℕ → R) : ∀ i x,
    mfwd T L i (fun y => c * f y) x = c * mfwd T L i f x := by
  intro i
  induction i with
  | zero => intro x; rfl
  | succ i ih =>
    intro x
    rw [mfwd, mfwd, ← mct_smul]
    congr 1; funext y; exact ih y

theorem mfwd_congr (T : ℕ → ℕ → R) (L : ℕ) {f f' : ℕ → R} (hf : ∀ x < 2 ^ L, f x = f' x) :
    ∀ d ≤ L, ∀ x < 2 ^ L, mfwd T L d f x = mfwd T L d f' x := by
  intro d
  induction d with
  | zero => intro _ x hx; exact hf x hx
  | succ d ih =>
    intro hd x hx
    have hb := blocks_eq (L := L) (i := L - 1 - d) (by omega)
    have hp : 0 < 2 ^ (L - 1 - d) := by positivity
    rw [mfwd, mfwd]
    exact mct_congr (nb := 2 ^ (L - 1 - (L - 1 - d))) hp (fun _ _ => rfl)
      (fun y hy => ih (by omega) y (by rw [← hb]; exact hy)) x (by rw [hb]; exact hx)

theorem minv_congr (U : ℕ → ℕ → R) (L : ℕ) {f f' : ℕ → R} (hf : ∀ x < 2 ^ L, f x = f' x) :
    ∀ d ≤ L, ∀ x < 2 ^ L, minv U d f x = minv U d f' x := by
  intro d
  induction d with
  | zero => intro _ x hx; exact hf x hx
  | succ d ih =>
    intro hd x hx
    have hb := blocks_eq (L := L) (i := d) (by omega)
    have hp : 0 < 2 ^ d := by positivity
    rw [minv, minv]
    exact mgs_congr (nb := 2 ^ (L - 1 - d)) hp (fun _ _ => rfl)
      (fun y hy => ih (by omega) y (by rw [← hb]; exact hy)) x (by rw [hb]; exact hx)

end Shell.Ntt
