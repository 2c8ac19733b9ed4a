import Verif.Lemmas.Tape
import Verif.Lemmas.ErrorSample
import Verif.Lemmas.Canonical
import Mathlib.Analysis.SpecialFunctions.Trigonometric.DerivHyp
import Mathlib.Analysis.SpecialFunctions.Trigonometric.Series
import Mathlib.Analysis.SpecialFunctions.Pow.Real
import Mathlib.RingTheory.RootsOfUnity.Basic
/-!
# The size of a sampled error polynomial

Each coefficient is a difference of two binomial variables, so its moment generating function is at most that of a
normal variable of the same variance.
-/

namespace Shell
open Spec Prng Real

/-! ## Bits of uniform bytes -/

theorem countBits_succ (b x : ℕ) : countBits (b + 1) x = x % 2 + countBits b (x / 2) := by
  unfold countBits
  rw [List.range_succ_eq_map, List.filter_cons]
  have h : ((List.map Nat.succ (List.range b)).filter fun i => x.testBit i).length =
      ((List.range b).filter fun i => (x / 2).testBit i).length := by
    rw [List.filter_map, List.length_map]
    congr 2
    funext i
    simp [Nat.testBit_succ]
  have h2 := Nat.mod_two_eq_zero_or_one x
  rw [Nat.testBit_zero]
  by_cases hx : x % 2 = 1
  · rw [hx]; simp only [decide_true, ↓reduceIte, List.length_cons]; rw [h]; omega
  · have : x % 2 = 0 := by omega
    rw [this]; simp only [zero_ne_one, decide_false, Bool.false_eq_true, ↓reduceIte]; rw [h]; omega

theorem countBits_append (m k x y : ℕ) (hx : x < 2 ^ m) :
    countBits (m + k) (x + 2 ^ m * y) = countBits m x + countBits k y := by
  induction m generalizing x with
  | zero =>
    have : x = 0 := by simpa using hx
    subst this
    simp [countBits]
  | succ m ih =>
    rw [show m + 1 + k = (m + k) + 1 by ring, countBits_succ, countBits_succ]
    have e1 : (x + 2 ^ (m + 1) * y) % 2 = x % 2 := by
      rw [pow_succ, show 2 ^ m * 2 * y = 2 * (2 ^ m * y) by ring]; omega
    have e2 : (x + 2 ^ (m + 1) * y) / 2 = x / 2 + 2 ^ m * y := by
      rw [pow_succ, show 2 ^ m * 2 * y = 2 * (2 ^ m * y) by ring]; omega
    rw [e1, e2, ih (x / 2) (by rw [pow_succ] at hx; omega)]
    ring

theorem sum_countBits (y : ℝ) (b B : ℕ) (h : b ≤ B) :
    ∑ x ∈ Finset.range (2 ^ B), y ^ countBits b x = (1 + y) ^ b * 2 ^ (B - b) := by
  induction b generalizing B with
  | zero => simp [countBits]
  | succ b ih =>
    obtain ⟨B, rfl⟩ : ∃ B', B = B' + 1 := ⟨B - 1, by omega⟩
    have hs : ∀ (n : ℕ) (g : ℕ → ℝ), ∑ x ∈ Finset.range (n * 2), g x =
        ∑ x ∈ Finset.range n, (g (2 * x) + g (2 * x + 1)) := fun n g => by
      induction n with
      | zero => simp
      | succ n ihn =>
        rw [show (n + 1) * 2 = n * 2 + 1 + 1 by ring, Finset.sum_range_succ, Finset.sum_range_succ, ihn,
          Finset.sum_range_succ, mul_comm n 2]
        ring
    rw [pow_succ 2 B, hs]
    have : ∀ x, y ^ countBits (b + 1) (2 * x) + y ^ countBits (b + 1) (2 * x + 1) = (1 + y) * y ^ countBits b x := by
      intro x
      rw [countBits_succ, countBits_succ, show 2 * x % 2 = 0 by omega, show 2 * x / 2 = x by omega,
        show (2 * x + 1) % 2 = 1 by omega, show (2 * x + 1) / 2 = x by omega, pow_add, pow_add]
      ring
    rw [Finset.sum_congr rfl fun x _ => this x, ← Finset.mul_sum, ih B (by omega), pow_succ,
      show B + 1 - (b + 1) = B - b by omega]
    ring

/-- The expectation of `y` to the number of ones. -/
noncomputable def bitMean (y : ℝ) : ℝ := (1 + y) / 2

theorem byte_mean (y : ℝ) {b : ℕ} (hb : b ≤ 8) : byteTree.expect (fun x => y ^ countBits b x) = bitMean y ^ b := by
  show (∑ x : Fin 256, y ^ countBits b x) / 256 = _
  rw [Fin.sum_univ_eq_sum_range (fun x => y ^ countBits b x) 256, show (256 : ℕ) = 2 ^ 8 by norm_num,
    sum_countBits y b 8 hb, bitMean, div_pow]
  have : (2 : ℝ) ^ 8 = 2 ^ b * 2 ^ (8 - b) := by rw [← pow_add]; congr 1; omega
  have h2 : (2 : ℝ) ^ (8 - b) ≠ 0 := by positivity
  rw [show (256 : ℝ) = 2 ^ 8 by norm_num, this]
  field_simp

/-- The number with given little-endian bytes. -/
def leTree : ℕ → Tree ℕ
  | 0 => .ret (.ok 0)
  | n + 1 => byteTree.bind fun b => (leTree n).bind fun y => .ret (.ok (b + 2 ^ 8 * y))

theorem le_mean (y : ℝ) (n : ℕ) : (leTree n).expect (fun x => y ^ countBits (8 * n) x) = bitMean y ^ (8 * n) := by
  induction n with
  | zero => simp [leTree, Tree.expect, countBits]
  | succ n ih =>
    show (∑ b : Fin 256, ((leTree n).bind fun y => .ret (.ok ((b : ℕ) + 2 ^ 8 * y))).expect _) / 256 = _
    have : ∀ b : Fin 256, ((leTree n).bind fun x => .ret (.ok ((b : ℕ) + 2 ^ 8 * x))).expect
        (fun x => y ^ countBits (8 * (n + 1)) x) = y ^ countBits 8 (b : ℕ) * bitMean y ^ (8 * n) := by
      intro b
      rw [Tree.expect_bind, ← ih, ← Tree.expect_mul]
      congr 1
      funext x
      show y ^ countBits (8 * (n + 1)) ((b : ℕ) + 2 ^ 8 * x) = _
      rw [show 8 * (n + 1) = 8 + 8 * n by ring, countBits_append 8 _ _ _ (by have := b.2; omega), pow_add]
    rw [Finset.sum_congr rfl fun b _ => this b, ← Finset.sum_mul, mul_div_right_comm]
    have h := byte_mean y (b := 8) le_rfl
    unfold byteTree at h
    rw [show (∑ b : Fin 256, y ^ countBits 8 (b : ℕ)) / 256 = bitMean y ^ 8 from h, ← pow_add]
    congr 1
    ring

theorem word_mean (y : ℝ) : wordTree.expect (fun x => y ^ countBits 64 x) = bitMean y ^ 64 := by
  rw [← le_mean y 8]
  simp only [wordTree, leTree, byteTree, Tree.bind, Tree.expect]
  simp only [mul_zero, add_zero]
  refine congrArg (· / 256) (Finset.sum_congr rfl fun b0 _ => ?_)
  refine congrArg (· / 256) (Finset.sum_congr rfl fun b1 _ => ?_)
  refine congrArg (· / 256) (Finset.sum_congr rfl fun b2 _ => ?_)
  refine congrArg (· / 256) (Finset.sum_congr rfl fun b3 _ => ?_)
  refine congrArg (· / 256) (Finset.sum_congr rfl fun b4 _ => ?_)
  refine congrArg (· / 256) (Finset.sum_congr rfl fun b5 _ => ?_)
  refine congrArg (· / 256) (Finset.sum_congr rfl fun b6 _ => ?_)
  refine congrArg (· / 256) (Finset.sum_congr rfl fun b7 _ => ?_)
  congr 2
  ring

/-- One call. -/
def opTree : Op → Tree ℕ
  | .rand8 => byteTree
  | .rand64 => wordTree

theorem opTree_is (op : Op) : (opTree op).Is (draw bytesSource op) := by
  cases op
  · exact byteTree_is
  · exact wordTree_is

/-- The calls for one coefficient. -/
def pairsTree : List Op → Tree (List (ℕ × ℕ))
  | [] => .ret (.ok [])
  | op :: ops => (opTree op).bind fun x => (opTree op).bind fun y => (pairsTree ops).bind fun r =>
      .ret (.ok ((x, y) :: r))

theorem pairsTree_is (ops : List Op) : (pairsTree ops).Is (drawPairs bytesSource ops) := by
  induction ops with
  | nil => exact fun t => rfl
  | cons op ops ih =>
    exact (opTree_is op).bind fun x => (opTree_is op).bind fun y => ih.bind fun r => fun t => rfl

/-- The chunks the sampler uses. -/
def Fair (c : Op × ℕ) : Prop := c = (.rand64, 64) ∨ ∃ b ≤ 8, c = (.rand8, b)

theorem chunks_fair (k : ℕ) : ∀ c ∈ chunks k, Fair c := by
  intro c hc
  unfold chunks at hc
  simp only [List.mem_append, List.mem_replicate] at hc
  rcases hc with (⟨-, rfl⟩ | ⟨-, rfl⟩) | hc
  · exact Or.inl rfl
  · exact Or.inr ⟨8, le_rfl, rfl⟩
  · split_ifs at hc with h
    · cases hc
    · rw [List.mem_singleton] at hc
      exact Or.inr ⟨k % 8, by omega, hc⟩

theorem op_mean (y : ℝ) {c : Op × ℕ} (hc : Fair c) :
    (opTree c.1).expect (fun x => y ^ countBits c.2 x) = bitMean y ^ c.2 := by
  obtain rfl | ⟨b, hb, rfl⟩ := hc
  · exact word_mean y
  · exact byte_mean y hb

theorem noise_mean (a : ℝ) {cs : List (Op × ℕ)} (hc : ∀ c ∈ cs, Fair c) :
    (pairsTree (cs.map Prod.fst)).expect (fun ps => exp (a * (noise (cs.map Prod.snd) ps : ℤ))) =
      (bitMean (exp a) * bitMean (exp (-a))) ^ (cs.map Prod.snd).sum := by
  induction cs with
  | nil => simp [pairsTree, Tree.expect, noise]
  | cons c cs ih =>
    have ih := ih fun c h => hc c (List.mem_cons_of_mem _ h)
    show ((opTree c.1).bind fun x => (opTree c.1).bind fun y => (pairsTree (cs.map Prod.fst)).bind fun r =>
      .ret (.ok ((x, y) :: r))).expect _ = _
    rw [Tree.expect_bind]
    have e1 : ∀ x y : ℕ, ((pairsTree (cs.map Prod.fst)).bind fun r => .ret (.ok ((x, y) :: r))).expect
        (fun ps => exp (a * (noise ((c :: cs).map Prod.snd) ps : ℤ))) =
        (exp a ^ countBits c.2 x * exp (-a) ^ countBits c.2 y) *
          (bitMean (exp a) * bitMean (exp (-a))) ^ (cs.map Prod.snd).sum := by
      intro x y
      rw [Tree.expect_bind, ← ih, ← Tree.expect_mul]
      congr 1
      funext r
      show exp (a * ((((countBits c.2 x : ℤ) - countBits c.2 y) + noise (cs.map Prod.snd) r : ℤ))) = _
      rw [← Real.exp_nat_mul, ← Real.exp_nat_mul, ← Real.exp_add, ← Real.exp_add]
      congr 1
      push_cast
      ring
    have e2 : ∀ x : ℕ, ((opTree c.1).bind fun y => (pairsTree (cs.map Prod.fst)).bind fun r =>
        .ret (.ok ((x, y) :: r))).expect (fun ps => exp (a * (noise ((c :: cs).map Prod.snd) ps : ℤ))) =
        (bitMean (exp (-a)) ^ c.2 * (bitMean (exp a) * bitMean (exp (-a))) ^ (cs.map Prod.snd).sum) *
          exp a ^ countBits c.2 x := by
      intro x
      rw [Tree.expect_bind, ← op_mean (exp (-a)) (hc c List.mem_cons_self)]
      have : ∀ y : ℕ, ((pairsTree (cs.map Prod.fst)).bind fun r => .ret (.ok ((x, y) :: r))).expect
        (fun ps => exp (a * (noise ((c :: cs).map Prod.snd) ps : ℤ))) =
        (exp a ^ countBits c.2 x * (bitMean (exp a) * bitMean (exp (-a))) ^ (cs.map Prod.snd).sum) *
          exp (-a) ^ countBits c.2 y := fun y => by rw [e1]; ring
      rw [show (fun y => _) = _ from funext this, Tree.expect_mul]
      ring
    rw [show (fun x => _) = _ from funext e2, Tree.expect_mul, op_mean _ (hc c List.mem_cons_self), List.map_cons,
      List.sum_cons, pow_add, mul_pow]
    ring

theorem bitMean_le (a : ℝ) : bitMean (exp a) * bitMean (exp (-a)) ≤ exp (a ^ 2 / 4) := by
  have h1 : bitMean (exp a) * bitMean (exp (-a)) = cosh (a / 2) ^ 2 := by
    unfold bitMean
    rw [Real.cosh_eq, show a = a / 2 + a / 2 by ring, show -(a / 2 + a / 2) = -(a / 2) + -(a / 2) by ring,
      Real.exp_add, Real.exp_add, show (a / 2 + a / 2) / 2 = a / 2 by ring]
    have : exp (a / 2) * exp (-(a / 2)) = 1 := by rw [← Real.exp_add]; simp
    generalize exp (a / 2) = u at *
    generalize exp (-(a / 2)) = v at *
    have h2 : (1 + u * u) / 2 * ((1 + v * v) / 2) = (1 + u * u + v * v + (u * v) * (u * v)) / 4 := by ring
    rw [h2, this]
    have h3 : ((u + v) / 2) ^ 2 = (u * u + 2 * (u * v) + v * v) / 4 := by ring
    rw [h3, this]
    ring
  rw [h1]
  have h2 := Real.cosh_le_exp_half_sq (a / 2)
  have h3 : 0 ≤ cosh (a / 2) := (Real.cosh_pos _).le
  calc cosh (a / 2) ^ 2 ≤ exp ((a / 2) ^ 2 / 2) ^ 2 := by gcongr
    _ = exp (a ^ 2 / 4) := by rw [← Real.exp_nat_mul]; congr 1; push_cast; ring

/-- The coefficient the sampler computes from its words. -/
def coeffOf (variance : ℕ) (ps : List (ℕ × ℕ)) : ℤ := noise ((chunks (2 * variance)).map Prod.snd) ps

/-- The words of a coefficient. -/
def coeffTree (variance : ℕ) : Tree (List (ℕ × ℕ)) := pairsTree ((chunks (2 * variance)).map Prod.fst)

theorem coeff_mean (variance : ℕ) (a : ℝ) :
    (coeffTree variance).expect (fun ps => exp (a * (coeffOf variance ps : ℤ))) ≤ exp (variance * a ^ 2 / 2) := by
  unfold coeffTree coeffOf
  rw [noise_mean a (chunks_fair _), show ((chunks (2 * variance)).map Prod.snd).sum = 2 * variance from Sampler.sizes_sum _]
  have h : 0 ≤ bitMean (exp a) * bitMean (exp (-a)) := by unfold bitMean; positivity
  calc _ ≤ exp (a ^ 2 / 4) ^ (2 * variance) := by gcongr; exact bitMean_le a
    _ = _ := by rw [← Real.exp_nat_mul]; congr 1; push_cast; ring

/-! ## Linear forms in the coefficients -/

theorem times_mean {α : Type} (T : Tree α) (f : α → ℝ) {V : ℝ} (h : ∀ a, T.expect (fun x => exp (a * f x)) ≤
    exp (V * a ^ 2 / 2)) (d : α) (n : ℕ) (w : ℕ → ℝ) :
    (T.times n).expect (fun xs => exp (∑ i ∈ Finset.range n, w i * f (xs.getD i d))) ≤
      exp (V * (∑ i ∈ Finset.range n, w i ^ 2) / 2) := by
  induction n generalizing w with
  | zero => simp [Tree.times, Tree.expect]
  | succ n ih =>
    show (T.bind fun x => (T.times n).bind fun xs => .ret (.ok (x :: xs))).expect _ ≤ _
    rw [Tree.expect_bind]
    have e1 : ∀ x, ((T.times n).bind fun xs => .ret (.ok (x :: xs))).expect
        (fun xs => exp (∑ i ∈ Finset.range (n + 1), w i * f (xs.getD i d))) ≤
        exp (V * (∑ i ∈ Finset.range n, w (i + 1) ^ 2) / 2) * exp (w 0 * f x) := by
      intro x
      rw [Tree.expect_bind]
      have : ∀ xs : List α, (Tree.ret (.ok (x :: xs))).expect
          (fun xs => exp (∑ i ∈ Finset.range (n + 1), w i * f (xs.getD i d))) =
          exp (w 0 * f x) * exp (∑ i ∈ Finset.range n, w (i + 1) * f (xs.getD i d)) := by
        intro xs
        show exp _ = _
        rw [Finset.sum_range_succ', ← Real.exp_add, add_comm]
        rfl
      rw [show (fun xs => _) = _ from funext this, Tree.expect_mul, mul_comm]
      exact mul_le_mul_of_nonneg_right (ih fun i => w (i + 1)) (Real.exp_pos _).le
    refine (T.expect_mono e1).trans ?_
    rw [Tree.expect_mul]
    refine (mul_le_mul_of_nonneg_left (h (w 0)) (Real.exp_pos _).le).trans (le_of_eq ?_)
    rw [← Real.exp_add, Finset.sum_range_succ']
    congr 1
    ring

open Classical in
/-- The tail of a linear form. -/
theorem form_tail {α : Type} (T : Tree α) (f : α → ℝ) {V : ℝ} (hV : 0 < V)
    (h : ∀ a, T.expect (fun x => exp (a * f x)) ≤ exp (V * a ^ 2 / 2)) (d : α) (n : ℕ) (w : ℕ → ℝ) {W : ℝ}
    (hW : 0 < W) (hw : ∑ i ∈ Finset.range n, w i ^ 2 = W) (c : ℝ) (hc : 0 ≤ c) :
    (T.times n).expect (fun xs => if c < ∑ i ∈ Finset.range n, w i * f (xs.getD i d) then 1 else 0) ≤
      exp (-(c ^ 2 / (2 * V * W))) := by
  set s := c / (V * W) with hs
  have hs0 : 0 ≤ s := by positivity
  have e1 : ∀ xs : List α, (if c < ∑ i ∈ Finset.range n, w i * f (xs.getD i d) then (1 : ℝ) else 0) ≤
      exp (-(s * c)) * exp (∑ i ∈ Finset.range n, (s * w i) * f (xs.getD i d)) := by
    intro xs
    rw [← Real.exp_add]
    split_ifs with h1
    · rw [show ∑ i ∈ Finset.range n, (s * w i) * f (xs.getD i d) = s * ∑ i ∈ Finset.range n, w i * f (xs.getD i d) by
        rw [Finset.mul_sum]; exact Finset.sum_congr rfl fun i _ => by ring]
      refine Real.one_le_exp ?_
      nlinarith
    · exact (Real.exp_pos _).le
  refine ((T.times n).expect_mono e1).trans ?_
  rw [Tree.expect_mul]
  refine (mul_le_mul_of_nonneg_left (times_mean T f h d n fun i => s * w i) (Real.exp_pos _).le).trans (le_of_eq ?_)
  rw [← Real.exp_add]
  congr 1
  rw [show ∑ i ∈ Finset.range n, (s * w i) ^ 2 = s ^ 2 * W by
    rw [← hw, Finset.mul_sum]; exact Finset.sum_congr rfl fun i _ => by ring, hs]
  field_simp
  ring

/-! ## Values at the roots -/

/-- A point outside of the disc is beyond one of the sides of an octagon. -/
theorem octagon {A B c : ℝ} (h : 36 * c ^ 2 < 30 * (A ^ 2 + B ^ 2)) (hc : 0 ≤ c) :
    c < A ∨ c < -A ∨ c < B ∨ c < -B ∨ c < (A + B) / √2 ∨ c < -((A + B) / √2) ∨ c < (A - B) / √2 ∨
      c < -((A - B) / √2) := by
  by_contra hn
  push Not at hn
  obtain ⟨h1, h2, h3, h4, h5, h6, h7, h8⟩ := hn
  have hr : 0 < √2 := by positivity
  have hr2 : √2 * √2 = 2 := Real.mul_self_sqrt (by norm_num)
  have hA : |A| ≤ c := abs_le.mpr ⟨by linarith, h1⟩
  have hB : |B| ≤ c := abs_le.mpr ⟨by linarith, h3⟩
  have h5' : A + B ≤ c * √2 := (div_le_iff₀ hr).mp h5
  have h6' : -(A + B) ≤ c * √2 := by rw [← neg_div] at h6; exact (div_le_iff₀ hr).mp h6
  have h7' : A - B ≤ c * √2 := (div_le_iff₀ hr).mp h7
  have h8' : -(A - B) ≤ c * √2 := by rw [← neg_div] at h8; exact (div_le_iff₀ hr).mp h8
  have hs : |A| + |B| ≤ c * √2 := by
    rcases abs_cases A with ⟨e, -⟩ | ⟨e, -⟩ <;> rcases abs_cases B with ⟨e', -⟩ | ⟨e', -⟩ <;> rw [e, e'] <;> linarith
  rw [← sq_abs A, ← sq_abs B] at h
  have ha : 0 ≤ |A| := abs_nonneg A
  have hb : 0 ≤ |B| := abs_nonneg B
  generalize |A| = a at *
  generalize |B| = b at *
  have hab : 0 ≤ (c - a) * (c - b) := mul_nonneg (by linarith) (by linarith)
  have hle : a ^ 2 + b ^ 2 ≤ (a + b - c) ^ 2 + c ^ 2 := by nlinarith
  have ha0 : 0 ≤ c * √2 - (a + b) := by linarith
  have h15 : √2 ≤ 1.415 := by
    rw [Real.sqrt_le_left (by norm_num)]; norm_num
  have hs' : a + b ≤ 1.415 * c := hs.trans (by nlinarith)
  by_cases hsc : a + b ≤ c
  · nlinarith [mul_nonneg ha hb]
  · have : (a + b - c) ^ 2 ≤ (0.415 * c) ^ 2 := by
      apply sq_le_sq'
      · linarith
      · linarith
    nlinarith

theorem root_norm {n : ℕ} (hn : n ≠ 0) {z : ℂ} (hz : z ^ n = -1) : ‖z‖ = 1 := by
  have : ‖z‖ ^ n = 1 := by rw [← norm_pow, hz]; simp
  exact (pow_eq_one_iff_of_nonneg (norm_nonneg z) hn).mp this

theorem root_sums {n : ℕ} (hn : n ≠ 0) (he : Even n) {z : ℂ} (hz : z ^ n = -1) :
    ∑ i ∈ Finset.range n, (z ^ i).re ^ 2 = n / 2 ∧ ∑ i ∈ Finset.range n, (z ^ i).im ^ 2 = n / 2 ∧
      ∑ i ∈ Finset.range n, (z ^ i).re * (z ^ i).im = 0 := by
  have h1 : z ^ 2 - 1 ≠ 0 := by
    intro h
    obtain ⟨k, rfl⟩ := he
    have h2 : z ^ 2 = 1 := by linear_combination h
    rw [← two_mul, pow_mul, h2, one_pow] at hz
    norm_num at hz
  have h2 : ∑ i ∈ Finset.range n, (z ^ 2) ^ i = 0 := by
    have := mul_geom_sum (z ^ 2) n
    rw [← pow_mul, mul_comm 2 n, pow_mul, hz] at this
    norm_num at this
    exact this.resolve_left h1
  have h3 : ∀ i, (z ^ 2) ^ i = z ^ i * z ^ i := fun i => by rw [← pow_mul, ← pow_add]; ring_nf
  rw [Finset.sum_congr rfl fun i _ => h3 i] at h2
  have hre := congrArg Complex.re h2
  have him := congrArg Complex.im h2
  rw [Complex.re_sum] at hre
  rw [Complex.im_sum] at him
  simp only [Complex.mul_re, Complex.mul_im, Complex.zero_re, Complex.zero_im] at hre him
  have h4 : ∀ i, (z ^ i).re ^ 2 + (z ^ i).im ^ 2 = 1 := fun i => by
    have : Complex.normSq (z ^ i) = 1 := by
      rw [Complex.normSq_eq_norm_sq, norm_pow, root_norm hn hz]; simp
    rw [Complex.normSq_apply] at this
    linarith
  have h5 : ∑ i ∈ Finset.range n, (z ^ i).re ^ 2 + ∑ i ∈ Finset.range n, (z ^ i).im ^ 2 = n := by
    rw [← Finset.sum_add_distrib, Finset.sum_congr rfl fun i _ => h4 i]; simp
  have h6 : ∑ i ∈ Finset.range n, (z ^ i).re ^ 2 - ∑ i ∈ Finset.range n, (z ^ i).im ^ 2 = 0 := by
    rw [← Finset.sum_sub_distrib, ← hre]
    exact Finset.sum_congr rfl fun i _ => by ring
  refine ⟨by linarith, by linarith, ?_⟩
  rw [Finset.sum_add_distrib] at him
  have h7 : ∑ i ∈ Finset.range n, (z ^ i).im * (z ^ i).re = ∑ i ∈ Finset.range n, (z ^ i).re * (z ^ i).im :=
    Finset.sum_congr rfl fun i _ => by ring
  linarith

/-- The eight linear forms in the values `re`, `im`. -/
noncomputable def sides (z : ℂ) (k : Fin 8) (i : ℕ) : ℝ :=
  ![(z ^ i).re, -(z ^ i).re, (z ^ i).im, -(z ^ i).im, ((z ^ i).re + (z ^ i).im) / √2, -(((z ^ i).re + (z ^ i).im) / √2),
    ((z ^ i).re - (z ^ i).im) / √2, -(((z ^ i).re - (z ^ i).im) / √2)] k

theorem sides_sq {n : ℕ} (hn : n ≠ 0) (he : Even n) {z : ℂ} (hz : z ^ n = -1) (k : Fin 8) :
    ∑ i ∈ Finset.range n, sides z k i ^ 2 = n / 2 := by
  obtain ⟨h1, h2, h3⟩ := root_sums hn he hz
  have hp : ∀ i, (((z ^ i).re + (z ^ i).im) / √2) ^ 2 =
      ((z ^ i).re ^ 2 + (z ^ i).im ^ 2) / 2 + (z ^ i).re * (z ^ i).im := fun i => by
    rw [div_pow, Real.sq_sqrt (by norm_num)]; ring
  have hm : ∀ i, (((z ^ i).re - (z ^ i).im) / √2) ^ 2 =
      ((z ^ i).re ^ 2 + (z ^ i).im ^ 2) / 2 - (z ^ i).re * (z ^ i).im := fun i => by
    rw [div_pow, Real.sq_sqrt (by norm_num)]; ring
  have hp' : ∑ i ∈ Finset.range n, (((z ^ i).re + (z ^ i).im) / √2) ^ 2 = n / 2 := by
    rw [Finset.sum_congr rfl fun i _ => hp i, Finset.sum_add_distrib, ← Finset.sum_div, Finset.sum_add_distrib, h1, h2,
      h3]
    ring
  have hm' : ∑ i ∈ Finset.range n, (((z ^ i).re - (z ^ i).im) / √2) ^ 2 = n / 2 := by
    rw [Finset.sum_congr rfl fun i _ => hm i, Finset.sum_sub_distrib, ← Finset.sum_div, Finset.sum_add_distrib, h1, h2,
      h3]
    ring
  unfold sides
  fin_cases k <;> simp only [Matrix.cons_val, neg_sq, Fin.mk_one, Fin.zero_eta, Fin.reduceFinMk] <;> assumption

theorem sides_sum {n : ℕ} (z : ℂ) (x : ℕ → ℝ) {c : ℝ} (hc : 0 ≤ c)
    (h : 36 * c ^ 2 < 30 * ((∑ i ∈ Finset.range n, (z ^ i).re * x i) ^ 2 + (∑ i ∈ Finset.range n, (z ^ i).im * x i) ^ 2)) :
    ∃ k, c < ∑ i ∈ Finset.range n, sides z k i * x i := by
  have e4 : ∑ i ∈ Finset.range n, ((z ^ i).re + (z ^ i).im) / √2 * x i =
      ((∑ i ∈ Finset.range n, (z ^ i).re * x i) + ∑ i ∈ Finset.range n, (z ^ i).im * x i) / √2 := by
    rw [← Finset.sum_add_distrib, Finset.sum_div]
    exact Finset.sum_congr rfl fun i _ => by ring
  have e6 : ∑ i ∈ Finset.range n, ((z ^ i).re - (z ^ i).im) / √2 * x i =
      ((∑ i ∈ Finset.range n, (z ^ i).re * x i) - ∑ i ∈ Finset.range n, (z ^ i).im * x i) / √2 := by
    rw [← Finset.sum_sub_distrib, Finset.sum_div]
    exact Finset.sum_congr rfl fun i _ => by ring
  have hneg : ∀ f : ℕ → ℝ, ∑ i ∈ Finset.range n, -f i * x i = -∑ i ∈ Finset.range n, f i * x i := fun f => by
    rw [← Finset.sum_neg_distrib]
    exact Finset.sum_congr rfl fun i _ => by ring
  rcases octagon h hc with h | h | h | h | h | h | h | h
  · exact ⟨0, h⟩
  · exact ⟨1, by rw [← hneg] at h; exact h⟩
  · exact ⟨2, h⟩
  · exact ⟨3, by rw [← hneg] at h; exact h⟩
  · exact ⟨4, by rw [← e4] at h; exact h⟩
  · exact ⟨5, by rw [← e4, ← hneg] at h; exact h⟩
  · exact ⟨6, by rw [← e6] at h; exact h⟩
  · exact ⟨7, by rw [← e6, ← hneg] at h; exact h⟩

theorem root_set {n : ℕ} (hn : n ≠ 0) : ∃ roots : Finset ℂ, (∀ z : ℂ, z ∈ roots ↔ z ^ n = -1) ∧ roots.card ≤ n := by
  classical
  refine ⟨(Polynomial.nthRoots n (-1)).toFinset, fun z => ?_, ?_⟩
  · rw [Multiset.mem_toFinset, Polynomial.mem_nthRoots (Nat.pos_of_ne_zero hn)]
  · exact (Multiset.toFinset_card_le _).trans (Polynomial.card_nthRoots n (-1))

open Classical in
/-- A sampled polynomial rarely has a value of more than six deviations. -/
theorem poly_tail {v n : ℕ} (hv : 0 < v) (hn : n ≠ 0) (he : Even n) :
    ((coeffTree v).times n).expect (fun pss =>
      if ¬ SizeAtMost (fun i : Fin n => coeffOf v (pss.getD i [])) (6 * √v * √n) then 1 else 0) ≤
      8 * n * exp (-30) := by
  set c : ℝ := √(30 * v * n) with hc
  have hv' : (0 : ℝ) < v := by exact_mod_cast hv
  have hn' : (0 : ℝ) < n := by exact_mod_cast Nat.pos_of_ne_zero hn
  have hc2 : c ^ 2 = 30 * v * n := Real.sq_sqrt (by positivity)
  have hc0 : 0 ≤ c := Real.sqrt_nonneg _
  obtain ⟨roots, hroot, hcard'⟩ := root_set hn
  have hcard : (roots.card : ℝ) ≤ n := Nat.cast_le.mpr hcard'
  have e1 : ∀ pss : List (List (ℕ × ℕ)),
      (if ¬ SizeAtMost (fun i : Fin n => coeffOf v (pss.getD i [])) (6 * √v * √n) then (1 : ℝ) else 0) ≤
      ∑ z ∈ roots, ∑ k : Fin 8, if c < ∑ i ∈ Finset.range n, sides z k i * (coeffOf v (pss.getD i []) : ℤ)
        then (1 : ℝ) else 0 := by
    intro pss
    have hnn : ∀ z, ∀ k : Fin 8, (0 : ℝ) ≤ if c < ∑ i ∈ Finset.range n, sides z k i * (coeffOf v (pss.getD i []) : ℤ)
        then (1 : ℝ) else 0 := fun z k => by split_ifs <;> norm_num
    split_ifs with h1
    · exact Finset.sum_nonneg fun z _ => Finset.sum_nonneg fun k _ => hnn z k
    · unfold SizeAtMost at h1
      push Not at h1
      obtain ⟨z, hz, h1⟩ := h1
      have h2 : (36 : ℝ) * v * n < ‖evalAt (fun i : Fin n => coeffOf v (pss.getD i [])) z‖ ^ 2 := by
        have h3 : (6 * √v * √n : ℝ) ^ 2 = 36 * v * n := by
          rw [mul_pow, mul_pow, Real.sq_sqrt hv'.le, Real.sq_sqrt hn'.le]; norm_num
        rw [← h3]
        exact pow_lt_pow_left₀ h1 (by positivity) (by norm_num)
      have h4 : ‖evalAt (fun i : Fin n => coeffOf v (pss.getD i [])) z‖ ^ 2 =
          (∑ i ∈ Finset.range n, (z ^ i).re * ((coeffOf v (pss.getD i []) : ℤ) : ℝ)) ^ 2 +
          (∑ i ∈ Finset.range n, (z ^ i).im * ((coeffOf v (pss.getD i []) : ℤ) : ℝ)) ^ 2 := by
        rw [← Complex.normSq_eq_norm_sq, Complex.normSq_apply, ← sq, ← sq]
        unfold evalAt
        rw [Fin.sum_univ_eq_sum_range (fun i => ((coeffOf v (pss.getD i []) : ℤ) : ℂ) * z ^ i) n, Complex.re_sum,
          Complex.im_sum]
        congr 2 <;> refine Finset.sum_congr rfl fun i _ => ?_
        · simp [mul_comm]
        · simp [mul_comm]
      rw [h4] at h2
      obtain ⟨k, hk⟩ := sides_sum (n := n) z (fun i => ((coeffOf v (pss.getD i []) : ℤ) : ℝ)) hc0
        (by rw [hc2]; nlinarith)
      refine le_trans ?_ (Finset.single_le_sum (f := fun z => ∑ k : Fin 8,
        if c < ∑ i ∈ Finset.range n, sides z k i * (coeffOf v (pss.getD i []) : ℤ) then (1 : ℝ) else 0)
        (fun z _ => Finset.sum_nonneg fun k _ => hnn z k) ((hroot z).mpr hz))
      refine le_trans ?_ (Finset.single_le_sum (fun k _ => hnn z k) (Finset.mem_univ k))
      rw [if_pos hk]
  refine (Tree.expect_mono _ e1).trans ?_
  rw [Tree.expect_sum]
  have e2 : ∀ z ∈ roots, ((coeffTree v).times n).expect (fun pss => ∑ k : Fin 8,
      if c < ∑ i ∈ Finset.range n, sides z k i * (coeffOf v (pss.getD i []) : ℤ) then (1 : ℝ) else 0) ≤
      8 * exp (-30) := by
    intro z hz
    rw [Tree.expect_sum]
    have := Finset.sum_le_sum fun k (_ : k ∈ (Finset.univ : Finset (Fin 8))) =>
      form_tail (coeffTree v) (fun ps => ((coeffOf v ps : ℤ) : ℝ)) hv' (coeff_mean v) [] n (sides z k)
        (W := n / 2) (by positivity) (sides_sq hn he ((hroot z).mp hz) k) c hc0
    refine this.trans (le_of_eq ?_)
    rw [Finset.sum_const, Finset.card_univ, Fintype.card_fin, nsmul_eq_mul, hc2]
    have : (30 * v * n / (2 * v * (n / 2)) : ℝ) = 30 := by field_simp
    rw [this]
    norm_num
  refine (Finset.sum_le_sum e2).trans ?_
  rw [Finset.sum_const, nsmul_eq_mul]
  have := Real.exp_pos (-30)
  nlinarith

end Shell
