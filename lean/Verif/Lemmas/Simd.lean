import Verif.Model.Simd
import Verif.Lemmas.Loop
import Mathlib.Tactic.IntervalCases
import Mathlib.Tactic.Ring
/-!
# Lemmas for the SIMD kernels
-/

namespace Shell.Simd

theorem getD_append {α : Type} (u v : List α) (d : α) (k : ℕ) :
    (u ++ v).getD k d = if k < u.length then u.getD k d else v.getD (k - u.length) d := by
  split
  · rename_i h; rw [List.getD_append _ _ _ _ h]
  · rename_i h; rw [List.getD_append_right _ _ _ _ (by omega)]

theorem getD_drop {α : Type} (u : List α) (d : α) (i k : ℕ) : (u.drop i).getD k d = u.getD (i + k) d := by
  simp [List.getD_eq_getElem?_getD, List.getElem?_drop]

theorem getD_take {α : Type} (u : List α) (d : α) (i k : ℕ) (h : k < i) : (u.take i).getD k d = u.getD k d := by
  simp [List.getD_eq_getElem?_getD, List.getElem?_take, h]

theorem getD_store (n : ℕ) (x : ℕ → ℕ) (k : ℕ) (h : k < n) : (store n x).getD k 0 = x k := by
  unfold store
  rw [List.getD_eq_getElem?_getD, List.getElem?_map, List.getElem?_range h]
  rfl

theorem getD_storeWords (w n : ℕ) (x : ℕ → ℕ) (k : ℕ) (h : k < n / 2) :
    (storeWords w n x).getD k 0 = x (2 * k) + 2 ^ w * x (2 * k + 1) := by
  unfold storeWords
  rw [List.getD_eq_getElem?_getD, List.getElem?_map, List.getElem?_range h]
  rfl

/-- What the body of a vector loop has to do. -/
def BodyOk (w N : ℕ) (body : List ℕ → List ℕ → List ℕ → List ℕ) : Prop :=
  ∀ o a b : List ℕ, o.length = N → a.length = N → b.length = N → (∀ x ∈ o, x < 2 ^ (2 * w)) →
    (∀ x ∈ a, x < 2 ^ w) → (∀ x ∈ b, x < 2 ^ w) →
    (body o a b).length = N ∧
      ∀ k < N, (body o a b).getD k 0 = (o.getD k 0 + a.getD k 0 * b.getD k 0) % 2 ^ (2 * w)

theorem chunk_ok (w N : ℕ) (hN : N % 4 = 0) : BodyOk w N (chunk w N) := by
  intro o a b ho _ _ _ _ _
  have h2 : N / 2 + N / 2 = N := by omega
  refine ⟨by simp [chunk, store, h2], fun k hk => ?_⟩
  simp only [chunk]
  rw [getD_append]
  have hl : ∀ x, (store (N / 2) x).length = N / 2 := fun x => by simp [store]
  rw [hl]
  split
  · rename_i h
    rw [getD_store _ _ _ h]
    unfold add load interleaveLower mulEvenWide mulOddWide
    split
    · rw [show 2 * (k / 2) = k by omega]
    · rw [show 2 * (k / 2) + 1 = k by omega]
  · rename_i h
    rw [getD_store _ _ _ (by omega)]
    unfold add load interleaveUpper mulEvenWide mulOddWide
    rw [getD_drop, show N / 2 + (k - N / 2) = k by omega]
    split
    · rw [show 2 * (N / 2 / 2 + (k - N / 2) / 2) = k by omega]
    · rw [show 2 * (N / 2 / 2 + (k - N / 2) / 2) + 1 = k by omega]

theorem maskLo_iff (i : ℕ) : maskLo i = decide (i % 2 = 0) := by
  unfold maskLo
  have h : i % 8 < 8 := Nat.mod_lt _ (by norm_num)
  have e : i % 2 = i % 8 % 2 := by omega
  rw [e]
  generalize i % 8 = j at h
  interval_cases j <;> decide

/-- Adding the words of `p` to the words of `x` with the carry. -/
theorem add_words (w x p : ℕ) (hx : x < 2 ^ (2 * w)) (hp : p < 2 ^ (2 * w)) :
    (x % 2 ^ w + p % 2 ^ w) % 2 ^ w +
      2 ^ w * (if (x % 2 ^ w + p % 2 ^ w) % 2 ^ w < x % 2 ^ w
        then ((x / 2 ^ w + p / 2 ^ w) % 2 ^ w + 1) % 2 ^ w else (x / 2 ^ w + p / 2 ^ w) % 2 ^ w) =
      (x + p) % 2 ^ (2 * w) := by
  have hW : (0 : ℕ) < 2 ^ w := Nat.two_pow_pos w
  have h2 : (2 : ℕ) ^ (2 * w) = 2 ^ w * 2 ^ w := by rw [two_mul, pow_add]
  rw [h2] at hx hp ⊢
  generalize (2 : ℕ) ^ w = W at *
  have ex := Nat.mod_add_div x W
  have ep := Nat.mod_add_div p W
  have l1 := Nat.mod_lt x hW
  have l2 := Nat.mod_lt p hW
  have m1 : x / W < W := (Nat.div_lt_iff_lt_mul hW).mpr hx
  have m2 : p / W < W := (Nat.div_lt_iff_lt_mul hW).mpr hp
  generalize x % W = xl at *
  generalize p % W = pl at *
  generalize x / W = xh at *
  generalize p / W = ph at *
  subst ex ep
  have fin : ∀ lo hi : ℕ, lo < W → (lo + W * hi) % (W * W) = lo + W * (hi % W) := by
    intro lo hi hlo
    rw [Nat.mod_mul, Nat.add_mul_mod_self_left, Nat.mod_eq_of_lt hlo, Nat.add_mul_div_left _ _ hW,
      Nat.div_eq_of_lt hlo, zero_add]
  by_cases hc : xl + pl < W
  · rw [Nat.mod_eq_of_lt hc, if_neg (by omega)]
    rw [show xl + W * xh + (pl + W * ph) = xl + pl + W * (xh + ph) by ring, fin _ _ hc]
  · have e : (xl + pl) % W = xl + pl - W := by
      rw [Nat.mod_eq_sub_mod (by omega), Nat.mod_eq_of_lt (by omega)]
    rw [e, if_pos (by omega)]
    rw [show xl + W * xh + (pl + W * ph) = (xl + pl - W) + W * (xh + ph + 1) by
      have : xl + pl = (xl + pl - W) + W := by omega
      calc _ = (xl + pl) + W * (xh + ph) := by ring
        _ = (xl + pl - W + W) + W * (xh + ph) := by rw [← this]
        _ = _ := by ring, fin _ _ (by omega)]
    rw [Nat.mod_add_mod]

/-- The two words of lane pair `k`. -/
theorem addCarry_pair (w k : ℕ) (output mul : ℕ → ℕ) :
    addCarry w output mul (2 * k) + 2 ^ w * addCarry w output mul (2 * k + 1) =
      (output (2 * k) + mul (2 * k)) % 2 ^ w +
        2 ^ w * (if (output (2 * k) + mul (2 * k)) % 2 ^ w < output (2 * k)
          then ((output (2 * k + 1) + mul (2 * k + 1)) % 2 ^ w + 1) % 2 ^ w
          else (output (2 * k + 1) + mul (2 * k + 1)) % 2 ^ w) := by
  have h0 : addCarry w output mul (2 * k) = (output (2 * k) + mul (2 * k)) % 2 ^ w := by
    unfold addCarry add
    simp only
    by_cases h : 2 * k = 0
    · rw [if_pos h]; simp
    · rw [if_neg h, maskLo_iff, if_neg]
      have : (2 * k - 1) % 2 = 1 := by omega
      simp [this]
  have h1 : addCarry w output mul (2 * k + 1) =
      if (output (2 * k) + mul (2 * k)) % 2 ^ w < output (2 * k)
          then ((output (2 * k + 1) + mul (2 * k + 1)) % 2 ^ w + 1) % 2 ^ w
          else (output (2 * k + 1) + mul (2 * k + 1)) % 2 ^ w := by
    unfold addCarry add ones
    simp only
    have e1 : ¬ 2 * k + 1 = 0 := by omega
    simp [e1, maskLo_iff]
  rw [h0, h1]

/-- Lane `j` of the shuffled lower half. -/
theorem shuffle_lower (w : ℕ) (a b : ℕ → ℕ) (k : ℕ) :
    shuffle (interleaveLower (mulEven w a b) (mulOdd w a b)) (2 * k) = a k * b k % 2 ^ w ∧
    shuffle (interleaveLower (mulEven w a b) (mulOdd w a b)) (2 * k + 1) = a k * b k / 2 ^ w := by
  unfold shuffle interleaveLower mulEven mulOdd
  rcases Nat.even_or_odd' k with ⟨j, rfl | rfl⟩
  · rw [show 2 * (2 * j) % 4 = 0 by omega, show (2 * (2 * j) + 1) % 4 = 1 by omega,
      show 4 * (2 * (2 * j) / 4) = 4 * j by omega, show 4 * ((2 * (2 * j) + 1) / 4) = 4 * j by omega]
    simp only
    rw [if_pos (by omega), if_pos (by omega), if_pos (by omega), if_neg (by omega),
      show (4 * j + 0) / 2 = 2 * j by omega, show (4 * j + 2) / 2 - 1 = 2 * j by omega]
    exact ⟨rfl, rfl⟩
  · rw [show 2 * (2 * j + 1) % 4 = 2 by omega, show (2 * (2 * j + 1) + 1) % 4 = 3 by omega,
      show 4 * (2 * (2 * j + 1) / 4) = 4 * j by omega, show 4 * ((2 * (2 * j + 1) + 1) / 4) = 4 * j by omega]
    simp only
    rw [if_neg (show ¬ (4 * j + 1) % 2 = 0 by omega), if_neg (show ¬ (4 * j + 3) % 2 = 0 by omega),
      if_pos (show (4 * j + 1) / 2 % 2 = 0 by omega), if_neg (show ¬ (4 * j + 3) / 2 % 2 = 0 by omega),
      show (4 * j + 1) / 2 + 1 = 2 * j + 1 by omega, show (4 * j + 3) / 2 = 2 * j + 1 by omega]
    exact ⟨rfl, rfl⟩

/-- Lane `j` of the shuffled upper half. -/
theorem shuffle_upper (w N : ℕ) (hN : N % 4 = 0) (a b : ℕ → ℕ) (k : ℕ) :
    shuffle (interleaveUpper N (mulEven w a b) (mulOdd w a b)) (2 * k) =
      a (N / 2 + k) * b (N / 2 + k) % 2 ^ w ∧
    shuffle (interleaveUpper N (mulEven w a b) (mulOdd w a b)) (2 * k + 1) =
      a (N / 2 + k) * b (N / 2 + k) / 2 ^ w := by
  unfold shuffle interleaveUpper mulEven mulOdd
  rcases Nat.even_or_odd' k with ⟨j, rfl | rfl⟩
  · rw [show 2 * (2 * j) % 4 = 0 by omega, show (2 * (2 * j) + 1) % 4 = 1 by omega,
      show 4 * (2 * (2 * j) / 4) = 4 * j by omega, show 4 * ((2 * (2 * j) + 1) / 4) = 4 * j by omega]
    simp only
    rw [if_pos (by omega), if_pos (by omega), if_pos (by omega), if_neg (by omega),
      show N / 2 + (4 * j + 0) / 2 = N / 2 + 2 * j by omega,
      show N / 2 + (4 * j + 2) / 2 - 1 = N / 2 + 2 * j by omega]
    exact ⟨rfl, rfl⟩
  · rw [show 2 * (2 * j + 1) % 4 = 2 by omega, show (2 * (2 * j + 1) + 1) % 4 = 3 by omega,
      show 4 * (2 * (2 * j + 1) / 4) = 4 * j by omega, show 4 * ((2 * (2 * j + 1) + 1) / 4) = 4 * j by omega]
    simp only
    rw [if_neg (show ¬ (4 * j + 1) % 2 = 0 by omega), if_neg (show ¬ (4 * j + 3) % 2 = 0 by omega),
      if_pos (show (N / 2 + (4 * j + 1) / 2) % 2 = 0 by omega),
      if_neg (show ¬ (N / 2 + (4 * j + 3) / 2) % 2 = 0 by omega),
      show N / 2 + (4 * j + 1) / 2 + 1 = N / 2 + (2 * j + 1) by omega,
      show N / 2 + (4 * j + 3) / 2 = N / 2 + (2 * j + 1) by omega]
    exact ⟨rfl, rfl⟩

theorem getD_lt {u : List ℕ} {B : ℕ} (hB : 0 < B) (h : ∀ x ∈ u, x < B) (k : ℕ) : u.getD k 0 < B := by
  by_cases hk : k < u.length
  · rw [List.getD_eq_getElem _ _ hk]; exact h _ (List.getElem_mem hk)
  · rw [List.getD_eq_default _ _ (by omega)]; exact hB

theorem chunk64_ok (w N : ℕ) (hN : N % 4 = 0) : BodyOk w N (chunk64 w N) := by
  intro o a b ho ha hb lo la lb
  have h2 : N / 2 + N / 2 = N := by omega
  refine ⟨by simp [chunk64, chunk64With, storeWords, h2], fun k hk => ?_⟩
  have hp : a.getD k 0 * b.getD k 0 < 2 ^ (2 * w) := by
    rw [two_mul, pow_add]
    exact Nat.mul_lt_mul'' (getD_lt (Nat.two_pow_pos w) la k) (getD_lt (Nat.two_pow_pos w) lb k)
  rw [← add_words w _ _ (getD_lt (Nat.two_pow_pos _) lo k) hp]
  simp only [chunk64, chunk64With]
  rw [getD_append]
  have hl : ∀ x, (storeWords w N x).length = N / 2 := fun x => by simp [storeWords]
  rw [hl]
  split
  · rename_i h
    rw [getD_storeWords _ _ _ _ h, addCarry_pair, (shuffle_lower w _ _ k).1, (shuffle_lower w _ _ k).2]
    unfold loadWords load
    rw [if_pos (show 2 * k % 2 = 0 by omega), if_neg (show ¬ (2 * k + 1) % 2 = 0 by omega),
      show 2 * k / 2 = k by omega, show (2 * k + 1) / 2 = k by omega]
  · rename_i h
    rw [getD_storeWords _ _ _ _ (by omega), addCarry_pair, (shuffle_upper w N hN _ _ _).1,
      (shuffle_upper w N hN _ _ _).2]
    unfold loadWords load
    rw [if_pos (show (N + 2 * (k - N / 2)) % 2 = 0 by omega),
      if_neg (show ¬ (N + (2 * (k - N / 2) + 1)) % 2 = 0 by omega), show (N + 2 * (k - N / 2)) / 2 = k by omega,
      show (N + (2 * (k - N / 2) + 1)) / 2 = k by omega, show N / 2 + (k - N / 2) = k by omega]

/-- The state after the first `j` elements. -/
def Done (w : ℕ) (a b out : List ℕ) (j : ℕ) (r : List ℕ) : Prop :=
  r.length = out.length ∧ (∀ x ∈ r, x < 2 ^ (2 * w)) ∧ ∀ i, r.getD i 0 =
    if i < j then (out.getD i 0 + a.getD i 0 * b.getD i 0) % 2 ^ (2 * w) else out.getD i 0

theorem done_eq {w j : ℕ} {a b out r r' : List ℕ} (h : Done w a b out j r) (h' : Done w a b out j r') : r = r' := by
  apply List.ext_getElem?
  intro i
  by_cases hi : i < r.length
  · have hi' : i < r'.length := by rw [h'.1, ← h.1]; exact hi
    have e := (h.2.2 i).trans (h'.2.2 i).symm
    rw [List.getD_eq_getElem _ _ hi, List.getD_eq_getElem _ _ hi'] at e
    rw [List.getElem?_eq_getElem hi, List.getElem?_eq_getElem hi', e]
  · rw [List.getElem?_eq_none (by omega), List.getElem?_eq_none (by rw [h'.1, ← h.1]; omega)]

theorem scalarStep_ok {w : ℕ} {a b out r : List ℕ} {j : ℕ} (hab : a.length ≤ b.length)
    (hao : a.length ≤ out.length) (hj : j < a.length) (h : Done w a b out j r) :
    ∃ r', scalarStep w a b j r = .ok r' ∧ Done w a b out (j + 1) r' := by
  have hr : j < r.length := by rw [h.1]; omega
  refine ⟨r.set j ((r.getD j 0 + a.getD j 0 * b.getD j 0 % 2 ^ (2 * w)) % 2 ^ (2 * w)), ?_, ?_, ?_, ?_⟩
  · unfold scalarStep
    rw [rd_getD 0 hj, Outcome.bind_ok, rd_getD 0 (show j < b.length by omega), Outcome.bind_ok, rd_getD 0 hr,
      Outcome.bind_ok, wr_ok hr]
  · rw [List.length_set, h.1]
  · intro x hx
    rcases List.mem_or_eq_of_mem_set hx with hx | rfl
    · exact h.2.1 x hx
    · exact Nat.mod_lt _ (Nat.two_pow_pos _)
  · intro i
    rw [getD_set _ _ _ _ _ hr]
    by_cases e : i = j
    · subst e
      rw [if_pos rfl, if_pos (by omega), h.2.2 i, if_neg (by omega), Nat.add_mod_mod]
    · rw [if_neg (fun e' => e (by omega)), h.2.2 i]
      by_cases hi : i < j
      · rw [if_pos hi, if_pos (by omega)]
      · rw [if_neg hi, if_neg (by omega)]

theorem slice_ok {v : List ℕ} {i N : ℕ} (h : i + N ≤ v.length) : slice v i N = .ok ((v.drop i).take N) := by
  unfold slice; rw [if_neg (by omega)]

theorem vectorStep_ok {w N : ℕ} {body : List ℕ → List ℕ → List ℕ → List ℕ} (hbody : BodyOk w N body)
    {a b out r : List ℕ} {k : ℕ} (la : ∀ x ∈ a, x < 2 ^ w) (lb : ∀ x ∈ b, x < 2 ^ w) (hab : a.length ≤ b.length)
    (hao : a.length ≤ out.length) (hk : k < a.length / N) (h : Done w a b out (k * N) r) :
    ∃ r', vectorStep body N a b k r = .ok r' ∧ Done w a b out ((k + 1) * N) r' := by
  have hkN : k * N + N ≤ a.length := by
    have := Nat.mul_le_mul_right N hk
    rw [Nat.succ_mul] at this
    exact this.trans (Nat.div_mul_le_self _ _)
  have hr := h.1
  obtain ⟨p1, p2⟩ := hbody ((r.drop (k * N)).take N) ((a.drop (k * N)).take N) ((b.drop (k * N)).take N)
    (by rw [List.length_take, List.length_drop]; omega) (by rw [List.length_take, List.length_drop]; omega)
    (by rw [List.length_take, List.length_drop]; omega)
    (fun x hx => h.2.1 x (List.mem_of_mem_drop (List.mem_of_mem_take hx)))
    (fun x hx => la x (List.mem_of_mem_drop (List.mem_of_mem_take hx)))
    (fun x hx => lb x (List.mem_of_mem_drop (List.mem_of_mem_take hx)))
  refine ⟨r.take (k * N) ++ body ((r.drop (k * N)).take N) ((a.drop (k * N)).take N) ((b.drop (k * N)).take N) ++
    r.drop (k * N + N), ?_, ?_, ?_, ?_⟩
  · unfold vectorStep
    rw [slice_ok (by omega), Outcome.bind_ok, slice_ok (by omega), Outcome.bind_ok, slice_ok (by omega),
      Outcome.bind_ok]
    rfl
  · rw [List.length_append, List.length_append, p1, List.length_take, List.length_drop]
    omega
  · intro x hx
    rcases List.mem_append.mp hx with hx | hx
    · rcases List.mem_append.mp hx with hx | hx
      · exact h.2.1 x (List.mem_of_mem_take hx)
      · obtain ⟨i, hi, rfl⟩ := List.mem_iff_getElem.mp hx
        rw [← List.getD_eq_getElem _ 0 hi, p2 i (by omega)]
        exact Nat.mod_lt _ (Nat.two_pow_pos _)
    · exact h.2.1 x (List.mem_of_mem_drop hx)
  · intro i
    rw [Nat.succ_mul]
    have l1 : (r.take (k * N)).length = k * N := by rw [List.length_take]; omega
    rw [getD_append, getD_append, List.length_append, p1, l1]
    by_cases h1 : i < k * N
    · rw [if_pos (by omega), if_pos h1, if_pos (by omega), getD_take _ _ _ _ h1, h.2.2 i, if_pos h1]
    · by_cases h2 : i < k * N + N
      · rw [if_pos h2, if_neg h1, if_pos h2, p2 _ (by omega), getD_take _ _ _ _ (by omega),
          getD_take _ _ _ _ (by omega), getD_take _ _ _ _ (by omega), getD_drop, getD_drop, getD_drop,
          show k * N + (i - k * N) = i by omega, h.2.2 i, if_neg h1]
      · rw [if_neg h2, if_neg h2, getD_drop, show k * N + N + (i - (k * N + N)) = i by omega, h.2.2 i, if_neg h1]

theorem done_zero {w : ℕ} {a b out : List ℕ} (lo : ∀ x ∈ out, x < 2 ^ (2 * w)) : Done w a b out 0 out :=
  ⟨rfl, lo, fun i => by rw [if_neg (by omega)]⟩

theorem batchScalar_ok {w : ℕ} {a b out : List ℕ} (hab : a.length ≤ b.length) (hao : a.length ≤ out.length)
    (lo : ∀ x ∈ out, x < 2 ^ (2 * w)) :
    ∃ r, batchScalar w a b out = .ok r ∧ Done w a b out a.length r :=
  loop_ok (Done w a b out) (done_zero lo) fun _ _ hj h => scalarStep_ok hab hao hj h

theorem batch_ok {w N : ℕ} {body : List ℕ → List ℕ → List ℕ → List ℕ} (hbody : BodyOk w N body)
    {a b out : List ℕ} (la : ∀ x ∈ a, x < 2 ^ w) (lb : ∀ x ∈ b, x < 2 ^ w) (lo : ∀ x ∈ out, x < 2 ^ (2 * w))
    (hab : a.length ≤ b.length) (hao : a.length ≤ out.length) :
    ∃ r, batch body w N a b out = .ok r ∧ Done w a b out a.length r := by
  obtain ⟨r1, e1, h1⟩ := loop_ok (f := vectorStep body N a b) (n := a.length / N)
    (fun k r => Done w a b out (k * N) r) (by rw [zero_mul]; exact done_zero lo)
    (fun k r hk h => vectorStep_ok hbody la lb hab hao hk h)
  have hle := Nat.div_mul_le_self a.length N
  obtain ⟨r2, e2, h2⟩ := loop_ok (f := fun j => scalarStep w a b (a.length / N * N + j))
    (n := a.length - a.length / N * N) (fun j r => Done w a b out (a.length / N * N + j) r) (s := r1)
    (by rw [add_zero]; exact h1)
    (fun j r hj h => scalarStep_ok hab hao (by omega) h)
  refine ⟨r2, ?_, ?_⟩
  · unfold batch
    rw [e1, Outcome.bind_ok, e2]
  · rwa [Nat.add_sub_cancel' hle] at h2

end Shell.Simd
