import Verif.Spec.Law
import Verif.Lemmas.ErrorTail
import Verif.Lemmas.Sampler
/-!
# Exact distributions of computations that read a tape
-/

namespace Shell
open Spec

namespace Tree
variable {α β : Type}

/-- The computation reads at most `d` bytes. -/
def Within : ℕ → Tree α → Prop
  | _, .ret _ => True
  | 0, .read _ => False
  | d + 1, .read k => ∀ b, (k b).Within d

theorem Within.mono {d d' : ℕ} (hd : d ≤ d') {T : Tree α} (h : T.Within d) : T.Within d' := by
  induction T generalizing d d' with
  | ret o => cases d' <;> trivial
  | read k ih =>
    cases d with
    | zero => exact h.elim
    | succ d =>
      obtain ⟨d', rfl⟩ : ∃ c, d' = c + 1 := ⟨d' - 1, by omega⟩
      exact fun b => ih b (by omega) (h b)

theorem Within.bind {d d' : ℕ} {T : Tree α} (h : T.Within d) {f : α → Tree β} (hf : ∀ a, (f a).Within d') :
    (T.bind f).Within (d + d') := by
  induction T generalizing d with
  | ret o =>
    cases o with
    | ok a => exact (hf a).mono (by omega)
    | err e => cases d + d' <;> trivial
    | ub e => cases d + d' <;> trivial
  | read k ih =>
    cases d with
    | zero => exact h.elim
    | succ d =>
      rw [show d + 1 + d' = (d + d') + 1 by omega]
      exact fun b => ih b (h b)

theorem within_ret (o : Outcome α) (d : ℕ) : (Tree.ret o).Within d := by cases d <;> trivial

theorem Within.times {d : ℕ} {T : Tree α} (h : T.Within d) (n : ℕ) : (T.times n).Within (n * d) := by
  induction n with
  | zero => exact within_ret _ _
  | succ n ih =>
    rw [show (n + 1) * d = d + (n * d + 0) by ring]
    exact h.bind fun x => ih.bind fun xs => within_ret _ _

/-- On tapes that are long enough, the average is the expectation. -/
theorem tapeMean_eq (T : Tree α) {φ : α → ℝ} {F : List (Fin 256) → ℝ} {d L : ℕ} (hd : T.Within d) (hL : d ≤ L)
    (h1 : ∀ t a s, T.run t = .ok (a, s) → F t = φ a) (h2 : ∀ t, (∀ r, T.run t ≠ .ok r) → F t = 0) :
    tapeMean L F = T.expect φ := by
  induction T generalizing d L F with
  | ret o =>
    have hc : ∀ c : ℝ, (∀ t, F t = c) → tapeMean L F = c := by
      intro c hc
      unfold tapeMean
      rw [Finset.sum_congr rfl fun t _ => hc _]
      simp
    cases o with
    | ok a => exact hc _ fun t => h1 t a t rfl
    | err e => exact hc _ fun t => h2 t fun r hr => by cases hr
    | ub e => exact hc _ fun t => h2 t fun r hr => by cases hr
  | read k ih =>
    cases d with
    | zero => exact hd.elim
    | succ d =>
      obtain ⟨L, rfl⟩ : ∃ c, L = c + 1 := ⟨L - 1, by omega⟩
      rw [tapeMean_succ]
      show _ = (∑ b, (k b).expect φ) / 256
      congr 1
      refine Finset.sum_congr rfl fun b _ => ?_
      exact ih b (F := fun t => F (b :: t)) (hd b) (by omega) (fun t a s h => h1 (b :: t) a s h)
        (fun t h => h2 (b :: t) h)

/-- The probability that a computation returns a value of a set. -/
theorem probability_eq (T : Tree α) {event : List (Fin 256) → Prop} {good : α → Prop} [DecidablePred good] {d L : ℕ}
    (hd : T.Within d) (hL : d ≤ L) (h : ∀ t, event t ↔ ∃ a s, T.run t = .ok (a, s) ∧ good a) :
    bytesProbability L event = T.expect fun a => if good a then 1 else 0 := by
  classical
  rw [bytesProbability_eq]
  refine tapeMean_eq T hd hL (fun t a s hr => ?_) (fun t hr => ?_)
  · refine if_congr ?_ rfl rfl
    rw [h t]
    constructor
    · rintro ⟨a', s', hr', hb⟩
      rw [hr] at hr'
      cases hr'
      exact hb
    · exact fun hb => ⟨a, s, hr, hb⟩
  · rw [if_neg]
    intro he
    obtain ⟨a', s', hr', -⟩ := (h t).mp he
    exact absurd hr' (hr _)

theorem expect_congr_returns {φ ψ : α → ℝ} (T : Tree α) (h : ∀ a, T.Returns a → φ a = ψ a) :
    T.expect φ = T.expect ψ :=
  le_antisymm (T.expect_mono_returns fun a ha => (h a ha).le) (T.expect_mono_returns fun a ha => (h a ha).ge)

/-- Repetitions are independent. -/
theorem times_forall (T : Tree α) (d : α) (n : ℕ) (P : ℕ → α → Prop) [∀ i, DecidablePred (P i)] :
    (T.times n).expect (fun xs => if ∀ i < n, P i (xs.getD i d) then 1 else 0) =
      ∏ i ∈ Finset.range n, T.expect fun x => if P i x then 1 else 0 := by
  classical
  induction n generalizing P with
  | zero => simp [times, expect]
  | succ n ih =>
    show (T.bind fun x => (T.times n).bind fun xs => .ret (.ok (x :: xs))).expect _ = _
    rw [expect_bind]
    have e1 : ∀ x, ((T.times n).bind fun xs => .ret (.ok (x :: xs))).expect
        (fun xs => if ∀ i < n + 1, P i (xs.getD i d) then (1 : ℝ) else 0) =
        (∏ i ∈ Finset.range n, T.expect fun x => if P (i + 1) x then 1 else 0) * if P 0 x then 1 else 0 := by
      intro x
      rw [expect_bind, ← ih fun i => P (i + 1), mul_comm, ← expect_mul]
      congr 1
      funext xs
      show (if ∀ i < n + 1, P i ((x :: xs).getD i d) then (1 : ℝ) else 0) = _
      by_cases h0 : P 0 x
      · rw [if_pos h0, one_mul]
        refine if_congr ⟨fun h i hi => h (i + 1) (by omega), fun h i hi => ?_⟩ rfl rfl
        cases i with
        | zero => exact h0
        | succ i => exact h i (by omega)
      · rw [if_neg h0, zero_mul, if_neg fun h => h0 (h 0 (by omega))]
    rw [show (fun x => _) = _ from funext e1, expect_mul, Finset.prod_range_succ']

theorem times_length {T : Tree α} {n : ℕ} {xs : List α} (h : (T.times n).Returns xs) : xs.length = n := by
  obtain ⟨t, ht⟩ := run_of_returns h
  clear h
  have key : ∀ (n : ℕ) (t : List (Fin 256)) (xs : List α) s, (T.times n).run t = .ok (xs, s) → xs.length = n := by
    intro n
    induction n with
    | zero => intro t xs s h; cases h; rfl
    | succ n ih =>
      intro t xs s h
      change (T.bind fun x => (T.times n).bind fun xs => .ret (.ok (x :: xs))).run t = _ at h
      rw [run_bind] at h
      obtain ⟨r, -, h⟩ := Outcome.bind_eq_ok.mp h
      rw [run_bind] at h
      obtain ⟨r', h', h⟩ := Outcome.bind_eq_ok.mp h
      cases h
      rw [List.length_cons, ih _ _ _ h']
  exact key _ _ _ _ ht

theorem times_all {T : Tree α} {P : α → Prop} (hP : ∀ x, T.Returns x → P x) {n : ℕ} {xs : List α}
    (h : (T.times n).Returns xs) : ∀ x ∈ xs, P x := by
  obtain ⟨t, ht⟩ := run_of_returns h
  clear h
  have key : ∀ (n : ℕ) (t : List (Fin 256)) (xs : List α) s, (T.times n).run t = .ok (xs, s) → ∀ x ∈ xs, P x := by
    intro n
    induction n with
    | zero => intro t xs s h; cases h; simp
    | succ n ih =>
      intro t xs s h
      change (T.bind fun x => (T.times n).bind fun xs => .ret (.ok (x :: xs))).run t = _ at h
      rw [run_bind] at h
      obtain ⟨r, hr, h⟩ := Outcome.bind_eq_ok.mp h
      rw [run_bind] at h
      obtain ⟨r', h', h⟩ := Outcome.bind_eq_ok.mp h
      cases h
      intro x hx
      rcases List.mem_cons.mp hx with rfl | hx
      · exact hP _ (returns_of_run hr)
      · exact ih _ _ _ h' x hx
  exact key _ _ _ _ ht

end Tree

/-! ## Numbers from the tape -/

theorem sum_range_mul (M K : ℕ) (f : ℕ → ℝ) :
    ∑ x ∈ Finset.range (M * K), f x = ∑ y ∈ Finset.range M, ∑ b ∈ Finset.range K, f (K * y + b) := by
  induction M with
  | zero => simp
  | succ M ih =>
    rw [show (M + 1) * K = M * K + K by ring, Finset.sum_range_add, ih, Finset.sum_range_succ]
    congr 1
    exact Finset.sum_congr rfl fun b _ => by rw [mul_comm]

theorem byte_expect (f : ℕ → ℝ) : byteTree.expect f = (∑ x ∈ Finset.range (2 ^ 8), f x) / 2 ^ 8 := by
  show (∑ x : Fin 256, f x) / 256 = _
  rw [Fin.sum_univ_eq_sum_range (fun x => f x) 256]
  norm_num

theorem le_expect (n : ℕ) (f : ℕ → ℝ) :
    (leTree n).expect f = (∑ x ∈ Finset.range (2 ^ (8 * n)), f x) / 2 ^ (8 * n) := by
  induction n generalizing f with
  | zero => simp [leTree, Tree.expect]
  | succ n ih =>
    show (byteTree.bind fun b => (leTree n).bind fun y => .ret (.ok (b + 2 ^ 8 * y))).expect f = _
    rw [Tree.expect_bind, byte_expect]
    have : ∀ b, ((leTree n).bind fun y => .ret (.ok (b + 2 ^ 8 * y))).expect f =
        (∑ x ∈ Finset.range (2 ^ (8 * n)), f (2 ^ 8 * x + b)) / 2 ^ (8 * n) := by
      intro b
      rw [Tree.expect_bind, ← ih fun x => f (2 ^ 8 * x + b)]
      congr 1
      funext y
      show f (b + 2 ^ 8 * y) = _
      rw [add_comm]
    rw [Finset.sum_congr rfl fun b _ => this b, ← Finset.sum_div, div_div, ← pow_add, Finset.sum_comm,
      ← sum_range_mul, ← pow_add, show 8 * n + 8 = 8 * (n + 1) by ring]

theorem word_expect (f : ℕ → ℝ) : wordTree.expect f = (∑ x ∈ Finset.range (2 ^ 64), f x) / 2 ^ 64 := by
  rw [show 64 = 8 * 8 by rfl, ← le_expect 8 f]
  simp only [wordTree, leTree, byteTree, Tree.bind, Tree.expect]
  simp only [mul_zero, add_zero]
  refine congrArg (· / 256) (Finset.sum_congr rfl fun b0 _ => ?_)
  refine congrArg (· / 256) (Finset.sum_congr rfl fun b1 _ => ?_)
  refine congrArg (· / 256) (Finset.sum_congr rfl fun b2 _ => ?_)
  refine congrArg (· / 256) (Finset.sum_congr rfl fun b3 _ => ?_)
  refine congrArg (· / 256) (Finset.sum_congr rfl fun b4 _ => ?_)
  refine congrArg (· / 256) (Finset.sum_congr rfl fun b5 _ => ?_)
  refine congrArg (· / 256) (Finset.sum_congr rfl fun b6 _ => ?_)
  refine congrArg (· / 256) (Finset.sum_congr rfl fun b7 _ => ?_)
  congr 1
  ring

/-- The bits of a call. -/
def opBits : Prng.Op → ℕ
  | .rand8 => 8
  | .rand64 => 64

theorem op_expect (op : Prng.Op) (f : ℕ → ℝ) :
    (opTree op).expect f = (∑ x ∈ Finset.range (2 ^ opBits op), f x) / 2 ^ opBits op := by
  cases op
  · exact byte_expect f
  · exact word_expect f

theorem op_within (op : Prng.Op) : (opTree op).Within (opBits op / 8) := by
  cases op
  · intro b; exact Tree.within_ret _ _
  · intro b0 b1 b2 b3 b4 b5 b6 b7; exact Tree.within_ret _ _

/-! ## Uniform residues -/

theorem op_mod {op : Prng.Op} {k u : ℕ} (hk : k ≤ opBits op) (hu : u < 2 ^ k) :
    (opTree op).expect (fun x => if x % 2 ^ k = u then 1 else 0) = 1 / 2 ^ k := by
  rw [op_expect]
  have h1 : 2 ^ opBits op = 2 ^ (opBits op - k) * 2 ^ k := by rw [← pow_add]; congr 1; omega
  have h2 : (2 : ℝ) ^ opBits op = 2 ^ (opBits op - k) * 2 ^ k := by rw [← pow_add]; congr 1; omega
  rw [h1, sum_range_mul, h2]
  have : ∀ y, ∑ b ∈ Finset.range (2 ^ k), (if (2 ^ k * y + b) % 2 ^ k = u then (1 : ℝ) else 0) = 1 := by
    intro y
    rw [Finset.sum_eq_single u]
    · rw [if_pos (by rw [Nat.mul_add_mod, Nat.mod_eq_of_lt hu])]
    · intro b hb hne
      rw [if_neg]
      rw [Nat.mul_add_mod, Nat.mod_eq_of_lt (Finset.mem_range.mp hb)]
      exact hne
    · exact fun h => absurd (Finset.mem_range.mpr hu) h
  rw [Finset.sum_congr rfl fun y _ => this y, Finset.sum_const, Finset.card_range, nsmul_eq_mul, mul_one]
  push_cast
  field_simp

/-- Consecutive words. -/
def wordsTree : List Prng.Op → Tree (List ℕ)
  | [] => .ret (.ok [])
  | op :: ops => (opTree op).bind fun x => (wordsTree ops).bind fun xs => .ret (.ok (x :: xs))

theorem wordsTree_is (ops : List Prng.Op) : (wordsTree ops).Is (drawWords bytesSource ops) := by
  induction ops with
  | nil => exact fun t => rfl
  | cons op ops ih => exact (opTree_is op).bind fun x => ih.bind fun r => fun t => rfl

theorem words_within (ops : List Prng.Op) : (wordsTree ops).Within (ops.map fun op => opBits op / 8).sum := by
  induction ops with
  | nil => exact Tree.within_ret _ _
  | cons op ops ih =>
    rw [List.map_cons, List.sum_cons, ← Nat.add_zero (List.sum _)]
    exact (op_within op).bind fun x => ih.bind fun xs => Tree.within_ret _ _

theorem assemble_law {ps : List (Prng.Op × ℕ)} (hp : ∀ c ∈ ps, c.2 ≤ opBits c.1) {v : ℕ}
    (hv : v < 2 ^ (ps.map Prod.snd).sum) :
    (wordsTree (ps.map Prod.fst)).expect (fun xs => if assemble (ps.map Prod.snd) xs = v then 1 else 0) =
      1 / 2 ^ (ps.map Prod.snd).sum := by
  induction ps generalizing v with
  | nil =>
    have : v = 0 := by simpa using hv
    subst this
    simp [wordsTree, Tree.expect, assemble]
  | cons c ps ih =>
    rw [List.map_cons, List.map_cons, List.sum_cons] at *
    set K := (ps.map Prod.snd).sum with hK
    show ((opTree c.1).bind fun x => (wordsTree (ps.map Prod.fst)).bind fun xs => .ret (.ok (x :: xs))).expect _ = _
    rw [Tree.expect_bind]
    have hlow : v % 2 ^ K < 2 ^ K := Nat.mod_lt _ (by positivity)
    have hhigh : v / 2 ^ K < 2 ^ c.2 := Nat.div_lt_of_lt_mul (by rw [← pow_add, add_comm]; exact hv)
    have ih := ih (fun c h => hp c (List.mem_cons_of_mem _ h)) hlow
    have e1 : ∀ x, ((wordsTree (ps.map Prod.fst)).bind fun xs => .ret (.ok (x :: xs))).expect
        (fun xs => if assemble (c.2 :: ps.map Prod.snd) xs = v then (1 : ℝ) else 0) =
        1 / 2 ^ K * if x % 2 ^ c.2 = v / 2 ^ K then 1 else 0 := by
      intro x
      rw [Tree.expect_bind, ← ih, mul_comm, ← Tree.expect_mul]
      congr 1
      funext xs
      show (if (x % 2 ^ c.2) * 2 ^ K + assemble (ps.map Prod.snd) xs = v then (1 : ℝ) else 0) = _
      have hlt : assemble (ps.map Prod.snd) xs < 2 ^ K := Sampler.assemble_lt _ _
      by_cases h1 : x % 2 ^ c.2 = v / 2 ^ K
      · rw [if_pos h1, one_mul]
        refine if_congr ?_ rfl rfl
        rw [h1]
        have := Nat.div_add_mod' v (2 ^ K)
        omega
      · rw [if_neg h1, zero_mul, if_neg]
        rintro rfl
        refine h1 ?_
        rw [Nat.add_div_of_dvd_right (Dvd.intro_left _ rfl), Nat.mul_div_cancel _ (by positivity),
          Nat.div_eq_of_lt hlt, Nat.add_zero]
    rw [show (fun x => _) = _ from funext e1, Tree.expect_mul, op_mod (hp c List.mem_cons_self) hhigh, pow_add]
    field_simp

/-- A candidate of `b` bits. -/
def candidateTree (b : ℕ) : Tree ℕ :=
  (wordsTree ((pieces b).map Prod.fst)).bind fun xs => .ret (.ok (assemble ((pieces b).map Prod.snd) xs))

theorem candidateTree_is {w b : ℕ} (hw : w = 16 ∨ w = 32 ∨ w = 64 ∨ w = 128) (hb : 0 < b) (hbw : b < w) :
    (candidateTree b).Is (Sampler.generateRandomInt bytesSource w b) := fun t => by
  rw [Sampler.generate_eq bytesSource hw hb hbw t]
  exact ((wordsTree_is _).bind (d := fun xs t => .ok (assemble ((pieces b).map Prod.snd) xs, t)) fun xs t => rfl) t

theorem pieces_fit {b : ℕ} (hb : b < 128) : ∀ c ∈ pieces b, c.2 ≤ opBits c.1 := by
  intro c hc
  unfold pieces at hc
  split_ifs at hc <;> simp at hc
  · subst hc; assumption
  · subst hc; assumption
  · rcases hc with rfl | rfl <;> simp [opBits]; omega
  · rcases hc with rfl | rfl <;> simp [opBits]; omega

theorem candidate_within (b : ℕ) : (candidateTree b).Within 16 := by
  refine ((words_within _).bind (d' := 0) fun xs => Tree.within_ret _ _).mono ?_
  unfold pieces
  split_ifs <;> simp [opBits]

theorem candidate_law {b : ℕ} (hb : b < 128) {v : ℕ} (hv : v < 2 ^ b) :
    (candidateTree b).expect (fun x => if x = v then 1 else 0) = 1 / 2 ^ b := by
  unfold candidateTree
  rw [Tree.expect_bind]
  have := assemble_law (pieces_fit hb) (v := v) (by rw [Sampler.pieces_sum]; exact hv)
  rw [Sampler.pieces_sum] at this
  exact this

theorem candidate_lt {b v : ℕ} (h : (candidateTree b).Returns v) : v < 2 ^ b := by
  obtain ⟨t, ht⟩ := Tree.run_of_returns h
  unfold candidateTree at ht
  rw [Tree.run_bind] at ht
  obtain ⟨r, -, ht⟩ := Outcome.bind_eq_ok.mp ht
  have e : assemble ((pieces b).map Prod.snd) r.1 = v := (Prod.ext_iff.mp (Outcome.ok.inj ht)).1
  have := Sampler.assemble_lt ((pieces b).map Prod.snd) r.1
  rw [Sampler.pieces_sum] at this
  rwa [← e]

/-- The expectation of a function of a candidate. -/
theorem candidate_expect {b : ℕ} (hb : b < 128) (f : ℕ → ℝ) :
    (candidateTree b).expect f = (∑ v ∈ Finset.range (2 ^ b), f v) / 2 ^ b := by
  have h1 : (candidateTree b).expect f =
      (candidateTree b).expect fun x => ∑ v ∈ Finset.range (2 ^ b), f v * if x = v then 1 else 0 := by
    refine Tree.expect_congr_returns _ fun x hx => ?_
    rw [Finset.sum_eq_single x]
    · simp
    · intro v _ hne
      rw [if_neg hne.symm, mul_zero]
    · exact fun h => absurd (Finset.mem_range.mpr (candidate_lt hx)) h
  rw [h1, Tree.expect_sum, Finset.sum_div]
  refine Finset.sum_congr rfl fun v hv => ?_
  rw [Tree.expect_mul, candidate_law hb (Finset.mem_range.mp hv)]
  ring

/-- Draw until a candidate is below `N`. -/
def residueTree (N b : ℕ) : ℕ → Tree ℕ
  | 0 => .ret (.ub .diverge)
  | fuel + 1 => (candidateTree b).bind fun r => if N ≤ r then residueTree N b fuel else .ret (.ok r)

theorem residue_within (N b fuel : ℕ) : (residueTree N b fuel).Within (16 * fuel) := by
  induction fuel with
  | zero => exact Tree.within_ret _ _
  | succ fuel ih =>
    rw [show 16 * (fuel + 1) = 16 + 16 * fuel by ring]
    refine (candidate_within b).bind fun r => ?_
    split_ifs
    · exact ih
    · exact Tree.within_ret _ _

theorem residue_lt {N b fuel x : ℕ} (h : (residueTree N b fuel).Returns x) : x < N := by
  induction fuel with
  | zero => obtain ⟨t, ht⟩ := Tree.run_of_returns h; cases ht
  | succ fuel ih =>
    obtain ⟨t, ht⟩ := Tree.run_of_returns h
    change ((candidateTree b).bind fun r => if N ≤ r then residueTree N b fuel else .ret (.ok r)).run t = _ at ht
    rw [Tree.run_bind] at ht
    obtain ⟨r, -, ht⟩ := Outcome.bind_eq_ok.mp ht
    split_ifs at ht with hr
    · exact ih (Tree.returns_of_run ht)
    · have e : r.1 = x := (Prod.ext_iff.mp (Outcome.ok.inj ht)).1
      omega

theorem residue_law {N b : ℕ} (hb : b < 128) (hN : N ≤ 2 ^ b) (fuel : ℕ) {c : ℕ} (hc : c < N) :
    (residueTree N b fuel).expect (fun x => if x = c then 1 else 0) = residueLaw N b fuel := by
  induction fuel with
  | zero => simp [residueTree, Tree.expect, residueLaw]
  | succ fuel ih =>
    show ((candidateTree b).bind fun r => if N ≤ r then residueTree N b fuel else .ret (.ok r)).expect _ = _
    rw [Tree.expect_bind, candidate_expect hb]
    obtain ⟨d, hd⟩ : ∃ d, 2 ^ b = N + d := ⟨2 ^ b - N, by omega⟩
    rw [hd, Finset.sum_range_add]
    have e1 : ∑ x ∈ Finset.range N, (if N ≤ x then residueTree N b fuel else .ret (.ok x)).expect
        (fun x => if x = c then (1 : ℝ) else 0) = 1 := by
      rw [Finset.sum_eq_single c]
      · rw [if_neg (by omega)]
        simp [Tree.expect]
      · intro x hx hne
        rw [if_neg (by have := Finset.mem_range.mp hx; omega)]
        simp [Tree.expect, hne]
      · exact fun h => absurd (Finset.mem_range.mpr hc) h
    have e2 : ∑ x ∈ Finset.range d, (if N ≤ N + x then residueTree N b fuel else .ret (.ok (N + x))).expect
        (fun x => if x = c then (1 : ℝ) else 0) = d * residueLaw N b fuel := by
      rw [Finset.sum_congr rfl fun x _ => by rw [if_pos (by omega : N ≤ N + x), ih], Finset.sum_const,
        Finset.card_range, nsmul_eq_mul]
    rw [e1, e2]
    have hNr : (N : ℝ) ≠ 0 := by
      have : N ≠ 0 := by omega
      exact_mod_cast this
    have hdr : (d : ℝ) = 2 ^ b - N := by
      have : ((2 ^ b : ℕ) : ℝ) = ((N + d : ℕ) : ℝ) := by rw [hd]
      push_cast at this
      linarith
    have h2 : (2 : ℝ) ^ b ≠ 0 := by positivity
    unfold residueLaw
    rw [hdr, pow_succ]
    field_simp
    ring

/-! ## Centered binomials -/

/-- The average over one fair bit that is added. -/
noncomputable def bit (f : ℤ → ℝ) (z : ℤ) : ℝ := (f z + f (z + 1)) / 2

theorem sum_bits (f : ℤ → ℝ) (b B : ℕ) (h : b ≤ B) (z : ℤ) :
    ∑ x ∈ Finset.range (2 ^ B), f (z + countBits b x) = 2 ^ B * bit^[b] f z := by
  induction b generalizing B z with
  | zero => simp [countBits]
  | succ b ih =>
    obtain ⟨B, rfl⟩ : ∃ B', B = B' + 1 := ⟨B - 1, by omega⟩
    rw [pow_succ 2 B, sum_range_mul]
    have e : ∀ y, ∑ c ∈ Finset.range 2, f (z + countBits (b + 1) (2 * y + c)) =
        f (z + countBits b y) + f (z + 1 + countBits b y) := by
      intro y
      rw [Finset.sum_range_succ, Finset.sum_range_one, countBits_succ, countBits_succ, show (2 * y + 0) % 2 = 0 by omega,
        show (2 * y + 0) / 2 = y by omega, show (2 * y + 1) % 2 = 1 by omega, show (2 * y + 1) / 2 = y by omega]
      push_cast
      rw [zero_add, add_assoc]
    rw [Finset.sum_congr rfl fun y _ => e y, Finset.sum_add_distrib, ih B (by omega) z, ih B (by omega) (z + 1),
      Function.iterate_succ_apply']
    unfold bit
    rw [pow_succ]
    ring

/-- Words whose bits are subtracted. -/
theorem sum_bits_neg (f : ℤ → ℝ) (b B : ℕ) (h : b ≤ B) (z : ℤ) :
    ∑ x ∈ Finset.range (2 ^ B), f (z - countBits b x) = 2 ^ B * bit^[b] f (z - b) := by
  induction b generalizing B z with
  | zero => simp [countBits]
  | succ b ih =>
    obtain ⟨B, rfl⟩ : ∃ B', B = B' + 1 := ⟨B - 1, by omega⟩
    rw [pow_succ 2 B, sum_range_mul]
    have e : ∀ y, ∑ c ∈ Finset.range 2, f (z - countBits (b + 1) (2 * y + c)) =
        f (z - countBits b y) + f (z - 1 - countBits b y) := by
      intro y
      rw [Finset.sum_range_succ, Finset.sum_range_one, countBits_succ, countBits_succ, show (2 * y + 0) % 2 = 0 by omega,
        show (2 * y + 0) / 2 = y by omega, show (2 * y + 1) % 2 = 1 by omega, show (2 * y + 1) / 2 = y by omega]
      push_cast
      rw [zero_add, sub_sub]
    rw [Finset.sum_congr rfl fun y _ => e y, Finset.sum_add_distrib, ih B (by omega) z, ih B (by omega) (z - 1),
      Function.iterate_succ_apply']
    unfold bit
    push_cast
    rw [show z - 1 - (b : ℤ) = z - (b + 1) by ring, show z - ((b : ℤ) + 1) + 1 = z - b by ring, pow_succ]
    ring

theorem op_bits {c : Prng.Op × ℕ} (hc : c.2 ≤ opBits c.1) (f : ℤ → ℝ) (z : ℤ) :
    (opTree c.1).expect (fun x => f (z + countBits c.2 x)) = bit^[c.2] f z := by
  rw [op_expect, sum_bits f _ _ hc]
  field_simp

theorem op_bits_neg {c : Prng.Op × ℕ} (hc : c.2 ≤ opBits c.1) (f : ℤ → ℝ) (z : ℤ) :
    (opTree c.1).expect (fun x => f (z - countBits c.2 x)) = bit^[c.2] f (z - c.2) := by
  rw [op_expect, sum_bits_neg f _ _ hc]
  field_simp

theorem noise_law {cs : List (Prng.Op × ℕ)} (hc : ∀ c ∈ cs, c.2 ≤ opBits c.1) (f : ℤ → ℝ) (z : ℤ) :
    (pairsTree (cs.map Prod.fst)).expect (fun ps => f (z + noise (cs.map Prod.snd) ps)) =
      bit^[2 * (cs.map Prod.snd).sum] f (z - (cs.map Prod.snd).sum) := by
  induction cs generalizing z with
  | nil => simp [pairsTree, Tree.expect, noise]
  | cons c cs ih =>
    have ih := ih fun c h => hc c (List.mem_cons_of_mem _ h)
    have hc0 := hc c List.mem_cons_self
    show ((opTree c.1).bind fun x => (opTree c.1).bind fun y => (pairsTree (cs.map Prod.fst)).bind fun r =>
      .ret (.ok ((x, y) :: r))).expect _ = _
    set K := (cs.map Prod.snd).sum with hK
    rw [Tree.expect_bind]
    have e1 : ∀ x y : ℕ, ((pairsTree (cs.map Prod.fst)).bind fun r => .ret (.ok ((x, y) :: r))).expect
        (fun ps => f (z + noise ((c :: cs).map Prod.snd) ps)) =
        bit^[2 * K] f (z + countBits c.2 x - countBits c.2 y - K) := by
      intro x y
      rw [Tree.expect_bind, ← ih]
      congr 1
      funext r
      show f (z + (((countBits c.2 x : ℤ) - countBits c.2 y) + noise (cs.map Prod.snd) r)) = _
      congr 1
      ring
    have e2 : ∀ x : ℕ, ((opTree c.1).bind fun y => (pairsTree (cs.map Prod.fst)).bind fun r =>
        .ret (.ok ((x, y) :: r))).expect (fun ps => f (z + noise ((c :: cs).map Prod.snd) ps)) =
        bit^[c.2] (bit^[2 * K] f) (z - c.2 - K + countBits c.2 x) := by
      intro x
      rw [Tree.expect_bind, show (fun y => _) = _ from funext (e1 x)]
      have := op_bits_neg hc0 (bit^[2 * K] f) (z + countBits c.2 x - K)
      rw [show z - (c.2 : ℤ) - K + countBits c.2 x = z + countBits c.2 x - K - c.2 by ring, ← this]
      congr 1
      funext y
      congr 1
      ring
    rw [show (fun x => _) = _ from funext e2, op_bits hc0 (bit^[c.2] (bit^[2 * K] f)), List.map_cons, List.sum_cons,
      ← hK, ← Function.iterate_add_apply, ← Function.iterate_add_apply]
    rw [show c.2 + c.2 + 2 * K = 2 * (c.2 + K) by ring, show z - (c.2 : ℤ) - K = z - ((c.2 + K : ℕ) : ℤ) by push_cast; ring]

theorem bit_choose (M : ℕ) (f : ℤ → ℝ) (z : ℤ) :
    bit^[M] f z = (∑ j ∈ Finset.range (M + 1), (M.choose j : ℝ) * f (z + j)) / 2 ^ M := by
  induction M generalizing z with
  | zero => simp
  | succ M ih =>
    rw [Function.iterate_succ_apply', show bit (bit^[M] f) z = (bit^[M] f z + bit^[M] f (z + 1)) / 2 from rfl, ih, ih]
    have e1 : ∑ j ∈ Finset.range (M + 1 + 1), ((M + 1).choose j : ℝ) * f (z + j) =
        (∑ j ∈ Finset.range (M + 1), (M.choose j : ℝ) * f (z + j)) +
          ∑ j ∈ Finset.range (M + 1), (M.choose j : ℝ) * f (z + 1 + j) := by
      rw [Finset.sum_range_succ' (fun j => ((M + 1).choose j : ℝ) * f (z + j)),
        Finset.sum_congr rfl fun j _ => by rw [Nat.choose_succ_succ], Nat.choose_zero_right]
      have e2 := Finset.sum_range_succ' (fun j => (M.choose j : ℝ) * f (z + j)) (M + 1)
      have e3 := Finset.sum_range_succ (fun j => (M.choose j : ℝ) * f (z + j)) (M + 1)
      rw [e3, Nat.choose_succ_self, Nat.choose_zero_right] at e2
      push_cast at e2 ⊢
      simp only [add_mul, Finset.sum_add_distrib]
      have e4 : ∑ j ∈ Finset.range (M + 1), (M.choose j : ℝ) * f (z + (j + 1)) =
          ∑ j ∈ Finset.range (M + 1), (M.choose j : ℝ) * f (z + 1 + j) :=
        Finset.sum_congr rfl fun j _ => by rw [add_assoc z 1, add_comm (1 : ℤ)]
      rw [e4]
      linarith
    rw [e1, pow_succ]
    field_simp

theorem chunks_fit (k : ℕ) : ∀ c ∈ chunks k, c.2 ≤ opBits c.1 := by
  intro c hc
  obtain rfl | ⟨b, hb, rfl⟩ := chunks_fair k c hc
  · exact le_rfl
  · exact hb

theorem pairs_within (ops : List Prng.Op) :
    (pairsTree ops).Within (2 * (ops.map fun op => opBits op / 8).sum) := by
  induction ops with
  | nil => exact Tree.within_ret _ _
  | cons op ops ih =>
    rw [List.map_cons, List.sum_cons, show 2 * (opBits op / 8 + (ops.map fun op => opBits op / 8).sum) =
      opBits op / 8 + (opBits op / 8 + (2 * (ops.map fun op => opBits op / 8).sum + 0)) by ring]
    exact (op_within op).bind fun x => (op_within op).bind fun y => ih.bind fun r => Tree.within_ret _ _

theorem coeff_within (v : ℕ) : (coeffTree v).Within (4 * v) := by
  refine (pairs_within _).mono ?_
  have h : ∀ cs : List (Prng.Op × ℕ), (∀ c ∈ cs, opBits c.1 / 8 ≤ c.2) →
      ((cs.map Prod.fst).map fun op => opBits op / 8).sum ≤ (cs.map Prod.snd).sum := by
    intro cs
    induction cs with
    | nil => intro _; simp
    | cons c cs ih =>
      intro h
      simp only [List.map_cons, List.sum_cons]
      have := ih fun c hc => h c (List.mem_cons_of_mem _ hc)
      have := h c List.mem_cons_self
      omega
  have := h (chunks (2 * v)) fun c hc => by
    unfold chunks at hc
    simp only [List.mem_append, List.mem_replicate] at hc
    rcases hc with (⟨-, rfl⟩ | ⟨-, rfl⟩) | hc
    · decide
    · decide
    · split_ifs at hc with h0
      · cases hc
      · rw [List.mem_singleton] at hc
        subst hc
        show 8 / 8 ≤ 2 * v % 8
        omega
  rw [show ((chunks (2 * v)).map Prod.snd).sum = 2 * v from Sampler.sizes_sum _] at this
  omega

theorem coeff_law (v : ℕ) (e : ℤ) : (coeffTree v).expect (fun ps => if coeffOf v ps = e then 1 else 0) = binomialLaw v e := by
  have h := noise_law (chunks_fit (2 * v)) (fun y => if y = e then 1 else 0) 0
  rw [show ((chunks (2 * v)).map Prod.snd).sum = 2 * v from Sampler.sizes_sum _, bit_choose] at h
  unfold coeffTree coeffOf
  rw [show (fun ps : List (ℕ × ℕ) => if noise ((chunks (2 * v)).map Prod.snd) ps = e then (1 : ℝ) else 0) =
    fun ps => if 0 + noise ((chunks (2 * v)).map Prod.snd) ps = e then 1 else 0 by simp only [zero_add], h,
    show 2 * (2 * v) = 4 * v by ring]
  unfold binomialLaw
  split_ifs with h1
  · congr 1
    have h2 := abs_le.mp h1
    rw [Finset.sum_eq_single (2 * (v : ℤ) + e).toNat]
    · rw [if_pos (by push_cast; rw [Int.toNat_of_nonneg (by omega)]; ring), mul_one]
    · intro j _ hj
      rw [if_neg, mul_zero]
      push_cast
      omega
    · intro hn
      rw [Finset.mem_range] at hn
      omega
  · rw [Finset.sum_eq_zero, zero_div]
    intro j hj
    rw [if_neg, mul_zero]
    have := Finset.mem_range.mp hj
    rw [abs_le] at h1
    push_cast
    omega

end Shell
