import Verif.Lemmas.Sampler
import Mathlib.Data.List.Range

namespace Shell.Sampler
open Shell.Spec
variable {σ : Type}

/-! ### One position -/

/-- The two encoding bits of a value. -/
def enc : Trit → Bool × Bool
  | .zero => (false, false)
  | .plus => (true, false)
  | .minus => (true, true)

theorem pick_append (b : Bool) (l : List (Bool × Bool)) (x : Bool × Bool) :
    pick b (l ++ [x]) = match pick b l with
      | some t => some t
      | none => pick (b && l.isEmpty) [x] := by
  induction l generalizing b with
  | nil => cases b <;> simp [pick]
  | cons y l ih =>
    obtain ⟨y0, y1⟩ := y
    cases b <;> cases y0 <;> cases y1 <;> simp [pick, ih]

theorem bitsAt_append (i : ℕ) (rs : List (ℕ × ℕ)) (r : ℕ × ℕ) :
    bitsAt i (rs ++ [r]) = bitsAt i rs ++ [(r.1.testBit i, r.2.testBit i)] := by
  simp [bitsAt]

theorem bitsAt_isEmpty (i : ℕ) (rs : List (ℕ × ℕ)) : (bitsAt i rs).isEmpty = rs.isEmpty := by
  cases rs <;> simp [bitsAt]

/-- Relation between the machine state at a position and the picked value. -/
def Pos (rs : List (ℕ × ℕ)) (i : ℕ) (b0 b1 ms : Bool) : Prop :=
  match pick true (bitsAt i rs) with
  | some t => (b0, b1) = enc t ∧ ms = false
  | none => b0 = false ∧ b1 = !rs.isEmpty ∧ ms = true

theorem Pos.step {rs : List (ℕ × ℕ)} {i : ℕ} {b0 b1 ms : Bool} (h : Pos rs i b0 b1 ms) (r : ℕ × ℕ) :
    Pos (rs ++ [r]) i (b0 ^^ (r.1.testBit i && ms)) (b1 ^^ (r.2.testBit i && ms))
      (!(b0 ^^ (r.1.testBit i && ms)) && (b1 ^^ (r.2.testBit i && ms))) := by
  unfold Pos at *
  rw [bitsAt_append, pick_append, bitsAt_isEmpty]
  generalize r.1.testBit i = x
  generalize r.2.testBit i = y
  cases hp : pick true (bitsAt i rs) with
  | some t =>
    rw [hp] at h
    simp only at h ⊢
    obtain ⟨h1, rfl⟩ := h
    cases t <;> simp [enc] at h1 ⊢ <;> simp [h1]
  | none =>
    rw [hp] at h
    simp only at h ⊢
    obtain ⟨rfl, rfl, rfl⟩ := h
    cases rs <;> cases x <;> cases y <;> simp [pick, enc]

/-- The state of the rejection loop. -/
structure TInv (m : ℕ) (rs : List (ℕ × ℕ)) (missing e0 e1 : ℕ) : Prop where
  inner : ∀ i < m, Pos rs i (e0.testBit i) (e1.testBit i) (missing.testBit i)
  outer : ∀ i, m ≤ i → e0.testBit i = false ∧ e1.testBit i = false ∧ missing.testBit i = false

theorem TInv.init {m : ℕ} : TInv m [] (2 ^ m - 1) 0 0 where
  inner := by
    intro i hi
    unfold Pos
    simp [bitsAt, pick, hi]
  outer := by intro i hi; simp; omega

theorem TInv.step {m : ℕ} (hm : m ≤ 8) {rs : List (ℕ × ℕ)} {missing e0 e1 : ℕ}
    (h : TInv m rs missing e0 e1) (x y : ℕ) :
    TInv m (rs ++ [(x, y)])
      ((0xFF ^^^ (e0 ^^^ (x &&& missing))) &&& (e1 ^^^ (y &&& missing)))
      (e0 ^^^ (x &&& missing)) (e1 ^^^ (y &&& missing)) where
  inner := by
    intro i hi
    have := (h.inner i hi).step (x, y)
    have e : (0xFF : ℕ).testBit i = true := by
      have : (0xFF : ℕ) = 2 ^ 8 - 1 := by norm_num
      rw [this, Nat.testBit_two_pow_sub_one]; simp; omega
    simp only [Nat.testBit_xor, Nat.testBit_and, e, Bool.true_xor]
    exact this
  outer := by
    intro i hi
    obtain ⟨h1, h2, h3⟩ := h.outer i hi
    simp [h1, h2, h3]

theorem picked_length {m : ℕ} {rs : List (ℕ × ℕ)} :
    (picked m rs).length = m ↔ ∀ i < m, (pick true (bitsAt i rs)).isSome := by
  unfold picked
  induction m with
  | zero => simp
  | succ m ih =>
    have hle : ∀ k, ((List.range k).filterMap fun i => pick true (bitsAt i rs)).length ≤ k := by
      intro k
      refine (List.length_filterMap_le _ _).trans (by simp)
    rw [List.range_succ, List.filterMap_append, List.length_append]
    have hm := hle m
    cases hp : pick true (bitsAt m rs) with
    | none =>
      simp [hp]
      constructor
      · omega
      · intro h
        have := h m (by omega)
        simp [hp] at this
    | some t =>
      simp [hp]
      rw [ih]
      constructor
      · intro h i hi
        rcases Nat.lt_or_ge i m with hi' | hi'
        · exact h i hi'
        · obtain rfl : i = m := by omega
          simp [hp]
      · intro h i hi; exact h i (by omega)

theorem TInv.done {m : ℕ} {rs : List (ℕ × ℕ)} {missing e0 e1 : ℕ}
    (h : TInv m rs missing e0 e1) : missing = 0 ↔ (picked m rs).length = m := by
  rw [picked_length]
  constructor
  · rintro rfl i hi
    have := h.inner i hi
    unfold Pos at this
    cases hp : pick true (bitsAt i rs) with
    | none => rw [hp] at this; simp at this
    | some t => rfl
  · intro hs
    apply Nat.eq_of_testBit_eq
    intro i
    rw [Nat.zero_testBit]
    by_cases hi : i < m
    · have := h.inner i hi
      have h2 := hs i hi
      unfold Pos at this
      cases hp : pick true (bitsAt i rs) with
      | none => rw [hp] at h2; cases h2
      | some t => rw [hp] at this; exact this.2
    · exact (h.outer i (by omega)).2.2

/-- Values as stored. -/
def valueOf (p : MParams) (N : ℕ) (t : Trit) : ℕ := Mont.importInt p (t.toInt % N).toNat

theorem testBit_mask {e i : ℕ} (hi : i < 8) :
    decide (e &&& ((1 <<< i) % 2 ^ 8) > 0) = e.testBit i := by
  have h1 : (1 <<< i) % 2 ^ 8 = 2 ^ i := by
    rw [Nat.shiftLeft_eq, one_mul, Nat.mod_eq_of_lt (Nat.pow_lt_pow_right (by norm_num) hi)]
  rw [h1, Nat.and_two_pow]
  have := Nat.two_pow_pos i
  cases e.testBit i <;> simp

theorem trunc_neg_one (w : ℕ) : trunc w (-1) = 2 ^ w - 1 := by
  unfold trunc
  have hp := Nat.two_pow_pos w
  have : ((-1 : ℤ) % (2 : ℤ) ^ w) = (2 : ℤ) ^ w - 1 := by
    have h2 : (-1 : ℤ) = ((2 : ℤ) ^ w - 1) + (2 : ℤ) ^ w * (-1) := by ring
    rw [h2, Int.add_mul_emod_self_left, Int.emod_eq_of_lt]
    · have : (0 : ℤ) < 2 ^ w := by positivity
      omega
    · omega
  rw [this]
  have e : ((2 : ℤ) ^ w - 1) = ((2 ^ w - 1 : ℕ) : ℤ) := by
    rw [Nat.cast_sub hp]; push_cast; ring
  rw [e, Int.toNat_natCast]

theorem ternaryValue_eq {p : MParams} {w N : ℕ} (g : Good p w N) {e0 e1 i : ℕ} (hi : i < 8) (t : Trit)
    (h : (e0.testBit i, e1.testBit i) = enc t) :
    Mont.importInt p (ternaryValue p e0 e1 i) = valueOf p N t := by
  have hN := g.pos
  have hlt := g.lt
  have hw := g.hw
  have hmod := g.hN
  unfold ternaryValue valueOf
  simp only [testBit_mask hi]
  have hz : trunc p.w (-0) = 0 := by simp [trunc]
  have h0 : ∀ x, x < 2 ^ w → (2 ^ w - 1) &&& x = x := by
    intro x hx
    rw [Nat.and_comm, Nat.and_two_pow_sub_one_eq_mod, Nat.mod_eq_of_lt hx]
  cases t <;> simp only [enc, Prod.mk.injEq] at h <;> obtain ⟨h1, h2⟩ := h <;> rw [h1, h2]
  · simp [hz, Trit.toInt, trunc]
  · simp only [Bool.not_false, Bool.and_true, if_true, Bool.and_false, Bool.false_eq_true, if_false, hz]
    rw [trunc_neg_one, hw, h0 1 (by omega), Nat.zero_and, Nat.or_zero]
    simp only [Trit.toInt]
    rw [importInt_eq g _ (by omega)]
    have e : ((1 : ℤ) % (N : ℤ)).toNat = 1 % N := by
      have : (1 : ℤ) % (N : ℤ) = ((1 % N : ℕ) : ℤ) := by push_cast; rfl
      rw [this, Int.toNat_natCast]
    have := Nat.mod_lt 1 hN
    rw [e, importInt_eq g _ (by omega), Nat.mod_mul_mod]
  · simp only [Bool.not_true, Bool.and_true, if_true, Bool.and_false, Bool.false_eq_true, if_false, hz]
    rw [trunc_neg_one, hw, hmod]
    have e1 : trunc w ((N : ℤ) - 1) = N - 1 := by
      have : (N : ℤ) - 1 = ((N - 1 : ℕ) : ℤ) := by omega
      rw [this, trunc_nat (by omega)]
    rw [e1, h0 _ (by omega), Nat.zero_and, Nat.zero_or]
    congr 1
    simp only [Trit.toInt]
    have : ((-1 : ℤ) % (N : ℤ)) = (N : ℤ) - 1 := by
      have h2 : (-1 : ℤ) = ((N : ℤ) - 1) + (N : ℤ) * (-1) := by ring
      rw [h2, Int.add_mul_emod_self_left, Int.emod_eq_of_lt] <;> omega
    rw [this]; omega

theorem filterMap_eq_map {α β : Type} (f : α → Option β) (g : β → ℕ) (h : α → ℕ) (l : List α)
    (hl : ∀ x ∈ l, ∃ y, f x = some y ∧ h x = g y) : l.map h = (l.filterMap f).map g := by
  induction l with
  | nil => rfl
  | cons x l ih =>
    obtain ⟨y, h1, h2⟩ := hl x (by simp)
    rw [List.filterMap_cons_some h1, List.map_cons, List.map_cons, h2,
      ih (fun z hz => hl z (by simp [hz]))]

theorem batch_eq (G : Gen σ) {p : MParams} {w N : ℕ} (g : Good p w N) {m : ℕ} (hm : m ≤ 8)
    (fuel : ℕ) (rs : List (ℕ × ℕ)) (missing e0 e1 : ℕ) (s : σ) (h : TInv m rs missing e0 e1) :
    (do
      let (e0, e1, s) ← ternaryRounds G fuel missing e0 e1 s
      (.ok ((List.range m).map fun i => Mont.importInt p (ternaryValue p e0 e1 i), s) :
        Outcome (List ℕ × σ))) = (do
      let (ts, s) ← drawBatch G m fuel rs s
      .ok (ts.map (valueOf p N), s)) := by
  have hfin : ∀ {rs e0 e1} (h : TInv m rs 0 e0 e1),
      ((List.range m).map fun i => Mont.importInt p (ternaryValue p e0 e1 i)) =
        (picked m rs).map (valueOf p N) := by
    intro rs e0 e1 h
    have hs := picked_length.mp (h.done.mp rfl)
    unfold picked
    apply filterMap_eq_map
    intro i hi
    have hi := List.mem_range.mp hi
    obtain ⟨t, ht⟩ := Option.isSome_iff_exists.mp (hs i hi)
    refine ⟨t, ht, ternaryValue_eq g (by omega) t ?_⟩
    have := h.inner i hi
    unfold Pos at this
    rw [ht] at this
    exact this.1
  induction fuel generalizing rs missing e0 e1 s with
  | zero =>
    rw [ternaryRounds, drawBatch]
    by_cases h0 : missing = 0
    · rw [if_pos h0, if_pos (h.done.mp h0)]
      simp only [Outcome.bind_ok]
      subst h0
      rw [hfin h]
    · rw [if_neg h0, if_neg (fun hc => h0 (h.done.mpr hc))]; rfl
  | succ fuel ih =>
    rw [ternaryRounds, drawBatch]
    by_cases h0 : missing = 0
    · rw [if_pos h0, if_pos (h.done.mp h0)]
      simp only [Outcome.bind_ok]
      subst h0
      rw [hfin h]
    · rw [if_neg h0, if_neg (fun hc => h0 (h.done.mpr hc))]
      cases G.rand8 s with
      | err e => rfl
      | ub e => rfl
      | ok q =>
        simp only [Outcome.bind_ok]
        cases G.rand8 q.2 with
        | err e => rfl
        | ub e => rfl
        | ok r =>
          simp only [Outcome.bind_ok]
          exact ih _ _ _ _ _ (h.step hm q.1 r.1)

theorem batches_step {n : ℕ} (hn : n ≠ 0) : batches n = min n 8 :: batches (n - min n 8) := by
  unfold batches
  by_cases h : 8 ≤ n
  · have e1 : min n 8 = 8 := by omega
    have e2 : n / 8 = (n - 8) / 8 + 1 := by omega
    have e3 : (n - 8) % 8 = n % 8 := by omega
    rw [e1, e2, e3, List.replicate_succ, List.cons_append]
  · have e1 : min n 8 = n := by omega
    have e2 : n / 8 = 0 := by omega
    have e3 : n % 8 = n := by omega
    rw [e1, e2, e3, if_neg hn, Nat.sub_self]
    simp

theorem ternaryLoop_eq (G : Gen σ) {p : MParams} {w N : ℕ} (g : Good p w N) (fuel k n : ℕ) (hk : n ≤ k)
    (acc : List ℕ) (s : σ) :
    ternaryLoop G p fuel k n acc s = (do
      let (ts, s) ← drawTrits G fuel (batches n) s
      .ok (acc ++ ts.map (valueOf p N), s)) := by
  induction k generalizing n acc s with
  | zero =>
    obtain rfl : n = 0 := by omega
    simp [ternaryLoop, batches, drawTrits]
  | succ k ih =>
    rw [ternaryLoop]
    by_cases hn : n = 0
    · subst hn; simp [batches, drawTrits]
    · rw [if_neg hn, batches_step hn, drawTrits]
      have hm : (if min n 8 < 8 then (1 <<< (min n 8) - 1) % 2 ^ 8 else 0xFF) = 2 ^ (min n 8) - 1 := by
        split_ifs with h
        · have : 2 ^ (min n 8) < 2 ^ 8 := Nat.pow_lt_pow_right (by norm_num) h
          rw [Nat.shiftLeft_eq, one_mul, Nat.mod_eq_of_lt (by omega)]
        · have : min n 8 = 8 := by omega
          rw [this]; norm_num
      dsimp only
      rw [hm]
      have hb := batch_eq G g (m := min n 8) (by omega) fuel [] _ _ _ s TInv.init
      cases hr : ternaryRounds G fuel (2 ^ (min n 8) - 1) 0 0 s with
      | err e =>
        rw [hr] at hb
        cases hd : drawBatch G (min n 8) fuel [] s <;> rw [hd] at hb <;> cases hb
        rfl
      | ub e =>
        rw [hr] at hb
        cases hd : drawBatch G (min n 8) fuel [] s <;> rw [hd] at hb <;> cases hb
        rfl
      | ok q =>
        rw [hr] at hb
        cases hd : drawBatch G (min n 8) fuel [] s with
        | err e => rw [hd] at hb; cases hb
        | ub e => rw [hd] at hb; cases hb
        | ok d =>
          rw [hd] at hb
          simp only [Outcome.bind_ok, Outcome.ok.injEq, Prod.mk.injEq] at hb ⊢
          obtain ⟨h1, h2⟩ := hb
          rw [h1, h2, ih _ (by omega)]
          cases drawTrits G fuel (batches (n - min n 8)) d.2 <;> simp

theorem picked_full {m : ℕ} (G : Gen σ) (fuel : ℕ) (rs : List (ℕ × ℕ)) (s s' : σ) (ts : List Trit)
    (h : drawBatch G m fuel rs s = .ok (ts, s')) : ts.length = m := by
  induction fuel generalizing rs s with
  | zero =>
    rw [drawBatch] at h
    obtain ⟨h1, h⟩ | ⟨_, h⟩ := ite_eq_iff.mp h
    · cases h; exact h1
    · cases h
  | succ fuel ih =>
    rw [drawBatch] at h
    obtain ⟨h1, h⟩ | ⟨_, h⟩ := ite_eq_iff.mp h
    · cases h; exact h1
    · obtain ⟨q, -, h⟩ := Outcome.bind_eq_ok.mp h
      obtain ⟨r, -, h⟩ := Outcome.bind_eq_ok.mp h
      exact ih _ _ h

theorem drawTrits_length (G : Gen σ) (fuel : ℕ) (ms : List ℕ) (s s' : σ) (ts : List Trit)
    (h : drawTrits G fuel ms s = .ok (ts, s')) : ts.length = ms.sum := by
  induction ms generalizing s ts with
  | nil => cases h; rfl
  | cons m ms ih =>
    rw [drawTrits] at h
    obtain ⟨q, hq, h⟩ := Outcome.bind_eq_ok.mp h
    obtain ⟨r, hr, h⟩ := Outcome.bind_eq_ok.mp h
    cases h
    simp [picked_full G fuel [] _ _ _ hq, ih _ _ hr]

theorem batches_sum (n : ℕ) : (batches n).sum = n := by
  unfold batches
  split_ifs <;> simp <;> omega

/-! ### Counting -/

theorem patterns_length (m : ℕ) : (patterns m).length = 4 ^ m := by
  induction m with
  | zero => rfl
  | succ m ih => simp [patterns, ih, pow_succ]

theorem mem_patterns (m : ℕ) (l : List (Bool × Bool)) : l ∈ patterns m ↔ l.length = m := by
  induction m generalizing l with
  | zero => simp [patterns]
  | succ m ih =>
    simp only [patterns, List.mem_flatMap, ih]
    constructor
    · rintro ⟨r, h1, h2⟩
      simp only [List.mem_cons, List.not_mem_nil, or_false] at h2
      rcases h2 with rfl | rfl | rfl | rfl <;> simp [h1]
    · intro h
      cases l with
      | nil => simp at h
      | cons x r =>
        refine ⟨r, by simpa using h, ?_⟩
        obtain ⟨a, b⟩ := x
        cases a <;> cases b <;> simp

theorem patterns_nodup (m : ℕ) : (patterns m).Nodup := by
  induction m with
  | zero => simp [patterns]
  | succ m ih =>
    rw [patterns, List.nodup_flatMap]
    refine ⟨fun r _ => by simp, ?_⟩
    refine ih.imp ?_
    intro a b hab
    simp only [Function.onFun, List.disjoint_left, List.mem_cons, List.not_mem_nil, or_false]
    rintro x (rfl | rfl | rfl | rfl) <;> simp [hab]

theorem count_step (b : Bool) (t : Trit) (m : ℕ) :
    (patterns (m + 1)).countP (fun l => pick b l = some t) =
      4 ^ m + (patterns m).countP (fun l => pick false l = some t) := by
  rw [← patterns_length m, patterns]
  induction patterns m with
  | nil => simp
  | cons r l ih =>
    rw [List.flatMap_cons, List.countP_append, ih, List.length_cons, List.countP_cons (l := l)]
    have : ([(false, false) :: r, (false, true) :: r, (true, false) :: r, (true, true) :: r].countP
        fun l => pick b l = some t) = 1 + if pick false r = some t then 1 else 0 := by
      by_cases hq : pick false r = some t <;> cases b <;> cases t <;>
        simp [pick, List.countP_cons, hq]
    rw [this]
    simp only [decide_eq_true_eq]
    omega

theorem count_none_step (b : Bool) (m : ℕ) :
    (patterns (m + 1)).countP (fun l => pick b l = none) =
      (patterns m).countP (fun l => pick false l = none) := by
  rw [patterns]
  induction patterns m with
  | nil => simp
  | cons r l ih =>
    rw [List.flatMap_cons, List.countP_append, ih, List.countP_cons (l := l)]
    have : ([(false, false) :: r, (false, true) :: r, (true, false) :: r, (true, true) :: r].countP
        fun l => pick b l = none) = if pick false r = none then 1 else 0 := by
      by_cases hq : pick false r = none <;> cases b <;> simp [pick, List.countP_cons, hq]
    rw [this]
    simp only [decide_eq_true_eq]
    omega

end Shell.Sampler
