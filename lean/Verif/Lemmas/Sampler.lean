import Verif.Spec.Sampler
import Verif.Lemmas.Loop
import Verif.Lemmas.Montgomery
import Verif.Props.Bits
import Mathlib.Tactic.Ring
import Mathlib.Tactic.Linarith

namespace Shell.Sampler
open Shell.Spec Shell.Prng
variable {σ : Type}

/-! ### generateRandomInt -/

theorem shl_ok {W x k : ℕ} (h : k < W) (hx : x * 2 ^ k < 2 ^ W) :
    Transcription.shl W x k = .ok (x * 2 ^ k) := by
  unfold Transcription.shl
  rw [if_pos (by omega), Nat.shiftLeft_eq, Nat.mod_eq_of_lt hx]

theorem trunc_nat {w x : ℕ} (h : x < 2 ^ w) : trunc w (x : ℤ) = x := by
  unfold trunc
  have : ((2 : ℤ) ^ w) = ((2 ^ w : ℕ) : ℤ) := by push_cast; rfl
  rw [this, ← Int.natCast_mod, Int.toNat_natCast, Nat.mod_eq_of_lt h]

theorem take_bits {w k rand r : ℕ} (hk : k < w) (hr : rand * 2 ^ k + 2 ^ k ≤ 2 ^ w) :
    (do
      let m ← Transcription.shl w 1 k
      let needed := (r % 2 ^ w) &&& trunc w ((m : ℤ) - 1)
      let hi ← Transcription.shl w rand k
      (.ok (trunc w (hi + needed : ℤ)) : Outcome ℕ)) = .ok (rand * 2 ^ k + r % 2 ^ k) := by
  have hp : (0 : ℕ) < 2 ^ k := Nat.two_pow_pos k
  have hkw : (2 : ℕ) ^ k < 2 ^ w := Nat.pow_lt_pow_right (by norm_num) hk
  rw [shl_ok hk (by omega), Outcome.bind_ok, shl_ok hk (by omega), Outcome.bind_ok]
  have e1 : (((1 * 2 ^ k : ℕ) : ℤ) - 1) = ((2 ^ k - 1 : ℕ) : ℤ) := by
    rw [one_mul, Nat.cast_sub hp]; push_cast; ring
  rw [e1, trunc_nat (by omega), Nat.and_two_pow_sub_one_eq_mod]
  have e2 : r % 2 ^ w % 2 ^ k = r % 2 ^ k :=
    Nat.mod_mod_of_dvd _ (pow_dvd_pow 2 hk.le)
  rw [e2]
  have hm := Nat.mod_lt r hp
  have e3 : (((rand * 2 ^ k : ℕ) : ℤ) + ((r % 2 ^ k : ℕ) : ℤ)) = ((rand * 2 ^ k + r % 2 ^ k : ℕ) : ℤ) := by
    push_cast; ring
  rw [e3, trunc_nat (by omega)]

theorem generate8 (G : Gen σ) {w fuel bits rand : ℕ} (s : σ) (hb : 0 < bits) (hb8 : bits ≤ 8)
    (hw : bits < w) (hr : rand * 2 ^ bits + 2 ^ bits ≤ 2 ^ w) :
    generateLoop G w (fuel + 1) bits rand s = (do
      let (r, s) ← G.rand8 s
      .ok (rand * 2 ^ bits + r % 2 ^ bits, s)) := by
  rw [generateLoop, if_neg (by omega), if_pos hb8]
  cases G.rand8 s with
  | err e => rfl
  | ub e => rfl
  | ok q =>
    simp only [Outcome.bind_ok]
    have h := take_bits (w := w) (k := bits) (rand := rand) (r := q.1) hw hr
    generalize Transcription.shl w 1 bits = m at h ⊢
    cases m with
    | err e => cases h
    | ub e => cases h
    | ok m =>
      simp only [Outcome.bind_ok] at h ⊢
      generalize Transcription.shl w rand bits = hi at h ⊢
      cases hi with
      | err e => cases h
      | ub e => cases h
      | ok hi =>
        simp only [Outcome.bind_ok, Outcome.ok.injEq] at h ⊢
        rw [h]

theorem generate64 (G : Gen σ) {w fuel bits rand : ℕ} (s : σ) (hb : 8 < bits)
    (hk : min bits (min w 64) < w)
    (hr : rand * 2 ^ (min bits (min w 64)) + 2 ^ (min bits (min w 64)) ≤ 2 ^ w) :
    generateLoop G w (fuel + 1) bits rand s = (do
      let (r, s) ← G.rand64 s
      generateLoop G w fuel (bits - min bits (min w 64))
        (rand * 2 ^ (min bits (min w 64)) + r % 2 ^ (min bits (min w 64))) s) := by
  rw [generateLoop, if_neg (by omega), if_neg (by omega)]
  generalize min bits (min w 64) = k at *
  cases G.rand64 s with
  | err e => rfl
  | ub e => rfl
  | ok q =>
    simp only [Outcome.bind_ok]
    have h := take_bits (w := w) (k := k) (rand := rand) (r := q.1) hk hr
    generalize Transcription.shl w 1 k = m at h ⊢
    cases m with
    | err e => cases h
    | ub e => cases h
    | ok m =>
      simp only [Outcome.bind_ok] at h ⊢
      generalize Transcription.shl w rand k = hi at h ⊢
      cases hi with
      | err e => cases h
      | ub e => cases h
      | ok hi =>
        simp only [Outcome.bind_ok, Outcome.ok.injEq] at h ⊢
        rw [h]

theorem generate_zero (G : Gen σ) (w fuel rand : ℕ) (s : σ) :
    generateLoop G w fuel 0 rand s = .ok (rand, s) := by
  cases fuel <;> simp [generateLoop]

theorem pow_bound {a b w : ℕ} (h : a + b ≤ w) (r : ℕ) (hr : r < 2 ^ a) :
    r * 2 ^ b + 2 ^ b ≤ 2 ^ w := by
  calc r * 2 ^ b + 2 ^ b = (r + 1) * 2 ^ b := by ring
    _ ≤ 2 ^ a * 2 ^ b := Nat.mul_le_mul_right _ hr
    _ = 2 ^ (a + b) := by rw [pow_add]
    _ ≤ 2 ^ w := Nat.pow_le_pow_right (by norm_num) h

theorem generate_eq (G : Gen σ) {w L : ℕ} (hw : w = 16 ∨ w = 32 ∨ w = 64 ∨ w = 128) (hL : 0 < L)
    (hLw : L < w) (s : σ) :
    generateRandomInt G w L s = (do
      let (ws, s) ← drawWords G ((pieces L).map Prod.fst) s
      .ok (assemble ((pieces L).map Prod.snd) ws, s)) := by
  unfold generateRandomInt
  obtain ⟨f, rfl⟩ : ∃ f, L = f + 1 := ⟨L - 1, by omega⟩
  unfold pieces
  by_cases h8 : f + 1 ≤ 8
  · rw [if_pos h8, generate8 G s hL h8 hLw (pow_bound (a := 0) (by omega) 0 (by norm_num))]
    simp only [List.map_cons, List.map_nil, drawWords, draw]
    cases G.rand8 s with
    | err e => rfl
    | ub e => rfl
    | ok q => simp [assemble]
  · rw [if_neg h8]
    by_cases h64 : f + 1 ≤ 64
    · have hm : min (f + 1) (min w 64) = f + 1 := by omega
      rw [if_pos h64, generate64 G s (by omega) (by omega)
        (pow_bound (a := 0) (by omega) 0 (by norm_num)), hm, Nat.sub_self]
      simp only [List.map_cons, List.map_nil, drawWords, draw]
      cases G.rand64 s with
      | err e => rfl
      | ub e => rfl
      | ok q => simp [assemble, generate_zero]
    · have hw128 : w = 128 := by omega
      subst hw128
      have hm : min (f + 1) (min 128 64) = 64 := by omega
      rw [if_neg h64, generate64 G s (by omega) (by omega)
        (pow_bound (a := 0) (by omega) 0 (by norm_num)), hm]
      by_cases h72 : f + 1 ≤ 72
      · rw [if_pos h72]
        simp only [List.map_cons, List.map_nil, drawWords, draw]
        cases G.rand64 s with
        | err e => rfl
        | ub e => rfl
        | ok q =>
          obtain ⟨g, rfl⟩ : ∃ g, f = g + 1 := ⟨f - 1, by omega⟩
          simp only [Outcome.bind_ok, zero_mul, zero_add]
          rw [generate8 G q.2 (by omega) (by omega) (by omega)
            (pow_bound (a := 64) (by omega) _ (Nat.mod_lt _ (Nat.two_pow_pos 64)))]
          cases G.rand8 q.2 with
          | err e => rfl
          | ub e => rfl
          | ok q => simp [assemble]
      · rw [if_neg h72]
        simp only [List.map_cons, List.map_nil, drawWords, draw]
        cases G.rand64 s with
        | err e => rfl
        | ub e => rfl
        | ok q =>
          obtain ⟨g, rfl⟩ : ∃ g, f = g + 1 := ⟨f - 1, by omega⟩
          have hm2 : min (g + 1 + 1 - 64) (min 128 64) = g + 1 + 1 - 64 := by omega
          simp only [Outcome.bind_ok, zero_mul, zero_add]
          rw [generate64 G q.2 (by omega) (by omega)
            (by rw [hm2]; exact pow_bound (a := 64) (by omega) _ (Nat.mod_lt _ (Nat.two_pow_pos 64))),
            hm2, Nat.sub_self]
          cases G.rand64 q.2 with
          | err e => rfl
          | ub e => rfl
          | ok q => simp [assemble, generate_zero]

theorem assemble_lt (ks xs : List ℕ) : assemble ks xs < 2 ^ ks.sum := by
  induction ks generalizing xs with
  | nil => cases xs <;> simp [assemble]
  | cons k ks ih =>
    cases xs with
    | nil => exact Nat.two_pow_pos _
    | cons x xs =>
      simp only [assemble, List.sum_cons, pow_add]
      have h1 := ih xs
      have h2 := Nat.mod_lt x (Nat.two_pow_pos k)
      calc x % 2 ^ k * 2 ^ ks.sum + assemble ks xs
          < x % 2 ^ k * 2 ^ ks.sum + 2 ^ ks.sum := by omega
        _ = (x % 2 ^ k + 1) * 2 ^ ks.sum := by ring
        _ ≤ 2 ^ k * 2 ^ ks.sum := Nat.mul_le_mul_right _ h2

theorem assemble_bij (ks : List ℕ) (v : ℕ) (hv : v < 2 ^ ks.sum) :
    ∃! us : List ℕ, List.Forall₂ (fun u k => u < 2 ^ k) us ks ∧ assemble ks us = v := by
  induction ks generalizing v with
  | nil =>
    refine ⟨[], ⟨List.Forall₂.nil, ?_⟩, ?_⟩
    · simp at hv; simp [assemble, hv]
    · rintro us ⟨h, -⟩; cases h; rfl
  | cons k ks ih =>
    rw [List.sum_cons, pow_add] at hv
    have hp : (0 : ℕ) < 2 ^ ks.sum := Nat.two_pow_pos _
    obtain ⟨us, ⟨h1, h2⟩, h3⟩ := ih (v % 2 ^ ks.sum) (Nat.mod_lt _ hp)
    have hd : v / 2 ^ ks.sum < 2 ^ k := (Nat.div_lt_iff_lt_mul hp).mpr hv
    refine ⟨v / 2 ^ ks.sum :: us, ⟨List.Forall₂.cons hd h1, ?_⟩, ?_⟩
    · simp only [assemble, h2, Nat.mod_eq_of_lt hd]
      exact Nat.div_add_mod' v _
    · rintro us' ⟨g1, g2⟩
      cases g1 with
      | @cons u _ us'' _ g3 g4 =>
        simp only [assemble, Nat.mod_eq_of_lt g3] at g2
        have hlt := assemble_lt ks us''
        have e1 : u = v / 2 ^ ks.sum := by
          rw [← g2, Nat.add_comm, Nat.add_mul_div_right _ _ hp, Nat.div_eq_of_lt hlt, Nat.zero_add]
        have e2 : assemble ks us'' = v % 2 ^ ks.sum := by
          rw [← g2, Nat.add_comm, Nat.add_mul_mod_self_right, Nat.mod_eq_of_lt hlt]
        rw [← e1, h3 us'' ⟨g4, e2⟩]

theorem pieces_sum {L : ℕ} : ((pieces L).map Prod.snd).sum = L := by
  unfold pieces
  split_ifs <;> simp <;> omega

/-! ### Repetition -/

theorem times_add {α : Type} (f : σ → Outcome (α × σ)) (a b : ℕ) (s : σ) :
    times f (a + b) s = (do
      let (xs, s) ← times f a s
      let (ys, s) ← times f b s
      .ok (xs ++ ys, s)) := by
  induction a generalizing s with
  | zero =>
    simp only [Nat.zero_add, times, Outcome.bind_ok, List.nil_append]
    cases times f b s <;> simp
  | succ a ih =>
    rw [Nat.succ_add, times, times]
    cases f s with
    | err e => rfl
    | ub e => rfl
    | ok q =>
      simp only [Outcome.bind_ok]
      rw [ih]
      cases times f a q.2 with
      | err e => rfl
      | ub e => rfl
      | ok r =>
        simp only [Outcome.bind_ok]
        cases times f b r.2 <;> simp

theorem times_length {α : Type} (f : σ → Outcome (α × σ)) (n : ℕ) (s s' : σ) (xs : List α)
    (h : times f n s = .ok (xs, s')) : xs.length = n := by
  induction n generalizing s xs with
  | zero => cases h; rfl
  | succ n ih =>
    rw [times] at h
    obtain ⟨q, -, h⟩ := Outcome.bind_eq_ok.mp h
    obtain ⟨r, hr, h⟩ := Outcome.bind_eq_ok.mp h
    cases h
    simp [ih q.2 r.1 hr]

/-- Appending in a counted loop. -/
theorem loop_push {α : Type} (f : σ → Outcome (α × σ)) (n i : ℕ) (acc : List α) (s : σ) :
    loopFrom (fun _ (r : List α × σ) => do
      let (x, s) ← f r.2
      .ok (r.1 ++ [x], s)) n i (acc, s) = (do
      let (xs, s) ← times f n s
      .ok (acc ++ xs, s)) := by
  induction n generalizing i acc s with
  | zero => simp [loopFrom, times]
  | succ n ih =>
    rw [loopFrom, times]
    cases f s with
    | err e => rfl
    | ub e => rfl
    | ok q =>
      simp only [Outcome.bind_ok]
      rw [ih]
      cases times f n q.2 <;> simp

/-- Overwriting a vector of the right length in a counted loop. -/
theorem loop_fill {α : Type} (d : α) (f : σ → Outcome (α × σ)) (n : ℕ) (acc : List α) (s : σ) :
    loopFrom (fun i (r : List α × σ) => do
      let (x, s) ← f r.2
      let l ← wr r.1 i x
      .ok (l, s)) n acc.length (acc ++ List.replicate n d, s) = (do
      let (xs, s) ← times f n s
      .ok (acc ++ xs, s)) := by
  induction n generalizing acc s with
  | zero => simp [loopFrom, times]
  | succ n ih =>
    rw [loopFrom, times]
    cases f s with
    | err e => rfl
    | ub e => rfl
    | ok q =>
      simp only [Outcome.bind_ok]
      rw [wr_ok (by simp)]
      simp only [Outcome.bind_ok]
      have e : (acc ++ List.replicate (n + 1) d).set acc.length q.1 =
          (acc ++ [q.1]) ++ List.replicate n d := by
        rw [List.replicate_succ, List.set_append_right _ _ le_rfl]
        simp
      have e2 : acc.length + 1 = (acc ++ [q.1]).length := by simp
      rw [e, e2, ih]
      cases times f n q.2 <;> simp

end Shell.Sampler
