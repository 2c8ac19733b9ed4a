import Verif.Spec.Prng
import Verif.Lemmas.Loop
import Mathlib.Tactic.Ring
import Mathlib.Tactic.Linarith

namespace Shell.Prng
open Shell.Spec

/-- The generator has handed out exactly `p` bytes of the stream. -/
def At (K : Kind) (key : List ℕ) (block : ℕ → List ℕ) (M p : ℕ) (s : State) : Prop :=
  s.key = key ∧ ∃ c, c < M ∧ s.salt = c + 1 ∧ s.buf = block c ∧ s.pos ≤ K.bufSize ∧
    p = c * K.bufSize + s.pos

variable {K : Kind} {key : List ℕ} {block : ℕ → List ℕ} {M : ℕ}

theorem create_at (h : Source K key block M) (hM : 0 < M) (hM31 : M < 2 ^ 31)
    (hk : key.length = K.seedLen) : ∃ s, create K key = .ok s ∧ At K key block M 0 s := by
  unfold create resalt
  rw [if_neg (by simpa using hk), h.fill 0 hM]
  simp only [Outcome.bind_ok]
  unfold incInt
  rw [if_pos (by omega)]
  exact ⟨_, rfl, rfl, 0, hM, rfl, rfl, Nat.zero_le _, by simp⟩

theorem refill_at (h : Source K key block M) (hM31 : M < 2 ^ 31) (hB : 0 < K.bufSize) {p : ℕ}
    {s : State} (hs : At K key block M p s) (hp : p < M * K.bufSize) :
    ∃ s', refill K s = .ok s' ∧ At K key block M p s' ∧ s'.pos < K.bufSize := by
  obtain ⟨hk, c, hc, hsalt, hbuf, hpos, hpp⟩ := hs
  unfold refill
  by_cases hlt : s.pos ≥ s.buf.length
  · rw [if_pos hlt]
    rw [hbuf, h.size c hc] at hlt
    have hpe : s.pos = K.bufSize := le_antisymm hpos hlt
    have hc1 : c + 1 < M := by
      by_contra hcon
      have : M ≤ c + 1 := by omega
      have h2 := Nat.mul_le_mul_right K.bufSize this
      rw [hpp, hpe] at hp
      have : (c + 1) * K.bufSize = c * K.bufSize + K.bufSize := by ring
      omega
    unfold resalt
    rw [hk, hsalt, h.fill _ hc1]
    simp only [Outcome.bind_ok]
    unfold incInt
    rw [if_pos (by omega)]
    refine ⟨_, rfl, ⟨rfl, c + 1, hc1, rfl, rfl, Nat.zero_le _, ?_⟩, hB⟩
    show p = (c + 1) * K.bufSize + 0
    rw [hpp, hpe]; ring
  · rw [if_neg hlt]
    rw [hbuf, h.size c hc] at hlt
    exact ⟨s, rfl, ⟨hk, c, hc, hsalt, hbuf, hpos, hpp⟩, by omega⟩

theorem readByte_at (h : Source K key block M) {p : ℕ} {s : State} (hs : At K key block M p s)
    (hpos : s.pos < K.bufSize) : readByte s = .ok (byteAt block K.bufSize p) := by
  obtain ⟨hk, c, hc, hsalt, hbuf, _, hpp⟩ := hs
  have hd : p / K.bufSize = c := by
    rw [hpp, Nat.add_comm, Nat.add_mul_div_right _ _ (by omega), Nat.div_eq_of_lt hpos, Nat.zero_add]
  have hm : p % K.bufSize = s.pos := by
    rw [hpp, Nat.add_comm, Nat.add_mul_mod_self_right, Nat.mod_eq_of_lt hpos]
  unfold readByte byteAt
  have hl : s.pos < (block c).length := by rw [h.size c hc]; exact hpos
  rw [hd, hm, hbuf, List.getElem?_eq_getElem hl, List.getD_eq_getElem _ _ hl]

theorem byteAt_lt (h : Source K key block M) (hB : 0 < K.bufSize) {p : ℕ}
    (hp : p < M * K.bufSize) : byteAt block K.bufSize p < 256 := by
  have hd : p / K.bufSize < M := (Nat.div_lt_iff_lt_mul hB).mpr hp
  have hl : p % K.bufSize < (block (p / K.bufSize)).length := by
    rw [h.size _ hd]; exact Nat.mod_lt _ hB
  unfold byteAt
  rw [List.getD_eq_getElem _ _ hl]
  exact h.byte _ hd _ (List.getElem_mem hl)

theorem advance_at (hB31 : K.bufSize < 2 ^ 31) {p : ℕ} {s : State} (hs : At K key block M p s)
    (hpos : s.pos < K.bufSize) :
    ∃ s', advance s = .ok s' ∧ At K key block M (p + 1) s' := by
  obtain ⟨hk, c, hc, hsalt, hbuf, _, hpp⟩ := hs
  unfold advance incInt
  rw [if_pos (by omega)]
  refine ⟨_, rfl, hk, c, hc, hsalt, hbuf, hpos, ?_⟩
  show p + 1 = c * K.bufSize + (s.pos + 1)
  omega

theorem rand8_at (h : Source K key block M) (hM31 : M < 2 ^ 31) (hB : 0 < K.bufSize)
    (hB31 : K.bufSize < 2 ^ 31) {p : ℕ} {s : State} (hs : At K key block M p s)
    (hp : p < M * K.bufSize) :
    ∃ s', rand8 K s = .ok (byteAt block K.bufSize p, s') ∧ At K key block M (p + 1) s' := by
  obtain ⟨s1, h1, h2, h3⟩ := refill_at h hM31 hB hs hp
  obtain ⟨s2, h4, h5⟩ := advance_at hB31 h2 h3
  refine ⟨s2, ?_, h5⟩
  unfold rand8
  rw [h1, Outcome.bind_ok, readByte_at h h2 h3, Outcome.bind_ok, h4, Outcome.bind_ok]

/-- Partial little-endian value. -/
def partialLE (f : ℕ → ℕ) (i : ℕ) : ℕ := ∑ j ∈ Finset.range i, f j * 256 ^ j

theorem partialLE_lt (f : ℕ → ℕ) (i : ℕ) (h : ∀ j < i, f j < 256) : partialLE f i < 256 ^ i := by
  induction i with
  | zero => simp [partialLE]
  | succ i ih =>
    unfold partialLE at *
    rw [Finset.sum_range_succ]
    have h1 := ih (fun j hj => h j (by omega))
    have h2 := h i (by omega)
    have h3 : f i * 256 ^ i ≤ 255 * 256 ^ i := Nat.mul_le_mul_right _ (by omega)
    have : 256 ^ (i + 1) = 255 * 256 ^ i + 256 ^ i := by ring
    omega

theorem accumulate_eq (f : ℕ → ℕ) (i : ℕ) (hi : i < 8) (h : ∀ j ≤ i, f j < 256) :
    accumulate (partialLE f i) i (f i) = partialLE f (i + 1) := by
  have h1 : partialLE f (i + 1) = partialLE f i + f i * 256 ^ i := by
    unfold partialLE; rw [Finset.sum_range_succ]
  have h2 := partialLE_lt f (i + 1) (fun j hj => h j (by omega))
  have h3 : (256 : ℕ) ^ (i + 1) ≤ 256 ^ 8 := Nat.pow_le_pow_right (by norm_num) (by omega)
  have h4 : (256 : ℕ) ^ 8 = 2 ^ 64 := by norm_num
  have h5 : f i <<< (8 * i) = f i * 256 ^ i := by
    rw [Nat.shiftLeft_eq, pow_mul]; norm_num
  unfold accumulate
  rw [h5, Nat.mod_eq_of_lt (a := f i * 256 ^ i) (by omega), Nat.mod_eq_of_lt (by omega), h1]

theorem rand64_at (h : Source K key block M) (hM31 : M < 2 ^ 31) (hB : 0 < K.bufSize)
    (hB31 : K.bufSize < 2 ^ 31) {p : ℕ} {s : State} (hs : At K key block M p s)
    (hp : p + 8 ≤ M * K.bufSize) :
    ∃ s', rand64 K s = .ok (valueAt block K.bufSize .rand64 p, s') ∧
      At K key block M (p + 8) s' := by
  unfold rand64
  obtain ⟨r, h1, h2, h3⟩ := loop_ok (n := 8)
    (f := fun i (r : ℕ × State) => do
      let (b, s) ← rand8 K r.2
      .ok (accumulate r.1 i b, s))
    (s := ((0, s) : ℕ × State))
    (fun i (r : ℕ × State) => r.1 = partialLE (fun j => byteAt block K.bufSize (p + j)) i ∧
      At K key block M (p + i) r.2)
    ⟨by simp [partialLE], by simpa using hs⟩ (by
      rintro i ⟨acc, g⟩ hi ⟨ha, hg⟩
      obtain ⟨g', hg1, hg2⟩ := rand8_at h hM31 hB hB31 hg (by omega)
      refine ⟨(accumulate acc i (byteAt block K.bufSize (p + i)), g'), ?_, ?_, hg2⟩
      · simp only [hg1, Outcome.bind_ok]
      · simp only at ha ⊢
        rw [ha]
        exact accumulate_eq (fun j => byteAt block K.bufSize (p + j)) i hi
          (fun j hj => byteAt_lt h hB (by omega)))
  refine ⟨r.2, ?_, h3⟩
  rw [h1]
  have : r.1 = valueAt block K.bufSize .rand64 p := h2
  rw [← this]

theorem call_at (h : Source K key block M) (hM31 : M < 2 ^ 31) (hB : 0 < K.bufSize)
    (hB31 : K.bufSize < 2 ^ 31) {p : ℕ} {s : State} (hs : At K key block M p s) (op : Op)
    (hp : p + width op ≤ M * K.bufSize) :
    ∃ s', call K op s = .ok (valueAt block K.bufSize op p, s') ∧
      At K key block M (p + width op) s' := by
  cases op with
  | rand8 => exact rand8_at h hM31 hB hB31 hs hp
  | rand64 => exact rand64_at h hM31 hB hB31 hs hp

theorem calls_at (h : Source K key block M) (hM31 : M < 2 ^ 31) (hB : 0 < K.bufSize)
    (hB31 : K.bufSize < 2 ^ 31) (ops : List Op) {p : ℕ} {s : State} (hs : At K key block M p s)
    (hp : p + (ops.map width).sum ≤ M * K.bufSize) :
    ∃ s', calls K ops s = .ok (valuesFrom block K.bufSize ops p, s') ∧
      At K key block M (p + (ops.map width).sum) s' := by
  induction ops generalizing p s with
  | nil => exact ⟨s, rfl, by simpa using hs⟩
  | cons op ops ih =>
    rw [List.map_cons, List.sum_cons] at hp ⊢
    obtain ⟨s1, h1, h2⟩ := call_at h hM31 hB hB31 hs op (by omega)
    obtain ⟨s2, h3, h4⟩ := ih h2 (by omega)
    refine ⟨s2, ?_, by rw [← add_assoc]; exact h4⟩
    unfold calls
    rw [h1, Outcome.bind_ok]
    simp only [h3, Outcome.bind_ok, valuesFrom]

theorem calls_append (a b : List Op) (s : State) :
    calls K (a ++ b) s = (do
      let (v, s) ← calls K a s
      let (w, s) ← calls K b s
      .ok (v ++ w, s)) := by
  induction a generalizing s with
  | nil =>
    simp only [List.nil_append, calls, Outcome.bind_ok]
    cases calls K b s <;> simp
  | cons op a ih =>
    simp only [List.cons_append, calls]
    cases call K op s with
    | err e => simp
    | ub e => simp
    | ok r =>
      simp only [Outcome.bind_ok]
      rw [ih]
      cases calls K a r.2 with
      | err e => simp
      | ub e => simp
      | ok q =>
        simp only [Outcome.bind_ok]
        cases calls K b q.2 <;> simp

theorem valuesFrom_length (B : ℕ) (ops : List Op) (p : ℕ) :
    (valuesFrom block B ops p).length = ops.length := by
  induction ops generalizing p with
  | nil => rfl
  | cons op ops ih => simp [valuesFrom, ih]

theorem valuesFrom_append (B : ℕ) (a b : List Op) (p : ℕ) :
    valuesFrom block B (a ++ b) p =
      valuesFrom block B a p ++ valuesFrom block B b (p + (a.map width).sum) := by
  induction a generalizing p with
  | nil => simp [valuesFrom]
  | cons op a ih => simp [valuesFrom, ih, add_assoc]

theorem offset_succ (op : Op) (ops : List Op) (j : ℕ) :
    offset (op :: ops) (j + 1) = width op + offset ops j := by
  simp [offset]

theorem valuesFrom_getElem? (B : ℕ) (ops : List Op) (p j : ℕ) :
    (valuesFrom block B ops p)[j]? = ops[j]?.map fun op => valueAt block B op (p + offset ops j) := by
  induction ops generalizing p j with
  | nil => simp [valuesFrom]
  | cons op ops ih =>
    cases j with
    | zero => simp [valuesFrom, offset]
    | succ j => simp only [valuesFrom, List.getElem?_cons_succ, ih, offset_succ, add_assoc]

end Shell.Prng
