import Verif.Model.Loop
import Mathlib.Data.List.GetD
import Mathlib.Tactic.Ring

namespace Shell

/-- Loop rule. -/
theorem loopFrom_ok {σ : Type} (f : ℕ → σ → Outcome σ) (P : ℕ → σ → Prop) :
    ∀ (k i : ℕ) (s : σ), P i s →
      (∀ j s, i ≤ j → j < i + k → P j s → ∃ s', f j s = .ok s' ∧ P (j + 1) s') →
      ∃ s', loopFrom f k i s = .ok s' ∧ P (i + k) s' := by
  intro k
  induction k with
  | zero => intro i s h _; exact ⟨s, rfl, h⟩
  | succ k ih =>
    intro i s h hs
    obtain ⟨s', h1, h2⟩ := hs i s le_rfl (by omega) h
    obtain ⟨s'', h3, h4⟩ := ih (i + 1) s' h2 (fun j t hj1 hj2 => hs j t (by omega) (by omega))
    refine ⟨s'', ?_, ?_⟩
    · rw [loopFrom, h1, Outcome.bind_ok, h3]
    · have : i + (k + 1) = i + 1 + k := by ring
      rw [this]; exact h4

theorem loop_ok {σ : Type} {f : ℕ → σ → Outcome σ} (P : ℕ → σ → Prop) {n : ℕ} {s : σ}
    (h0 : P 0 s) (hs : ∀ j s, j < n → P j s → ∃ s', f j s = .ok s' ∧ P (j + 1) s') :
    ∃ s', loop n f s = .ok s' ∧ P n s' := by
  have := loopFrom_ok f P n 0 s h0 (fun j t _ h2 => hs j t (by omega))
  simpa [loop] using this

theorem loopFrom_add {σ : Type} (f : ℕ → σ → Outcome σ) (a b i : ℕ) (s : σ) :
    loopFrom f (a + b) i s = (loopFrom f a i s >>= loopFrom f b (i + a)) := by
  induction a generalizing i s with
  | zero => simp [loopFrom]
  | succ a ih =>
    have e : a + 1 + b = (a + b) + 1 := by ring
    rw [e, loopFrom, loopFrom]
    cases h : f i s with
    | ok s' => simp only [Outcome.bind_ok]; rw [ih]; congr 2; ring
    | err e => simp
    | ub e => simp

theorem loopFrom_succ {σ : Type} (f : ℕ → σ → Outcome σ) (a i : ℕ) (s : σ) :
    loopFrom f (a + 1) i s = (loopFrom f a i s >>= f (i + a)) := by
  rw [loopFrom_add]
  cases h : loopFrom f a i s with
  | ok s' => simp [loopFrom, Outcome.bind_ok]; cases f (i + a) s' <;> simp
  | err e => simp
  | ub e => simp

theorem rd_ok {α : Type} {v : List α} {i : ℕ} (h : i < v.length) : rd v i = .ok v[i] := by
  unfold rd; rw [List.getElem?_eq_getElem h]

theorem rd_getD {α : Type} (d : α) {v : List α} {i : ℕ} (h : i < v.length) :
    rd v i = .ok (v.getD i d) := by
  rw [rd_ok h, List.getD_eq_getElem _ _ h]

theorem rd_ub {α : Type} {v : List α} {i : ℕ} (h : v.length ≤ i) : rd v i = .ub .outOfBounds := by
  unfold rd; rw [List.getElem?_eq_none h]

theorem wr_ok {α : Type} {v : List α} {i : ℕ} {x : α} (h : i < v.length) :
    wr v i x = .ok (v.set i x) := by
  unfold wr; rw [if_pos h]

theorem getD_set {α : Type} (v : List α) (i j : ℕ) (x d : α) (h : i < v.length) :
    (v.set i x).getD j d = if i = j then x else v.getD j d := by
  simp only [List.getD_eq_getElem?_getD, List.getElem?_set]
  split_ifs with h1
  · simp
  · rfl

theorem ext_getD {α : Type} (d : α) {u v : List α} (hl : u.length = v.length)
    (h : ∀ i < u.length, u.getD i d = v.getD i d) : u = v := by
  apply List.ext_getElem hl
  intro i h1 h2
  have := h i h1
  rwa [List.getD_eq_getElem _ _ h1, List.getD_eq_getElem _ _ h2] at this

end Shell

namespace Shell

/-- A loop that fails in iteration `k`. -/
theorem loop_fail {σ : Type} {f : ℕ → σ → Outcome σ} (P : ℕ → σ → Prop) {n : ℕ} {s : σ} (k : ℕ)
    (hk : k < n) (r : Outcome σ) (hr : ∀ (g : σ → Outcome σ), (r >>= g) = r)
    (h0 : P 0 s) (hs : ∀ j s, j < k → P j s → ∃ s', f j s = .ok s' ∧ P (j + 1) s')
    (hf : ∀ s, P k s → f k s = r) : loop n f s = r := by
  obtain ⟨s', h1, h2⟩ := loop_ok (f := f) P h0 hs
  obtain ⟨m, rfl⟩ := Nat.exists_eq_add_of_lt hk
  unfold loop at *
  rw [show k + m + 1 = k + (m + 1) by ring, loopFrom_add, h1, Outcome.bind_ok, loopFrom, zero_add,
    hf _ h2, hr]

theorem loop_err {σ : Type} {f : ℕ → σ → Outcome σ} (P : ℕ → σ → Prop) {n : ℕ} {s : σ} (k : ℕ)
    (hk : k < n) (e : Status)
    (h0 : P 0 s) (hs : ∀ j s, j < k → P j s → ∃ s', f j s = .ok s' ∧ P (j + 1) s')
    (hf : ∀ s, P k s → f k s = .err e) : loop n f s = .err e :=
  loop_fail P k hk _ (fun _ => by simp) h0 hs hf

theorem loop_ub {σ : Type} {f : ℕ → σ → Outcome σ} (P : ℕ → σ → Prop) {n : ℕ} {s : σ} (k : ℕ)
    (hk : k < n) (e : UB)
    (h0 : P 0 s) (hs : ∀ j s, j < k → P j s → ∃ s', f j s = .ok s' ∧ P (j + 1) s')
    (hf : ∀ s, P k s → f k s = .ub e) : loop n f s = .ub e :=
  loop_fail P k hk _ (fun _ => by simp) h0 hs hf

end Shell
