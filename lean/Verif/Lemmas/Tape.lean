import Verif.Spec.Tape
import Verif.Spec.Sampler
import Verif.Lemmas.Core
import Verif.Model.Loop
import Mathlib.Algebra.Order.BigOperators.Group.Finset
import Mathlib.Algebra.BigOperators.Field
import Mathlib.Tactic.Positivity
import Mathlib.Tactic.Linarith
import Mathlib.Tactic.FieldSimp
import Mathlib.Tactic.Ring
import Mathlib.Tactic.NormNum
/-!
# Computations that read a tape of bytes
-/

namespace Shell
open Spec

/-- A computation that reads bytes one after the other. -/
inductive Tree (α : Type) where
  | ret : Outcome α → Tree α
  | read : (Fin 256 → Tree α) → Tree α

namespace Tree
variable {α β : Type}

/-- Run the computation on a tape. -/
def run : Tree α → List (Fin 256) → Outcome (α × List (Fin 256))
  | .ret o, t => o >>= fun a => .ok (a, t)
  | .read _, [] => .err .internal
  | .read k, b :: t => (k b).run t

/-- The expectation of a function of the result, for uniform bytes; failures count as zero. -/
noncomputable def expect (φ : α → ℝ) : Tree α → ℝ
  | .ret (.ok a) => φ a
  | .ret _ => 0
  | .read k => (∑ b, (k b).expect φ) / 256

def bind (f : α → Tree β) : Tree α → Tree β
  | .ret (.ok a) => f a
  | .ret (.err e) => .ret (.err e)
  | .ret (.ub e) => .ret (.ub e)
  | .read k => .read fun b => (k b).bind f

theorem run_bind (f : α → Tree β) (T : Tree α) (t : List (Fin 256)) :
    (T.bind f).run t = T.run t >>= fun r => (f r.1).run r.2 := by
  induction T generalizing t with
  | ret o => cases o <;> rfl
  | read k ih =>
    cases t with
    | nil => rfl
    | cons b t => exact ih b t

theorem expect_bind (φ : β → ℝ) (f : α → Tree β) (T : Tree α) :
    (T.bind f).expect φ = T.expect fun a => (f a).expect φ := by
  induction T with
  | ret o => cases o <;> rfl
  | read k ih =>
    show (∑ b, ((k b).bind f).expect φ) / 256 = (∑ b, (k b).expect _) / 256
    rw [Finset.sum_congr rfl fun b _ => ih b]

theorem expect_mono {φ ψ : α → ℝ} (T : Tree α) (h : ∀ a, φ a ≤ ψ a) : T.expect φ ≤ T.expect ψ := by
  induction T with
  | ret o => cases o <;> first | exact h _ | exact le_rfl
  | read k ih =>
    show (∑ b, (k b).expect φ) / 256 ≤ (∑ b, (k b).expect ψ) / 256
    have := Finset.sum_le_sum fun b (_ : b ∈ Finset.univ) => ih b
    linarith

theorem expect_mul (c : ℝ) (φ : α → ℝ) (T : Tree α) : T.expect (fun a => c * φ a) = c * T.expect φ := by
  induction T with
  | ret o => cases o <;> simp [expect]
  | read k ih =>
    show (∑ b, (k b).expect _) / 256 = c * ((∑ b, (k b).expect φ) / 256)
    rw [Finset.sum_congr rfl fun b _ => ih b, ← Finset.mul_sum]
    ring

theorem expect_add (φ ψ : α → ℝ) (T : Tree α) : T.expect (fun a => φ a + ψ a) = T.expect φ + T.expect ψ := by
  induction T with
  | ret o => cases o <;> simp [expect]
  | read k ih =>
    show (∑ b, (k b).expect _) / 256 = (∑ b, (k b).expect φ) / 256 + (∑ b, (k b).expect ψ) / 256
    rw [Finset.sum_congr rfl fun b _ => ih b, Finset.sum_add_distrib]
    ring

theorem expect_zero (T : Tree α) : T.expect (fun _ => 0) = 0 := by
  have := T.expect_mul 0 (fun _ => 0)
  simpa using this

theorem expect_sum {ι : Type} (s : Finset ι) (φ : ι → α → ℝ) (T : Tree α) :
    T.expect (fun a => ∑ i ∈ s, φ i a) = ∑ i ∈ s, T.expect (φ i) := by
  classical
  induction s using Finset.induction_on with
  | empty => simpa using T.expect_zero
  | insert i s hi ih =>
    rw [Finset.sum_insert hi, ← ih, ← expect_add]
    congr 1
    funext a
    exact Finset.sum_insert hi

theorem expect_const_le (T : Tree α) {c : ℝ} (hc : 0 ≤ c) : T.expect (fun _ => c) ≤ c := by
  induction T with
  | ret o => cases o <;> first | exact le_rfl | exact hc
  | read k ih =>
    show (∑ b, (k b).expect _) / 256 ≤ c
    have := Finset.sum_le_sum fun b (_ : b ∈ Finset.univ) => ih b
    rw [Finset.sum_const, Finset.card_univ, Fintype.card_fin, nsmul_eq_mul] at this
    push_cast at this
    linarith

theorem expect_le (T : Tree α) {φ : α → ℝ} {c : ℝ} (hc : 0 ≤ c) (h : ∀ a, φ a ≤ c) : T.expect φ ≤ c :=
  (T.expect_mono h).trans (T.expect_const_le hc)

theorem expect_nonneg (T : Tree α) {φ : α → ℝ} (h : ∀ a, 0 ≤ φ a) : 0 ≤ T.expect φ := by
  rw [← T.expect_zero]; exact T.expect_mono h

/-- The values that the computation can return. -/
def Returns (a : α) : Tree α → Prop
  | .ret o => o = .ok a
  | .read k => ∃ b, (k b).Returns a

theorem returns_of_run {T : Tree α} {t s : List (Fin 256)} {a : α} (h : T.run t = .ok (a, s)) : T.Returns a := by
  induction T generalizing t with
  | ret o =>
    obtain ⟨b, hb, h⟩ := Outcome.bind_eq_ok.mp h
    cases h; exact hb
  | read k ih =>
    cases t with
    | nil => cases h
    | cons b t => exact ⟨b, ih b h⟩

theorem run_of_returns {T : Tree α} {a : α} (h : T.Returns a) : ∃ t, T.run t = .ok (a, []) := by
  induction T with
  | ret o => exact ⟨[], by cases h; rfl⟩
  | read k ih =>
    obtain ⟨b, hb⟩ := h
    obtain ⟨t, ht⟩ := ih b hb
    exact ⟨b :: t, ht⟩

theorem expect_mono_returns {φ ψ : α → ℝ} (T : Tree α) (h : ∀ a, T.Returns a → φ a ≤ ψ a) :
    T.expect φ ≤ T.expect ψ := by
  induction T with
  | ret o => cases o <;> first | exact h _ rfl | exact le_rfl
  | read k ih =>
    show (∑ b, (k b).expect φ) / 256 ≤ (∑ b, (k b).expect ψ) / 256
    have := Finset.sum_le_sum fun b (_ : b ∈ Finset.univ) => ih b fun a ha => h a ⟨b, ha⟩
    linarith

end Tree

/-- The average over all tapes of `L` bytes. -/
noncomputable def tapeMean (L : ℕ) (F : List (Fin 256) → ℝ) : ℝ := (∑ t : Fin L → Fin 256, F (List.ofFn t)) / 256 ^ L

theorem tapeMean_zero (F : List (Fin 256) → ℝ) : tapeMean 0 F = F [] := by
  simp [tapeMean]

theorem tapeMean_succ (L : ℕ) (F : List (Fin 256) → ℝ) :
    tapeMean (L + 1) F = (∑ b, tapeMean L fun t => F (b :: t)) / 256 := by
  unfold tapeMean
  rw [← Finset.sum_div, div_div, ← pow_succ]
  congr 1
  rw [← Fintype.sum_prod_type (f := fun r : Fin 256 × (Fin L → Fin 256) => F (r.1 :: List.ofFn r.2))]
  refine (Fintype.sum_equiv (Fin.consEquiv fun _ => Fin 256) _ _ fun r => ?_).symm
  simp [Fin.consEquiv]

theorem tapeMean_mono {L : ℕ} {F G : List (Fin 256) → ℝ} (h : ∀ t, F t ≤ G t) : tapeMean L F ≤ tapeMean L G := by
  unfold tapeMean
  exact div_le_div_of_nonneg_right (Finset.sum_le_sum fun t _ => h _) (by positivity)

theorem tapeMean_const_zero (L : ℕ) : tapeMean L (fun _ => 0) = 0 := by simp [tapeMean]

/-- Averaging over tapes, the result of a computation contributes at most its expectation. -/
theorem tapeMean_le {α : Type} (T : Tree α) {φ : α → ℝ} {F : List (Fin 256) → ℝ} (hφ : ∀ a, 0 ≤ φ a)
    (h1 : ∀ t a s, T.run t = .ok (a, s) → F t ≤ φ a) (h2 : ∀ t, (∀ r, T.run t ≠ .ok r) → F t ≤ 0) (L : ℕ) :
    tapeMean L F ≤ T.expect φ := by
  induction T generalizing L F with
  | ret o =>
    cases o with
    | ok a =>
      have : ∀ t, F t ≤ φ a := fun t => h1 t a t rfl
      refine (tapeMean_mono this).trans ?_
      unfold tapeMean
      simp [Tree.expect]
    | err e =>
      exact (tapeMean_mono (G := fun _ => 0) fun t => h2 t fun r hr => by cases hr).trans (tapeMean_const_zero L).le
    | ub e =>
      exact (tapeMean_mono (G := fun _ => 0) fun t => h2 t fun r hr => by cases hr).trans (tapeMean_const_zero L).le
  | read k ih =>
    cases L with
    | zero =>
      rw [tapeMean_zero]
      exact (h2 [] fun r hr => by cases hr).trans (Tree.expect_nonneg _ hφ)
    | succ L =>
      rw [tapeMean_succ]
      show _ ≤ (∑ b, (k b).expect φ) / 256
      refine div_le_div_of_nonneg_right (Finset.sum_le_sum fun b _ => ?_) (by norm_num)
      exact ih b (F := fun t => F (b :: t)) (fun t a s h => h1 (b :: t) a s h) (fun t h => h2 (b :: t) h) L

theorem bytesProbability_eq (L : ℕ) (event : List (Fin 256) → Prop) [DecidablePred event] :
    bytesProbability L event = tapeMean L fun t => if event t then 1 else 0 := by
  classical
  unfold bytesProbability tapeMean
  rw [Finset.sum_boole]
  congr!

/-- The probability that a computation returns a value of a set is at most the expectation of its indicator. -/
theorem bytesProbability_le {α : Type} (T : Tree α) {event : List (Fin 256) → Prop} {bad : α → Prop}
    [DecidablePred bad] (h : ∀ t, event t → ∃ a s, T.run t = .ok (a, s) ∧ bad a) (L : ℕ) :
    bytesProbability L event ≤ T.expect fun a => if bad a then 1 else 0 := by
  classical
  rw [bytesProbability_eq]
  refine tapeMean_le T (fun a => by split_ifs <;> norm_num) (fun t a s hr => ?_) (fun t hr => ?_) L
  · split_ifs with h1 h2 h2 <;> first | norm_num | skip
    obtain ⟨a', s', hr', hb⟩ := h t h1
    rw [hr] at hr'
    cases hr'
    exact absurd hb h2
  · split_ifs with h1
    · obtain ⟨a', s', hr', -⟩ := h t h1
      exact absurd hr' (hr _)
    · exact le_rfl

/-! ## The model's functions as such computations -/

variable {α β : Type}

/-- `c` is the computation `T` run on its tape. -/
def Tree.Is (T : Tree α) (c : List (Fin 256) → Outcome (α × List (Fin 256))) : Prop := ∀ t, c t = T.run t

/-- A byte. -/
def byteTree : Tree ℕ := .read fun b => .ret (.ok b)

/-- Eight bytes. -/
def wordTree : Tree ℕ :=
  .read fun b0 => .read fun b1 => .read fun b2 => .read fun b3 => .read fun b4 => .read fun b5 => .read fun b6 =>
    .read fun b7 => .ret (.ok (b0 + 2 ^ 8 * b1 + 2 ^ 16 * b2 + 2 ^ 24 * b3 + 2 ^ 32 * b4 + 2 ^ 40 * b5 +
      2 ^ 48 * b6 + 2 ^ 56 * b7))

theorem byteTree_is : byteTree.Is bytesSource.rand8 := fun t => by cases t <;> rfl

theorem wordTree_is : wordTree.Is bytesSource.rand64 := fun t => by
  match t with
  | [] => rfl
  | [_] => rfl
  | [_, _] => rfl
  | [_, _, _] => rfl
  | [_, _, _, _] => rfl
  | [_, _, _, _, _] => rfl
  | [_, _, _, _, _, _] => rfl
  | [_, _, _, _, _, _, _] => rfl
  | _ :: _ :: _ :: _ :: _ :: _ :: _ :: _ :: _ => rfl

theorem bytesSource_words : Words bytesSource where
  byte := by
    rintro s v s' h
    cases s with
    | nil => cases h
    | cons b s => cases h; exact b.2
  word := by
    rintro s v s' h
    match s, h with
    | b0 :: b1 :: b2 :: b3 :: b4 :: b5 :: b6 :: b7 :: t, h =>
      have hv : v = b0 + 2 ^ 8 * b1 + 2 ^ 16 * b2 + 2 ^ 24 * b3 + 2 ^ 32 * b4 + 2 ^ 40 * b5 + 2 ^ 48 * b6 +
          2 ^ 56 * b7 := (Prod.mk.inj (Outcome.ok.inj h)).1.symm
      omega

namespace Tree

theorem Is.bind {T : Tree α} {c : List (Fin 256) → Outcome (α × List (Fin 256))} (h : T.Is c)
    {f : α → Tree β} {d : α → List (Fin 256) → Outcome (β × List (Fin 256))} (h' : ∀ a, (f a).Is (d a)) :
    (T.bind f).Is (fun t => c t >>= fun r => d r.1 r.2) := fun t => by
  show (c t >>= fun r => d r.1 r.2) = _
  rw [run_bind, h t]
  congr 1
  funext r
  exact h' r.1 r.2

/-- Do a computation `n` times. -/
def times (T : Tree α) : ℕ → Tree (List α)
  | 0 => .ret (.ok [])
  | n + 1 => T.bind fun x => (times T n).bind fun xs => .ret (.ok (x :: xs))

theorem Is.times {T : Tree α} {c : List (Fin 256) → Outcome (α × List (Fin 256))} (h : T.Is c) (n : ℕ) :
    (T.times n).Is (Spec.times c n) := by
  induction n with
  | zero => exact fun t => rfl
  | succ n ih => exact h.bind fun x => ih.bind fun xs => fun t => rfl

/-- `n` steps with a state. -/
def loop (f : ℕ → β → Tree β) : ℕ → ℕ → β → Tree β
  | 0, _, b => .ret (.ok b)
  | n + 1, i, b => (f i b).bind fun b => loop f n (i + 1) b

theorem Is.loop {f : ℕ → β → Tree β} {g : ℕ → β × List (Fin 256) → Outcome (β × List (Fin 256))}
    (h : ∀ i b, (f i b).Is fun t => g i (b, t)) (n i : ℕ) (b : β) :
    (Tree.loop f n i b).Is fun t => loopFrom g n i (b, t) := by
  induction n generalizing i b with
  | zero => exact fun t => rfl
  | succ n ih => exact (h i b).bind fun b => ih (i + 1) b

end Tree

end Shell
