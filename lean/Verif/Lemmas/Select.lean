import Verif.Spec.Select
import Verif.Lemmas.StorePlain
import Verif.Lemmas.NegRing
/-!
What the machine computes with the calls of a server that selects entries of a database.
-/

namespace Shell.Store
open Spec Rns Rns.Res Sym NttRing WordCt
variable {n : ℕ} {σ : Fin n → ℤ} {B : ℝ} {N w : ℕ}

/-- The result while products are added. -/
structure Acc (X : IdealCt n) (S : Fin n → ℤ) (b : Bool) : Prop where
  size : X.size = 2
  power : X.power = 1
  sum : X.value + X.pending = S
  pendingSize : X.pendingSize = if b then 2 else 0
  none : b = false → X.pending = 0

theorem addProduct_step {polys : List (Fin n → ℤ)} {cts : List (IdealCt n)} {X : IdealCt n} {S : Fin n → ℤ} {b : Bool}
    (hX : Acc X S b) {mode : ℕ → AddMode} {i : ℕ} {V D : Fin n → ℤ} {e : ℝ} (hi : i < cts.length)
    (hc : cts[i]? = some ⟨2, 1, V, e, 0, 0⟩) (hd : polys[i]? = some D) :
    ∃ X', Acc X' (S + negMul V D) (b || mode i = .lazily) ∧
      (addProduct mode cts.length i).ideal σ B N ⟨polys, cts ++ [X]⟩ = .ok ⟨polys, cts ++ [X']⟩ ∧
      (addProduct mode cts.length i).Proper w ⟨polys, cts ++ [X]⟩ := by
  have hl : object (cts ++ [X]) cts.length = .ok X := object_of (by simp)
  have hl' : (cts ++ [X])[cts.length]? = some X := by simp
  have h1' : (cts ++ [X])[i]? = some ⟨2, 1, V, e, 0, 0⟩ := by rw [List.getElem?_append_left hi]; exact hc
  have h1 : object (cts ++ [X]) i = .ok ⟨2, 1, V, e, 0, 0⟩ := object_of h1'
  have h2 : object polys i = .ok D := object_of hd
  have h3 : i < polys.length := lt_of_some hd
  have hset : ∀ Y : IdealCt n, (cts ++ [X]).set cts.length Y = cts ++ [Y] := fun Y => by simp
  cases hm : mode i with
  | eager =>
    refine ⟨{ X with size := 2, value := X.value + negMul V D, error := X.error + e * B },
      ⟨rfl, hX.power, ?_, ?_, ?_⟩, ?_, ?_⟩
    · show X.value + negMul V D + X.pending = _
      rw [← hX.sum]; abel
    · simpa using hX.pendingSize
    · simpa using hX.none
    · simp only [addProduct, hm, IdealCall.ideal, idealOp, hl, h1, h2, except_bind, hX.power, hX.size, hset]
      simp [except_bind]
    · simp only [addProduct, hm, IdealCall.Proper]
      exact ⟨X, hl', by simp only [OpProper, List.length_append]; omega, h3⟩
  | const =>
    refine ⟨{ X with size := 2, value := X.value + negMul V D, error := X.error + e * B },
      ⟨rfl, hX.power, ?_, ?_, ?_⟩, ?_, ?_⟩
    · show X.value + negMul V D + X.pending = _
      rw [← hX.sum]; abel
    · simpa using hX.pendingSize
    · simpa using hX.none
    · simp only [addProduct, hm, IdealCall.ideal, idealOp, hl, h1, h2, except_bind, hX.power, hX.size, hset]
      simp [except_bind]
    · simp only [addProduct, hm, IdealCall.Proper]
      exact ⟨X, hl', by simp only [OpProper, List.length_append]; omega, h3⟩
  | lazily =>
    refine ⟨{ X with pendingSize := 2, pending := X.pending + negMul V D, error := X.error + e * B },
      ⟨hX.size, hX.power, ?_, ?_, ?_⟩, ?_, ?_⟩
    · show X.value + (X.pending + negMul V D) = _
      rw [← hX.sum]; abel
    · simp
    · simp
    · simp only [addProduct, hm, IdealCall.ideal, idealOp, hl, h1, h2, except_bind, hX.power, hset]
      simp [except_bind]
    · simp only [addProduct, hm, IdealCall.Proper]
      refine ⟨X, hl', h3, _, h1', fun _ _ => ?_⟩
      rw [hX.pendingSize]
      split_ifs <;> simp

theorem addProducts_run {polys : List (Fin n → ℤ)} {cts : List (IdealCt n)} {mode : ℕ → AddMode} {V D : ℕ → Fin n → ℤ}
    (hc : ∀ i < cts.length, ∃ e, cts[i]? = some ⟨2, 1, V i, e, 0, 0⟩) (hd : ∀ i < cts.length, polys[i]? = some (D i))
    (rest : List (IdealCall n)) : ∀ (is : List ℕ) (_ : ∀ i ∈ is, i < cts.length) {X : IdealCt n} {S : Fin n → ℤ} {b : Bool}
    (_ : Acc X S b),
    ∃ X', Acc X' (S + (is.map fun i => negMul (V i) (D i)).sum) (b || is.any fun i => mode i = .lazily) ∧
      idealRun σ B N ⟨polys, cts ++ [X]⟩ (is.map (addProduct mode cts.length) ++ rest) =
        (List.replicate is.length (.ok ()) ++ (idealRun σ B N ⟨polys, cts ++ [X']⟩ rest).1,
          (idealRun σ B N ⟨polys, cts ++ [X']⟩ rest).2) ∧
      (IdealProper σ B N w ⟨polys, cts ++ [X']⟩ rest →
        IdealProper σ B N w ⟨polys, cts ++ [X]⟩ (is.map (addProduct mode cts.length) ++ rest))
  | [], _, X, S, b, hX => ⟨X, by simpa using hX, by simp, by simp⟩
  | i :: is, h, X, S, b, hX => by
    have hi := h i List.mem_cons_self
    obtain ⟨e, he⟩ := hc i hi
    obtain ⟨X₁, a1, a2, a3⟩ := addProduct_step (σ := σ) (B := B) (N := N) (w := w) hX (mode := mode) hi he (hd i hi)
    obtain ⟨X', b1, b2, b3⟩ := addProducts_run hc hd rest is (fun j hj => h j (List.mem_cons_of_mem _ hj)) a1
    refine ⟨X', ?_, ?_, fun hp => ?_⟩
    · simpa [add_assoc, Bool.or_assoc] using b1
    · simp only [List.map_cons, List.cons_append, idealRun, a2, b2, List.length_cons, List.replicate_succ]
    · simp only [List.map_cons, List.cons_append, IdealProper, a2]
      exact ⟨a3, b3 hp⟩

/-- The machine adds up the products, and accepts every call. -/
theorem select_run {polys : List (Fin n → ℤ)} {cts : List (IdealCt n)} (mode : ℕ → AddMode) {V D : ℕ → Fin n → ℤ}
    (hc : ∀ i < cts.length, ∃ e, cts[i]? = some ⟨2, 1, V i, e, 0, 0⟩) (hd : ∀ i < cts.length, polys[i]? = some (D i))
    (hpos : 0 < cts.length) :
    (idealRun σ B N ⟨polys, cts⟩ (selectCalls cts.length mode)).1 =
      List.replicate (selectCalls (n := n) cts.length mode).length (.ok ()) ∧
    IdealProper σ B N w ⟨polys, cts⟩ (selectCalls cts.length mode) ∧
    ∃ X : IdealCt n, (idealRun σ B N ⟨polys, cts⟩ (selectCalls cts.length mode)).2.cts[cts.length]? = some X ∧
      X.power = 1 ∧ X.value = ∑ i ∈ Finset.range cts.length, negMul (V i) (D i) := by
  obtain ⟨e, he⟩ := hc 0 hpos
  have h1 : object cts 0 = .ok ⟨2, 1, V 0, e, 0, 0⟩ := object_of he
  have h2 : object polys 0 = .ok (D 0) := object_of (hd 0 hpos)
  have hfirst : (IdealCall.ctNew 0 (.absorb 0)).ideal σ B N ⟨polys, cts⟩ =
      .ok ⟨polys, cts ++ [⟨2, 1, negMul (V 0) (D 0), e * B, 0, 0⟩]⟩ := by
    simp only [IdealCall.ideal, idealOp, h1, h2, except_bind]
  have hfp : (IdealCall.ctNew 0 (.absorb 0)).Proper w (⟨polys, cts⟩ : IdealMem n) := ⟨_, he, lt_of_some (hd 0 hpos)⟩
  have hacc : Acc ⟨2, 1, negMul (V 0) (D 0), e * B, 0, 0⟩ (negMul (V 0) (D 0)) false :=
    ⟨rfl, rfl, add_zero _, rfl, fun _ => rfl⟩
  obtain ⟨X, a1, a2, a3⟩ := addProducts_run (σ := σ) (B := B) (N := N) (w := w) (mode := mode) hc hd
    (if (List.range' 1 (cts.length - 1)).any (fun i => mode i = .lazily) then [.ctIn cts.length .merge] else [])
    (List.range' 1 (cts.length - 1)) (fun i hi => by rw [List.mem_range'_1] at hi; omega) hacc
  have hsum : negMul (V 0) (D 0) + ((List.range' 1 (cts.length - 1)).map fun i => negMul (V i) (D i)).sum =
      ∑ i ∈ Finset.range cts.length, negMul (V i) (D i) := by
    obtain ⟨m, hm⟩ : ∃ m, cts.length = m + 1 := ⟨cts.length - 1, by omega⟩
    have : ∀ m, ((List.range' 1 m).map fun i => negMul (V i) (D i)).sum = ∑ i ∈ Finset.range m, negMul (V (i + 1)) (D (i + 1)) := by
      intro m
      induction m with
      | zero => rfl
      | succ m ih =>
        rw [List.range'_1_concat, List.map_append, List.sum_append, ih, Finset.sum_range_succ, add_comm 1 m]
        simp
    rw [hm, Finset.sum_range_succ', Nat.add_sub_cancel, this, add_comm]
  rw [hsum, Bool.false_or] at a1
  have hl : object (cts ++ [X]) cts.length = .ok X := object_of (by simp)
  simp only [selectCalls, List.cons_append, idealRun, IdealProper, hfirst, a2]
  by_cases hb : (List.range' 1 (cts.length - 1)).any (fun i => mode i = .lazily)
  · rw [hb] at a1
    have hmerge : (IdealCall.ctIn cts.length .merge).ideal σ B N ⟨polys, cts ++ [X]⟩ = .ok ⟨polys, cts ++
        [{ X with size := max X.size X.pendingSize, value := X.value + X.pending, pendingSize := 0, pending := 0 }]⟩ := by
      have : X.pendingSize ≠ 0 := by rw [a1.pendingSize]; simp
      simp only [IdealCall.ideal, hl, except_bind, idealOp, if_neg this]
      simp
    have hmp : (IdealCall.ctIn cts.length .merge).Proper w (⟨polys, cts ++ [X]⟩ : IdealMem n) := ⟨X, by simp, trivial⟩
    rw [if_pos hb] at a3 ⊢
    simp only [idealRun, hmerge]
    refine ⟨?_, ⟨hfp, a3 ?_⟩,
      { X with size := max X.size X.pendingSize, value := X.value + X.pending, pendingSize := 0, pending := 0 }, by simp,
      a1.power, a1.sum⟩
    · simp [List.replicate_succ, List.replicate_add]
      rw [← List.replicate_succ']
      rfl
    · simp only [IdealProper, hmerge]
      exact ⟨hmp, trivial⟩
  · rw [if_neg hb] at a3 ⊢
    simp only [idealRun]
    have hb' : ((List.range' 1 (cts.length - 1)).any fun i => mode i = .lazily) = false := by simpa using hb
    rw [hb'] at a1
    refine ⟨?_, ⟨hfp, a3 trivial⟩, X, by simp, a1.power, ?_⟩
    · simp [List.replicate_succ]
    · rw [← a1.sum, a1.none rfl, add_zero]

end Shell.Store
