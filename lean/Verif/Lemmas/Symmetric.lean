import Verif.Lemmas.Rlwe
/-! Lemmas about the symmetric encryption layer. -/

namespace Shell.Sym
open Finset Spec NttRing
variable {C : Ctx}

theorem padTo_length (a b : List C.Poly) : (padTo a b).length = max a.length b.length := by
  unfold padTo
  split_ifs with h
  · simp; omega
  · omega

theorem padTo_getD (a b : List C.Poly) (i : ℕ) : (padTo a b).getD i 0 = a.getD i 0 := by
  unfold padTo
  split_ifs with h
  · simp only [List.getD_eq_getElem?_getD, List.getElem?_append, List.getElem?_replicate]
    split_ifs with h1 h2
    · rfl
    · simp at h1; simp [h1]
    · simp at h1; simp [h1]
  · rfl

/-- The component-wise update loop. -/
theorem update_loop (f : C.Poly → C.Poly → C.Poly) (y c0 : List C.Poly) (m : ℕ)
    (h1 : m ≤ c0.length) (h2 : m ≤ y.length) :
    ∃ r, loop m (fun i c => do
      let u ← rd c i
      let v ← rd y i
      wr c i (f u v)) c0 = .ok r ∧ r.length = c0.length ∧
      ∀ i, r.getD i 0 = if i < m then f (c0.getD i 0) (y.getD i 0) else c0.getD i 0 := by
  apply loop_ok (fun j (r : List C.Poly) => r.length = c0.length ∧
    ∀ i, r.getD i 0 = if i < j then f (c0.getD i 0) (y.getD i 0) else c0.getD i 0)
  · simp
  · rintro j c hj ⟨e1, e2⟩
    refine ⟨c.set j (f (c.getD j 0) (y.getD j 0)), ?_, by simpa using e1, ?_⟩
    · rw [rd_getD 0 (by omega), Outcome.bind_ok, rd_getD 0 (by omega), Outcome.bind_ok,
        wr_ok (by omega)]
    · intro i
      rw [getD_set _ _ _ _ _ (by omega)]
      by_cases hij : j = i
      · subst hij
        rw [if_pos rfl, if_pos (by omega), e2 j, if_neg (by omega)]
      · rw [if_neg hij, e2 i]
        by_cases hi : i < j
        · rw [if_pos hi, if_pos (by omega)]
        · rw [if_neg hi, if_neg (by omega)]

theorem add_ok (x y : Ct C) (h : x.power = y.power) :
    ∃ r, addInPlace x y = .ok { x with c := r } ∧ r.length = max x.c.length y.c.length ∧
      ∀ i, r.getD i 0 = x.c.getD i 0 + y.c.getD i 0 := by
  obtain ⟨r, e1, e2, e3⟩ := update_loop (· + ·) y.c (padTo x.c y.c) y.c.length
    (by rw [padTo_length]; omega) le_rfl
  refine ⟨r, ?_, by rw [e2, padTo_length], fun i => ?_⟩
  · unfold addInPlace
    rw [if_neg (by simpa using h), e1]; rfl
  · rw [e3 i, padTo_getD]
    split_ifs with hi
    · rfl
    · rw [getD_eq_zero (c := y.c) (by omega), add_zero]

theorem sub_ok (x y : Ct C) (h : x.power = y.power) :
    ∃ r, subInPlace x y = .ok { x with c := r } ∧ r.length = max x.c.length y.c.length ∧
      ∀ i, r.getD i 0 = x.c.getD i 0 - y.c.getD i 0 := by
  obtain ⟨r, e1, e2, e3⟩ := update_loop (· - ·) y.c (padTo x.c y.c) y.c.length
    (by rw [padTo_length]; omega) le_rfl
  refine ⟨r, ?_, by rw [e2, padTo_length], fun i => ?_⟩
  · unfold subInPlace
    rw [if_neg (by simpa using h), e1]; rfl
  · rw [e3 i, padTo_getD]
    split_ifs with hi
    · rfl
    · rw [getD_eq_zero (c := y.c) (by omega), sub_zero]

theorem fusedComponents_spec (b : C.Poly) (c a : List C.Poly) :
    (fusedComponents b c a).length = max c.length a.length ∧
    ∀ i, (fusedComponents b c a).getD i 0 = c.getD i 0 + a.getD i 0 * b := by
  induction a generalizing c with
  | nil => cases c <;> simp [fusedComponents]
  | cons x a ih =>
    cases c with
    | nil =>
      obtain ⟨h1, h2⟩ := ih []
      refine ⟨by simp only [fusedComponents, List.length_cons, h1]; simp, fun i => ?_⟩
      cases i with
      | zero => simp [fusedComponents]
      | succ i =>
        have := h2 i
        simp only [fusedComponents, List.getD_cons_succ, List.getD_nil] at *
        exact this
    | cons y c =>
      obtain ⟨h1, h2⟩ := ih c
      refine ⟨by simp only [fusedComponents, List.length_cons, h1]; omega, fun i => ?_⟩
      cases i with
      | zero => simp [fusedComponents]
      | succ i => simpa [fusedComponents, List.getD_cons_succ] using h2 i

theorem mergeComponents_spec (c a : List C.Poly) :
    (mergeComponents c a).length = max c.length a.length ∧
    ∀ i, (mergeComponents c a).getD i 0 = c.getD i 0 + a.getD i 0 := by
  induction a generalizing c with
  | nil => cases c <;> simp [mergeComponents]
  | cons x a ih =>
    cases c with
    | nil =>
      obtain ⟨h1, h2⟩ := ih []
      refine ⟨by simp only [mergeComponents, List.length_cons, h1]; simp, fun i => ?_⟩
      cases i with
      | zero => simp [mergeComponents]
      | succ i =>
        have := h2 i
        simp only [mergeComponents, List.getD_cons_succ, List.getD_nil] at *
        exact this
    | cons y c =>
      obtain ⟨h1, h2⟩ := ih c
      refine ⟨by simp only [mergeComponents, List.length_cons, h1]; omega, fun i => ?_⟩
      cases i with
      | zero => simp [mergeComponents]
      | succ i => simpa [mergeComponents, List.getD_cons_succ] using h2 i

/-- The tensor loop. -/
theorem mul_ok (x y : Ct C) (h : x.power = y.power) (hx : x.c ≠ []) (hy : y.c ≠ []) :
    ∃ r, mul x y = .ok { c := r, power := x.power } ∧ r.length = x.c.length + y.c.length - 1 ∧
      ∀ s, phase s r = phase s x.c * phase s y.c := by
  have hx' : 0 < x.c.length := List.length_pos_iff.mpr hx
  have hy' : 0 < y.c.length := List.length_pos_iff.mpr hy
  have key := loop_ok (f := fun i r =>
      loop y.c.length (fun j r => do
        let t ← rd r (i + j)
        let u ← rd x.c i
        let v ← rd y.c j
        wr r (i + j) (t + u * v)) r)
    (s := List.replicate (x.c.length + y.c.length - 1) (0 : C.Poly)) (n := x.c.length)
    (fun i r => r.length = x.c.length + y.c.length - 1 ∧
      ∀ s, phase s r = (∑ k ∈ range i, x.c.getD k 0 * s ^ k) * phase s y.c)
    ⟨by simp, fun s => by simp [phase_replicate_zero]⟩ ?_
  · obtain ⟨r, e1, e2, e3⟩ := key
    refine ⟨r, ?_, e2, fun s => by rw [e3 s]; rfl⟩
    unfold mul
    rw [if_neg (by simpa using h), if_neg (by omega), e1]; rfl
  · rintro i r hi ⟨e1, e2⟩
    have inner := loop_ok (f := fun j r => do
        let t ← rd r (i + j)
        let u ← rd x.c i
        let v ← rd y.c j
        wr r (i + j) (t + u * v)) (s := r) (n := y.c.length)
      (fun j r' => r'.length = x.c.length + y.c.length - 1 ∧
        ∀ s, phase s r' = phase s r + x.c.getD i 0 * s ^ i * ∑ k ∈ range j, y.c.getD k 0 * s ^ k)
      ⟨e1, fun s => by simp⟩ ?_
    · obtain ⟨r', f1, f2, f3⟩ := inner
      refine ⟨r', f1, f2, fun s => ?_⟩
      rw [f3 s, e2 s, sum_range_succ]
      unfold phase
      ring
    · rintro j r' hj ⟨g1, g2⟩
      refine ⟨r'.set (i + j) (r'.getD (i + j) 0 + x.c.getD i 0 * y.c.getD j 0), ?_,
        by simpa using g1, fun s => ?_⟩
      · rw [rd_getD 0 (by omega), Outcome.bind_ok, rd_getD 0 hi, Outcome.bind_ok,
          rd_getD 0 hj, Outcome.bind_ok, wr_ok (by omega)]
      · rw [phase_set s r' (by omega), g2 s, sum_range_succ]
        ring

theorem extract_eq (k : Key C) (x : Ct C) : extract k x = .ok (C.fromNtt (phase k.key x.c)) := by
  have key := loop_ok (f := fun i (s : C.Poly × C.Poly) => (do
      let ci ← rd x.c i
      let kp := if i > 1 then s.2 * k.key else s.2
      let ci := if i > 0 then ci * kp else ci
      return (s.1 + ci, kp) : Outcome (C.Poly × C.Poly))) (s := (0, k.key)) (n := x.c.length)
    (fun j s => s.1 = ∑ i ∈ range j, x.c.getD i 0 * k.key ^ i ∧ s.2 = k.key ^ (max 1 (j - 1)))
    ⟨by simp, by simp⟩ ?_
  · obtain ⟨s, e1, e2, e3⟩ := key
    unfold extract
    rw [e1]
    simp only [Outcome.bind_ok, Outcome.pure_eq]
    rw [e2]; rfl
  · rintro j s hj ⟨e1, e2⟩
    have hkp : (if j > 1 then s.2 * k.key else s.2) = k.key ^ (max 1 j) := by
      split_ifs with h
      · rw [e2, ← pow_succ]; congr 1; omega
      · rw [e2]; congr 1; omega
    refine ⟨(s.1 + (if j > 0 then x.c.getD j 0 * k.key ^ (max 1 j) else x.c.getD j 0),
      k.key ^ (max 1 j)), ?_, ?_, ?_⟩
    · rw [rd_getD 0 hj]
      simp only [Outcome.bind_ok, hkp]
      rfl
    · dsimp only
      rw [e1, sum_range_succ]
      congr 1
      split_ifs with h
      · rw [show max 1 j = j by omega]
      · rw [show j = 0 by omega]; simp
    · rfl

theorem removeErrorCoeff_eq {w q t : ℕ} [NeZero q] (hq : q < 2 ^ w) (ht : 0 < t) (htq : t ≤ q)
    (x : ZMod q) : (removeErrorCoeff w q t x.val : ℤ) = centered q x % t := by
  have hx := ZMod.val_lt x
  unfold removeErrorCoeff centered
  rw [if_neg (by omega)]
  rw [Nat.shiftRight_eq_div_pow, pow_one]
  have hqt : 2 * (q % t) < q := by
    have h1 := Nat.div_add_mod q t
    have h2 : 1 ≤ q / t := Nat.div_pos htq ht
    have h3 := Nat.mod_lt q ht
    nlinarith
  by_cases h : 2 * x.val ≤ q
  · rw [if_pos h, if_neg (by omega)]
    push_cast; rfl
  · rw [if_neg h, if_pos (by omega), trunc_eq w _ (x.val - q % t) (by omega) (by omega)]
    push_cast [show q % t ≤ x.val by omega]
    rw [Int.sub_emod, Int.emod_emod_of_dvd _ (dvd_refl _), ← Int.sub_emod]

theorem decrypt_eq (h : C.Ok) (k : Key C) (x : Ct C) (ht : 0 < k.tMod.val) (htq : k.tMod.val ≤ C.q) :
    decrypt k x = .ok fun i =>
      (centered C.q (C.fromNtt (phase k.key x.c) i) % (k.tMod.val : ℤ)).toNat := by
  haveI := h.neZero
  unfold decrypt
  rw [extract_eq, Outcome.bind_ok, if_neg (by omega)]
  congr 1
  funext i
  have := removeErrorCoeff_eq (w := C.w) (by have := h.fits; omega) ht htq
    (C.fromNtt (phase k.key x.c) i)
  omega

end Shell.Sym
