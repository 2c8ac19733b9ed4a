import Verif.Lemmas.Gadget
import Verif.Lemmas.SymSwitch

namespace Shell.Relin
open Spec Finset Sym NttRing
variable {C : Ctx}

theorem scalarMul_eq (a : ZMod C.q) (f : C.Poly) :
    scalarMul a f = (fun _ => a : C.Poly) * f := rfl

theorem powersOfT_getD (T : ZMod C.q) (d i : ℕ) (cur : C.Poly) :
    (powersOfT T d i cur).length = d ∧
    ∀ j < d, (powersOfT T d i cur).getD j 0 =
      scalarMul (T ^ (if i = 0 then j else j + 1)) cur := by
  induction d generalizing i cur with
  | zero => exact ⟨rfl, fun j hj => by omega⟩
  | succ d ih =>
    obtain ⟨e1, e2⟩ := ih (i + 1) (if i ≠ 0 then scalarMul T cur else cur)
    refine ⟨by rw [powersOfT, List.length_cons, e1], fun j hj => ?_⟩
    rw [powersOfT]
    cases j with
    | zero =>
      by_cases hi : i = 0
      · simp only [hi]; funext x; simp [scalarMul]
      · simp [hi]
    | succ j =>
      rw [List.getD_cons_succ, e2 j (by omega), if_neg (by omega)]
      by_cases hi : i = 0
      · simp [hi]
      · rw [if_pos hi, if_neg hi]
        funext x
        simp only [scalarMul]
        ring

/-- The rows of a key part. -/
theorem part_create (keyPower : C.Poly) (k : Key C) (T : ZMod C.q) (d : ℕ) (pads errs : ℕ → C.Poly) :
    ∃ m, Part.create keyPower k T d pads errs = .ok m ∧ m.row0.length = d ∧ m.row1.length = d ∧
      ∀ j < d, m.row0.getD j 0 = scalarMul k.tUnderQ (C.toNtt (errs j)) + -(pads j * k.key) +
          scalarMul (T ^ j) keyPower ∧
        m.row1.getD j 0 = pads j := by
  obtain ⟨p1, p2⟩ := powersOfT_getD T d 0 keyPower
  unfold Part.create
  have key := loop_ok (f := fun i (m : Part C) => do
      let pt ← rd (powersOfT T d 0 keyPower) i
      let col := column k pt (pads i) (errs i)
      return ⟨m.row0 ++ [col.1], m.row1 ++ [col.2]⟩) (n := d) (s := ⟨[], []⟩)
    (fun i (m : Part C) => m.row0.length = i ∧ m.row1.length = i ∧
      ∀ j < i, m.row0.getD j 0 = scalarMul k.tUnderQ (C.toNtt (errs j)) + -(pads j * k.key) +
          scalarMul (T ^ j) keyPower ∧
        m.row1.getD j 0 = pads j) ⟨rfl, rfl, fun j hj => by omega⟩ ?_
  · obtain ⟨m, m1, m2⟩ := key
    exact ⟨m, m1, m2⟩
  · intro i m hi ⟨h1, h2, h3⟩
    rw [rd_getD 0 (by omega), Outcome.bind_ok, p2 i hi]
    refine ⟨_, rfl, by simp [h1], by simp [h2], fun j hj => ?_⟩
    by_cases hji : j < i
    · have := h3 j hji
      simp only [List.getD_eq_getElem?_getD] at this ⊢
      rw [List.getElem?_append_left (by omega), List.getElem?_append_left (by omega)]
      exact this
    · have : j = i := by omega
      subst this
      simp only [List.getD_eq_getElem?_getD]
      rw [List.getElem?_append_right (by omega), List.getElem?_append_right (by omega)]
      simp only [h1, h2, Nat.sub_self]
      exact ⟨rfl, rfl⟩

/-- Multiplying the digits with the matrix. -/
theorem matrixMultiply_ok (digits : List C.Poly) (m : Part C) (hd : 0 < m.row0.length)
    (h1 : digits.length = m.row0.length) (h2 : m.row1.length = m.row0.length) :
    matrixMultiply digits m = .ok
      (∑ j ∈ range m.row0.length, C.toNtt (digits.getD j 0) * m.row0.getD j 0,
       ∑ j ∈ range m.row0.length, C.toNtt (digits.getD j 0) * m.row1.getD j 0) := by
  unfold matrixMultiply
  rw [rd_getD 0 (by omega), Outcome.bind_ok]
  have key := loop_ok (f := fun i (r : C.Poly × C.Poly) => do
      let d ← rd digits i
      let d := C.toNtt d
      let a ← rd m.row0 i
      let b ← rd m.row1 i
      return (r.1 + d * a, r.2 + d * b)) (n := m.row0.length) (s := (0, 0))
    (fun i (r : C.Poly × C.Poly) => r =
      (∑ j ∈ range i, C.toNtt (digits.getD j 0) * m.row0.getD j 0,
       ∑ j ∈ range i, C.toNtt (digits.getD j 0) * m.row1.getD j 0)) (by simp) ?_
  · obtain ⟨r, r1, r2⟩ := key
    rw [← r2]; exact r1
  · intro i r hi hr
    rw [rd_getD 0 (by omega), Outcome.bind_ok]
    dsimp only
    rw [rd_getD 0 (by omega), Outcome.bind_ok, rd_getD 0 (by omega), Outcome.bind_ok, hr]
    exact ⟨_, rfl, by rw [sum_range_succ, sum_range_succ]⟩

/-- The digit vector `j` of the coefficients of `c`, as integers. -/
def digitVec (C : Ctx) (b j : ℕ) (c : C.Poly) : Fin C.n → ℤ := fun i =>
  (digit b j (C.fromNtt c i).val : ℕ)

theorem toNtt_sum {ι : Type} (S : Finset ι) (f : ι → C.Poly) :
    C.toNtt (∑ j ∈ S, f j) = ∑ j ∈ S, C.toNtt (f j) := by
  classical
  induction S using Finset.induction_on with
  | empty => simp [toNtt_zero]
  | insert a S ha ih => rw [sum_insert ha, sum_insert ha, toNtt_add, ih]

theorem modq_sum {ι : Type} {n q : ℕ} (S : Finset ι) (f : ι → Fin n → ℤ) :
    modq q (∑ j ∈ S, f j) = ∑ j ∈ S, modq q (f j) := by
  classical
  induction S using Finset.induction_on with
  | empty => funext i; simp [modq]
  | insert a S ha ih => rw [sum_insert ha, sum_insert ha, modq_add, ih]

/-- Recomposition in NTT form. -/
theorem recompose (h : C.Ok) {b d : ℕ} (hq : C.q ≤ (2 ^ b) ^ d) (c : C.Poly) :
    ∑ j ∈ range d, C.toNtt (modq C.q (digitVec C b j c)) * (fun _ => ((2 ^ b : ℕ) : ZMod C.q) ^ j : C.Poly)
      = c := by
  haveI := h.neZero
  have e : ∀ j, C.toNtt (modq C.q (digitVec C b j c)) * (fun _ => ((2 ^ b : ℕ) : ZMod C.q) ^ j : C.Poly)
      = C.toNtt (scalarMul (((2 ^ b : ℕ) : ZMod C.q) ^ j) (modq C.q (digitVec C b j c))) := by
    intro j; rw [toNtt_smul, scalarMul_eq, mul_comm]
  simp only [e]
  rw [← toNtt_sum]
  have e2 : ∑ j ∈ range d, scalarMul (((2 ^ b : ℕ) : ZMod C.q) ^ j) (modq C.q (digitVec C b j c))
      = C.fromNtt c := by
    funext i
    have hlt : (C.fromNtt c i).val < (2 ^ b) ^ d := lt_of_lt_of_le (ZMod.val_lt _) hq
    have := sum_digit_eq b d _ hlt
    rw [Finset.sum_apply]
    calc ∑ j ∈ range d, scalarMul (((2 ^ b : ℕ) : ZMod C.q) ^ j) (modq C.q (digitVec C b j c)) i
        = ((∑ j ∈ range d, digit b j (C.fromNtt c i).val * (2 ^ b) ^ j : ℕ) : ZMod C.q) := by
          push_cast
          apply sum_congr rfl
          intro j _
          simp only [scalarMul, modq, digitVec]
          push_cast
          ring
      _ = _ := by rw [this, ZMod.natCast_val, ZMod.cast_id', id]
  rw [e2, toNtt_fromNtt h]

/-- A key part moves `c * keyPower` to the target key, up to `t` times noise. -/
theorem part_apply (h : C.Ok) {b d : ℕ} (hb : b < C.w) (hd : 0 < d) (hq : C.q ≤ (2 ^ b) ^ d)
    (keyPower : C.Poly) (k : Key C) {t : ℤ} (ht : k.tUnderQ = (t : ZMod C.q)) (pads : ℕ → C.Poly)
    (E : ℕ → Fin C.n → ℤ) {m : Part C}
    (hm : Part.create keyPower k ((2 ^ b : ℕ) : ZMod C.q) d pads (fun j => modq C.q (E j)) = .ok m)
    (c : C.Poly) :
    ∃ r, m.applyTo b c = .ok r ∧ r.1 + k.key * r.2 = c * keyPower +
      C.toNtt (modq C.q fun i => t * ∑ j ∈ range d, negMul (digitVec C b j c) (E j) i) := by
  obtain ⟨m', m1, m2, m3, m4⟩ := part_create keyPower k ((2 ^ b : ℕ) : ZMod C.q) d pads
    (fun j => modq C.q (E j))
  obtain rfl : m' = m := by rw [m1] at hm; simpa using hm
  set D := (List.range d).map fun j i => ((digit b j (C.fromNtt c i).val : ℕ) : ZMod C.q) with hD
  have hDl : D.length = d := by simp [hD]
  have hDg : ∀ j < d, D.getD j 0 = modq C.q (digitVec C b j c) := by
    intro j hj
    rw [List.getD_eq_getElem _ _ (by omega)]
    simp only [hD, List.getElem_map, List.getElem_range]
    funext i
    simp [modq, digitVec]
  refine ⟨(∑ j ∈ range d, C.toNtt (D.getD j 0) * m'.row0.getD j 0,
       ∑ j ∈ range d, C.toNtt (D.getD j 0) * m'.row1.getD j 0), ?_, ?_⟩
  · unfold Part.applyTo
    dsimp only
    rw [m2, baseDecompose_eq hb, Outcome.bind_ok]
    rw [matrixMultiply_ok D m' (by omega) (by omega) (by omega), m2]
  · dsimp only
    have e1 : (fun i => t * ∑ j ∈ range d, negMul (digitVec C b j c) (E j) i) =
        fun i => t * (∑ j ∈ range d, negMul (digitVec C b j c) (E j)) i := by
      funext i; rw [Finset.sum_apply]
    rw [e1, modq_smul, toNtt_smul, modq_sum, toNtt_sum, mul_sum, ← sum_add_distrib,
      scalarMul_eq, mul_sum]
    have hR : c * keyPower = ∑ j ∈ range d, C.toNtt (modq C.q (digitVec C b j c)) *
        (fun _ => ((2 ^ b : ℕ) : ZMod C.q) ^ j : C.Poly) * keyPower := by
      rw [← sum_mul, recompose h hq c]
    rw [hR, ← sum_add_distrib]
    apply sum_congr rfl
    intro j hj
    have hj := mem_range.mp hj
    obtain ⟨a1, a2⟩ := m4 j hj
    rw [a1, a2, hDg j hj, modq_negMul, toNtt_negMul h, ht, scalarMul_eq, scalarMul_eq]
    ring

end Shell.Relin

namespace Shell.Relin
open Spec Finset Sym NttRing
variable {C : Ctx}

/-- The key parts hold the powers of the base key. -/
theorem createParts_ok (k : Key C) (base : C.Poly) (T : ZMod C.q) (dim : ℕ)
    (pads errs : ℕ → ℕ → C.Poly) (cnt i j : ℕ) (kp : C.Poly) (hi : 1 ≤ i)
    (hkp : (if i ≠ 1 then kp * base else kp) = base ^ i) :
    ∃ L, createParts k base T dim pads errs cnt i j kp = .ok L ∧ L.length = cnt ∧
      ∀ u < cnt, Part.create (base ^ (i + u)) k T dim (pads (j + u)) (errs (j + u)) =
        .ok (L.getD u ⟨[], []⟩) := by
  induction cnt generalizing i j kp with
  | zero => exact ⟨[], rfl, rfl, fun u hu => by omega⟩
  | succ cnt ih =>
    obtain ⟨m, m1, _⟩ := part_create (base ^ i) k T dim (pads j) (errs j)
    obtain ⟨L, l1, l2, l3⟩ := ih (i + 1) (j + 1) (base ^ i) (by omega) (by
      rw [if_pos (by omega), pow_succ])
    refine ⟨m :: L, ?_, by simp [l2], fun u hu => ?_⟩
    · rw [createParts]
      simp only [hkp]
      rw [m1, Outcome.bind_ok, l1, Outcome.bind_ok]
      rfl
    · cases u with
      | zero => exact m1
      | succ u =>
        rw [List.getD_cons_succ, ← l3 u (by omega)]
        congr 2 <;> omega

/-- The noise added by key part `u`. -/
def noise (C : Ctx) (b d first : ℕ) (c : List C.Poly) (E : ℕ → ℕ → Fin C.n → ℤ) (u : ℕ) :
    Fin C.n → ℤ := fun i =>
  ∑ j ∈ range d, negMul (digitVec C b j (c.getD (first + u) 0)) (E u j) i

theorem component_ok (x : Ct C) {i : ℕ} (hi : i < x.c.length) :
    component x i = .ok (x.c.getD i 0) := by
  unfold component
  rw [if_neg (by omega), Int.toNat_natCast, rd_getD 0 hi]

theorem component_err (x : Ct C) {i : ℤ} (hi : i < 0 ∨ (x.c.length : ℤ) ≤ i) :
    component x i = .err .invalidArgument := by
  unfold component
  rw [if_pos (by omega)]

theorem applyRest_ok (h : C.Ok) {b d first : ℕ} (hb : b < C.w) (hd : 0 < d)
    (hq : C.q ≤ (2 ^ b) ^ d) (base : C.Poly) (k : Key C) {t : ℤ}
    (ht : k.tUnderQ = (t : ZMod C.q)) (pads : ℕ → ℕ → C.Poly) (E : ℕ → ℕ → Fin C.n → ℤ)
    (x : Ct C) (L : List (Part C)) (i : ℕ) (r : C.Poly × C.Poly)
    (hlen : first + i + L.length ≤ x.c.length)
    (hL : ∀ u < L.length, Part.create (base ^ (first + i + u)) k ((2 ^ b : ℕ) : ZMod C.q) d
      (pads (i + u)) (fun j => modq C.q (E (i + u) j)) = .ok (L.getD u ⟨[], []⟩)) :
    ∃ r', applyRest x first b L i r = .ok r' ∧
      r'.1 + k.key * r'.2 = r.1 + k.key * r.2 + ∑ u ∈ range L.length,
        (x.c.getD (first + i + u) 0 * base ^ (first + i + u) +
          C.toNtt (modq C.q fun v => t * noise C b d first x.c E (i + u) v)) := by
  induction L generalizing i r with
  | nil => exact ⟨r, rfl, by simp⟩
  | cons p L ih =>
    rw [List.length_cons] at hlen hL
    obtain ⟨rp, e1, e2⟩ := part_apply h hb hd hq (base ^ (first + i)) k ht (pads i) (E i)
      (m := p) (by simpa using hL 0 (by omega)) (x.c.getD (first + i) 0)
    obtain ⟨r', f1, f2⟩ := ih (i + 1) (r.1 + rp.1, r.2 + rp.2) (by omega) (fun u hu => by
      have := hL (u + 1) (by omega)
      rw [List.getD_cons_succ] at this
      rw [show first + (i + 1) + u = first + i + (u + 1) by omega,
        show i + 1 + u = i + (u + 1) by omega]
      exact this)
    refine ⟨r', ?_, ?_⟩
    · rw [applyRest, component_ok x (by omega), Outcome.bind_ok, add_comm i first, e1,
        Outcome.bind_ok, f1]
    · rw [f2, List.length_cons, sum_range_succ']
      have e3 : ∀ u, first + (i + 1) + u = first + i + (u + 1) := fun u => by omega
      have e4 : ∀ u, i + 1 + u = i + (u + 1) := fun u => by omega
      simp only [e3, e4, Nat.add_zero]
      have e5 : (fun v => t * noise C b d first x.c E i v) =
          fun v => t * ∑ j ∈ range d, negMul (digitVec C b j (x.c.getD (first + i) 0)) (E i j) v := rfl
      rw [e5]
      have e6 : r.1 + rp.1 + k.key * (r.2 + rp.2) = r.1 + k.key * r.2 + (rp.1 + k.key * rp.2) := by
        ring
      rw [e6, e2]
      ring

/-- Applying a key to a ciphertext of exactly its number of parts. -/
theorem applyTo_ok (h : C.Ok) {b d first P : ℕ} (hb : b < C.w) (hd : 0 < d) (hP : 0 < P)
    (hq : C.q ≤ (2 ^ b) ^ d) (base : C.Poly) (k : Key C) {t : ℤ}
    (ht : k.tUnderQ = (t : ZMod C.q)) (pads : ℕ → ℕ → C.Poly) (E : ℕ → ℕ → Fin C.n → ℤ)
    (x : Ct C) (rk : RKey C) (hpb : rk.power = 1 → base = k.key) (hfirst : first = firstKeyIndex rk.power)
    (hb' : rk.logDecomp = b) (hn : rk.numParts = first + P) (hLl : rk.parts.length = P)
    (hlen : x.c.length = first + P)
    (hL : ∀ u < P, Part.create (base ^ (first + u)) k ((2 ^ b : ℕ) : ZMod C.q) d
      (pads u) (fun j => modq C.q (E u j)) = .ok (rk.parts.getD u ⟨[], []⟩)) :
    ∃ r, rk.applyTo x = (do let _ ← decompositionModulus b; .ok r) ∧ r.c.length = 2 ∧ r.power = 1 ∧
      phase k.key r.c = phase base x.c +
        C.toNtt (modq C.q fun v => t * ∑ u ∈ range P, noise C b d first x.c E u v) := by
  obtain ⟨p0, L, hrk⟩ : ∃ p0 L, rk.parts = p0 :: L := by
    cases hc : rk.parts with
    | nil => rw [hc] at hLl; simp at hLl; omega
    | cons a L => exact ⟨a, L, rfl⟩
  rw [hrk] at hLl hL
  rw [List.length_cons] at hLl
  have hf1 : 1 ≤ first := by rw [hfirst]; unfold firstKeyIndex; split_ifs <;> omega
  obtain ⟨r0, e1, e2⟩ := part_apply h hb hd hq (base ^ first) k ht (pads 0) (E 0)
    (m := p0) (by simpa using hL 0 (by omega)) (x.c.getD first 0)
  obtain ⟨r, f1, f2⟩ := applyRest_ok h hb hd hq base k ht pads E x L 1 r0 (first := first)
    (by omega) (fun u hu => by
      have := hL (u + 1) (by omega)
      rw [List.getD_cons_succ] at this
      rw [show first + 1 + u = first + (u + 1) by omega, show 1 + u = u + 1 by omega]
      exact this)
  have h2len : 2 ≤ x.c.length := by omega
  have hphase : phase base x.c = x.c.getD 0 0 + (if first = 2 then x.c.getD 1 0 * base else 0) +
      ∑ u ∈ range P, x.c.getD (first + u) 0 * base ^ (first + u) := by
    unfold phase
    rw [hlen, sum_range_add]
    congr 1
    have : first = 1 ∨ first = 2 := by rw [hfirst]; unfold firstKeyIndex; split_ifs <;> simp
    rcases this with h1 | h1 <;> rw [h1] <;> simp [sum_range_succ]
  have hnoise : C.toNtt (modq C.q fun v => t * ∑ u ∈ range P, noise C b d first x.c E u v) =
      ∑ u ∈ range P, C.toNtt (modq C.q fun v => t * noise C b d first x.c E u v) := by
    rw [← toNtt_sum, ← modq_sum]
    congr 2
    funext v
    rw [Finset.sum_apply, mul_sum]
  have hsum : r.1 + k.key * r.2 = ∑ u ∈ range P, (x.c.getD (first + u) 0 * base ^ (first + u) +
      C.toNtt (modq C.q fun v => t * noise C b d first x.c E u v)) := by
    rw [f2, e2, ← hLl, sum_range_succ']
    have e3 : ∀ u, first + 1 + u = first + (u + 1) := fun u => by omega
    have e4 : ∀ u, 1 + u = u + 1 := fun u => by omega
    simp only [e3, e4, Nat.add_zero]
    rw [add_comm]
    rfl
  have hrun : ∀ g, rk.applyTo x = g ↔ (if rk.power = 1 then
      (do let _ ← decompositionModulus b
          .ok { c := [r.1 + x.c.getD 0 0, r.2 + x.c.getD 1 0], power := 1 } : Outcome (Ct C))
      else do
        let _ ← decompositionModulus b
        .ok { c := [r.1 + x.c.getD 0 0, r.2], power := 1 }) = g := by
    intro g
    unfold RKey.applyTo
    rw [if_neg (by omega), ← hfirst]
    dsimp only
    rw [component_ok x (by omega), Outcome.bind_ok, rd_getD ⟨[], []⟩ (by rw [hrk]; simp),
      Outcome.bind_ok, hrk, List.getD_cons_zero, hb', e1, Outcome.bind_ok, List.drop_one,
      List.tail_cons, f1, Outcome.bind_ok,
      show component x 0 = .ok (x.c.getD 0 0) from component_ok x (by omega : 0 < x.c.length), Outcome.bind_ok]
    split_ifs with hp
    · rw [show component x 1 = .ok (x.c.getD 1 0) from component_ok x (by omega : 1 < x.c.length), Outcome.bind_ok]
      rfl
    · rfl
  by_cases hp : rk.power = 1
  · refine ⟨{ c := [r.1 + x.c.getD 0 0, r.2 + x.c.getD 1 0], power := 1 },
      (hrun _).mpr (by rw [if_pos hp]), rfl, rfl, ?_⟩
    have h2 : first = 2 := by rw [hfirst]; unfold firstKeyIndex; rw [if_pos hp]
    rw [hphase, if_pos h2, hnoise, phase_cons, phase_cons, phase_nil]
    rw [sum_add_distrib] at hsum
    have hb2 := hpb hp
    subst hb2
    linear_combination hsum
  · refine ⟨{ c := [r.1 + x.c.getD 0 0, r.2], power := 1 },
      (hrun _).mpr (by rw [if_neg hp]), rfl, rfl, ?_⟩
    have h2 : first ≠ 2 := by rw [hfirst]; unfold firstKeyIndex; rw [if_neg hp]; decide
    rw [hphase, if_neg h2, hnoise, phase_cons, phase_cons, phase_nil]
    rw [sum_add_distrib] at hsum
    linear_combination hsum

end Shell.Relin
