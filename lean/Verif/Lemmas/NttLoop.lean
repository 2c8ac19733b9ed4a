import Verif.Lemmas.NttMath
import Verif.Lemmas.Residue
/-!
The loops of the transforms compute the layer functions.
-/

namespace Shell.Ntt

/-- A layer applying butterfly `bf b` in block `b`. -/
def rlay (bf : ℕ → ℕ → ℕ → ℕ × ℕ) (h : ℕ) (f : ℕ → ℕ) (x : ℕ) : ℕ :=
  if x % (2 * h) < h then (bf (x / (2 * h)) (f x) (f (x + h))).1
  else (bf (x / (2 * h)) (f (x - h)) (f x)).2

theorem bfStep_ok (bf : ℕ → ℕ → ℕ × ℕ) (h k j : ℕ) (v : List ℕ) (hk : k + j + h < v.length)
    (hh : 0 < h) :
    ∃ v', bfStep bf h k j v = .ok v' ∧ v'.length = v.length ∧ ∀ x, v'.getD x 0 =
      if x = k + j then (bf (v.getD (k + j) 0) (v.getD (k + j + h) 0)).1
      else if x = k + j + h then (bf (v.getD (k + j) 0) (v.getD (k + j + h) 0)).2
      else v.getD x 0 := by
  unfold bfStep
  rw [rd_getD 0 hk, Outcome.bind_ok, rd_getD 0 (by omega), Outcome.bind_ok, wr_ok (by omega),
    Outcome.bind_ok, wr_ok (by simp; omega)]
  refine ⟨_, rfl, by simp, fun x => ?_⟩
  rw [getD_set _ _ _ _ _ (by simp; omega), getD_set _ _ _ _ _ (by omega)]
  by_cases h1 : x = k + j
  · rw [if_pos h1, if_neg (by omega), if_pos h1.symm]
  · by_cases h2 : x = k + j + h
    · rw [if_pos h2.symm, if_neg h1, if_pos h2]
    · rw [if_neg (by omega), if_neg (by omega), if_neg h1, if_neg h2]

/-- The inner loop over one block. `g` is the loop body, equal to `bfStep` on vectors of this
length. -/
theorem block_ok (bf : ℕ → ℕ → ℕ × ℕ) (h k : ℕ) (v : List ℕ) (hk : k + 2 * h ≤ v.length)
    (hh : 0 < h) (g : ℕ → List ℕ → Outcome (List ℕ))
    (hg : ∀ j u, j < h → u.length = v.length → g j u = bfStep bf h k j u) :
    ∃ v', loop h g v = .ok v' ∧ v'.length = v.length ∧ ∀ x, v'.getD x 0 =
      if k ≤ x ∧ x < k + h then (bf (v.getD x 0) (v.getD (x + h) 0)).1
      else if k + h ≤ x ∧ x < k + 2 * h then (bf (v.getD (x - h) 0) (v.getD x 0)).2
      else v.getD x 0 := by
  have := loop_ok (f := g) (n := h) (s := v) (P := fun j u => u.length = v.length ∧ ∀ x, u.getD x 0 =
      if k ≤ x ∧ x < k + j then (bf (v.getD x 0) (v.getD (x + h) 0)).1
      else if k + h ≤ x ∧ x < k + h + j then (bf (v.getD (x - h) 0) (v.getD x 0)).2
      else v.getD x 0)
    ⟨rfl, fun x => by rw [if_neg (by omega), if_neg (by omega)]⟩ ?_
  · obtain ⟨v', h1, h2, h3⟩ := this
    refine ⟨v', h1, h2, fun x => ?_⟩
    rw [h3 x]
    have : k + h + h = k + 2 * h := by ring
    rw [this]
  · rintro j u hj ⟨hu, hval⟩
    rw [hg j u hj hu]
    obtain ⟨u', e1, e2, e3⟩ := bfStep_ok bf h k j u (by omega) hh
    refine ⟨u', e1, by rw [e2, hu], fun x => ?_⟩
    have a1 : u.getD (k + j) 0 = v.getD (k + j) 0 := by
      rw [hval, if_neg (by omega), if_neg (by omega)]
    have a2 : u.getD (k + j + h) 0 = v.getD (k + j + h) 0 := by
      rw [hval, if_neg (by omega), if_neg (by omega)]
    rw [e3, a1, a2]
    by_cases c1 : x = k + j
    · subst c1; rw [if_pos rfl, if_pos (by omega)]
    · rw [if_neg c1]
      by_cases c2 : x = k + j + h
      · subst c2
        rw [if_pos rfl, if_neg (by omega), if_pos (by omega), Nat.add_sub_cancel]
      · rw [if_neg c2, hval x]
        by_cases c3 : k ≤ x ∧ x < k + j
        · rw [if_pos c3, if_pos (by omega)]
        · by_cases c4 : k + h ≤ x ∧ x < k + h + j
          · rw [if_neg c3, if_pos c4, if_neg (by omega), if_pos (by omega)]
          · rw [if_neg c3, if_neg c4, if_neg (by omega), if_neg (by omega)]

theorem layer_count {nb m : ℕ} (hm : 0 < m) : (nb * m + m - 1) / m = nb := by
  rw [Nat.add_sub_assoc (by omega), mul_comm, Nat.mul_add_div hm, Nat.div_eq_of_lt (by omega), add_zero]

/-- A whole layer over `nb` blocks. -/
theorem layer_ok (bf : ℕ → ℕ → ℕ → ℕ × ℕ) (h nb idx : ℕ) (hh : 0 < h) (v : List ℕ)
    (hv : v.length = nb * (2 * h)) (g : ℕ → ℕ × List ℕ → Outcome (ℕ × List ℕ))
    (hg : ∀ b u, b < nb → u.length = v.length → ∃ gi : ℕ → List ℕ → Outcome (List ℕ),
      (∀ j t, j < h → t.length = v.length → gi j t = bfStep (bf b) h (b * (2 * h)) j t) ∧
      g b (idx + b, u) = (do let v ← loop h gi u; return (idx + b + 1, v))) :
    ∃ v', loop nb g (idx, v) = .ok (idx + nb, v') ∧ v'.length = v.length ∧
      ∀ x < v.length, v'.getD x 0 = rlay bf h (fun y => v.getD y 0) x := by
  have := loop_ok (f := g) (n := nb) (s := (idx, v)) (P := fun b s => s.1 = idx + b ∧
      s.2.length = v.length ∧ ∀ x < v.length, s.2.getD x 0 =
        if x < b * (2 * h) then rlay bf h (fun y => v.getD y 0) x else v.getD x 0)
    ⟨rfl, rfl, fun x _ => by rw [if_neg (by simp)]⟩ ?_
  · obtain ⟨⟨i', v'⟩, h1, h2, h3, h4⟩ := this
    simp only at h2 h3 h4
    subst h2
    exact ⟨v', h1, h3, fun x hx => by rw [h4 x hx, if_pos (by omega)]⟩
  · rintro b ⟨i, u⟩ hb ⟨hi, hu, hval⟩
    simp only at hi hu hval
    subst hi
    obtain ⟨gi, hgi, hg2⟩ := hg b u hb hu
    rw [hg2]
    have hle : (b + 1) * (2 * h) ≤ nb * (2 * h) := Nat.mul_le_mul_right _ hb
    have hexp : (b + 1) * (2 * h) = b * (2 * h) + 2 * h := by ring
    obtain ⟨v', e1, e2, e3⟩ := block_ok (bf b) h (b * (2 * h)) u (by omega) hh gi
      (fun j t hj ht => hgi j t hj (by omega))
    rw [e1, Outcome.bind_ok]
    refine ⟨_, rfl, by simp only; omega, by simp only; omega, fun x hx => ?_⟩
    simp only
    have hun : ∀ y, b * (2 * h) ≤ y → u.getD y 0 = v.getD y 0 := by
      intro y hy
      by_cases hyl : y < v.length
      · rw [hval y hyl, if_neg (by omega)]
      · rw [List.getD_eq_default _ _ (by omega), List.getD_eq_default _ _ (by omega)]
    rw [e3 x]
    by_cases c1 : b * (2 * h) ≤ x ∧ x < b * (2 * h) + h
    · rw [if_pos c1, if_pos (by omega), hun x c1.1, hun (x + h) (by omega)]
      obtain ⟨j, rfl⟩ : ∃ j, x = b * (2 * h) + j := ⟨x - b * (2 * h), by omega⟩
      have hj : j < h := by omega
      unfold rlay
      rw [(block_low hj).1, (block_low hj).2, if_pos hj]
    · rw [if_neg c1]
      by_cases c2 : b * (2 * h) + h ≤ x ∧ x < b * (2 * h) + 2 * h
      · rw [if_pos c2, if_pos (by omega), hun x (by omega), hun (x - h) (by omega)]
        obtain ⟨j, rfl⟩ : ∃ j, x = b * (2 * h) + j + h := ⟨x - h - b * (2 * h), by omega⟩
        have hj : j < h := by omega
        unfold rlay
        rw [(block_high hj).1, (block_high hj).2, if_neg (by omega)]
      · rw [if_neg c2, hval x hx]
        by_cases c3 : x < b * (2 * h)
        · rw [if_pos c3, if_pos (by omega)]
        · rw [if_neg c3, if_neg (by omega)]

variable {p : MParams} {w N : ℕ}

/-- Bound on the stored words before layer `i` of the forward transform. -/
def lazyBound (N i : ℕ) : ℕ := if i % 2 = 1 then N else 2 * N

/-- A table of constants computed from stored words. -/
def IsTable (p : MParams) (N : ℕ) (table : List (ℕ × ℕ)) (T : ℕ → ZMod N) : Prop :=
  ∀ i < table.length, ∃ c ≤ N, table.getD i (0, 0) = Mont.getConstant p c ∧ res p N c = T i

theorem ctButterfly_spec (g : Good p w N) {c a b : ℕ} (i : ℕ) (hc : c ≤ N)
    (ha : a ≤ lazyBound N i) (hb : b ≤ lazyBound N i) :
    let r := ctButterfly p (i % 2 = 1) (Mont.getConstant p c) a b
    res p N r.1 = res p N a + res p N c * res p N b ∧
    res p N r.2 = res p N a - res p N c * res p N b ∧
    r.1 ≤ (if i % 2 = 1 then 2 * N else N - 1) ∧ r.2 ≤ (if i % 2 = 1 then 2 * N else N - 1) := by
  have h4 := g.lt
  have hbw : b < 2 ^ w := by unfold lazyBound at hb; split_ifs at hb <;> omega
  have t1 := mulConstant_lt g hbw hc
  have t2 := res_mulConstant g hbw hc
  unfold ctButterfly
  simp only
  set t := Mont.mulConstant p b (Mont.getConstant p c).1 (Mont.getConstant p c).2
  by_cases hi : i % 2 = 1
  · simp only [lazyBound, hi, if_true] at ha
    simp only [hi, decide_true, if_true]
    rw [res_lazyAdd g (by omega), res_lazySub g t1.le (by omega), lazyAdd_eq g (by omega),
      lazySub_eq g t1.le (by omega), t2]
    refine ⟨by ring, by ring, by omega, by omega⟩
  · simp only [lazyBound, hi, if_false] at ha
    simp only [hi, decide_false, if_false, Bool.false_eq_true]
    have := add_lt g (a := a) (b := t) (by omega)
    have := sub_lt g (a := a) t1.le (by omega)
    rw [res_add g (by omega), res_sub g t1.le (by omega), t2]
    refine ⟨by ring, by ring, by omega, by omega⟩

/-- One forward layer refines `mct`. -/
theorem ctLayer_ok (g : Good p w N) (table : List (ℕ × ℕ)) (T : ℕ → ZMod N)
    (hT : IsTable p N table T) (i nb idx : ℕ) (v : List ℕ) (hv : v.length = nb * (2 * 2 ^ i))
    (hidx : idx + nb ≤ table.length) (hb : ∀ x < v.length, v.getD x 0 ≤ lazyBound N i) :
    ∃ v', ctLayer p table i (idx, v) = .ok (idx + nb, v') ∧ v'.length = v.length ∧
      (∀ x < v.length, v'.getD x 0 ≤ if i % 2 = 1 then 2 * N else N - 1) ∧
      ∀ x < v.length, res p N (v'.getD x 0) =
        mct (fun b => T (idx + b)) (2 ^ i) (fun y => res p N (v.getD y 0)) x := by
  have hh : 0 < 2 ^ i := by positivity
  have hm : (1 <<< i) <<< 1 = 2 * 2 ^ i := by simp [Nat.shiftLeft_eq]; ring
  have h1 : 1 <<< i = 2 ^ i := by simp [Nat.shiftLeft_eq]
  unfold ctLayer
  simp only [h1, hm]
  rw [h1] at hm
  simp only [hm]
  have hcnt : (v.length + 2 * 2 ^ i - 1) / (2 * 2 ^ i) = nb := by rw [hv]; exact layer_count (by omega)
  rw [hcnt]
  obtain ⟨v', e1, e2, e3⟩ := layer_ok
    (fun b => ctButterfly p (i % 2 = 1) (table.getD (idx + b) (0, 0))) (2 ^ i) nb idx hh v hv
    (fun blk s => do
      let c ← rd table s.1
      let v ← loop (2 ^ i) (fun j v => bfStep (ctButterfly p (i % 2 = 1) c) (2 ^ i)
        (blk * (2 * 2 ^ i)) j v) s.2
      return (s.1 + 1, v))
    (by
      intro b u hbn hu
      refine ⟨_, fun j t _ _ => rfl, ?_⟩
      simp only
      rw [rd_getD (0, 0) (show idx + b < table.length by omega), Outcome.bind_ok])
  refine ⟨v', e1, e2, ?_⟩
  have key : ∀ x < v.length, v'.getD x 0 ≤ (if i % 2 = 1 then 2 * N else N - 1) ∧
      res p N (v'.getD x 0) =
        mct (fun b => T (idx + b)) (2 ^ i) (fun y => res p N (v.getD y 0)) x := by
    intro x hx
    rw [e3 x hx]
    obtain ⟨b, j, hj, hxx⟩ := block_cases hh x
    have hbn : b < nb := by
      by_contra hc
      have : nb * (2 * 2 ^ i) ≤ b * (2 * 2 ^ i) := Nat.mul_le_mul_right _ (by omega)
      omega
    have hle : (b + 1) * (2 * 2 ^ i) ≤ nb * (2 * 2 ^ i) := Nat.mul_le_mul_right _ hbn
    have hexp : (b + 1) * (2 * 2 ^ i) = b * (2 * 2 ^ i) + 2 * 2 ^ i := by ring
    obtain ⟨c, hc, ec, er⟩ := hT (idx + b) (by omega)
    obtain ⟨r1, r2, r3, r4⟩ := ctButterfly_spec g (c := c) i hc
      (hb (b * (2 * 2 ^ i) + j) (by omega)) (hb (b * (2 * 2 ^ i) + j + 2 ^ i) (by omega))
    rcases hxx with rfl | rfl
    · rw [mct_low _ _ _ hj]
      unfold rlay
      rw [(block_low hj).1, (block_low hj).2, if_pos hj]
      simp only
      rw [ec, ← er]
      exact ⟨r3, r1⟩
    · rw [mct_high _ _ _ hj]
      unfold rlay
      rw [(block_high hj).1, (block_high hj).2, if_neg (by omega)]
      simp only
      rw [ec, ← er, Nat.add_sub_cancel]
      exact ⟨r4, r2⟩
  exact ⟨fun x hx => (key x hx).1, fun x hx => (key x hx).2⟩

theorem gsButterfly_spec (g : Good p w N) {c u t : ℕ} (hc : c ≤ N) (hu : u ≤ N) (ht : t ≤ N) :
    let r := gsButterfly p (Mont.getConstant p c) u t
    res p N r.1 = res p N u + res p N t ∧
    res p N r.2 = (res p N u - res p N t) * res p N c ∧ r.1 < N ∧ r.2 < N := by
  have h4 := g.lt
  unfold gsButterfly
  simp only
  have hls : Mont.lazySub p u t < 2 ^ w := by rw [lazySub_eq g ht (by omega)]; omega
  rw [res_add g (by omega), res_mulConstant g hls hc, res_lazySub g ht (by omega)]
  exact ⟨rfl, rfl, add_lt g (by omega), mulConstant_lt g hls hc⟩

/-- One inverse layer refines `mgs`. -/
theorem gsLayer_ok (g : Good p w N) (table : List (ℕ × ℕ)) (T : ℕ → ZMod N)
    (hT : IsTable p N table T) (i nb idx : ℕ) (v : List ℕ) (hv : v.length = nb * (2 * 2 ^ i))
    (hidx : idx + nb ≤ table.length) (hb : ∀ x < v.length, v.getD x 0 ≤ N) :
    ∃ v', gsLayer p table i (idx, v) = .ok (idx + nb, v') ∧ v'.length = v.length ∧
      (∀ x < v.length, v'.getD x 0 < N) ∧
      ∀ x < v.length, res p N (v'.getD x 0) =
        mgs (fun b => T (idx + b)) (2 ^ i) (fun y => res p N (v.getD y 0)) x := by
  have hh : 0 < 2 ^ i := by positivity
  have hm : (1 <<< i) <<< 1 = 2 * 2 ^ i := by simp [Nat.shiftLeft_eq]; ring
  have h1 : 1 <<< i = 2 ^ i := by simp [Nat.shiftLeft_eq]
  unfold gsLayer
  simp only [h1, hm]
  rw [h1] at hm
  simp only [hm]
  have hcnt : (v.length + 2 * 2 ^ i - 1) / (2 * 2 ^ i) = nb := by rw [hv]; exact layer_count (by omega)
  rw [hcnt]
  obtain ⟨v', e1, e2, e3⟩ := layer_ok
    (fun b => gsButterfly p (table.getD (idx + b) (0, 0))) (2 ^ i) nb idx hh v hv
    (fun blk s => if s.1 ≥ table.length then .err .invalidArgument
      else do
      let c ← rd table s.1
      let v ← loop (2 ^ i) (fun j v =>
        if blk * (2 * 2 ^ i) + j + 2 ^ i ≥ v.length then .err .invalidArgument
        else bfStep (gsButterfly p c) (2 ^ i) (blk * (2 * 2 ^ i)) j v) s.2
      return (s.1 + 1, v))
    (by
      intro b u hbn hu
      have hle : (b + 1) * (2 * 2 ^ i) ≤ nb * (2 * 2 ^ i) := Nat.mul_le_mul_right _ hbn
      have hexp : (b + 1) * (2 * 2 ^ i) = b * (2 * 2 ^ i) + 2 * 2 ^ i := by ring
      refine ⟨fun j v => if b * (2 * 2 ^ i) + j + 2 ^ i ≥ v.length then .err .invalidArgument
        else bfStep (gsButterfly p (table.getD (idx + b) (0, 0))) (2 ^ i) (b * (2 * 2 ^ i)) j v,
        fun j t hj ht => ?_, ?_⟩
      · simp only
        rw [if_neg (by omega)]
      · simp only
        rw [if_neg (by omega), rd_getD (0, 0) (show idx + b < table.length by omega),
          Outcome.bind_ok])
  refine ⟨v', e1, e2, ?_⟩
  have key : ∀ x < v.length, v'.getD x 0 < N ∧
      res p N (v'.getD x 0) =
        mgs (fun b => T (idx + b)) (2 ^ i) (fun y => res p N (v.getD y 0)) x := by
    intro x hx
    rw [e3 x hx]
    obtain ⟨b, j, hj, hxx⟩ := block_cases hh x
    have hbn : b < nb := by
      by_contra hc
      have : nb * (2 * 2 ^ i) ≤ b * (2 * 2 ^ i) := Nat.mul_le_mul_right _ (by omega)
      omega
    have hle : (b + 1) * (2 * 2 ^ i) ≤ nb * (2 * 2 ^ i) := Nat.mul_le_mul_right _ hbn
    have hexp : (b + 1) * (2 * 2 ^ i) = b * (2 * 2 ^ i) + 2 * 2 ^ i := by ring
    obtain ⟨c, hc, ec, er⟩ := hT (idx + b) (by omega)
    obtain ⟨r1, r2, r3, r4⟩ := gsButterfly_spec g (c := c) hc
      (hb (b * (2 * 2 ^ i) + j) (by omega)) (hb (b * (2 * 2 ^ i) + j + 2 ^ i) (by omega))
    rcases hxx with rfl | rfl
    · rw [mgs_low _ _ _ hj]
      unfold rlay
      rw [(block_low hj).1, (block_low hj).2, if_pos hj]
      simp only
      rw [ec]
      exact ⟨r3, r1⟩
    · rw [mgs_high _ _ _ hj]
      unfold rlay
      rw [(block_high hj).1, (block_high hj).2, if_neg (by omega)]
      simp only
      rw [ec, ← er, Nat.add_sub_cancel]
      exact ⟨r4, r2⟩
  exact ⟨fun x hx => (key x hx).1, fun x hx => (key x hx).2⟩

/-- `IterativeCooleyTukey` refines the forward transform over `ZMod N`. -/
theorem iterativeCooleyTukey_ok (g : Good p w N) (table : List (ℕ × ℕ)) (T : ℕ → ZMod N)
    (hT : IsTable p N table T) (L : ℕ) (v : List ℕ) (hv : v.length = 2 ^ L)
    (hlen : 2 ^ L ≤ table.length) (hb : ∀ x < v.length, v.getD x 0 ≤ N) :
    ∃ v', iterativeCooleyTukey p table L v = .ok v' ∧ v'.length = 2 ^ L ∧
      (∀ x < 2 ^ L, v'.getD x 0 ≤ N ∧ (0 < L → v'.getD x 0 < N)) ∧
      ∀ x < 2 ^ L, res p N (v'.getD x 0) =
        mfwd (fun d b => T (2 ^ d + b)) L L (fun y => res p N (v.getD y 0)) x := by
  have hN := g.pos
  unfold iterativeCooleyTukey
  have := loop_ok (f := fun r s => ctLayer p table (L - 1 - r) s) (n := L) (s := (1, v))
    (P := fun d s => s.1 = 2 ^ d ∧ s.2.length = 2 ^ L ∧
      (∀ x < 2 ^ L, s.2.getD x 0 ≤ if d = 0 then N else if (L - d) % 2 = 1 then 2 * N else N - 1) ∧
      ∀ x < 2 ^ L, res p N (s.2.getD x 0) =
        mfwd (fun d b => T (2 ^ d + b)) L d (fun y => res p N (v.getD y 0)) x)
    ⟨by simp, hv, fun x hx => by rw [if_pos rfl]; exact hb x (by omega), fun x _ => rfl⟩ ?_
  · obtain ⟨⟨i', v'⟩, h1, h2, h3, h4, h5⟩ := this
    rw [h1, Outcome.bind_ok]
    refine ⟨v', rfl, h3, fun x hx => ?_, h5⟩
    have := h4 x hx
    simp only [Nat.sub_self, Nat.zero_mod, zero_ne_one, if_false] at this
    split_ifs at this <;> constructor <;> intros <;> omega
  · rintro d ⟨i', u⟩ hd ⟨e1, e2, e3, e4⟩
    simp only at e1 e2 e3 e4
    subst e1
    have hblk : 2 ^ L = 2 ^ d * (2 * 2 ^ (L - 1 - d)) := by
      rw [← pow_succ', ← pow_add]; congr 1; omega
    obtain ⟨u', k1, k2, k3, k4⟩ := ctLayer_ok g table T hT (L - 1 - d) (2 ^ d) (2 ^ d) u
      (by rw [e2]; exact hblk)
      (by
        have : 2 ^ (d + 1) ≤ 2 ^ L := Nat.pow_le_pow_right (by norm_num) hd
        rw [pow_succ] at this; omega)
      (fun x hx => by
        have := e3 x (by omega)
        unfold lazyBound
        split_ifs at this ⊢ <;> omega)
    refine ⟨_, k1, by simp only; rw [pow_succ]; ring, by simp only; omega, fun x hx => ?_,
      fun x hx => ?_⟩
    · have := k3 x (by omega)
      simp only
      rw [if_neg (by omega)]
      rw [show L - (d + 1) = L - 1 - d by omega]
      exact this
    · simp only
      rw [k4 x (by omega), mfwd]
      have hb2 : 2 ^ d * (2 * 2 ^ (L - 1 - d)) = 2 ^ L := hblk.symm
      exact mct_congr (nb := 2 ^ d) (by positivity) (fun _ _ => rfl)
        (fun y hy => e4 y (by rw [← hb2]; exact hy)) x (by rw [hb2]; exact hx)

/-- `IterativeGentlemanSande` refines the unnormalised inverse transform over `ZMod N`. -/
theorem iterativeGentlemanSande_ok (g : Good p w N) (table : List (ℕ × ℕ)) (T : ℕ → ZMod N)
    (hT : IsTable p N table T) (L : ℕ) (v : List ℕ) (hv : v.length = 2 ^ L)
    (hlen : 2 ^ L ≤ table.length) (hb : ∀ x < v.length, v.getD x 0 ≤ N) :
    ∃ v', iterativeGentlemanSande p table L v = .ok v' ∧ v'.length = 2 ^ L ∧
      (∀ x < 2 ^ L, v'.getD x 0 ≤ N) ∧
      ∀ x < 2 ^ L, res p N (v'.getD x 0) =
        minv (fun i b => T (2 ^ L - 2 ^ (L - i) + b)) L (fun y => res p N (v.getD y 0)) x := by
  have hN := g.pos
  unfold iterativeGentlemanSande
  have := loop_ok (f := fun i s => gsLayer p table i s) (n := L) (s := (0, v))
    (P := fun i s => s.1 = 2 ^ L - 2 ^ (L - i) ∧ s.2.length = 2 ^ L ∧
      (∀ x < 2 ^ L, s.2.getD x 0 ≤ N) ∧
      ∀ x < 2 ^ L, res p N (s.2.getD x 0) =
        minv (fun i b => T (2 ^ L - 2 ^ (L - i) + b)) i (fun y => res p N (v.getD y 0)) x)
    ⟨by simp, hv, fun x hx => hb x (by omega), fun x _ => rfl⟩ ?_
  · obtain ⟨⟨i', v'⟩, h1, h2, h3, h4, h5⟩ := this
    rw [h1, Outcome.bind_ok]
    exact ⟨v', rfl, h3, h4, h5⟩
  · rintro i ⟨i', u⟩ hi ⟨e1, e2, e3, e4⟩
    simp only at e1 e2 e3 e4
    subst e1
    have hblk : 2 ^ L = 2 ^ (L - 1 - i) * (2 * 2 ^ i) := (blocks_eq hi).symm
    have hle : 2 ^ (L - i) ≤ 2 ^ L := Nat.pow_le_pow_right (by norm_num) (by omega)
    have hsplit : 2 ^ (L - i) = 2 * 2 ^ (L - 1 - i) := by rw [← pow_succ']; congr 1; omega
    obtain ⟨u', k1, k2, k3, k4⟩ := gsLayer_ok g table T hT i (2 ^ (L - 1 - i))
      (2 ^ L - 2 ^ (L - i)) u (by rw [e2]; exact hblk) (by omega)
      (fun x hx => e3 x (by omega))
    refine ⟨_, k1, ?_, by simp only; omega, fun x hx => (k3 x (by omega)).le, fun x hx => ?_⟩
    · simp only
      rw [show L - (i + 1) = L - 1 - i by omega]; omega
    · simp only
      rw [k4 x (by omega), minv]
      exact mgs_congr (nb := 2 ^ (L - 1 - i)) (by positivity) (fun _ _ => rfl)
        (fun y hy => e4 y (by rw [hblk]; exact hy)) x (by rw [← hblk]; exact hx)

end Shell.Ntt
