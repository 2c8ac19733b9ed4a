import Verif.Lemmas.NttTable
/-!
The transforms as a whole.
-/

namespace Shell.Ntt
variable {p : MParams} {w N : ℕ} {l : ℕ} {psi : ZMod N} {q : NttParams}

theorem Tables.isTable (t : Tables p w N l psi q) :
    IsTable p N q.psisBitrevConstant (fun x => psi ^ bitrev x l) := by
  intro i hi
  rw [t.fwdC, List.length_map, t.fwd_len] at hi
  refine ⟨q.psisBitrev.getD i 0, (t.fwd i hi).1.le, ?_, (t.fwd i hi).2⟩
  rw [t.fwdC, List.getD_eq_getElem _ _ (by rw [List.length_map, t.fwd_len]; exact hi),
    List.getElem_map, List.getD_eq_getElem _ _ (by rw [t.fwd_len]; exact hi)]

theorem Tables.isTableInv (t : Tables p w N l psi q) :
    IsTable p N q.psisInvBitrevConstant (fun x => res p N (q.psisInvBitrev.getD x 0)) := by
  intro i hi
  rw [t.invC, List.length_map, t.inv_len] at hi
  refine ⟨q.psisInvBitrev.getD i 0, (t.inv i hi).1.le, ?_, rfl⟩
  rw [t.invC, List.getD_eq_getElem _ _ (by rw [List.length_map, t.inv_len]; exact hi),
    List.getElem_map, List.getD_eq_getElem _ _ (by rw [t.inv_len]; exact hi)]

theorem forward_unfold (q : NttParams) (v : List ℕ) (L : ℕ) (hL : L ≤ 30) (hv : v.length = 2 ^ L) :
    forward p q v = iterativeCooleyTukey p q.psisBitrevConstant L v := by
  have hlt : 2 ^ L < 2 ^ 31 := Nat.pow_lt_pow_right (by norm_num) (by omega)
  have hpos : 0 < 2 ^ L := by positivity
  unfold forward
  rw [if_neg (by omega), if_neg (by omega), hv, Nat.log2_two_pow]
  simp [Nat.one_shiftLeft]

theorem inverse_unfold (q : NttParams) (v : List ℕ) (L : ℕ) (hL : L ≤ 30) (hv : v.length = 2 ^ L) :
    inverse p q v = (do
      let v ← iterativeGentlemanSande p q.psisInvBitrevConstant L v
      return v.map fun c => Mont.mul p c q.nInv) := by
  have hlt : 2 ^ L < 2 ^ 31 := Nat.pow_lt_pow_right (by norm_num) (by omega)
  have hpos : 0 < 2 ^ L := by positivity
  unfold inverse
  rw [if_neg (by omega), if_neg (by omega), hv, Nat.log2_two_pow]
  simp [Nat.one_shiftLeft]

/-- The forward transform on vectors of length `2^L`, `L ≤ l`. -/
theorem forward_ok (g : Good p w N) (t : Tables p w N l psi q) (L : ℕ) (hL : L ≤ l) (v : List ℕ)
    (hv : v.length = 2 ^ L) (hb : ∀ x < v.length, v.getD x 0 ≤ N) :
    ∃ out, forward p q v = .ok out ∧ out.length = 2 ^ L ∧
      (∀ x < 2 ^ L, out.getD x 0 ≤ N ∧ (0 < L → out.getD x 0 < N)) ∧
      (∀ x < 2 ^ L, res p N (out.getD x 0) =
        mfwd (fun d b => psi ^ bitrev (2 ^ d + b) l) L L (fun y => res p N (v.getD y 0)) x) ∧
      ∀ x < 2 ^ L, res p N (out.getD x 0) =
        ∑ j ∈ Finset.range (2 ^ L), res p N (v.getD j 0) *
          ((psi ^ 2 ^ (l - L)) ^ (1 + 2 * bitrev x L)) ^ j := by
  have hl15 := t.l15
  rw [forward_unfold q v L (by omega) hv]
  obtain ⟨out, h1, h2, h3, h4⟩ := iterativeCooleyTukey_ok g q.psisBitrevConstant
    (fun x => psi ^ bitrev x l) t.isTable L v hv
    (by rw [t.fwdC, List.length_map, t.fwd_len]; exact Nat.pow_le_pow_right (by norm_num) hL) hb
  refine ⟨out, h1, h2, h3, h4, fun x hx => ?_⟩
  rw [h4 x hx]
  apply mfwd_final _ L (psi ^ 2 ^ (l - L)) (by omega)
  · rw [← pow_mul, ← pow_add, Nat.sub_add_cancel hL, t.root]
  · intro e he b hbe
    have hlt : 2 ^ e + b < 2 ^ L := by
      have : 2 ^ (e + 1) ≤ 2 ^ L := Nat.pow_le_pow_right (by norm_num) he
      rw [pow_succ] at this; omega
    have := bitrev_shift (l - L) L (2 ^ e + b) (by omega) hlt
    rw [Nat.add_sub_cancel' hL] at this
    rw [this, pow_mul]
  · exact hx

theorem Tables.TU (t : Tables p w N l psi q) : ∀ i < l, ∀ b < 2 ^ (l - 1 - i),
    (fun d b => psi ^ bitrev (2 ^ d + b) l) (l - 1 - i) b *
      (fun i b => res p N (q.psisInvBitrev.getD (2 ^ l - 2 ^ (l - i) + b) 0)) i b = 1 := by
  have hl15 := t.l15
  intro i hi b hb
  have hsplit : 2 ^ (l - i) = 2 * 2 ^ (l - 1 - i) := by rw [← pow_succ']; congr 1; omega
  have hle : 2 ^ (l - i) ≤ 2 ^ l := Nat.pow_le_pow_right (by norm_num) (by omega)
  have h := (t.inv (2 ^ l - 2 ^ (l - i) + b) (by omega)).2
  rw [bitrev_inv_index i l b (by omega) hi hb] at h
  simp only
  rw [bitrev_fwd_index (l - 1 - i) l b (by omega) (by omega) hb,
    show l - 1 - (l - 1 - i) = i by omega, mul_comm]
  exact h

/-- The inverse transform at full length. -/
theorem inverse_ok (g : Good p w N) (t : Tables p w N l psi q) (v : List ℕ)
    (hv : v.length = 2 ^ l) (hb : ∀ x < v.length, v.getD x 0 ≤ N) :
    ∃ out, inverse p q v = .ok out ∧ out.length = 2 ^ l ∧ (∀ x < 2 ^ l, out.getD x 0 < N) ∧
      ∀ x < 2 ^ l, res p N (out.getD x 0) =
        res p N q.nInv *
        minv (fun i b => res p N (q.psisInvBitrev.getD (2 ^ l - 2 ^ (l - i) + b) 0)) l
          (fun y => res p N (v.getD y 0)) x := by
  have hl15 := t.l15
  rw [inverse_unfold q v l (by omega) hv]
  obtain ⟨out, h1, h2, h3, h4⟩ := iterativeGentlemanSande_ok g q.psisInvBitrevConstant
    _ t.isTableInv l v hv (by rw [t.invC, List.length_map, t.inv_len]) hb
  rw [h1, Outcome.bind_ok]
  refine ⟨_, rfl, by simp [h2], fun x hx => ?_, fun x hx => ?_⟩
  · rw [List.getD_eq_getElem _ _ (by simpa [h2] using hx), List.getElem_map,
      ← List.getD_eq_getElem _ 0]
    exact mul_lt g (h3 x hx) t.nInv_lt.le
  · rw [List.getD_eq_getElem _ _ (by simpa [h2] using hx), List.getElem_map,
      ← List.getD_eq_getElem _ 0, res_mul g (h3 x hx) t.nInv_lt.le, h4 x hx, mul_comm]

theorem inverse_forward (g : Good p w N) (t : Tables p w N l psi q) (v : List ℕ)
    (hv : v.length = 2 ^ l) (hb : ∀ x < v.length, v.getD x 0 < N) :
    (forward p q v >>= inverse p q) = .ok v := by
  obtain ⟨u, u1, u2, u3, u4, _⟩ := forward_ok g t l le_rfl v hv (fun x hx => (hb x hx).le)
  obtain ⟨o, o1, o2, o3, o4⟩ := inverse_ok g t u u2 (fun x hx => (u3 x (by omega)).1)
  rw [u1, Outcome.bind_ok, o1]
  congr 1
  apply ext_getD 0 (by omega)
  intro x hx
  rw [o2] at hx
  apply res_inj g (o3 x hx) (hb x (by omega))
  rw [o4 x hx, minv_congr _ l u4 l le_rfl x hx, minv_mfwd _ _ l _ t.TU l le_rfl x hx,
    Nat.sub_self]
  show _ * (_ * res p N (v.getD x 0)) = _
  linear_combination (res p N (v.getD x 0)) * t.nInv

theorem forward_inverse (g : Good p w N) (t : Tables p w N l psi q) (v : List ℕ)
    (hv : v.length = 2 ^ l) (hb : ∀ x < v.length, v.getD x 0 < N) :
    (inverse p q v >>= forward p q) = .ok v := by
  have hl1 := t.l1
  obtain ⟨u, u1, u2, u3, u4⟩ := inverse_ok g t v hv (fun x hx => (hb x hx).le)
  obtain ⟨o, o1, o2, o3, o4, _⟩ := forward_ok g t l le_rfl u u2 (fun x hx => (u3 x (by omega)).le)
  rw [u1, Outcome.bind_ok, o1]
  congr 1
  apply ext_getD 0 (by omega)
  intro x hx
  rw [o2] at hx
  apply res_inj g ((o3 x hx).2 (by omega)) (hb x (by omega))
  rw [o4 x hx, mfwd_congr _ l u4 l le_rfl x hx, mfwd_smul, mfwd_minv _ _ l _ t.TU l le_rfl x hx,
    Nat.sub_self]
  show _ * (_ * res p N (v.getD x 0)) = _
  linear_combination (res p N (v.getD x 0)) * t.nInv

/-! Vectors longer than the tables. -/

theorem ctLayer_shape (p : MParams) (table : List (ℕ × ℕ)) (i nb idx : ℕ) (v : List ℕ)
    (hv : v.length = nb * (2 * 2 ^ i)) (hidx : idx + nb ≤ table.length) :
    ∃ v', ctLayer p table i (idx, v) = .ok (idx + nb, v') ∧ v'.length = v.length := by
  have hh : 0 < 2 ^ i := by positivity
  have hm : (1 <<< i) <<< 1 = 2 * 2 ^ i := by simp [Nat.shiftLeft_eq]; ring
  have h1 : 1 <<< i = 2 ^ i := by simp [Nat.shiftLeft_eq]
  unfold ctLayer
  simp only [h1, hm]
  rw [h1] at hm
  simp only [hm]
  have hcnt : (v.length + 2 * 2 ^ i - 1) / (2 * 2 ^ i) = nb := by rw [hv]; exact layer_count (by omega)
  rw [hcnt]
  obtain ⟨v', e1, e2, e3⟩ := layer_ok
    (fun b => ctButterfly p (i % 2 = 1) (table.getD (idx + b) (0, 0))) (2 ^ i) nb idx hh v hv
    (fun blk s => do
      let c ← rd table s.1
      let v ← loop (2 ^ i) (fun j v => bfStep (ctButterfly p (i % 2 = 1) c) (2 ^ i)
        (blk * (2 * 2 ^ i)) j v) s.2
      return (s.1 + 1, v))
    (by
      intro b u hbn hu
      refine ⟨_, fun j t _ _ => rfl, ?_⟩
      simp only
      rw [rd_getD (0, 0) (show idx + b < table.length by omega), Outcome.bind_ok])
  exact ⟨v', e1, e2⟩

theorem ctLayer_ub (p : MParams) (table : List (ℕ × ℕ)) (i nb idx : ℕ) (v : List ℕ)
    (hv : v.length = nb * (2 * 2 ^ i)) (hnb : 0 < nb) (hidx : table.length ≤ idx) :
    ctLayer p table i (idx, v) = .ub .outOfBounds := by
  have hh : 0 < 2 ^ i := by positivity
  have hm : (1 <<< i) <<< 1 = 2 * 2 ^ i := by simp [Nat.shiftLeft_eq]; ring
  have h1 : 1 <<< i = 2 ^ i := by simp [Nat.shiftLeft_eq]
  unfold ctLayer
  simp only [h1, hm]
  rw [h1] at hm
  simp only [hm]
  have hcnt : (v.length + 2 * 2 ^ i - 1) / (2 * 2 ^ i) = nb := by rw [hv]; exact layer_count (by omega)
  rw [hcnt]
  apply loop_ub (fun i s => s = (idx, v)) 0 hnb .outOfBounds rfl (fun j s hj => by omega)
  rintro s rfl
  rw [rd_ub hidx, Outcome.bind_ub]

theorem forward_longer (p : MParams) (q : NttParams) (l : ℕ)
    (hq : q.psisBitrevConstant.length = 2 ^ l) (L : ℕ) (hL : l < L)
    (hL30 : L ≤ 30) (v : List ℕ) (hv : v.length = 2 ^ L) :
    forward p q v = .ub .outOfBounds := by
  rw [forward_unfold q v L hL30 hv]
  unfold iterativeCooleyTukey
  rw [loop_ub (fun d s => s.1 = 2 ^ d ∧ s.2.length = 2 ^ L) l hL .outOfBounds ⟨by simp, hv⟩ ?_ ?_,
    Outcome.bind_ub]
  · rintro d ⟨i', u⟩ hd ⟨e1, e2⟩
    simp only at e1 e2
    subst e1
    have hblk : 2 ^ L = 2 ^ d * (2 * 2 ^ (L - 1 - d)) := by
      rw [← pow_succ', ← pow_add]; congr 1; omega
    obtain ⟨u', k1, k2⟩ := ctLayer_shape p q.psisBitrevConstant (L - 1 - d) (2 ^ d) (2 ^ d) u
      (by rw [e2]; exact hblk)
      (by
        have : 2 ^ (d + 1) ≤ 2 ^ l := Nat.pow_le_pow_right (by norm_num) hd
        rw [pow_succ] at this; omega)
    exact ⟨_, k1, by simp only; rw [pow_succ]; ring, by simp only; omega⟩
  · rintro ⟨i', u⟩ ⟨e1, e2⟩
    simp only at e1 e2
    subst e1
    apply ctLayer_ub p _ (L - 1 - l) (2 ^ l) _ _ _ (by positivity) hq.le
    rw [e2, ← pow_succ', ← pow_add]; congr 1; omega

theorem gsLayer_cases (p : MParams) (table : List (ℕ × ℕ)) (i nb idx : ℕ) (v : List ℕ)
    (hv : v.length = nb * (2 * 2 ^ i)) (hidx : idx ≤ table.length) :
    (idx + nb ≤ table.length →
      ∃ v', gsLayer p table i (idx, v) = .ok (idx + nb, v') ∧ v'.length = v.length) ∧
    (table.length < idx + nb → gsLayer p table i (idx, v) = .err .invalidArgument) := by
  have hh : 0 < 2 ^ i := by positivity
  have hm : (1 <<< i) <<< 1 = 2 * 2 ^ i := by simp [Nat.shiftLeft_eq]; ring
  have h1 : 1 <<< i = 2 ^ i := by simp [Nat.shiftLeft_eq]
  unfold gsLayer
  simp only [h1, hm]
  rw [h1] at hm
  simp only [hm]
  have hcnt : (v.length + 2 * 2 ^ i - 1) / (2 * 2 ^ i) = nb := by rw [hv]; exact layer_count (by omega)
  rw [hcnt]
  have step : ∀ j (s : ℕ × List ℕ), j < nb → idx + j < table.length →
      s.1 = idx + j ∧ s.2.length = v.length → ∃ s',
      (if s.1 ≥ table.length then .err .invalidArgument
      else do
        let c ← rd table s.1
        let v ← loop (2 ^ i) (fun k v =>
          if j * (2 * 2 ^ i) + k + 2 ^ i ≥ v.length then .err .invalidArgument
          else bfStep (gsButterfly p c) (2 ^ i) (j * (2 * 2 ^ i)) k v) s.2
        return (s.1 + 1, v) : Outcome (ℕ × List ℕ)) = .ok s' ∧ s'.1 = idx + (j + 1) ∧
          s'.2.length = v.length := by
    rintro b ⟨i', u⟩ hb hbt ⟨e1, e2⟩
    simp only at e1 e2
    subst e1
    have hle : (b + 1) * (2 * 2 ^ i) ≤ nb * (2 * 2 ^ i) := Nat.mul_le_mul_right _ hb
    have hexp : (b + 1) * (2 * 2 ^ i) = b * (2 * 2 ^ i) + 2 * 2 ^ i := by ring
    simp only
    rw [if_neg (by omega), rd_getD (0, 0) (show idx + b < table.length by omega), Outcome.bind_ok]
    obtain ⟨u', k1, k2, _⟩ := block_ok (gsButterfly p (table.getD (idx + b) (0, 0))) (2 ^ i)
      (b * (2 * 2 ^ i)) u (by omega) hh
      (fun k v => if b * (2 * 2 ^ i) + k + 2 ^ i ≥ v.length then .err .invalidArgument
        else bfStep (gsButterfly p (table.getD (idx + b) (0, 0))) (2 ^ i) (b * (2 * 2 ^ i)) k v)
      (by intro j t hj ht; rw [if_neg (by omega)])
    rw [k1, Outcome.bind_ok]
    exact ⟨_, rfl, by simp only; ring, by simp only; omega⟩
  constructor
  · intro hle
    have := loop_ok (n := nb) (s := (idx, v)) (f := fun blk (s : ℕ × List ℕ) =>
      (if s.1 ≥ table.length then .err .invalidArgument
      else do
        let c ← rd table s.1
        let v ← loop (2 ^ i) (fun k v =>
          if blk * (2 * 2 ^ i) + k + 2 ^ i ≥ v.length then .err .invalidArgument
          else bfStep (gsButterfly p c) (2 ^ i) (blk * (2 * 2 ^ i)) k v) s.2
        return (s.1 + 1, v) : Outcome (ℕ × List ℕ)))
      (fun b s => s.1 = idx + b ∧ s.2.length = v.length) ⟨by simp, rfl⟩
      (fun j s hj h => step j s hj (by omega) h)
    obtain ⟨⟨i', u⟩, k1, k2, k3⟩ := this
    simp only at k2 k3
    subst k2
    exact ⟨u, k1, k3⟩
  · intro hlt
    apply loop_err (fun b s => s.1 = idx + b ∧ s.2.length = v.length) (table.length - idx)
      (by omega) .invalidArgument ⟨by simp, rfl⟩ (fun j s hj h => step j s (by omega) (by omega) h)
    rintro ⟨i', u⟩ ⟨e1, _⟩
    simp only at e1
    subst e1
    simp only
    rw [if_pos (by omega)]

theorem inverse_longer (p : MParams) (q : NttParams) (l : ℕ) (hl : 1 ≤ l)
    (hq : q.psisInvBitrevConstant.length = 2 ^ l) (L : ℕ) (hL : l < L)
    (hL30 : L ≤ 30) (v : List ℕ) (hv : v.length = 2 ^ L) :
    inverse p q v = .err .invalidArgument := by
  rw [inverse_unfold q v L hL30 hv]
  unfold iterativeGentlemanSande
  have hpos : 0 < 2 ^ l := by positivity
  have hb0 : 2 ^ L = 2 ^ (L - 1 - 0) * (2 * 2 ^ 0) := (blocks_eq (by omega)).symm
  obtain ⟨c1, c2⟩ := gsLayer_cases p q.psisInvBitrevConstant 0 (2 ^ (L - 1 - 0)) 0 v
    (by rw [hv]; exact hb0) (by omega)
  by_cases h : l < L - 1
  · have hlt : 2 ^ l < 2 ^ (L - 1 - 0) := Nat.pow_lt_pow_right (by norm_num) (by omega)
    rw [loop_err (fun d s => s = (0, v)) 0 (by omega) .invalidArgument rfl
      (fun j s hj => by omega) (by rintro s rfl; exact c2 (by omega))]
    simp
  · have hLl : L = l + 1 := by omega
    subst hLl
    have hb1 : 2 ^ (l + 1) = 2 ^ (l + 1 - 1 - 1) * (2 * 2 ^ 1) := (blocks_eq (by omega)).symm
    obtain ⟨u, u1, u2⟩ := c1 (by rw [hq]; simp)
    obtain ⟨_, d2⟩ := gsLayer_cases p q.psisInvBitrevConstant 1 (2 ^ (l + 1 - 1 - 1)) (2 ^ l) u
      (by rw [u2, hv]; exact hb1) (by omega)
    simp only [Nat.add_sub_cancel, Nat.sub_zero, zero_add] at u1
    rw [loop_err (fun d s => (d = 0 → s = (0, v)) ∧ (d = 1 → s = (2 ^ l, u))) 1 (by omega)
      .invalidArgument ⟨fun _ => rfl, by simp⟩ ?_ ?_]
    · simp
    · intro j s hj hs
      have : j = 0 := by omega
      subst this
      rw [hs.1 rfl]
      exact ⟨_, u1, by simp, by simp⟩
    · intro s hs
      rw [hs.2 rfl]
      apply d2
      have : 0 < 2 ^ (l + 1 - 1 - 1) := by positivity
      omega

theorem not_pow2_err (p : MParams) (q : NttParams) (v : List ℕ) (h0 : v ≠ [])
    (h31 : v.length < 2 ^ 31) (h : ∀ L, v.length ≠ 2 ^ L) :
    forward p q v = .err .invalidArgument ∧ inverse p q v = .err .invalidArgument := by
  have hl : v.length ≠ 0 := by simpa using h0
  have h2 : v.length ≠ 1 <<< Nat.log2 v.length := by rw [Nat.one_shiftLeft]; exact h _
  have h3 : ¬ v.length ≥ 2 ^ 31 := by omega
  unfold forward inverse
  constructor
  · rw [if_neg hl, if_neg h3]
    simp only [ne_eq, h2, not_false_eq_true, if_true]
  · rw [if_neg hl, if_neg h3]
    simp only [ne_eq, h2, not_false_eq_true, if_true]

end Shell.Ntt
