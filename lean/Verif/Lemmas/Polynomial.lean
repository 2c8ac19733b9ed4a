import Verif.Model.Polynomial
import Verif.Lemmas.NttRing
import Verif.Lemmas.Ntt
/-!
Operations on stored words compute the operations on residue vectors.
-/

namespace Shell.Poly
open NttRing Ntt
variable {p : MParams} {w N : ℕ} {n : ℕ}

/-- The stored words `v` represent the residue vector `x`. -/
structure Rep (p : MParams) (N n : ℕ) (v : List ℕ) (x : Fin n → ZMod N) : Prop where
  len : v.length = n
  le : ∀ i < n, v.getD i 0 ≤ N
  val : ∀ i : Fin n, res p N (v.getD i 0) = x i

theorem getD_map' (f : ℕ → ℕ) {v : List ℕ} {i : ℕ} (hi : i < v.length) :
    (v.map f).getD i 0 = f (v.getD i 0) := by
  rw [List.getD_eq_getElem _ _ (by simpa using hi), List.getElem_map, List.getD_eq_getElem _ _ hi]

theorem getD_zipWith' {α : Type} (d : α) (f : ℕ → α → ℕ) {u : List ℕ} {v : List α} {i : ℕ}
    (hi : i < u.length) (hj : i < v.length) :
    (List.zipWith f u v).getD i 0 = f (u.getD i 0) (v.getD i d) := by
  rw [List.getD_eq_getElem _ _ (by simp; omega), List.getElem_zipWith,
    List.getD_eq_getElem _ _ hi, List.getD_eq_getElem _ _ hj]

theorem getD_zip' {α β : Type} (d : α) (e : β) {u : List α} {v : List β} {i : ℕ}
    (hi : i < u.length) (hj : i < v.length) :
    (u.zip v).getD i (d, e) = (u.getD i d, v.getD i e) := by
  rw [List.getD_eq_getElem _ _ (by simp; omega), List.getElem_zip,
    List.getD_eq_getElem _ _ hi, List.getD_eq_getElem _ _ hj]

/-- A word-wise operation. -/
theorem Rep.map {v : List ℕ} {x : Fin n → ZMod N} (hv : Rep p N n v x) (f : ℕ → ℕ)
    (F : ZMod N → ZMod N)
    (hf : ∀ a ≤ N, f a ≤ N ∧ res p N (f a) = F (res p N a)) :
    Rep p N n (v.map f) (fun i => F (x i)) := by
  refine ⟨by simp [hv.len], fun i hi => ?_, fun i => ?_⟩
  · rw [getD_map' f (by rw [hv.len]; exact hi)]; exact (hf _ (hv.le i hi)).1
  · rw [getD_map' f (by rw [hv.len]; exact i.2), (hf _ (hv.le i i.2)).2, hv.val]

theorem Rep.zip {u v : List ℕ} {x y : Fin n → ZMod N} (hu : Rep p N n u x) (hv : Rep p N n v y)
    (f : ℕ → ℕ → ℕ) (F : ZMod N → ZMod N → ZMod N)
    (hf : ∀ a ≤ N, ∀ b ≤ N, f a b ≤ N ∧ res p N (f a b) = F (res p N a) (res p N b)) :
    Rep p N n (List.zipWith f u v) (fun i => F (x i) (y i)) := by
  refine ⟨by simp [hu.len, hv.len], fun i hi => ?_, fun i => ?_⟩
  · rw [getD_zipWith' 0 f (by rw [hu.len]; exact hi) (by rw [hv.len]; exact hi)]
    exact (hf _ (hu.le i hi) _ (hv.le i hi)).1
  · rw [getD_zipWith' 0 f (by rw [hu.len]; exact i.2) (by rw [hv.len]; exact i.2),
      (hf _ (hu.le i i.2) _ (hv.le i i.2)).2, hu.val, hv.val]

variable {u v t : List ℕ} {x y z : Fin n → ZMod N}

theorem Rep.add (g : Good p w N) (hu : Rep p N n u x) (hv : Rep p N n v y) :
    ∃ r, addInPlace p u v = (r, none) ∧ Rep p N n r (x + y) := by
  have h4 := g.lt
  refine ⟨_, ?_, hu.zip hv (Mont.add p) (· + ·) (fun a ha b hb =>
    ⟨(add_lt g (by omega)).le, res_add g (by omega)⟩)⟩
  unfold addInPlace; rw [if_neg (by simp [hu.len, hv.len])]

theorem Rep.sub (g : Good p w N) (hu : Rep p N n u x) (hv : Rep p N n v y) :
    ∃ r, subInPlace p u v = (r, none) ∧ Rep p N n r (x - y) := by
  have h4 := g.lt
  refine ⟨_, ?_, hu.zip hv (Mont.sub p) (· - ·) (fun a ha b hb =>
    ⟨(sub_lt g hb (by omega)).le, res_sub g hb (by omega)⟩)⟩
  unfold subInPlace; rw [if_neg (by simp [hu.len, hv.len])]

theorem Rep.mul (g : Good p w N) (hu : Rep p N n u x) (hv : Rep p N n v y) :
    ∃ r, mulInPlace p u v = (r, none) ∧ Rep p N n r (x * y) := by
  refine ⟨_, ?_, hu.zip hv (Mont.mul p) (· * ·) (fun a ha b hb =>
    ⟨(mul_lt g ha hb).le, res_mul g ha hb⟩)⟩
  unfold mulInPlace; rw [if_neg (by simp [hu.len, hv.len])]

theorem Rep.mulScalar (g : Good p w N) (hu : Rep p N n u x) {c : ℕ} (hc : c ≤ N) :
    ∃ r, mulScalarInPlace p u c = (r, none) ∧ Rep p N n r (fun i => res p N c * x i) := by
  refine ⟨_, rfl, ?_⟩
  have := hu.map (fun a => Mont.mul p a c) (fun a => res p N c * a) (fun a ha =>
    ⟨(mul_lt g ha hc).le, by rw [res_mul g ha hc, mul_comm]⟩)
  exact this

theorem Rep.negate (g : Good p w N) (hu : Rep p N n u x) :
    Rep p N n (Poly.negate p u) (-x) :=
  hu.map (Mont.negate p) (fun a => -a) (fun _ ha => ⟨negate_le g ha, res_negate g ha⟩)

theorem Rep.fusedMulAdd (g : Good p w N) (ht : Rep p N n t z) (hu : Rep p N n u x)
    (hv : Rep p N n v y) :
    ∃ r, fusedMulAddInPlace p t u v = (r, none) ∧ Rep p N n r (z + x * y) := by
  refine ⟨_, by unfold fusedMulAddInPlace; rw [if_neg (by simp [ht.len, hu.len, hv.len])], ?_, ?_, ?_⟩
  · simp [ht.len, hu.len, hv.len]
  · intro i hi
    rw [getD_zipWith' (0, 0) _ (by rw [ht.len]; exact hi) (by simp [hu.len, hv.len, hi]),
      getD_zip' 0 0 (by rw [hu.len]; exact hi) (by rw [hv.len]; exact hi)]
    exact (fusedMulAdd_core g (ht.le i hi) (hu.le i hi) (hv.le i hi)).1.le
  · intro i
    have hi := i.2
    rw [getD_zipWith' (0, 0) _ (by rw [ht.len]; exact hi) (by simp [hu.len, hv.len]),
      getD_zip' 0 0 (by rw [hu.len]; exact hi) (by rw [hv.len]; exact hi)]
    simp only
    rw [res_fusedMulAdd g (ht.le i hi) (hu.le i hi) (hv.le i hi), ht.val, hu.val, hv.val]
    rfl

/-- The constant representation of a represented vector. -/
theorem computeConstant_ok (v : List ℕ) :
    computeConstant p v = .ok ⟨v.map fun a => (Mont.getConstant p a).1,
      v.map fun a => (Mont.getConstant p a).2⟩ := by
  unfold computeConstant Const.create; simp

theorem Rep.mulConstant (g : Good p w N) (hu : Rep p N n u x) (hv : Rep p N n v y) {b : Const}
    (hb : computeConstant p v = .ok b) :
    ∃ r, mulConstantInPlace p u b = (r, none) ∧ Rep p N n r (x * y) := by
  have h4 := g.lt
  rw [computeConstant_ok] at hb
  cases hb
  refine ⟨_, by unfold mulConstantInPlace; rw [if_neg (by simp [hu.len, hv.len])], ?_, ?_, ?_⟩
  · simp [hu.len, hv.len]
  · intro i hi
    have h1 : i < u.length := by rw [hu.len]; exact hi
    have h2 : i < v.length := by rw [hv.len]; exact hi
    rw [getD_zipWith' (0, 0) _ h1 (by simpa using h2), getD_zip' 0 0 (by simpa using h2)
      (by simpa using h2), getD_map' _ h2, getD_map' _ h2]
    have := hu.le i hi
    exact (mulConstant_lt g (by omega) (hv.le i hi)).le
  · intro i
    have hi := i.2
    have h1 : (i : ℕ) < u.length := by rw [hu.len]; exact hi
    have h2 : (i : ℕ) < v.length := by rw [hv.len]; exact hi
    rw [getD_zipWith' (0, 0) _ h1 (by simpa using h2), getD_zip' 0 0 (by simpa using h2)
      (by simpa using h2), getD_map' _ h2, getD_map' _ h2]
    have := hu.le i hi
    simp only
    rw [res_mulConstant g (by omega) (hv.le i hi), hu.val, hv.val]
    rfl

theorem Rep.fusedMulConstantAdd (g : Good p w N) (ht : Rep p N n t z) (hu : Rep p N n u x)
    (hv : Rep p N n v y) {b : Const} (hb : computeConstant p v = .ok b) :
    ∃ r, fusedMulConstantAddInPlace p t u b = (r, none) ∧ Rep p N n r (z + x * y) := by
  have h4 := g.lt
  rw [computeConstant_ok] at hb
  cases hb
  refine ⟨_, by
    unfold fusedMulConstantAddInPlace; rw [if_neg (by simp [ht.len, hu.len, hv.len])], ?_, ?_, ?_⟩
  · simp [ht.len, hu.len, hv.len]
  · intro i hi
    have h0 : i < t.length := by rw [ht.len]; exact hi
    have h1 : i < u.length := by rw [hu.len]; exact hi
    have h2 : i < v.length := by rw [hv.len]; exact hi
    rw [getD_zipWith' (0, (0, 0)) _ h0 (by simp; omega), getD_zip' 0 (0, 0) h1 (by simp; omega),
      getD_zip' 0 0 (by simpa using h2) (by simpa using h2), getD_map' _ h2, getD_map' _ h2]
    exact (fusedMulConstantAdd_export g (ht.le i hi) (hu.le i hi) (hv.le i hi)).1.le
  · intro i
    have hi := i.2
    have h0 : (i : ℕ) < t.length := by rw [ht.len]; exact hi
    have h1 : (i : ℕ) < u.length := by rw [hu.len]; exact hi
    have h2 : (i : ℕ) < v.length := by rw [hv.len]; exact hi
    rw [getD_zipWith' (0, (0, 0)) _ h0 (by simp; omega), getD_zip' 0 (0, 0) h1 (by simp; omega),
      getD_zip' 0 0 (by simpa using h2) (by simpa using h2), getD_map' _ h2, getD_map' _ h2]
    simp only
    rw [res_fusedMulConstantAdd g (ht.le i hi) (hu.le i hi) (hv.le i hi), ht.val, hu.val, hv.val]
    rfl

/-! Transforms. -/

variable {l : ℕ} {psi : ZMod N} {q : NttParams}

theorem Rep.forward {v : List ℕ} {f : Fin (2 ^ l) → ZMod N} (g : Good p w N)
    (t : Tables p w N l psi q) (hv : Rep p N (2 ^ l) v f) :
    ∃ r, convertToNtt p q v = .ok r ∧ Rep p N (2 ^ l) r (ntt psi l f) ∧
      ∀ i < 2 ^ l, r.getD i 0 < N := by
  obtain ⟨r, r1, r2, r3, _, r5⟩ := forward_ok g t l le_rfl v hv.len
    (fun i hi => hv.le i (by rw [← hv.len]; exact hi))
  have hl1 := t.l1
  refine ⟨r, by unfold convertToNtt; rw [r1], ⟨r2, fun i hi => (r3 i hi).1, fun i => ?_⟩,
    fun i hi => (r3 i hi).2 (by omega)⟩
  rw [r5 i i.2]
  unfold ntt ev point
  rw [Nat.sub_self, pow_zero, pow_one,
    ← Fin.sum_univ_eq_sum_range (fun j => res p N (v.getD j 0) * (psi ^ (1 + 2 * bitrev i l)) ^ j)]
  apply Finset.sum_congr rfl
  intro j _
  rw [hv.val]

theorem Rep.inverse {v : List ℕ} {F : Fin (2 ^ l) → ZMod N} (g : Good p w N) (hp : N.Prime)
    (t : Tables p w N l psi q) (hv : Rep p N (2 ^ l) v F) :
    ∃ r, inverseNtt p q v = .ok r ∧ Rep p N (2 ^ l) r (intt psi l F) ∧
      ∀ i < 2 ^ l, r.getD i 0 < N := by
  obtain ⟨r, r1, r2, r3, r4⟩ := inverse_ok g t v hv.len
    (fun i hi => hv.le i (by rw [← hv.len]; exact hi))
  have hr : Rep p N (2 ^ l) r (fun i => res p N (r.getD i 0)) :=
    ⟨r2, fun i hi => (r3 i hi).le, fun _ => rfl⟩
  obtain ⟨o, o1, o2, o3, o4, o5⟩ := forward_ok g t l le_rfl r r2
    (fun x hx => (r3 x (by omega)).le)
  have key : ntt psi l (fun i => res p N (r.getD i 0)) = F := by
    funext i
    have h1 := o4 i i.2
    rw [mfwd_congr _ l r4 l le_rfl i i.2, mfwd_smul, mfwd_minv _ _ l _ t.TU l le_rfl i i.2,
      Nat.sub_self] at h1
    have h2 : res p N (o.getD i 0) = F i := by
      rw [h1, ← hv.val]
      show _ * (_ * res p N (v.getD i 0)) = _
      linear_combination (res p N (v.getD i 0)) * t.nInv
    rw [← h2, o5 i i.2]
    unfold ntt ev point
    rw [Nat.sub_self, pow_zero, pow_one, ← Fin.sum_univ_eq_sum_range
      (fun j => res p N (r.getD j 0) * (psi ^ (1 + 2 * bitrev i l)) ^ j)]
  refine ⟨r, by unfold inverseNtt; rw [r1], ?_, r3⟩
  rw [← key, intt_ntt hp g.odd t.root (by have := t.l15; omega)]
  exact hr

theorem substitute_spec {l k : ℕ} (hl : l ≤ 29) (q : NttParams) (hq : q.bitrevs = bitrevArray l)
    (v : List ℕ) (hv : v.length = 2 ^ l) (hk : k % 2 = 1) (hk2 : k < 2 * 2 ^ l) :
    ∃ r, substitute q v k = .ok r ∧ r.length = 2 ^ l ∧ ∀ x < 2 ^ l,
      r.getD x 0 = v.getD (bitrev (((k - 1) / 2 + bitrev x l * k) % 2 ^ l) l) 0 := by
  have hlt : 2 ^ l ≤ 2 ^ 29 := Nat.pow_le_pow_right (by norm_num) hl
  have hpos : 0 < 2 ^ l := by positivity
  unfold substitute
  have t1 : (k : ℤ).tmod 2 = (k : ℤ) % 2 := Int.tmod_eq_emod_of_nonneg (by omega)
  have t2 : ((k : ℤ) - 1).tdiv 2 = ((k : ℤ) - 1) / 2 := Int.tdiv_eq_ediv_of_nonneg (by omega)
  rw [if_neg (by omega), if_neg (by omega), if_neg (by omega)]
  have key := loop_ok (n := v.length) (f := substStep q.bitrevs v (k : ℤ).toNat)
    (s := ((((k : ℤ) - 1).tdiv 2).toNat, v))
    (P := fun i s => s.1 = ((k - 1) / 2 + i * k) % 2 ^ l ∧ s.2.length = 2 ^ l ∧ ∀ x < 2 ^ l,
      s.2.getD x 0 = if bitrev x l < i then
        v.getD (bitrev (((k - 1) / 2 + bitrev x l * k) % 2 ^ l) l) 0 else v.getD x 0) ?_ ?_
  · obtain ⟨s, s1, s2, s3, s4⟩ := key
    rw [s1, Outcome.bind_ok]
    refine ⟨s.2, rfl, s3, fun x hx => ?_⟩
    rw [s4 x hx, if_pos (by rw [hv]; exact bitrev_lt l x (by omega))]
  · refine ⟨?_, hv, fun x _ => by rw [if_neg (by omega)]⟩
    simp only [zero_mul, add_zero]
    rw [Nat.mod_eq_of_lt (by omega), t2]
    omega
  · rintro i ⟨idx, u⟩ hi ⟨e1, e2, e3⟩
    simp only at e1 e2 e3
    subst e1
    have hm : ((k - 1) / 2 + i * k) % 2 ^ l < 2 ^ l := Nat.mod_lt _ hpos
    have hb := bitrev_lt l (((k - 1) / 2 + i * k) % 2 ^ l) (by omega)
    have hbi := bitrev_lt l i (by omega)
    unfold substStep
    simp only
    rw [hq, rd_bitrevArray hm, Outcome.bind_ok, if_neg (by omega), rd_getD 0 (by omega),
      Outcome.bind_ok, rd_bitrevArray (by omega), Outcome.bind_ok, wr_ok (by omega),
      Outcome.bind_ok]
    refine ⟨_, rfl, ?_, by simp [e2], fun x hx => ?_⟩
    · simp only [Int.toNat_natCast]
      rw [hv, Nat.mod_add_mod]; congr 1; ring
    · simp only
      rw [getD_set _ _ _ _ _ (by omega)]
      by_cases hx' : bitrev i l = x
      · have : bitrev x l = i := by rw [← hx', bitrev_invol l i (by omega) (by omega)]
        rw [if_pos hx', this, if_pos (by omega)]
      · rw [if_neg hx', e3 x hx]
        have : bitrev x l ≠ i := fun hc => hx' (by rw [← hc, bitrev_invol l x (by omega) hx])
        have hiff : bitrev x l < i + 1 ↔ bitrev x l < i := by omega
        simp only [hiff]

theorem Rep.substitute {v : List ℕ} {F : Fin (2 ^ l) → ZMod N} (hl : l ≤ 29)
    (hq : q.bitrevs = bitrevArray l) (hv : Rep p N (2 ^ l) v F) {k : ℕ} (hk : k % 2 = 1)
    (hk2 : k < 2 * 2 ^ l) :
    ∃ r, Poly.substitute q v k = .ok r ∧ Rep p N (2 ^ l) r (subst l k F) := by
  obtain ⟨r, r1, r2, r3⟩ := substitute_spec hl q hq v hv.len hk hk2
  have hm : ∀ x, bitrev (((k - 1) / 2 + bitrev x l * k) % 2 ^ l) l < 2 ^ l :=
    fun x => bitrev_lt l _ (by omega)
  refine ⟨r, r1, r2, fun i hi => ?_, fun i => ?_⟩
  · rw [r3 i hi]; exact hv.le _ (hm i)
  · rw [r3 i i.2]
    have := hv.val ⟨_, hm i⟩
    simp only at this
    rw [this]
    unfold subst
    congr 1
    apply Fin.ext
    simp [Fin.ofNat, Nat.mod_eq_of_lt (hm i)]

end Shell.Poly
