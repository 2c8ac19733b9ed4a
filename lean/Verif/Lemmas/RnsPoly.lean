import Verif.Lemmas.Rns
/-! Operations on RNS polynomials. -/

namespace Shell.Rns
open Spec Poly NttRing Ntt MParams

variable {w l : ℕ} {ms : List Modulus} {X Y Z : RPoly} {F G H : Fin (2 ^ l) → ℤ}

theorem repr_add (hg : ∀ m ∈ ms, GoodModulus w l m) (hX : Represents l ms X F)
    (hY : Represents l ms Y G) (hf : X.ntt = Y.ntt) :
    ∃ r, add ms X Y = .ok r ∧ r.ntt = X.ntt ∧ Represents l ms r (F + G) := by
  have h2 := hY.2
  rw [← hf] at h2
  obtain ⟨rs, r1, r2⟩ := perModulus_ok
    (f := fun m (vs : List ℕ × List ℕ) => Poly.add m.p vs.1 vs.2)
    (R := fun m v => Holds l m X.ntt v (F + G))
    (fun m v h => by
      obtain ⟨⟨h1, h2⟩, h3⟩ := h
      exact Holds.add h1 h2 h3) (forall₂_zip (hX.holds hg) h2)
  refine ⟨{ X with coeffs := rs }, ?_, rfl, hX.1, r2⟩
  unfold add
  rw [if_neg (by rw [← hX.len, ← hY.len]; simp), if_neg (by rw [← hX.len]; simp), r1]
  rfl

theorem repr_sub (hg : ∀ m ∈ ms, GoodModulus w l m) (hX : Represents l ms X F)
    (hY : Represents l ms Y G) (hf : X.ntt = Y.ntt) :
    ∃ r, sub ms X Y = .ok r ∧ r.ntt = X.ntt ∧ Represents l ms r (F - G) := by
  have h2 := hY.2
  rw [← hf] at h2
  obtain ⟨rs, r1, r2⟩ := perModulus_ok
    (f := fun m (vs : List ℕ × List ℕ) => Poly.sub m.p vs.1 vs.2)
    (R := fun m v => Holds l m X.ntt v (F - G))
    (fun m v h => by
      obtain ⟨⟨h1, h2⟩, h3⟩ := h
      exact Holds.sub h1 h2 h3) (forall₂_zip (hX.holds hg) h2)
  refine ⟨{ X with coeffs := rs }, ?_, rfl, hX.1, r2⟩
  unfold sub
  rw [if_neg (by rw [← hX.len, ← hY.len]; simp), if_neg (by rw [← hX.len]; simp), r1]
  rfl

theorem repr_negateInPlace (hg : ∀ m ∈ ms, GoodModulus w l m) (hX : Represents l ms X F) :
    ∃ r, negateInPlace ms X = .ok r ∧ r.ntt = X.ntt ∧ Represents l ms r (-F) := by
  obtain ⟨rs, r1, r2⟩ := perModulus_ok
    (f := fun m (v : List ℕ) => .ok (Poly.negate m.p v))
    (R := fun m v => Holds l m X.ntt v (-F))
    (fun m v h => ⟨_, rfl, h.2.neg h.1⟩) (hX.holds hg)
  refine ⟨{ X with coeffs := rs }, ?_, rfl, hX.1, r2⟩
  unfold negateInPlace
  rw [if_neg (by rw [← hX.len]; simp), r1]
  rfl

theorem repr_negate (hg : ∀ m ∈ ms, GoodModulus w l m) (hX : Represents l ms X F) :
    ∃ r, negate ms X = .ok r ∧ r.ntt = X.ntt ∧ Represents l ms r (-F) := by
  obtain ⟨r, h1, h2⟩ := repr_negateInPlace hg hX
  exact ⟨r, by unfold negate; rw [h1], h2⟩

theorem res_importInt {m : Modulus} (hm : GoodModulus w l m) {c : ℕ} (hc : c < 2 ^ w) :
    Mont.importInt m.p c ≤ m.N ∧ res m.p m.N (Mont.importInt m.p c) = ((c : ℤ) : ZMod m.N) := by
  refine ⟨(importInt_lt hm.good c hc).le, ?_⟩
  rw [res_import hm.good hc, Int.cast_natCast]

theorem repr_mulInt (hg : ∀ m ∈ ms, GoodModulus w l m) (hX : Represents l ms X F) {c : ℕ}
    (hc : c < 2 ^ w) :
    ∃ r, mulInt ms X c = .ok r ∧ r.ntt = X.ntt ∧ Represents l ms r (fun i => c * F i) := by
  obtain ⟨rs, r1, r2⟩ := perModulus_ok
    (f := fun m (v : List ℕ) => Poly.mulScalar m.p v (Mont.importInt m.p c))
    (R := fun m v => Holds l m X.ntt v (fun i => c * F i))
    (fun m v h => h.2.mulScalar h.1 (res_importInt h.1 hc).1 (res_importInt h.1 hc).2) (hX.holds hg)
  refine ⟨{ X with coeffs := rs }, ?_, rfl, hX.1, r2⟩
  unfold mulInt
  rw [if_neg (by rw [← hX.len]; simp), r1]
  rfl

theorem res_of_export {m : Modulus} (hm : GoodModulus w l m) {a : ℕ} {z : ℤ} (ha : a ≤ m.N)
    (h : (Mont.exportInt m.p a : ℤ) = z % m.N) : res m.p m.N a = (z : ZMod m.N) := by
  haveI : NeZero m.N := ⟨by have := hm.good.pos; omega⟩
  rw [← res_export hm.good ha]
  have h4 : ((Mont.exportInt m.p a : ℤ) : ZMod m.N) = ((z % m.N : ℤ) : ZMod m.N) := by rw [h]
  rw [Int.cast_natCast, ZMod.intCast_mod] at h4
  exact h4

theorem repr_mulRns (hg : ∀ m ∈ ms, GoodModulus w l m) (hX : Represents l ms X F) {c : List ℕ} {z : ℤ}
    (hc : RnsIntIs ms c z) :
    ∃ r, mulRns ms X c = .ok r ∧ r.ntt = X.ntt ∧ Represents l ms r (fun i => z * F i) := by
  obtain ⟨rs, r1, r2⟩ := perModulus_ok
    (f := fun m (vc : List ℕ × ℕ) => Poly.mulScalar m.p vc.1 vc.2)
    (R := fun m v => Holds l m X.ntt v (fun i => z * F i))
    (fun m v h => by
      obtain ⟨⟨h1, h2⟩, h3, h4⟩ := h
      exact h2.mulScalar h1 h3 (res_of_export h1 h3 h4)) (forall₂_zip (hX.holds hg) hc)
  refine ⟨{ X with coeffs := rs }, ?_, rfl, hX.1, r2⟩
  unfold mulRns
  rw [if_neg (by rw [← hX.len, ← List.Forall₂.length_eq hc]; simp), if_neg (by rw [← hX.len]; simp), r1]
  rfl

theorem repr_mul (hg : ∀ m ∈ ms, GoodModulus w l m) (hX : Represents l ms X F)
    (hY : Represents l ms Y G) (h1 : X.ntt = true) (h2 : Y.ntt = true) :
    ∃ r, mul ms X Y = .ok r ∧ r.ntt = true ∧ Represents l ms r (negMul F G) := by
  have hx := hX.holds hg
  have hy := hY.2
  rw [h1] at hx
  rw [h2] at hy
  obtain ⟨rs, r1, r2⟩ := perModulus_ok
    (f := fun m (vs : List ℕ × List ℕ) => Poly.mul m.p vs.1 vs.2)
    (R := fun m v => Holds l m true v (negMul F G))
    (fun m v h => by
      obtain ⟨⟨h1, h2⟩, h3⟩ := h
      exact Holds.mul h1 h2 h3) (forall₂_zip hx hy)
  refine ⟨{ X with coeffs := rs }, ?_, h1, hX.1, by rw [← h1] at r2; exact r2⟩
  unfold mul
  rw [if_neg (by rw [← hX.len, ← hY.len]; simp), if_neg (by rw [← hX.len]; simp), if_neg (by simp [h1]),
    if_neg (by simp [h2]), r1]
  rfl

theorem repr_fusedMulAdd (hg : ∀ m ∈ ms, GoodModulus w l m) (hX : Represents l ms X H)
    (hY : Represents l ms Y F) (hZ : Represents l ms Z G) (h1 : X.ntt = true) (h2 : Y.ntt = true)
    (h3 : Z.ntt = true) :
    ∃ r, fusedMulAdd ms X Y Z = .ok r ∧ r.ntt = true ∧ Represents l ms r (H + negMul F G) := by
  have hx := hX.holds hg
  have hy := hY.2
  have hz := hZ.2
  rw [h1] at hx
  rw [h2] at hy
  rw [h3] at hz
  obtain ⟨rs, r1, r2⟩ := perModulus_ok
    (f := fun m (vs : List ℕ × List ℕ × List ℕ) =>
      copying (fusedMulAddInPlace m.p vs.1 vs.2.1 vs.2.2))
    (R := fun m v => Holds l m true v (H + negMul F G))
    (fun m v h => by
      obtain ⟨⟨h1, h2⟩, h3, h4⟩ := h
      obtain ⟨r, e1, e2⟩ := Holds.fusedMulAdd h1 h2 h3 h4
      exact ⟨r, by rw [e1]; rfl, e2⟩) (forall₂_zip hx (forall₂_zip hy hz))
  refine ⟨{ X with coeffs := rs }, ?_, h1, hX.1, by rw [← h1] at r2; exact r2⟩
  unfold fusedMulAdd
  rw [if_neg (by rw [← hX.len, ← hY.len]; simp), if_neg (by rw [← hX.len, ← hZ.len]; simp),
    if_neg (by rw [← hX.len]; simp), if_neg (by simp [h1]), if_neg (by simp [h2]),
    if_neg (by simp [h3]), r1]
  rfl

theorem repr_toNtt (hg : ∀ m ∈ ms, GoodModulus w l m) (hX : Represents l ms X F)
    (h1 : X.ntt = false) :
    ∃ r, toNtt ms X = .ok r ∧ r.ntt = true ∧ Represents l ms r F := by
  have hx := hX.holds hg
  rw [h1] at hx
  obtain ⟨rs, r1, r2⟩ := perModulus_ok
    (f := fun m (v : List ℕ) => Ntt.forward m.p m.q v)
    (R := fun m v => Holds l m true v F)
    (fun m v h => h.2.forward h.1) hx
  refine ⟨⟨X.logN, rs, true⟩, ?_, rfl, hX.1, r2⟩
  unfold toNtt
  rw [if_neg (by simp [h1]), if_neg (by rw [← hX.len]; simp), r1]
  rfl

theorem repr_toCoeff (hg : ∀ m ∈ ms, GoodModulus w l m) (hX : Represents l ms X F)
    (h1 : X.ntt = true) :
    ∃ r, toCoeff ms X = .ok r ∧ r.ntt = false ∧ Represents l ms r F := by
  have hx := hX.holds hg
  rw [h1] at hx
  obtain ⟨rs, r1, r2⟩ := perModulus_ok
    (f := fun m (v : List ℕ) => Ntt.inverse m.p m.q v)
    (R := fun m v => Holds l m false v F)
    (fun m v h => h.2.inverse h.1) hx
  refine ⟨⟨X.logN, rs, false⟩, ?_, rfl, hX.1, r2⟩
  unfold toCoeff
  rw [if_neg (by simp [h1]), if_neg (by rw [← hX.len]; simp), r1]
  rfl

/-! ### Substitution -/

/-- One pass of the inner loop: the same vector as the single-modulus code, and the index is back at its
initial value. -/
theorem substLoop_spec {k : ℕ} (hl : l ≤ 29) (bitrevs : List ℕ) (hq : bitrevs = bitrevArray l)
    (v : List ℕ) (hv : v.length = 2 ^ l) (hk2 : k < 2 * 2 ^ l) (hk : k % 2 = 1) :
    ∃ s, loop (2 ^ l) (substStep (2 ^ l) bitrevs v k) ((k - 1) / 2, v) = .ok s ∧
      s.1 = (k - 1) / 2 ∧ s.2.length = 2 ^ l ∧ ∀ x < 2 ^ l,
        s.2.getD x 0 = v.getD (bitrev (((k - 1) / 2 + bitrev x l * k) % 2 ^ l) l) 0 := by
  have hlt : 2 ^ l ≤ 2 ^ 29 := Nat.pow_le_pow_right (by norm_num) hl
  have hpos : 0 < 2 ^ l := by positivity
  have key := loop_ok (n := 2 ^ l) (f := substStep (2 ^ l) bitrevs v k)
    (s := ((k - 1) / 2, v))
    (P := fun i s => s.1 = ((k - 1) / 2 + i * k) % 2 ^ l ∧ s.2.length = 2 ^ l ∧ ∀ x < 2 ^ l,
      s.2.getD x 0 = if bitrev x l < i then
        v.getD (bitrev (((k - 1) / 2 + bitrev x l * k) % 2 ^ l) l) 0 else v.getD x 0) ?_ ?_
  · obtain ⟨s, s1, s2, s3, s4⟩ := key
    refine ⟨s, s1, ?_, s3, fun x hx => ?_⟩
    · rw [s2, Nat.add_mul_mod_self_left, Nat.mod_eq_of_lt (by omega)]
    · rw [s4 x hx, if_pos (bitrev_lt l x (by omega))]
  · refine ⟨?_, hv, fun x _ => by rw [if_neg (by omega)]⟩
    simp only [zero_mul, add_zero]
    rw [Nat.mod_eq_of_lt (by omega)]
  · rintro i ⟨idx, u⟩ hi ⟨e1, e2, e3⟩
    simp only at e1 e2 e3
    subst e1
    have hm : ((k - 1) / 2 + i * k) % 2 ^ l < 2 ^ l := Nat.mod_lt _ hpos
    have hb := bitrev_lt l (((k - 1) / 2 + i * k) % 2 ^ l) (by omega)
    have hbi := bitrev_lt l i (by omega)
    unfold substStep
    simp only
    rw [hq, rd_bitrevArray hm, Outcome.bind_ok, if_neg (by omega), rd_bitrevArray (by omega),
      Outcome.bind_ok, rd_getD 0 (by omega), Outcome.bind_ok, wr_ok (by omega),
      Outcome.bind_ok]
    refine ⟨_, rfl, ?_, by simp [e2], fun x hx => ?_⟩
    · simp only
      rw [Nat.mod_add_mod]; congr 1; ring
    · simp only
      rw [getD_set _ _ _ _ _ (by omega)]
      by_cases hx' : bitrev i l = x
      · have : bitrev x l = i := by rw [← hx', bitrev_invol l i (by omega) (by omega)]
        rw [if_pos hx', this, if_pos (by omega)]
      · rw [if_neg hx', e3 x hx]
        have : bitrev x l ≠ i := fun hc => hx' (by rw [← hc, bitrev_invol l x (by omega) hx])
        have hiff : bitrev x l < i + 1 ↔ bitrev x l < i := by omega
        simp only [hiff]

theorem _root_.Shell.Spec.Holds.subst {m : Modulus} {v : List ℕ} {k : ℕ} (hm : GoodModulus w l m)
    (hv : Holds l m true v F) (hk : k % 2 = 1) (hk2 : k < 2 * 2 ^ l) :
    ∃ r, loop (2 ^ l) (substStep (2 ^ l) m.q.bitrevs v k) ((k - 1) / 2, v) = .ok ((k - 1) / 2, r) ∧
      Holds l m true r (substPow k F) := by
  obtain ⟨psi, t⟩ := hm.tables
  have hl15 := t.l15
  rw [holds_iff hm t] at hv
  obtain ⟨⟨s1, r⟩, e1, e2, e3, e4⟩ := substLoop_spec (by omega) m.q.bitrevs t.bitrevs v hv.len hk2 hk
  simp only at e2 e3 e4
  subst e2
  refine ⟨r, e1, (holds_iff hm t _ _ _).mpr ?_⟩
  have hb : ∀ x, bitrev (((k - 1) / 2 + bitrev x l * k) % 2 ^ l) l < 2 ^ l :=
    fun x => bitrev_lt l _ (by omega)
  unfold enc
  rw [if_pos rfl, modq_substPow, ntt_substPow t.root (by omega) k hk]
  unfold enc at hv
  rw [if_pos rfl] at hv
  refine ⟨e3, fun i hi => ?_, fun i => ?_⟩
  · rw [e4 i hi]; exact hv.le _ (hb i)
  · rw [e4 i i.2]
    have := hv.val ⟨_, hb i⟩
    simp only at this
    rw [this]
    unfold NttRing.subst
    congr 1
    apply Fin.ext
    simp [Fin.ofNat, Nat.mod_eq_of_lt (hb i)]

theorem substAll_ok {k : ℕ} (hk : k % 2 = 1) (hk2 : k < 2 * 2 ^ l) :
    ∀ {ms : List Modulus} {vs : List (List ℕ)},
      List.Forall₂ (fun m v => GoodModulus w l m ∧ Holds l m true v F) ms vs →
      ∃ rs, substAll (2 ^ l) k ms vs ((k - 1) / 2) = .ok rs ∧
        List.Forall₂ (fun m v => Holds l m true v (substPow k F)) ms rs := by
  intro ms vs h
  induction h with
  | nil => exact ⟨[], rfl, .nil⟩
  | cons hm _ ih =>
    obtain ⟨r, r1, r2⟩ := Holds.subst hm.1 hm.2 hk hk2
    obtain ⟨rs, h1, h2⟩ := ih
    refine ⟨r :: rs, ?_, .cons r2 h2⟩
    rw [substAll, r1, Outcome.bind_ok]
    dsimp only
    rw [h1]; rfl

theorem repr_substitute {k : ℕ} (hl : l ≤ 29) (hg : ∀ m ∈ ms, GoodModulus w l m)
    (hX : Represents l ms X F) (h1 : X.ntt = true) (hk : k % 2 = 1) (hk2 : k < 2 * 2 ^ l) :
    ∃ r, substitute ms X k = .ok r ∧ r.ntt = true ∧ Represents l ms r (substPow k F) := by
  have hx := hX.holds hg
  rw [h1] at hx
  obtain ⟨rs, r1, r2⟩ := substAll_ok hk hk2 hx
  refine ⟨{ X with coeffs := rs }, ?_, h1, hX.1, by rw [← h1] at r2; exact r2⟩
  have hlt : 2 ^ l ≤ 2 ^ 29 := Nat.pow_le_pow_right (by norm_num) hl
  have t1 : (k : ℤ).tmod 2 = (k : ℤ) % 2 := Int.tmod_eq_emod_of_nonneg (by omega)
  have t2 : ((k : ℤ) - 1).tdiv 2 = ((k : ℤ) - 1) / 2 := Int.tdiv_eq_ediv_of_nonneg (by omega)
  have t3 : (((k : ℤ) - 1) / 2).toNat = (k - 1) / 2 := by omega
  unfold substitute shl1
  rw [hX.1, if_pos (by omega), Outcome.bind_ok, if_neg (by omega), if_neg (by omega),
    if_neg (by exact_mod_cast not_le.mpr hk2), if_neg (by rw [← hX.len]; simp), if_neg (by simp [h1]), t2, t3,
    Int.toNat_natCast, r1]
  rfl

end Shell.Rns
