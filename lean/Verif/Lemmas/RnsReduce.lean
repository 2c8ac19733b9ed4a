import Verif.Lemmas.RnsCreate
/-! Modulus reduction of RNS polynomials. -/

namespace Shell.Rns
open Spec Poly NttRing Ntt MParams

variable {w l : ℕ} {ms red : List Modulus} {m : Modulus} {X Y Z : RPoly} {F G H D : Fin (2 ^ l) → ℤ}

theorem _root_.Shell.Spec.Holds.divScalar {b : Bool} {v : List ℕ} (hm : GoodModulus w l m) {q : ℤ}
    (hv : Holds l m b v (fun i => q * G i)) {a : ℕ} (ha : a ≤ m.N)
    (hi : (m.N : ℤ) ∣ Mont.exportInt m.p a * q - 1) :
    ∃ r, Poly.mulScalar m.p v a = .ok r ∧ Holds l m b r G := by
  have hr : res m.p m.N a = ((Mont.exportInt m.p a : ℤ) : ZMod m.N) := by
    rw [Int.cast_natCast]; exact (res_export hm.good ha).symm
  obtain ⟨r, r1, r2⟩ := hv.mulScalar hm ha hr
  refine ⟨r, r1, r2.congr ?_ hm⟩
  funext i
  show (((Mont.exportInt m.p a : ℤ) * (q * G i) : ℤ) : ZMod m.N) = (G i : ZMod m.N)
  rw [ZMod.intCast_eq_intCast_iff_dvd_sub]
  have := hi.mul_right (G i)
  rw [← dvd_neg]
  convert this using 1
  ring

theorem repr_divRns (hg : ∀ m ∈ ms, GoodModulus w l m) {q : ℤ}
    (hX : Represents l ms X (fun i => q * G i)) {c : List ℕ} (hc : InverseIs ms c q) :
    ∃ r, mulRns ms X c = .ok r ∧ r.ntt = X.ntt ∧ Represents l ms r G := by
  obtain ⟨rs, r1, r2⟩ := perModulus_ok
    (f := fun m (vc : List ℕ × ℕ) => Poly.mulScalar m.p vc.1 vc.2)
    (R := fun m v => Holds l m X.ntt v G)
    (fun m v h => by
      obtain ⟨⟨h1, h2⟩, h3, h4⟩ := h
      exact Holds.divScalar h1 h2 h3 h4) (forall₂_zip (hX.holds hg) hc)
  refine ⟨{ X with coeffs := rs }, ?_, rfl, hX.1, r2⟩
  unfold mulRns
  rw [if_neg (by rw [← hX.len, ← List.Forall₂.length_eq hc]; simp), if_neg (by rw [← hX.len]; simp), r1]
  rfl

theorem forall₂_snoc {α β : Type} {P : α → β → Prop} {a : List α} {x : α} {b : List β}
    (h : List.Forall₂ P (a ++ [x]) b) : ∃ b' y, b = b' ++ [y] ∧ List.Forall₂ P a b' ∧ P x y := by
  have h1 := List.forall₂_take_append b a [x] (h.flip) |>.flip
  have h2 := List.forall₂_drop_append b a [x] (h.flip) |>.flip
  generalize hd : List.drop a.length b = d at h2
  cases h2 with
  | cons hy hn =>
    cases hn
    exact ⟨_, _, by rw [← hd, List.take_append_drop], h1, hy⟩

theorem _root_.Shell.Spec.Holds.balancedTo {v : List ℕ} {m' : Modulus} (hm : GoodModulus w l m)
    (hm' : GoodModulus w l m') (hv : Holds l m false v F) :
    Holds l m' false (Convert.convertModulusBalanced v m.p m'.p)
      (fun i => centered m.N (F i : ZMod m.N)) := by
  have h1 : Rep m.p m.N (2 ^ l) v (modq m.N F) := by
    rw [← coeffsAre_iff hm.good]; unfold Holds at hv; simpa using hv
  have := convertBalanced_rep hm.create hm'.create h1
  rw [← coeffsAre_iff hm'.good] at this
  unfold Holds
  simp only [Bool.false_eq_true, if_false]
  exact this

/-- Splitting off the last modulus. -/
theorem split_last (hX : Represents l (red ++ [m]) X F) :
    ∃ cs v, X = ⟨l, cs ++ [v], X.ntt⟩ ∧ Represents l red ⟨l, cs, X.ntt⟩ F ∧ Holds l m X.ntt v F ∧
      cs.length = red.length := by
  obtain ⟨b', y, e, h1, h2⟩ := forall₂_snoc hX.2
  refine ⟨b', y, ?_, ⟨rfl, h1⟩, h2, h1.length_eq.symm⟩
  obtain ⟨a, b, c⟩ := X
  simp only at e
  subst e
  rw [← hX.1]

theorem deltaPoly (hg : ∀ m ∈ red, GoodModulus w l m) (hm : GoodModulus w l m) {d : List ℕ}
    (hd : Holds l m false d F) :
    Represents l red ⟨l, red.map fun m' => Convert.convertModulusBalanced d m.p m'.p, false⟩
      (fun i => centered m.N (F i : ZMod m.N)) := by
  refine ⟨rfl, ?_⟩
  simp only
  rw [List.forall₂_map_right_iff, List.forall₂_same]
  exact fun m' hm' => hd.balancedTo hm (hg m' hm')

theorem repr_modReduceMsb (hg : ∀ m ∈ red, GoodModulus w l m) (hm : GoodModulus w l m)
    (hne : red ≠ []) (hX : Represents l (red ++ [m]) X F) {c : List ℕ} (hc : InverseIs red c m.N)
    (hG : ∀ i, (m.N : ℤ) * G i = F i - centered m.N (F i : ZMod m.N)) :
    ∃ r, modReduceMsb c (red ++ [m]) X = .ok r ∧ r.ntt = X.ntt ∧ Represents l red r G := by
  obtain ⟨cs, v, hXe, h1, h2, h3⟩ := split_last hX
  generalize hb : X.ntt = b at *
  subst hXe
  have hlen : 0 < red.length := List.length_pos_iff.mpr hne
  have hcl := List.Forall₂.length_eq hc
  have htake : (red ++ [m]).take cs.length = red := by rw [h3]; simp
  have hFG : F - (fun i => centered m.N (F i : ZMod m.N)) = fun i => (m.N : ℤ) * G i := by
    funext i; rw [hG i]; rfl
  unfold modReduceMsb
  rw [if_neg (by simp [h3]), if_neg (by rw [List.length_append, List.length_singleton]; omega),
    if_neg (by rw [List.length_append, List.length_singleton]; omega)]
  have e1 : detachLast ⟨l, cs ++ [v], b⟩ = .ok (v, ⟨l, cs, b⟩) := by
    simp [detachLast]
  have e2 : lastModulus (red ++ [m]) = .ok m := by simp [lastModulus]
  rw [e1, Outcome.bind_ok]
  dsimp only
  rw [e2, Outcome.bind_ok, htake]
  cases b with
  | true =>
    rw [if_pos rfl]
    obtain ⟨d, d1, d2⟩ := h2.inverse hm
    obtain ⟨δ, δ1, δ2, δ3⟩ := repr_toNtt hg (deltaPoly hg hm d2) rfl
    obtain ⟨s, s1, s2, s3⟩ := repr_sub hg h1 δ3 δ2.symm
    rw [hFG] at s3
    obtain ⟨r, r1, r2, r3⟩ := repr_divRns hg s3 hc
    exact ⟨r, by rw [d1, Outcome.bind_ok, δ1, Outcome.bind_ok, s1, Outcome.bind_ok, r1],
      by rw [r2, s2], r3⟩
  | false =>
    rw [if_neg (by simp)]
    obtain ⟨rs, r1, r2⟩ := perModulus_ok
      (f := fun m' (vc : List ℕ × ℕ) => do
        let u ← Poly.sub m'.p vc.1 (Convert.convertModulusBalanced v m.p m'.p)
        Poly.mulScalar m'.p u vc.2)
      (R := fun m v => Holds l m false v G)
      (fun m' vc h => by
        obtain ⟨⟨g1, g2⟩, g3, g4⟩ := h
        obtain ⟨u, u1, u2⟩ := Holds.sub g1 g2 (h2.balancedTo hm g1)
        rw [hFG] at u2
        obtain ⟨r, r1, r2⟩ := Holds.divScalar g1 u2 g3 g4
        exact ⟨r, by rw [u1, Outcome.bind_ok, r1], r2⟩) (forall₂_zip (h1.holds hg) hc)
    refine ⟨⟨l, rs, false⟩, ?_, rfl, rfl, r2⟩
    show ((perModulus _ red (cs.zip c)).bind _) = _
    rw [r1]; rfl

theorem repr_modReduceLsb (hg : ∀ m ∈ red, GoodModulus w l m) (hm : GoodModulus w l m)
    (hne : red ≠ []) (hX : Represents l (red ++ [m]) X F) {c : List ℕ} (hc : InverseIs red c m.N)
    {t : ℕ} (ht : 0 < t) (htw : t < 2 ^ w)
    (hG : ∀ i, (m.N : ℤ) * G i = (m.N % t : ℕ) * F i +
      t * centered m.N ((((m.N - m.N % t) / t : ℕ) * F i : ℤ) : ZMod m.N)) :
    ∃ r, modReduceLsb t c (red ++ [m]) X = .ok r ∧ r.ntt = X.ntt ∧ Represents l red r G := by
  obtain ⟨cs, v, hXe, h1, h2, h3⟩ := split_last hX
  generalize hb : X.ntt = b at *
  subst hXe
  have hlen : 0 < red.length := List.length_pos_iff.mpr hne
  have hcl := List.Forall₂.length_eq hc
  have htake : (red ++ [m]).take cs.length = red := by rw [h3]; simp
  have h4 := hm.good.lt
  have hrw : m.N % t < 2 ^ w := (Nat.mod_lt _ ht).trans htw
  have hkw : (m.N - m.N % t) / t < 2 ^ w := by
    have := Nat.div_le_self (m.N - m.N % t) t; omega
  unfold modReduceLsb
  rw [if_neg (by simp [h3]), if_neg (by rw [List.length_append, List.length_singleton]; omega),
    if_neg (by rw [List.length_append, List.length_singleton]; omega)]
  have e1 : detachLast ⟨l, cs ++ [v], b⟩ = .ok (v, ⟨l, cs, b⟩) := by
    simp [detachLast]
  have e2 : lastModulus (red ++ [m]) = .ok m := by simp [lastModulus]
  rw [e1, Outcome.bind_ok]
  dsimp only
  rw [e2, Outcome.bind_ok, if_neg (by omega)]
  obtain ⟨d0, d01, d02⟩ := h2.mulScalar hm (res_importInt hm hkw).1 (res_importInt hm hkw).2
  obtain ⟨x1, x11, x12, x13⟩ := repr_mulInt hg h1 hrw
  rw [d01, Outcome.bind_ok, htake, x11, Outcome.bind_ok]
  simp only at x12
  generalize hr : m.N % t = rr at *
  generalize hk : (m.N - rr) / t = k at *
  have hFG : (fun i => (rr : ℤ) * F i) + (fun i => (t : ℤ) * centered m.N ((k * F i : ℤ) : ZMod m.N)) =
      fun i => (m.N : ℤ) * G i := by
    funext i; rw [hG i]; rfl
  cases b with
  | true =>
    rw [if_pos x12]
    obtain ⟨d, d1, d2⟩ := d02.inverse hm
    obtain ⟨δ, δ1, δ2, δ3⟩ := repr_toNtt hg (deltaPoly hg hm d2) rfl
    obtain ⟨ε, ε1, ε2, ε3⟩ := repr_mulInt hg δ3 htw
    obtain ⟨s, s1, s2, s3⟩ := repr_add hg x13 ε3 (by rw [x12, ε2, δ2])
    rw [hFG] at s3
    obtain ⟨r, r1, r2, r3⟩ := repr_divRns hg s3 hc
    refine ⟨r, ?_, by rw [r2, s2, x12], r3⟩
    rw [d1, Outcome.bind_ok, x13.1, δ1, Outcome.bind_ok, ε1, Outcome.bind_ok, s1, Outcome.bind_ok, r1]
  | false =>
    rw [if_neg (by simp [x12])]
    have x14 := x13.holds hg
    rw [x12] at x14
    obtain ⟨rs, r1, r2⟩ := perModulus_ok
      (f := fun m' (vc : List ℕ × ℕ) => do
        let e ← Poly.mulScalar m'.p (Convert.convertModulusBalanced d0 m.p m'.p)
          (Mont.importInt m'.p t)
        let u ← Poly.add m'.p vc.1 e
        Poly.mulScalar m'.p u vc.2)
      (R := fun m v => Holds l m false v G)
      (fun m' vc h => by
        obtain ⟨⟨g1, g2⟩, g3, g4⟩ := h
        obtain ⟨e, e1, e2⟩ := (d02.balancedTo hm g1).mulScalar g1 (res_importInt g1 htw).1
          (res_importInt g1 htw).2
        obtain ⟨u, u1, u2⟩ := Holds.add g1 g2 e2
        rw [hFG] at u2
        obtain ⟨r, r1, r2⟩ := Holds.divScalar g1 u2 g3 g4
        exact ⟨r, by rw [e1, Outcome.bind_ok, u1, Outcome.bind_ok, r1], r2⟩) (forall₂_zip x14 hc)
    refine ⟨⟨x1.logN, rs, x1.ntt⟩, ?_, x12, x13.1, by simp only [x12]; exact r2⟩
    show ((perModulus _ red (x1.coeffs.zip c)).bind _) = _
    rw [r1]; rfl

end Shell.Rns
