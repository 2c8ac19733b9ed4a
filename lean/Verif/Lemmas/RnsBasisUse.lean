import Verif.Lemmas.RnsBasis
/-! The operations built on the basis conversions. -/

namespace Shell.Rns
open Spec Poly

variable {w l : ℕ} {ms auxMs : List Modulus} {X A : RPoly} {F : Fin (2 ^ l) → ℤ}

theorem repr_ensureNtt (hg : ∀ m ∈ ms, GoodModulus w l m) (hX : Represents l ms X F) :
    ∃ r, ensureNtt ms X = .ok r ∧ r.ntt = true ∧ Represents l ms r F := by
  unfold ensureNtt
  cases hb : X.ntt with
  | true => exact ⟨X, by simp, hb, hX⟩
  | false =>
    obtain ⟨r, r1, r2⟩ := repr_toNtt hg hX hb
    exact ⟨r, by simpa using r1, r2⟩

theorem repr_approxModReduceMsb (hg : ∀ m ∈ ms, GoodModulus w l m)
    (ha : ∀ m ∈ auxMs, GoodModulus w l m) (hcop : (auxMs.map (·.N)).Pairwise Nat.Coprime)
    (hne : auxMs ≠ []) (hno : ms ≠ []) (hX : Represents l ms X F) (hA : Represents l auxMs A F)
    {pInv hatInv : List ℕ} {hatMod : List (List ℕ)} (hp : InverseIs ms pInv (modulusProd auxMs))
    (hi : HatInvs auxMs hatInv) (ht : HatResidues auxMs ms hatMod) {G : Fin (2 ^ l) → ℤ}
    (hG : ∀ i, (modulusProd auxMs : ℤ) * G i = F i - crtSum false (auxMs.map (·.N)) (F i)) :
    ∃ r, approxModReduceMsb A ms auxMs pInv hatInv hatMod X = .ok r ∧ r.ntt = true ∧
      Represents l ms r G := by
  obtain ⟨d, d1, d2, d3⟩ := repr_approxSwitch ha (fun p hp => (hg p hp).create) hcop hne hno hA hi ht
    false
  obtain ⟨e, e1, e2, e3⟩ := repr_toNtt hg d3 d2
  obtain ⟨x, x1, x2, x3⟩ := repr_ensureNtt hg hX
  obtain ⟨y, y1, y2, y3⟩ := repr_sub hg x3 e3 (x2.trans e2.symm)
  have y4 : Represents l ms y (fun i => (modulusProd auxMs : ℤ) * G i) := by
    have : (fun i => (modulusProd auxMs : ℤ) * G i) =
        F - fun i => crtSum false (auxMs.map (·.N)) (F i) := by funext i; rw [hG i]; rfl
    rw [this]; exact y3
  obtain ⟨r, r1, r2, r3⟩ := repr_divRns hg y4 hp
  refine ⟨r, ?_, by rw [r2, y2, x2], r3⟩
  unfold approxModReduceMsb
  rw [if_neg (by simpa using hX.len), if_neg (by simpa using hA.len),
    if_neg (by rw [← hX.len, hp.length_eq]; simp), if_neg (by rw [← hA.len, hi.length_eq]; simp),
    if_neg (by rw [← hA.len, ht.length_eq]; simp), d1, Outcome.bind_ok, e1, Outcome.bind_ok, x1,
    Outcome.bind_ok, y1, Outcome.bind_ok, r1]

theorem repr_approxModReduceLsb (hg : ∀ m ∈ ms, GoodModulus w l m)
    (ha : ∀ m ∈ auxMs, GoodModulus w l m) (hcop : (auxMs.map (·.N)).Pairwise Nat.Coprime)
    (hne : auxMs ≠ []) (hno : ms ≠ []) (hX : Represents l ms X F) (hA : Represents l auxMs A F)
    {pInv hatInv tInv : List ℕ} {hatMod : List (List ℕ)} {t pModT : ℕ}
    (hp : InverseIs ms pInv (modulusProd auxMs))
    (hi : HatInvs auxMs hatInv) (ht : HatResidues auxMs ms hatMod) (htI : InverseIs auxMs tInv t)
    (htw : t < 2 ^ w) (hpw : pModT < 2 ^ w) {T : ℤ} (hT : (modulusProd auxMs : ℤ) ∣ t * T - 1)
    {G : Fin (2 ^ l) → ℤ}
    (hG : ∀ i, (modulusProd auxMs : ℤ) * G i =
      pModT * F i + t * crtSum true (auxMs.map (·.N)) (-(pModT * T * F i))) :
    ∃ r, approxModReduceLsb A ms auxMs pInv hatInv hatMod tInv pModT t X = .ok r ∧ r.ntt = true ∧
      Represents l ms r G := by
  obtain ⟨acs, a1, a2⟩ := perModulus_ok
    (f := fun m (vt : List ℕ × ℕ) => (do
      let v ← Poly.mulScalar m.p vt.1 (Mont.importInt m.p pModT)
      Poly.mulScalar m.p v (Mont.negate m.p vt.2) : Outcome (List ℕ)))
    (R := fun m v => Holds l m A.ntt v (fun i => -(pModT * T * F i)))
    (fun m v h => by
      obtain ⟨hmem, h1, h2, h3⟩ : m ∈ auxMs ∧ Holds l m A.ntt v.1 F ∧ v.2 ≤ m.N ∧
        (m.N : ℤ) ∣ Mont.exportInt m.p v.2 * (t : ℤ) - 1 := h
      have gm := ha m hmem
      have hdP : (m.N : ℤ) ∣ modulusProd auxMs := by
        exact_mod_cast List.dvd_prod (List.mem_map.mpr ⟨m, hmem, rfl⟩)
      have e1 := (ZMod.intCast_zmod_eq_zero_iff_dvd _ m.N).mpr h3
      have e2 := (ZMod.intCast_zmod_eq_zero_iff_dvd _ m.N).mpr (hdP.trans hT)
      have e3 : ((Mont.exportInt m.p v.2 : ℕ) : ZMod m.N) = res m.p m.N v.2 := res_export gm.good h2
      have hz : res m.p m.N (Mont.negate m.p v.2) = ((-T : ℤ) : ZMod m.N) := by
        rw [res_negate gm.good h2, ← e3]
        push_cast at e1 e2 ⊢
        linear_combination ((Mont.exportInt m.p v.2 : ℕ) : ZMod m.N) * e2 - (T : ZMod m.N) * e1
      obtain ⟨u, u1, u2⟩ := h1.mulScalar gm (res_importInt gm hpw).1 (res_importInt gm hpw).2
      obtain ⟨r, r1, r2⟩ := u2.mulScalar gm (negate_le gm.good h2) hz
      refine ⟨r, by rw [u1, Outcome.bind_ok, r1], ?_⟩
      have : (fun i => -T * ((pModT : ℤ) * F i)) = fun i => -(pModT * T * F i) := by
        funext i; ring
      rw [← this]; exact r2)
    (forall₂_mem (forall₂_zip hA.2 htI))
  have hA' : Represents l auxMs { A with coeffs := acs } (fun i => -(pModT * T * F i)) := ⟨hA.1, a2⟩
  obtain ⟨d, d1, d2, d3⟩ := repr_approxSwitch ha (fun p hp => (hg p hp).create) hcop hne hno hA' hi ht
    true
  obtain ⟨e, e1, e2, e3⟩ := repr_toNtt hg d3 d2
  obtain ⟨e', e1', e2', e3'⟩ := repr_mulInt hg e3 htw
  obtain ⟨x, x1, x2, x3⟩ := repr_ensureNtt hg hX
  obtain ⟨x', x1', x2', x3'⟩ := repr_mulInt hg x3 hpw
  obtain ⟨y, y1, y2, y3⟩ := repr_add hg x3' e3' (by rw [x2', x2, e2', e2])
  have y4 : Represents l ms y (fun i => (modulusProd auxMs : ℤ) * G i) := by
    have : (fun i => (modulusProd auxMs : ℤ) * G i) = (fun i => (pModT : ℤ) * F i) +
        fun i => (t : ℤ) * crtSum true (auxMs.map (·.N)) (-(pModT * T * F i)) := by
      funext i; rw [hG i]; rfl
    rw [this]; exact y3
  obtain ⟨r, r1, r2, r3⟩ := repr_divRns hg y4 hp
  refine ⟨r, ?_, by rw [r2, y2, x2', x2], r3⟩
  unfold approxModReduceLsb
  rw [if_neg (by simpa using hX.len), if_neg (by simpa using hA.len),
    if_neg (by rw [← hX.len, hp.length_eq]; simp), if_neg (by rw [← hA.len, hi.length_eq]; simp),
    if_neg (by rw [← hA.len, ht.length_eq]; simp), if_neg (by rw [← hA.len, htI.length_eq]; simp),
    a1, Outcome.bind_ok, d1, Outcome.bind_ok, e1, Outcome.bind_ok, e1', Outcome.bind_ok, x1,
    Outcome.bind_ok, x1', Outcome.bind_ok, y1, Outcome.bind_ok, r1]

theorem repr_extendBasis (hm : ∀ m ∈ ms, MParams.create w m.N = .ok m.p)
    (ho : ∀ p ∈ auxMs, MParams.create w p.N = .ok p.p)
    (hcop : (ms.map (·.N)).Pairwise Nat.Coprime) (hne : ms ≠ []) (hno : auxMs ≠ []) (hl : l ≤ 30)
    (hX : Represents l ms X F) (hb : X.ntt = false) {hatInv qMod : List ℕ} {hatMod : List (List ℕ)}
    (hi : HatInvs ms (hatInv.take ms.length)) (ht : HatResidues ms auxMs (hatMod.take ms.length))
    (hq : RnsIntIs auxMs qMod (modulusProd ms)) {ε : ℚ} {est : Estimate} (he : EstimateWithin ms.length ε est)
    (hε : ε < 1 / 2) (hw : ms.length < 2 ^ w)
    (hF : ∀ i, remainder est (ms.map (·.N)) (F i) = F i) :
    ∃ r, extendBasis est ms auxMs hatInv hatMod qMod X = .ok r ∧ r.ntt = false ∧
      Represents l (ms ++ auxMs) r F := by
  obtain ⟨a, a1, a2, a3⟩ := repr_switchBasis hm ho hcop hne hno hl hX hb hi ht hq he hε hw
  refine ⟨{ X with coeffs := X.coeffs ++ a.coeffs }, ?_, hb, hX.1, ?_⟩
  · unfold extendBasis; rw [a1]; rfl
  · refine List.rel_append hX.2 ?_
    have h := a3.2
    rw [show (fun i => remainder est (ms.map (·.N)) (F i)) = F from funext hF] at h
    simp only [hb]
    rw [a2] at h
    exact h

theorem repr_scaleAndReduce (hg : ∀ m ∈ ms, GoodModulus w l m) (ha : ∀ m ∈ auxMs, GoodModulus w l m)
    (hcop : (auxMs.map (·.N)).Pairwise Nat.Coprime) (hne : auxMs ≠ []) (hno : ms ≠ [])
    (hX : Represents l ms X F) (hA : Represents l auxMs A F) {t : ℕ} (htw : t < 2 ^ w)
    {hatInv pMod pInv : List ℕ} {hatMod : List (List ℕ)}
    (hi : HatInvs auxMs (hatInv.take auxMs.length))
    (ht : HatResidues auxMs ms (hatMod.take auxMs.length))
    (hp : RnsIntIs ms pMod (modulusProd auxMs)) (hpi : InverseIs ms pInv (modulusProd auxMs))
    {ε : ℚ} {est : Estimate} (he : EstimateWithin auxMs.length ε est) (hε : ε < 1 / 2) (hw : auxMs.length < 2 ^ w)
    {G : Fin (2 ^ l) → ℤ}
    (hG : ∀ i, (modulusProd auxMs : ℤ) * G i = t * F i - remainder est (auxMs.map (·.N)) (t * F i)) :
    ∃ r, scaleAndReduceBasis est A t ms auxMs hatInv hatMod pMod pInv X = .ok r ∧ r.ntt = X.ntt ∧
      Represents l ms r G := by
  obtain ⟨m0, hm0⟩ := List.exists_mem_of_ne_nil _ hno
  have hl := (hg m0 hm0).l15
  obtain ⟨x, x1, x2, x3⟩ := repr_mulInt hg hX htw
  obtain ⟨a, a1, a2, a3⟩ := repr_mulInt ha hA htw
  obtain ⟨c, c1, c2, c3⟩ : ∃ c, (if a.ntt then toCoeff auxMs a else .ok a : Outcome RPoly) = .ok c ∧
      c.ntt = false ∧ Represents l auxMs c (fun i => t * F i) := by
    cases hb : a.ntt with
    | true =>
      obtain ⟨c, c1, c2, c3⟩ := repr_toCoeff ha a3 hb
      exact ⟨c, by simpa using c1, c2, c3⟩
    | false => exact ⟨a, by simp, hb, a3⟩
  obtain ⟨d, d1, d2, d3⟩ := repr_switchBasis (fun m h => (ha m h).create) (fun m h => (hg m h).create)
    hcop hne hno (by omega) c3 c2 hi ht hp he hε hw
  obtain ⟨e, e1, e2, e3⟩ : ∃ e, (if x.ntt then toNtt ms d else .ok d : Outcome RPoly) = .ok e ∧
      e.ntt = x.ntt ∧ Represents l ms e (fun i => remainder est (auxMs.map (·.N)) (t * F i)) := by
    cases hb : x.ntt with
    | true =>
      obtain ⟨c, c1, c2, c3⟩ := repr_toNtt hg d3 d2
      exact ⟨c, by simpa using c1, c2, c3⟩
    | false => exact ⟨d, by simp, d2, d3⟩
  obtain ⟨y, y1, y2, y3⟩ := repr_sub hg x3 e3 e2.symm
  have y4 : Represents l ms y (fun i => (modulusProd auxMs : ℤ) * G i) := by
    have : (fun i => (modulusProd auxMs : ℤ) * G i) = (fun i => (t : ℤ) * F i) -
        fun i => remainder est (auxMs.map (·.N)) (t * F i) := by funext i; rw [hG i]; rfl
    rw [this]; exact y3
  obtain ⟨r, r1, r2, r3⟩ := repr_divRns hg y4 hpi
  refine ⟨r, ?_, by rw [r2, y2, x2], r3⟩
  unfold scaleAndReduceBasis
  rw [x1, Outcome.bind_ok, a1, Outcome.bind_ok, c1, Outcome.bind_ok, d1, Outcome.bind_ok, e1,
    Outcome.bind_ok, y1, Outcome.bind_ok, r1]

end Shell.Rns
