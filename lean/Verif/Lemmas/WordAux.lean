import Verif.Spec.WordAux
import Verif.Lemmas.WordSwitch
import Verif.Props.AuxKey
/-!
Key switching with an auxiliary modulus on stored words computes the same on residues.
-/

namespace Shell.WordCt
open Rns Rns.Res Spec ErrorTrack Sym MParams

theorem res_inverse {p : MParams} {w N : ℕ} (g : Good p w N) (hp : N.Prime) {a : ℕ} (ha : a ≤ N) :
    Mont.multiplicativeInverse p a < N ∧
      res p N (Mont.multiplicativeInverse p a) = AuxKey.inv (res p N a) := by
  haveI : NeZero N := ⟨hp.ne_zero⟩
  have h4 := g.lt
  have h2 := hp.two_le
  have htr : trunc w ((N : ℤ) - 2) = N - 2 := trunc_eq _ _ _ (by omega) (by omega)
  unfold Mont.multiplicativeInverse
  rw [g.hw, g.hN, htr]
  refine ⟨modExp_lt g _ ha, ?_⟩
  rw [res_modExp g _ ha]
  unfold AuxKey.inv
  rw [Nat.cast_pow, ZMod.natCast_zmod_val]

variable {σ τ : Type} {C : Ctx} {p pA : MParams} {q qA : Ntt.NttParams} {m : ℕ} {psi : ZMod m}

/-- The accumulators. -/
structure RepAcc (C : Ctx) (p pA : MParams) (m : ℕ) (s : AuxAcc) (S : AuxKey.Acc C m) : Prop where
  c0 : Poly.Rep p C.q C.n s.c0 S.c0
  c1 : Poly.Rep p C.q C.n s.c1 S.c1
  c0Aux : Poly.Rep pA m C.n s.c0Aux S.c0Aux
  c1Aux : Poly.Rep pA m C.n s.c1Aux S.c1Aux

/-- The parameters of both moduli. -/
structure FitAux (C : Ctx) (p : MParams) (q : Ntt.NttParams) (m : ℕ) (psi : ZMod m) (pA : MParams)
    (qA : Ntt.NttParams) : Prop where
  fit : Fit C p
  tables : Ntt.Tables p C.w C.q C.l C.psi q
  cr : create C.w C.q = .ok p
  fitA : Fit (AuxKey.aux C m psi) pA
  tablesA : Ntt.Tables pA C.w m C.l psi qA
  crA : create C.w m = .ok pA

variable (H : FitAux C p q m psi pA qA)
include H

theorem toAux_agrees {v : List ℕ} {F : C.Poly} (hv : Poly.Rep p C.q C.n v F) :
    ∃ r, Convert.convertNtt v p q pA qA = .ok r ∧ Poly.Rep pA m C.n r (AuxKey.toAux psi F) := by
  obtain ⟨a, a1, a2, -⟩ := hv.inverse H.fit.good H.fit.ok.prime H.tables
  obtain ⟨b, b1, b2, -⟩ := (c33_refines H.cr H.crA a _ a2).forward H.fitA.good H.tablesA
  exact ⟨b, by unfold Convert.convertNtt; rw [a1, Outcome.bind_ok, b1], b2⟩

theorem toMain_agrees {v : List ℕ} {F : (AuxKey.aux C m psi).Poly} (hv : Poly.Rep pA m C.n v F) :
    ∃ r, Convert.convertNtt v pA qA p q = .ok r ∧ Poly.Rep p C.q C.n r (AuxKey.toMain psi F) := by
  obtain ⟨a, a1, a2, -⟩ := hv.inverse H.fitA.good H.fitA.ok.prime H.tablesA
  obtain ⟨b, b1, b2, -⟩ := (c33_refines H.crA H.cr a _ a2).forward H.fit.good H.tables
  exact ⟨b, by unfold Convert.convertNtt; rw [a1, Outcome.bind_ok, b1], b2⟩

/-- The words of the modulus. -/
theorem modulus_facts : pA.modulus = m ∧ p.modulus = C.q ∧ m < 2 ^ C.w := by
  have := H.fitA.good.lt
  exact ⟨H.fitA.good.hN, H.fit.good.hN, by dsimp only at this; omega⟩

theorem convert_agrees {ak : Word.AKey} {AK : AuxKey.AKey C m} (hak : HoldsAux C p q pA qA m ak AK)
    {s : AuxAcc} {S : AuxKey.Acc C m} (hs : RepAcc C p pA m s S) :
    ∃ r, convertToMain ak (Mont.importInt p m) s = .ok r ∧
      Rep2 C p r (AuxKey.convertToMain psi AK (m : ZMod C.q) S) := by
  have g := H.fit.good
  have gA : Good pA C.w m := H.fitA.good
  obtain ⟨-, -, hm⟩ := modulus_facts H
  have t1 := (importInt_lt gA _ hak.tLt).le
  obtain ⟨i1, i2⟩ := res_inverse gA H.fitA.ok.prime t1
  rw [res_import gA hak.tLt] at i2
  have t2 := (importInt_lt g _ hak.tLt).le
  have t3 := (importInt_lt g _ hm).le
  obtain ⟨j1, j2⟩ := res_inverse g H.fit.ok.prime t3
  rw [res_import g hm] at j2
  obtain ⟨a0, a1, a2⟩ := hs.c0Aux.mulScalar gA i1.le
  obtain ⟨b0, b1, b2⟩ := hs.c1Aux.mulScalar gA i1.le
  obtain ⟨c0, c1, c2⟩ := toMain_agrees H a2
  obtain ⟨d0, d1, d2⟩ := toMain_agrees H b2
  obtain ⟨e0, e1, e2⟩ := c2.mulScalar g t2
  obtain ⟨f0, f1, f2⟩ := d2.mulScalar g t2
  obtain ⟨x0, x1, x2⟩ := hs.c0.sub g e2
  obtain ⟨y0, y1, y2⟩ := x2.mulScalar g j1.le
  obtain ⟨z0, z1, z2⟩ := hs.c1.sub g f2
  obtain ⟨w0, w1, w2⟩ := z2.mulScalar g j1.le
  refine ⟨(y0, w0), ?_, ?_, ?_⟩
  · unfold convertToMain
    rw [hak.params, hak.paramsAux, hak.ntt, hak.nttAux, hak.t]
    dsimp only
    rw [Word.copy_ok a1, Outcome.bind_ok, Word.copy_ok b1, Outcome.bind_ok, c1, Outcome.bind_ok, d1, Outcome.bind_ok,
      Word.copy_ok e1, Outcome.bind_ok, Word.copy_ok f1, Outcome.bind_ok, Word.copy_ok x1, Outcome.bind_ok,
      Word.copy_ok y1, Outcome.bind_ok, Word.copy_ok z1, Outcome.bind_ok, Word.copy_ok w1, Outcome.bind_ok]
    rfl
  · rw [i2, j2, res_import g hak.tLt] at y2
    exact y2
  · rw [i2, j2, res_import g hak.tLt] at w2
    exact w2

/-- `AuxModRelinearizationKey::ApplyTo`. -/
theorem auxApply_agrees {ak : Word.AKey} {AK : AuxKey.AKey C m} (hak : HoldsAux C p q pA qA m ak AK) (P : ErrorParams)
    {x : Obj ℝ} {X : Tracked C} (hx : Carries C p x X) :
    AgreesNew C p (auxApply ak C.q (some (P.bAux C.n)) x) (auxRelinearize P psi AK X) := by
  have g := H.fit.good
  have gA : Good pA C.w m := H.fitA.good
  obtain ⟨m1, m2, hm⟩ := modulus_facts H
  apply agreesNew_of_rel
  unfold auxApply auxRelinearize AuxKey.applyTo
  dsimp only
  have hl := hx.c.length_eq
  have hkl := hak.keys.length_eq
  have hn : q.numberCoeffs = C.n := H.tables.num
  rw [hl, hkl, hak.power, hak.params, hak.paramsAux, hak.ntt, m1, m2, hn, if_neg (not_not.mpr rfl)]
  by_cases h0 : X.ct.c.length ≠ (if AK.power = 1 then AK.keys.length + 2 else AK.keys.length + 1)
  · rw [if_pos h0, if_pos h0]; exact .err _
  rw [if_neg h0, if_neg h0]
  rw [not_not] at h0
  simp only [bind_assoc']
  refine (component_agrees hx 0).bind fun c F hc => ?_
  have hz : Poly.Rep p C.q C.n (List.replicate C.n 0) 0 := Word.rep_zero _
  have hzA : Poly.Rep pA m C.n (List.replicate C.n 0) 0 := Word.rep_zero _
  have t3 := (importInt_lt g _ hm).le
  have rest : ∀ (d : List ℕ) (D : C.Poly), Poly.Rep p C.q C.n d D → OutRel (Carries C p)
      (do let c0 ← Poly.copying (Poly.mulScalarInPlace p c (Mont.importInt p m))
          let c1 ← Poly.copying (Poly.mulScalarInPlace p d (Mont.importInt p m))
          let s ← loop (X.ct.c.length - (if AK.power = 1 then 2 else 1))
            (auxStep ak x (if AK.power = 1 then 2 else 1)) ⟨c0, c1, List.replicate C.n 0, List.replicate C.n 0⟩
          let r ← convertToMain ak (Mont.importInt p m) s
          return (⟨[r.1, r.2], 1, x.error + P.bAux C.n (X.ct.c.length - (if AK.power = 1 then 2 else 1)) m, []⟩ :
            Obj ℝ) : Outcome (Obj ℝ))
      (do let s ← loop (X.ct.c.length - (if AK.power = 1 then 2 else 1))
            (AuxKey.applyStep psi AK X.ct (if AK.power = 1 then 2 else 1))
            (⟨scalarMul (m : ZMod C.q) F, scalarMul (m : ZMod C.q) D, 0, 0⟩ : AuxKey.Acc C m)
          let r : Ct C := { c := [(AuxKey.convertToMain psi AK (m : ZMod C.q) s).1,
            (AuxKey.convertToMain psi AK (m : ZMod C.q) s).2], power := 1 }
          return ⟨r, X.error + P.bAux C.n (X.ct.c.length - (if AK.power = 1 then 2 else 1)) m⟩ :
            Outcome (Tracked C)) := by
    intro d D hd
    obtain ⟨a0, a1, a2⟩ := hc.mulScalar g t3
    obtain ⟨b0, b1, b2⟩ := hd.mulScalar g t3
    rw [res_import g hm] at a2 b2
    rw [Word.copy_ok a1, Outcome.bind_ok, Word.copy_ok b1, Outcome.bind_ok]
    have hlen : X.ct.c.length = (if AK.power = 1 then 2 else 1) + AK.keys.length := by
      rw [h0]; split_ifs <;> omega
    generalize hfst : (if AK.power = 1 then 2 else 1) = first at hlen ⊢
    obtain ⟨s, S, s1, s2, s3⟩ := loop_rel (n := X.ct.c.length - first) (f := auxStep ak x first)
      (F := AuxKey.applyStep psi AK X.ct first) (R := RepAcc C p pA m)
      (s := ⟨a0, b0, List.replicate C.n 0, List.replicate C.n 0⟩)
      (S := ⟨scalarMul (m : ZMod C.q) F, scalarMul (m : ZMod C.q) D, 0, 0⟩) ⟨a2, b2, hzA, hzA⟩ (by
        intro j s S hj hsS
        unfold auxStep AuxKey.applyStep
        have hcmp := component_agrees hx (first + j : ℕ)
        have hin : Relin.component X.ct (first + j : ℕ) = .ok (X.ct.c.getD (first + j) 0) :=
          Relin.component_ok X.ct (by omega)
        rw [hin] at hcmp
        obtain ⟨ci, hcc, hci⟩ : ∃ ci, component x (first + j : ℕ) = .ok ci ∧
            Poly.Rep p C.q C.n ci (X.ct.c.getD (first + j) 0) := by
          generalize component x (first + j : ℕ) = cc at hcmp
          cases hcmp with
          | ok hci => exact ⟨_, rfl, hci⟩
        dsimp only
        rw [hin, hcc, Outcome.bind_ok, Outcome.bind_ok, Nat.add_sub_cancel_left,
          rd_getD (⟨[], [], [], []⟩ : Word.Comp) (by omega), rd_getD (⟨0, 0, 0, 0⟩ : AuxKey.Comp C m) (by omega),
          Outcome.bind_ok, Outcome.bind_ok, hak.params, hak.paramsAux, hak.ntt, hak.nttAux]
        have hkey := forall₂_getD hak.keys (i := j) (by omega) (⟨[], [], [], []⟩ : Word.Comp)
          (⟨0, 0, 0, 0⟩ : AuxKey.Comp C m)
        obtain ⟨u0, u1, u2⟩ := hsS.c0.fusedMulAdd g hkey.bMain hci
        obtain ⟨v0, v1, v2⟩ := hsS.c1.fusedMulAdd g hkey.aMain hci
        obtain ⟨w0, w1, w2⟩ := toAux_agrees H hci
        obtain ⟨y0, y1, y2⟩ := hsS.c0Aux.fusedMulAdd gA hkey.bAux w2
        obtain ⟨z0, z1, z2⟩ := hsS.c1Aux.fusedMulAdd gA hkey.aAux w2
        refine ⟨⟨u0, v0, y0, z0⟩, _, ?_, rfl, u2, v2, y2, z2⟩
        rw [Word.copy_ok u1, Outcome.bind_ok, Word.copy_ok v1, Outcome.bind_ok, w1, Outcome.bind_ok, Word.copy_ok y1,
          Outcome.bind_ok, Word.copy_ok z1, Outcome.bind_ok]
        rfl)
    obtain ⟨r, r1, r2⟩ := convert_agrees H hak s3
    rw [s1, s2, Outcome.bind_ok, Outcome.bind_ok, r1, Outcome.bind_ok]
    exact .ok ⟨.cons r2.1 (.cons r2.2 .nil), rfl, by rw [← hx.error], .nil⟩
  by_cases hp : AK.power = 1
  · simp only [if_pos hp] at rest ⊢
    simp only [bind_assoc']
    refine (component_agrees hx 1).bind fun c1 F1 hc1 => ?_
    obtain ⟨r1, f1, f2⟩ := hz.add g hc1
    rw [zero_add] at f2
    rw [Word.copy_ok f1, Outcome.bind_ok]
    exact rest _ _ f2
  · simp only [if_neg hp] at rest ⊢
    rw [Outcome.bind_ok, Outcome.bind_ok]
    exact rest _ _ hz

/-- `AuxModGaloisKey::ApplyTo`. -/
theorem auxGalois_agrees {ak : Word.AKey} {AK : AuxKey.AKey C m} (hak : HoldsAux C p q pA qA m ak AK) (P : ErrorParams)
    {x : Obj ℝ} {X : Tracked C} (hx : Carries C p x X) :
    AgreesNew C p (auxGaloisApply ak C.q (some (P.bAux C.n)) x)
      (if X.ct.power ≠ AK.power then .err .invalidArgument else auxRelinearize P psi AK X) := by
  unfold auxGaloisApply
  rw [hx.power, hak.power]
  by_cases h : X.ct.power ≠ AK.power
  · rw [if_pos h, if_pos h]; exact rfl
  · rw [if_neg h, if_neg h]; exact auxApply_agrees H hak P hx

/-! ### Creating keys -/

theorem comp_agrees (G : Gen σ) (G' : Gen τ) (hG' : Words G') {k : Word.Key} {K : Sym.Key C}
    (hk : HoldsKey C p q k K) (hv : 2 * k.variance ≤ C.q) {sA : List ℕ} {SA : (AuxKey.aux C m psi).Poly}
    (hsA : Poly.Rep pA m C.n sA SA) {src : List ℕ} {F : C.Poly} (hsrc : Poly.Rep p C.q C.n src F) {tA : ℕ}
    (htA : tA ≤ m) {fuel : ℕ} {s s' : σ} {t t' : τ} {c : Word.Comp}
    (h : Word.Comp.create G G' fuel k sA src pA qA tA s t = .ok (c, s', t')) :
    ∃ (padM : C.Poly) (padA : (AuxKey.aux C m psi).Poly) (e : Fin C.n → ℤ), (∀ i, |e i| ≤ 2 * K.variance) ∧
      HoldsComp C p pA m c
        (AuxKey.Comp.create psi K.key SA F K.tUnderQ (res pA m tA) padM padA (modq C.q e)) := by
  have g := H.fit.good
  have gA : Good pA C.w m := H.fitA.good
  unfold Word.Comp.create at h
  rw [hk.params, hk.ntt, hk.key.len] at h
  obtain ⟨⟨a, s₁⟩, h1, h⟩ := Outcome.bind_eq_ok.mp h
  dsimp only at h
  obtain ⟨⟨b, s₂⟩, h2, h⟩ := Outcome.bind_eq_ok.mp h
  dsimp only at h
  obtain ⟨⟨er, t₁⟩, h3, h⟩ := Outcome.bind_eq_ok.mp h
  dsimp only at h
  have ha := Word.pad_rep G g fuel C.n s s₁ a h1
  have hb := Word.pad_rep G gA fuel C.n s₁ s₂ b h2
  obtain ⟨e, e1, e2⟩ := Word.error_rep G' hG' H.cr C.n k.variance hv t t₁ er h3
  obtain ⟨u0, u1, u2, -⟩ := e2.forward g H.tables
  obtain ⟨v0, v1, v2, -⟩ := (c33_refines H.cr H.crA er _ e2).forward gA H.tablesA
  obtain ⟨w0, w1, w2⟩ := u2.mulScalar g hk.tLe
  obtain ⟨x0, x1, x2⟩ := v2.mulScalar gA htA
  obtain ⟨y0, y1, y2⟩ := w2.fusedMulAdd g ha hk.key
  obtain ⟨z0, z1, z2⟩ := x2.fusedMulAdd gA hb hsA
  obtain ⟨r0, r1, r2⟩ := y2.add g hsrc
  rw [u1, Outcome.bind_ok, v1, Outcome.bind_ok, Word.copy_ok w1, Outcome.bind_ok, Word.copy_ok x1, Outcome.bind_ok,
    Word.copy_ok y1, Outcome.bind_ok, Word.copy_ok z1, Outcome.bind_ok, Word.copy_ok r1, Outcome.bind_ok] at h
  cases h
  have hr : res p C.q k.tMod = K.tUnderQ := by
    rw [← hk.t, ← res_export g hk.tLe]; rfl
  rw [hr] at r2
  exact ⟨_, _, e, fun i => by rw [← hk.variance]; exact e1 i, r2, ha.negate g, z2, hb.negate gA⟩

theorem comps_agree (G : Gen σ) (G' : Gen τ) (hG' : Words G') {k : Word.Key} {K : Sym.Key C}
    (hk : HoldsKey C p q k K) (hv : 2 * k.variance ≤ C.q) {sA : List ℕ} {SA : (AuxKey.aux C m psi).Poly}
    (hsA : Poly.Rep pA m C.n sA SA) {base : List ℕ} {Base : C.Poly} (hbase : Poly.Rep p C.q C.n base Base)
    (same : Bool) {tA : ℕ} (htA : tA ≤ m) {fuel : ℕ} (cnt i : ℕ) {sp : List ℕ} {F : C.Poly}
    (hsp : Poly.Rep p C.q C.n sp F) {s s' : σ} {t t' : τ} {cs : List Word.Comp}
    (h : Word.createComps G G' fuel k sA base same pA qA tA cnt i sp s t = .ok (cs, s', t')) :
    ∃ (padsM : ℕ → C.Poly) (padsA : ℕ → (AuxKey.aux C m psi).Poly) (E : ℕ → Fin C.n → ℤ),
      (∀ u i, |E u i| ≤ 2 * K.variance) ∧
      List.Forall₂ (HoldsComp C p pA m) cs
        (AuxKey.createComps psi K SA Base same (res pA m tA) padsM padsA (fun u => modq C.q (E u)) cnt i F) := by
  induction cnt generalizing i sp F s t cs with
  | zero =>
    cases h
    exact ⟨fun _ => 0, fun _ => 0, fun _ _ => 0, fun u i => by simp, .nil⟩
  | succ cnt ih =>
    unfold Word.createComps at h
    obtain ⟨sp', F', e1, e2, e3⟩ : ∃ sp' F', (if same || decide (i > 0) then
        Poly.copying (Poly.mulInPlace k.p sp base) else .ok sp : Outcome (List ℕ)) = .ok sp' ∧
        (if same || decide (i > 0) then F * Base else F) = F' ∧ Poly.Rep p C.q C.n sp' F' := by
      by_cases hi : (same || decide (i > 0)) = true
      · obtain ⟨r, r1, r2⟩ := hsp.mul H.fit.good hbase
        rw [if_pos hi, if_pos hi, hk.params]
        exact ⟨r, _, Word.copy_ok r1, rfl, r2⟩
      · rw [if_neg hi, if_neg hi]
        exact ⟨sp, F, rfl, rfl, hsp⟩
    rw [e1, Outcome.bind_ok] at h
    obtain ⟨⟨c, s₁, t₁⟩, h2, h⟩ := Outcome.bind_eq_ok.mp h
    obtain ⟨⟨cs', s₂, t₂⟩, h3, h⟩ := Outcome.bind_eq_ok.mp h
    cases h
    obtain ⟨pm, pa, e, f1, f2⟩ := comp_agrees H G G' hG' hk hv hsA e3 htA h2
    obtain ⟨padsM, padsA, E, g1, g2⟩ := ih (i + 1) e3 h3
    refine ⟨fun u => if u = i then pm else padsM u, fun u => if u = i then pa else padsA u,
      fun u => if u = i then e else E u, fun u v => ?_, ?_⟩
    · by_cases hu : u = i
      · simpa only [hu, if_true] using f1 v
      · simpa only [hu, if_false] using g1 u v
    · unfold AuxKey.createComps
      dsimp only
      rw [e2, if_pos rfl, if_pos rfl, if_pos rfl]
      have hcong : ∀ (cnt j : ℕ) (F : C.Poly), i < j →
          AuxKey.createComps psi K SA Base same (res pA m tA) (fun u => if u = i then pm else padsM u)
            (fun u => if u = i then pa else padsA u) (fun u => modq C.q (if u = i then e else E u)) cnt j F =
          AuxKey.createComps psi K SA Base same (res pA m tA) padsM padsA (fun u => modq C.q (E u)) cnt j F := by
        intro cnt
        induction cnt with
        | zero => intros; rfl
        | succ cnt ih =>
          intro j F hj
          unfold AuxKey.createComps
          dsimp only
          have hne : ¬ j = i := by omega
          rw [ih _ _ (by omega), if_neg hne, if_neg hne, if_neg hne]
      refine .cons f2 ?_
      rw [hcong cnt (i + 1) F' (by omega)]
      exact g2

/-- `AuxModRelinearizationKey::Create`. -/
theorem auxCreate_agrees (R : Word.Rng σ) (hR : ∀ t, Words (R.gen t)) {k : Word.Key} {K : Sym.Key C}
    (hk : HoldsKey C p q k K) (hv : 2 * k.variance ≤ C.q) {fuel : ℕ} {prng : PrngType} {degree pw : ℤ}
    {seed seedE : List ℕ} {ak : Word.AKey}
    (h : Word.AKey.create R fuel k prng degree pA qA pw seed seedE = .ok ak) :
    ∃ (padsM : ℕ → C.Poly) (padsA : ℕ → (AuxKey.aux C m psi).Poly) (E : ℕ → Fin C.n → ℤ) (AK : AuxKey.AKey C m),
      (∀ u i, |E u i| ≤ 2 * K.variance) ∧
      AuxKey.create psi K prng degree pw padsM padsA (fun u => modq C.q (E u)) = .ok AK ∧
      HoldsAux C p q pA qA m ak AK := by
  have g := H.fit.good
  have gA : Good pA C.w m := H.fitA.good
  haveI := H.fit.ok.neZero
  obtain ⟨m1, m2, hm⟩ := modulus_facts H
  have hqlt := g.lt
  have htv : Mont.exportInt p k.tMod = K.tUnderQ.val := by
    rw [← hk.t]
    refine (ZMod.val_cast_of_lt (exportInt_lt g _ ?_ (Or.inr hk.tLe))).symm
    have := hk.tLe
    omega
  have htlt : K.tUnderQ.val < 2 ^ C.w := by have := ZMod.val_lt K.tUnderQ; omega
  unfold Word.AKey.create at h
  obtain ⟨_, h⟩ | ⟨c1, h⟩ := ite_eq_iff.mp h
  · cases h
  obtain ⟨_, h⟩ | ⟨c2, h⟩ := ite_eq_iff.mp h
  · cases h
  obtain ⟨s, h2, h⟩ := Outcome.bind_eq_ok.mp h
  obtain ⟨t, h3, h⟩ := Outcome.bind_eq_ok.mp h
  have hpr : prng ≠ .invalid := by
    intro hc
    unfold Word.Rng.start at h2
    rw [if_pos hc] at h2
    cases h2
  rw [hk.params, hk.ntt, m1, htv] at h
  obtain ⟨a, a1, a2, -⟩ := hk.key.inverse g H.fit.ok.prime H.tables
  obtain ⟨b, b1, b2, -⟩ := (c33_refines H.cr H.crA a _ a2).forward gA H.tablesA
  rw [a1, Outcome.bind_ok, b1, Outcome.bind_ok] at h
  obtain ⟨base, h4, h⟩ := Outcome.bind_eq_ok.mp h
  rcases polySubstitute_agrees H.fit H.tables hk.key pw with ⟨r, G, r1, r2, r3⟩ | ⟨r1, r2⟩
  swap
  · rw [r1] at h4; cases h4
  rw [r1] at h4
  cases h4
  obtain ⟨x, x1, x2⟩ := r3.mulScalar g (importInt_lt g _ hm).le
  rw [res_import g hm] at x2
  rw [show Poly.mulScalar p base (Mont.importInt p m) = .ok x from Word.copy_ok x1, Outcome.bind_ok] at h
  obtain ⟨⟨ms, s', t'⟩, h5, h⟩ := Outcome.bind_eq_ok.mp h
  cases h
  obtain ⟨padsM, padsA, E, g1, g2⟩ := comps_agree H (R.gen prng) (R.gen prng) (hR prng) hk hv b2 r3
    (decide (pw = 1)) (importInt_lt gA _ htlt).le _ 0 x2 h5
  rw [res_import gA htlt] at g2
  refine ⟨padsM, padsA, E, ⟨_, K.tUnderQ.val, pw⟩, g1, ?_, rfl, rfl, rfl, rfl, rfl, htlt, rfl, g2⟩
  · unfold AuxKey.create
    rw [if_neg c1, if_neg c2, if_neg hpr]
    dsimp only
    rw [r2, Outcome.bind_ok]
    rfl

end Shell.WordCt
