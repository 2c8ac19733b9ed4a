import Verif.Spec.WordSwitch
import Verif.Lemmas.WordCt
import Verif.Props.Relin
import Verif.Props.WordCt
import Verif.Props.Context
/-!
Key switching on stored words computes key switching on residues.
-/

namespace Shell.WordCt
open Rns Rns.Res Spec ErrorTrack Sym MParams

/-- Two computations with the same errors, and related results. -/
inductive OutRel {α β : Type} (R : α → β → Prop) : Outcome α → Outcome β → Prop
  | ok {a b} : R a b → OutRel R (.ok a) (.ok b)
  | err (e) : OutRel R (.err e) (.err e)
  | ub (u) : OutRel R (.ub u) (.ub u)

theorem OutRel.bind {α β α' β' : Type} {R : α → β → Prop} {S : α' → β' → Prop} {a : Outcome α} {b : Outcome β}
    {f : α → Outcome α'} {g : β → Outcome β'} (h : OutRel R a b) (hf : ∀ x y, R x y → OutRel S (f x) (g y)) :
    OutRel S (a >>= f) (b >>= g) := by
  cases h with
  | ok h => exact hf _ _ h
  | err e => exact .err e
  | ub u => exact .ub u

theorem bind_assoc' {α β γ : Type} (x : Outcome α) (f : α → Outcome β) (g : β → Outcome γ) :
    x >>= f >>= g = x >>= fun a => f a >>= g := by cases x <;> rfl

variable {σ τ : Type} {C : Ctx} {p : MParams} {q : Ntt.NttParams}

theorem agreesNew_of_rel {r : Outcome (Obj ℝ)} {O : Outcome (Tracked C)} (h : OutRel (Carries C p) r O) :
    AgreesNew C p r O := by
  cases h with
  | ok h => exact ⟨_, rfl, h⟩
  | err e => exact rfl
  | ub u => exact rfl

/-- Pairs of polynomials. -/
def Rep2 (C : Ctx) (p : MParams) (r : List ℕ × List ℕ) (R : C.Poly × C.Poly) : Prop :=
  Poly.Rep p C.q C.n r.1 R.1 ∧ Poly.Rep p C.q C.n r.2 R.2

theorem forall₂_of_getD {α β : Type} {R : α → β → Prop} {a : List α} {b : List β} (d : α) (d' : β)
    (hl : a.length = b.length) (h : ∀ i < a.length, R (a.getD i d) (b.getD i d')) : List.Forall₂ R a b := by
  rw [List.forall₂_iff_get]
  refine ⟨hl, fun i h1 h2 => ?_⟩
  have := h i h1
  rw [List.getD_eq_getElem _ _ h1, List.getD_eq_getElem _ _ h2] at this
  exact this

section
variable (hC : Fit C p) (ht : Ntt.Tables p C.w C.q C.l C.psi q)
include hC ht

theorem matrix_agrees {b : ℕ} {D : List (List ℕ)} {D' : List C.Poly} {m : Word.Part} {M : Relin.Part C}
    (hD : List.Forall₂ (Poly.Rep p C.q C.n) D D') (hm : HoldsPart C p b m M) (hl : D.length = m.row0.length) :
    ∃ r R, matrixMultiply p q D m = .ok r ∧ Relin.matrixMultiply D' M = .ok R ∧ Rep2 C p r R := by
  have hp := hm.pos
  have hD' := hD.length_eq
  have h0 := hm.row0.length_eq
  have h1 := hm.row1.length_eq
  have hs := hm.same
  unfold matrixMultiply Relin.matrixMultiply
  rw [rd_getD [] (by omega), rd_getD 0 (by omega), Outcome.bind_ok, Outcome.bind_ok, ← h0,
    (forall₂_getD hD (i := 0) (by omega) [] 0).len]
  refine loop_rel (R := Rep2 C p) ⟨Word.rep_zero _, Word.rep_zero _⟩ fun j s S hj hsS => ?_
  obtain ⟨v, v1, v2, -⟩ := (forall₂_getD hD (i := j) (by omega) [] 0).forward hC.good ht
  obtain ⟨r0, e1, e2⟩ := hsS.1.fusedMulAdd hC.good v2 (forall₂_getD hm.row0 (i := j) (by omega) [] 0)
  obtain ⟨r1, f1, f2⟩ := hsS.2.fusedMulAdd hC.good v2 (forall₂_getD hm.row1 (i := j) (by omega) [] 0)
  refine ⟨(r0, r1), (_, _), ?_, ?_, e2, f2⟩
  · rw [rd_getD [] (by omega), Outcome.bind_ok, v1, Outcome.bind_ok, rd_getD [] (by omega), Outcome.bind_ok,
      Word.copy_ok e1, Outcome.bind_ok, rd_getD [] (by omega), Outcome.bind_ok, Word.copy_ok f1, Outcome.bind_ok]
    rfl
  · rw [rd_getD 0 (by omega), Outcome.bind_ok]
    dsimp only
    rw [rd_getD 0 (by omega), Outcome.bind_ok, rd_getD 0 (by omega), Outcome.bind_ok]
    rfl

theorem part_agrees (hcr : create C.w C.q = .ok p) {b : ℕ} (hb : b < C.w) {m : Word.Part} {M : Relin.Part C}
    (hm : HoldsPart C p b m M) {c : List ℕ} {F : C.Poly} (hc : Poly.Rep p C.q C.n c F) :
    ∃ r R, applyPart p q m c = .ok r ∧ M.applyTo b F = .ok R ∧ Rep2 C p r R := by
  obtain ⟨v, v1, v2, -⟩ := hc.inverse hC.good hC.ok.prime ht
  obtain ⟨D, D', d1, d2, d3, d4⟩ := c26_refines hcr C.psi v2 b m.row0.length hb
  have hlen : D'.length = m.row0.length := by
    have h1 := baseDecompose_eq (C := C) hb m.row0.length (NttRing.intt C.psi C.l F)
    have h2 : Outcome.ok D' = _ := d2.symm.trans h1
    rw [Outcome.ok.inj h2]
    simp
  have hD : List.Forall₂ (Poly.Rep p C.q C.n) D D' :=
    forall₂_of_getD [] 0 d3 fun i hi => d4 i (by omega)
  obtain ⟨r, R, e1, e2, e3⟩ := matrix_agrees hC ht hD hm (by omega)
  refine ⟨r, R, ?_, ?_, e3⟩
  · unfold applyPart
    rw [v1, Outcome.bind_ok, hm.logDecomp, d1, Outcome.bind_ok, e1]
  · unfold Relin.Part.applyTo
    dsimp only
    rw [← hm.row0.length_eq]
    have : C.baseDecompose (C.fromNtt F) b m.row0.length = .ok D' := d2
    rw [this, Outcome.bind_ok, e2]

omit hC ht in
theorem component_agrees {x : Obj ℝ} {X : Tracked C} (hx : Carries C p x X) (i : ℤ) :
    OutRel (Poly.Rep p C.q C.n) (component x i) (Relin.component X.ct i) := by
  unfold component Relin.component
  rw [hx.c.length_eq]
  by_cases h : 0 > i ∨ i ≥ X.ct.c.length
  · rw [if_pos h, if_pos h]; exact .err _
  · have hl := hx.c.length_eq
    rw [if_neg h, if_neg h, rd_getD [] (by omega), rd_getD 0 (by omega)]
    exact .ok (forall₂_getD hx.c (by omega) _ _)

theorem applyRest_agrees (hcr : create C.w C.q = .ok p) {b : ℕ} (hb : b < C.w) {x : Obj ℝ} {X : Tracked C}
    (hx : Carries C p x X) (first : ℕ) {ms : List Word.Part} {Ms : List (Relin.Part C)}
    (hm : List.Forall₂ (HoldsPart C p b) ms Ms) (i : ℕ) {r : List ℕ × List ℕ} {R : C.Poly × C.Poly}
    (hr : Rep2 C p r R) :
    OutRel (Rep2 C p) (applyRest p q x first ms i r) (Relin.applyRest X.ct first b Ms i R) := by
  induction hm generalizing i r R with
  | nil => exact .ok hr
  | cons h1 _ ih =>
    unfold applyRest Relin.applyRest
    refine (component_agrees hx _).bind fun c F hc => ?_
    obtain ⟨s, S, s1, s2, s3⟩ := part_agrees hC ht hcr hb h1 hc
    obtain ⟨r0, e1, e2⟩ := hr.1.add hC.good s3.1
    obtain ⟨r1, f1, f2⟩ := hr.2.add hC.good s3.2
    rw [s1, s2, Outcome.bind_ok, Outcome.bind_ok, Word.copy_ok e1, Outcome.bind_ok, Word.copy_ok f1, Outcome.bind_ok]
    exact ih _ ⟨e2, f2⟩

/-- `RelinearizationKey::ApplyTo`. -/
theorem relinearize_agrees (hcr : create C.w C.q = .ok p) {rk : Word.RKey} {RK : Relin.RKey C}
    (hrk : HoldsSwitch C p q rk RK) (hb : RK.logDecomp < C.w) (P : ErrorParams) {x : Obj ℝ} {X : Tracked C}
    (hx : Carries C p x X) :
    AgreesNew C p (relinearize rk (P.bRelinearize C.n) x) (ErrorTrack.relinearize P RK X) := by
  apply agreesNew_of_rel
  unfold relinearize ErrorTrack.relinearize Relin.RKey.applyTo
  rw [hx.c.length_eq, hrk.numParts, hrk.power, hrk.params, hrk.ntt, hrk.logDecomp, hrk.parts.length_eq]
  by_cases h0 : (X.ct.c.length : ℤ) > RK.numParts
  · rw [if_pos h0, if_pos h0]; exact .err _
  rw [if_neg h0, if_neg h0]
  dsimp only
  simp only [bind_assoc']
  refine (component_agrees hx _).bind fun c F hc => ?_
  have hparts := hrk.parts
  generalize rk.parts = ps at hparts
  generalize RK.parts = Ps at hparts
  cases hparts with
  | nil => exact .ub _
  | @cons m M ms Ms hm hms =>
  rw [rd_getD ⟨[], [], 0⟩ (by simp), rd_getD ⟨[], []⟩ (by simp), Outcome.bind_ok, Outcome.bind_ok, List.getD_cons_zero,
    List.getD_cons_zero, List.drop_one, List.drop_one, List.tail_cons, List.tail_cons]
  obtain ⟨s, S, s1, s2, s3⟩ := part_agrees hC ht hcr hb hm hc
  rw [s1, s2, Outcome.bind_ok, Outcome.bind_ok]
  refine (applyRest_agrees hC ht hcr hb hx _ hms 1 s3).bind fun r R hr => ?_
  refine (component_agrees hx 0).bind fun c0 F0 hc0 => ?_
  obtain ⟨r0, e1, e2⟩ := hr.1.add hC.good hc0
  rw [Word.copy_ok e1, Outcome.bind_ok]
  have hmod : ∀ (r1 : List ℕ) (R1 : C.Poly), Poly.Rep p C.q C.n r1 R1 → OutRel (Carries C p)
      (do let b ← P.bRelinearize C.n (M :: Ms).length RK.logDecomp
          return { c := [r0, r1], power := 1, error := x.error + b } : Outcome (Obj ℝ))
      (do let _ ← Relin.decompositionModulus RK.logDecomp
          let b ← P.bRelinearize C.n (M :: Ms).length RK.logDecomp
          return ⟨{ c := [R.1 + F0, R1], power := 1 }, X.error + b⟩ : Outcome (Tracked C)) := by
    intro r1 R1 h1
    have key : ∀ n c b, (∃ v, P.bRelinearize n c b = .ok v ∧ ∃ u, Relin.decompositionModulus b = .ok u) ∨
        (b = 0) ∨ (P.bRelinearize n c b = .ub .badShift ∧ Relin.decompositionModulus b = .ub .badShift) := by
      intro n c b
      unfold ErrorParams.bRelinearize Relin.decompositionModulus
      by_cases hb0 : b = 0
      · exact Or.inr (Or.inl hb0)
      · rw [if_neg hb0]
        by_cases h31 : b < 31
        · rw [if_pos h31]; exact Or.inl ⟨_, rfl, _, rfl⟩
        · rw [if_neg h31]; exact Or.inr (Or.inr ⟨rfl, rfl⟩)
    rcases key C.n (M :: Ms).length RK.logDecomp with ⟨v, k1, u, k2⟩ | k1 | ⟨k1, k2⟩
    · rw [k1, k2]
      exact .ok ⟨.cons e2 (.cons h1 .nil), rfl, by rw [← hx.error], .nil⟩
    · rw [k1]; exact .ub _
    · rw [k1, k2]; exact .ub _
  by_cases hp : RK.power = 1
  · rw [if_pos hp, if_pos hp]
    simp only [bind_assoc']
    refine (component_agrees hx 1).bind fun c1 F1 hc1 => ?_
    obtain ⟨r1, f1, f2⟩ := hr.2.add hC.good hc1
    rw [Word.copy_ok f1, Outcome.bind_ok]
    exact hmod _ _ f2
  · rw [if_neg hp, if_neg hp, Outcome.bind_ok]
    simp only [bind_assoc']
    exact hmod _ _ hr.2

/-- `GaloisKey::ApplyTo`. -/
theorem galois_agrees (hcr : create C.w C.q = .ok p) {rk : Word.RKey} {RK : Relin.RKey C}
    (hrk : HoldsSwitch C p q rk RK) (hb : RK.logDecomp < C.w) (P : ErrorParams) {x : Obj ℝ} {X : Tracked C}
    (hx : Carries C p x X) :
    AgreesNew C p (galoisApply rk (P.bRelinearize C.n) x)
      (if X.ct.power ≠ RK.power then .err .invalidArgument else ErrorTrack.relinearize P RK X) := by
  unfold galoisApply
  rw [hx.power, hrk.power]
  by_cases h : X.ct.power ≠ RK.power
  · rw [if_pos h, if_pos h]; exact rfl
  · rw [if_neg h, if_neg h]; exact relinearize_agrees hC ht hcr hrk hb P hx

/-! ### Creating keys -/

omit ht in
theorem powers_agree {T : ℕ} (hT : T ≤ C.q) (d i : ℕ) {c : List ℕ} {F : C.Poly} (hc : Poly.Rep p C.q C.n c F) :
    ∃ r, Word.powersOfT p T d i c = .ok r ∧
      List.Forall₂ (Poly.Rep p C.q C.n) r (Relin.powersOfT (res p C.q T) d i F) := by
  induction d generalizing i c F with
  | zero => exact ⟨[], rfl, .nil⟩
  | succ d ih =>
    unfold Word.powersOfT Relin.powersOfT
    by_cases hi : i ≠ 0
    · obtain ⟨r, r1, r2⟩ := hc.mulScalar hC.good hT
      obtain ⟨s, s1, s2⟩ := ih (i + 1) r2
      rw [if_pos hi, if_pos hi, Word.copy_ok r1, Outcome.bind_ok, s1, Outcome.bind_ok]
      exact ⟨_, rfl, .cons r2 s2⟩
    · obtain ⟨s, s1, s2⟩ := ih (i + 1) hc
      rw [if_neg hi, if_neg hi, Outcome.bind_ok, s1, Outcome.bind_ok]
      exact ⟨_, rfl, .cons hc s2⟩

/-- One column. -/
theorem column_agrees (G : Gen σ) (G' : Gen τ) (hG' : Words G') (hcr : create C.w C.q = .ok p) {k : Word.Key}
    {K : Sym.Key C} (hk : HoldsKey C p q k K) (hv : 2 * k.variance ≤ C.q) {pt : List ℕ} {F : C.Poly}
    (hpt : Poly.Rep p C.q C.n pt F) {fuel : ℕ} {s s' : σ} {t t' : τ} {c : List ℕ × List ℕ}
    (h : Word.column G G' fuel k C.n pt s t = .ok (c, s', t')) :
    ∃ (pad : C.Poly) (e : Fin C.n → ℤ), (∀ i, |e i| ≤ 2 * K.variance) ∧
      Rep2 C p c (Relin.column K F pad (modq C.q e)) := by
  unfold Word.column at h
  rw [hk.params, hk.ntt, hk.key.len] at h
  obtain ⟨⟨a, s₁⟩, h1, h⟩ := Outcome.bind_eq_ok.mp h
  have ha := Word.pad_rep G hC.good fuel C.n s s₁ a h1
  obtain ⟨m, m1, m2⟩ := ha.mul hC.good hk.key
  dsimp only at h
  rw [show Poly.mul p a k.key = .ok m from Word.copy_ok m1, Outcome.bind_ok] at h
  obtain ⟨⟨er, t₁⟩, h2, h⟩ := Outcome.bind_eq_ok.mp h
  obtain ⟨e, e1, e2⟩ := Word.error_rep G' hG' hcr C.n k.variance hv t t₁ er h2
  dsimp only at h
  obtain ⟨v, v1, v2, -⟩ := e2.forward hC.good ht
  obtain ⟨w, w1, w2⟩ := v2.mulScalar hC.good hk.tLe
  obtain ⟨y, y1, y2⟩ := w2.add hC.good (m2.negate hC.good)
  obtain ⟨z, z1, z2⟩ := y2.add hC.good hpt
  rw [v1, Outcome.bind_ok, Word.copy_ok w1, Outcome.bind_ok, Word.copy_ok y1, Outcome.bind_ok, Word.copy_ok z1,
    Outcome.bind_ok] at h
  cases h
  refine ⟨_, e, fun i => by rw [← hk.variance]; exact e1 i, ?_, ha⟩
  have hr : res p C.q k.tMod = K.tUnderQ := by
    rw [← hk.t, ← res_export hC.good hk.tLe]; rfl
  rw [hr] at z2
  exact z2

theorem columns_agree (G : Gen σ) (G' : Gen τ) (hG' : Words G') (hcr : create C.w C.q = .ok p) {k : Word.Key}
    {K : Sym.Key C} (hk : HoldsKey C p q k K) (hv : 2 * k.variance ≤ C.q) {pts : List (List ℕ)} {Fs : List C.Poly}
    (hpt : List.Forall₂ (Poly.Rep p C.q C.n) pts Fs) {fuel : ℕ} {s s' : σ} {t t' : τ} {cs : List (List ℕ × List ℕ)}
    (h : Word.columns G G' fuel k C.n pts s t = .ok (cs, s', t')) :
    ∃ (pads : ℕ → C.Poly) (E : ℕ → Fin C.n → ℤ), (∀ j i, |E j i| ≤ 2 * K.variance) ∧ cs.length = pts.length ∧
      ∀ j < pts.length, Rep2 C p (cs.getD j ([], [])) (Relin.column K (Fs.getD j 0) (pads j) (modq C.q (E j))) := by
  induction hpt generalizing s t cs with
  | nil =>
    cases h
    exact ⟨fun _ => 0, fun _ _ => 0, fun j i => by simp, rfl, fun j hj => by simp at hj⟩
  | cons h1 _ ih =>
    unfold Word.columns at h
    obtain ⟨⟨c, s₁, t₁⟩, h2, h⟩ := Outcome.bind_eq_ok.mp h
    obtain ⟨⟨cs', s₂, t₂⟩, h3, h⟩ := Outcome.bind_eq_ok.mp h
    cases h
    obtain ⟨pad, e, e1, e2⟩ := column_agrees hC ht G G' hG' hcr hk hv h1 h2
    obtain ⟨pads, E, f1, f2, f3⟩ := ih h3
    refine ⟨fun j => Nat.casesOn j pad pads, fun j => Nat.casesOn j e E, fun j i => ?_, by simp [f2], fun j hj => ?_⟩
    · cases j with
      | zero => exact e1 i
      | succ j => exact f1 j i
    · cases j with
      | zero => exact e2
      | succ j => exact f3 j (by simpa using hj)

/-- One key part. -/
theorem createPart_agrees (G : Gen σ) (G' : Gen τ) (hG' : Words G') (hcr : create C.w C.q = .ok p) {k : Word.Key}
    {K : Sym.Key C} (hk : HoldsKey C p q k K) (hv : 2 * k.variance ≤ C.q) {kp : List ℕ} {F : C.Poly}
    (hkp : Poly.Rep p C.q C.n kp F) {T : ℕ} (hT : T ≤ C.q) {b d : ℕ} (hd : 0 < d) {fuel : ℕ} {s s' : σ} {t t' : τ}
    {m : Word.Part} (h : Word.Part.create G G' fuel kp k b T d s t = .ok (m, s', t')) :
    ∃ (pads : ℕ → C.Poly) (E : ℕ → Fin C.n → ℤ) (M : Relin.Part C), (∀ j i, |E j i| ≤ 2 * K.variance) ∧
      Relin.Part.create F K (res p C.q T) d pads (fun j => modq C.q (E j)) = .ok M ∧ HoldsPart C p b m M := by
  unfold Word.Part.create at h
  obtain ⟨pw, p1, p2⟩ := powers_agree hC hT d 0 hkp
  rw [hk.params, p1, Outcome.bind_ok, hkp.len] at h
  obtain ⟨⟨cs, s₁, t₁⟩, h2, h⟩ := Outcome.bind_eq_ok.mp h
  cases h
  obtain ⟨pads, E, f1, f2, f3⟩ := columns_agree hC ht G G' hG' hcr hk hv p2 h2
  obtain ⟨M, m1, m2, m3, m4⟩ := Relin.part_create F K (res p C.q T) d pads (fun j => modq C.q (E j))
  obtain ⟨q1, q2⟩ := Relin.powersOfT_getD (res p C.q T) d 0 F
  have hl : cs.length = d := by rw [f2, p2.length_eq, q1]
  have hget : ∀ j < d, Rep2 C p (cs.getD j ([], [])) (M.row0.getD j 0, M.row1.getD j 0) := by
    intro j hj
    have h3 := f3 j (by omega)
    rw [q2 j hj, if_pos rfl] at h3
    rw [(m4 j hj).1, (m4 j hj).2]
    exact h3
  refine ⟨pads, E, M, f1, m1, ?_, ?_, by simp, by simpa [hl] using hd, rfl⟩
  · refine forall₂_of_getD [] 0 (by simp [hl, m2]) fun j hj => ?_
    have hj' : j < cs.length := by simpa using hj
    have := (hget j (by omega)).1
    rw [List.getD_eq_getElem _ _ hj'] at this
    rw [List.getD_eq_getElem _ _ hj, List.getElem_map]
    exact this
  · refine forall₂_of_getD [] 0 (by simp [hl, m3]) fun j hj => ?_
    have hj' : j < cs.length := by simpa using hj
    have := (hget j (by omega)).2
    rw [List.getD_eq_getElem _ _ hj'] at this
    rw [List.getD_eq_getElem _ _ hj, List.getElem_map]
    exact this

theorem createParts_agree (G : Gen σ) (G' : Gen τ) (hG' : Words G') (hcr : create C.w C.q = .ok p) {k : Word.Key}
    {K : Sym.Key C} (hk : HoldsKey C p q k K) (hv : 2 * k.variance ≤ C.q) {base : List ℕ} {Base : C.Poly}
    (hbase : Poly.Rep p C.q C.n base Base) {T : ℕ} (hT : T ≤ C.q) {b d : ℕ} (hd : 0 < d) {fuel : ℕ} (cnt i j : ℕ)
    {kp : List ℕ} {F : C.Poly} (hkp : Poly.Rep p C.q C.n kp F) {s s' : σ} {t t' : τ} {ms : List Word.Part}
    (h : Word.createParts G G' fuel k base b T d cnt i kp s t = .ok (ms, s', t')) :
    ∃ (pads : ℕ → ℕ → C.Poly) (E : ℕ → ℕ → Fin C.n → ℤ) (Ms : List (Relin.Part C)),
      (∀ u j i, |E u j i| ≤ 2 * K.variance) ∧
      Relin.createParts K Base (res p C.q T) d pads (fun u v => modq C.q (E u v)) cnt i j F = .ok Ms ∧
      List.Forall₂ (HoldsPart C p b) ms Ms := by
  induction cnt generalizing i j kp F s t ms with
  | zero =>
    cases h
    exact ⟨fun _ _ => 0, fun _ _ _ => 0, [], fun u j i => by simp, rfl, .nil⟩
  | succ cnt ih =>
    unfold Word.createParts at h
    obtain ⟨kp', F', e1, e2, e3⟩ : ∃ kp' F', (if i ≠ 1 then Poly.copying (Poly.mulInPlace k.p kp base) else .ok kp :
        Outcome (List ℕ)) = .ok kp' ∧ (if i ≠ 1 then F * Base else F) = F' ∧ Poly.Rep p C.q C.n kp' F' := by
      by_cases hi : i ≠ 1
      · obtain ⟨r, r1, r2⟩ := hkp.mul hC.good hbase
        rw [if_pos hi, if_pos hi, hk.params]
        exact ⟨r, _, Word.copy_ok r1, rfl, r2⟩
      · rw [if_neg hi, if_neg hi]
        exact ⟨kp, F, rfl, rfl, hkp⟩
    rw [e1, Outcome.bind_ok] at h
    obtain ⟨⟨m, s₁, t₁⟩, h2, h⟩ := Outcome.bind_eq_ok.mp h
    obtain ⟨⟨ms', s₂, t₂⟩, h3, h⟩ := Outcome.bind_eq_ok.mp h
    cases h
    obtain ⟨pad, e, M, f1, f2, f3⟩ := createPart_agrees hC ht G G' hG' hcr hk hv e3 hT hd h2
    obtain ⟨pads, E, Ms, g1, g2, g3⟩ := ih (i + 1) (j + 1) e3 h3
    refine ⟨fun u => if u = j then pad else pads u, fun u => if u = j then e else E u, M :: Ms, fun u v i => ?_, ?_,
      .cons f3 g3⟩
    · by_cases hu : u = j
      · simpa only [hu, if_true] using f1 v i
      · simpa only [hu, if_false] using g1 u v i
    · unfold Relin.createParts
      dsimp only
      rw [e2, if_pos rfl]
      have hcong : ∀ (cnt i j' : ℕ) (F : C.Poly), j < j' →
          Relin.createParts K Base (res p C.q T) d (fun u => if u = j then pad else pads u)
            (fun u v => modq C.q ((fun u => if u = j then e else E u) u v)) cnt i j' F =
          Relin.createParts K Base (res p C.q T) d pads (fun u v => modq C.q (E u v)) cnt i j' F := by
        intro cnt
        induction cnt with
        | zero => intros; rfl
        | succ cnt ih =>
          intro i j' F hj
          unfold Relin.createParts
          dsimp only
          rw [ih _ _ _ (by omega)]
          have hne : ¬ j' = j := by omega
          simp only [if_neg hne]
      have := hcong cnt (i + 1) (j + 1) F' (by omega)
      dsimp only at this
      rw [this, g2]
      simp only [if_true]
      rw [f2]
      rfl

/-- `RelinearizationKey::Create`. -/
theorem create_agrees (hw : C.w ≤ 128) (R : Word.Rng σ) (hR : ∀ t, Words (R.gen t)) (hcr : create C.w C.q = .ok p)
    {k : Word.Key} {K : Sym.Key C} (hk : HoldsKey C p q k K) (hv : 2 * k.variance ≤ C.q) {T : ℕ}
    (htm : plaintextModulus C.w K.logT = .ok T) {fuel : ℕ} {prng : PrngType} {numParts : ℤ} {b : ℕ} {pw : ℤ}
    {seed seedE : List ℕ} {rk : Word.RKey}
    (h : Word.RKey.create R fuel k prng numParts b pw seed seedE = .ok rk) :
    ∃ (pads : ℕ → ℕ → C.Poly) (E : ℕ → ℕ → Fin C.n → ℤ) (RK : Relin.RKey C),
      (∀ u j i, |E u j i| ≤ 2 * K.variance) ∧
      Relin.create K prng numParts b pw pads (fun u v => modq C.q (E u v)) = .ok RK ∧ HoldsSwitch C p q rk RK := by
  have hlog : p.logModulus = C.logModulus := logModulus_of_create hcr
  obtain ⟨l1, l2, l3⟩ := ctx_logModulus hC.ok hw
  unfold Word.RKey.create at h
  unfold Relin.create
  rw [hk.params, hk.ntt, hC.good.hw, hlog] at h
  obtain ⟨_, h⟩ | ⟨c1, h⟩ := ite_eq_iff.mp h
  · cases h
  obtain ⟨_, h⟩ | ⟨c2, h⟩ := ite_eq_iff.mp h
  · cases h
  obtain ⟨_, h⟩ | ⟨c3, h⟩ := ite_eq_iff.mp h
  · cases h
  simp only [if_neg c1, if_neg c2, if_neg c3]
  obtain ⟨one, m1, m2, m3⟩ := mask_eq (w := C.w) (b := b) (by omega)
  have hone : one < 2 ^ C.w := by rw [m2]; exact Nat.pow_lt_pow_right (by norm_num) (by omega)
  rw [m1, Outcome.bind_ok] at h
  obtain ⟨base, h1, h⟩ := Outcome.bind_eq_ok.mp h
  obtain ⟨s, h2, h⟩ := Outcome.bind_eq_ok.mp h
  obtain ⟨t, h3, h⟩ := Outcome.bind_eq_ok.mp h
  obtain ⟨d, h4, h⟩ := Outcome.bind_eq_ok.mp h
  obtain ⟨⟨ms, s', t'⟩, h5, h⟩ := Outcome.bind_eq_ok.mp h
  cases h
  have hpr : prng ≠ .invalid := by
    intro hc
    unfold Word.Rng.start at h2
    rw [if_pos hc] at h2
    cases h2
  rcases polySubstitute_agrees hC ht hk.key pw with ⟨r, G, r1, r2, r3⟩ | ⟨r1, r2⟩
  swap
  · rw [r1] at h1; cases h1
  rw [r1] at h1
  cases h1
  have hd : 0 < d := by
    unfold Gadget.gadgetSize at h4
    rw [if_neg c2] at h4
    cases h4
    exact Nat.div_pos (by omega) (by omega)
  obtain ⟨pads, E, Ms, g1, g2, g3⟩ := createParts_agree hC ht (R.gen prng) (R.gen prng) (hR prng) hcr hk hv r3
    (importInt_lt hC.good _ hone).le hd _ _ 0 r3 h5
  rw [res_import hC.good hone] at g2
  refine ⟨pads, E, ⟨numParts, b, pw, Ms⟩, g1, ?_, rfl, rfl, rfl, rfl, rfl, g3⟩
  rw [m1, Outcome.bind_ok]
  unfold Key.substitute
  rw [htm, Outcome.bind_ok, r2, Outcome.bind_ok]
  simp only [Outcome.bind_ok, pure]
  rw [if_neg hpr, h4, Outcome.bind_ok, g2, Outcome.bind_ok]

end

end Shell.WordCt
