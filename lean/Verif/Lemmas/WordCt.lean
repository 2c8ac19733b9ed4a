import Verif.Spec.WordCt
import Verif.Lemmas.InPlace
import Verif.Props.Word
/-!
The operations on stored words compute the operations on residues.
-/

namespace Shell.WordCt
open Rns Rns.Res Spec ErrorTrack Sym
variable {E : Type} {C : Ctx} {p : MParams}

/-! ### Loops over components -/

/-- `cs[i] = F(cs[i], ys[i])` for the elements of `ys`. -/
def eachSpec {α β : Type} (F : α → β → α) : List α → List β → List α
  | cs, [] => cs
  | [], _ :: _ => []
  | c :: cs, y :: ys => F c y :: eachSpec F cs ys

/-- The same, appending `G(ys[i])`. -/
def bothSpec {α β : Type} (F : α → β → α) (G : β → α) : List α → List β → List α
  | cs, [] => cs
  | [], y :: ys => G y :: bothSpec F G [] ys
  | c :: cs, y :: ys => F c y :: bothSpec F G cs ys

section
variable {α α' β β' : Type} {R : α → α' → Prop} {Q : β → β' → Prop}

theorem forEach_rel {f : α → β → Res α} {F : α' → β' → α'}
    (hf : ∀ a A b B, R a A → Q b B → ∃ r, f a b = (r, .ok ()) ∧ R r (F A B)) {cs : List α} {Cs : List α'}
    {ys : List β} {Ys : List β'} (hc : List.Forall₂ R cs Cs) (hy : List.Forall₂ Q ys Ys)
    (hl : ys.length ≤ cs.length) :
    ∃ r, forEach f cs ys = (r, .ok ()) ∧ List.Forall₂ R r (eachSpec F Cs Ys) := by
  induction hy generalizing cs Cs with
  | nil => exact ⟨cs, by cases cs <;> rfl, by cases Cs <;> exact hc⟩
  | cons h1 _ ih =>
    cases hc with
    | nil => simp at hl
    | cons h2 hc =>
      obtain ⟨r, r1, r2⟩ := hf _ _ _ _ h2 h1
      obtain ⟨s, s1, s2⟩ := ih hc (by simpa using hl)
      exact ⟨r :: s, by simp only [forEach, r1, s1], .cons r2 s2⟩

theorem forBoth_rel {f : α → β → Res α} {g : β → Outcome α} {F : α' → β' → α'} {G : β' → α'}
    (hf : ∀ a A b B, R a A → Q b B → ∃ r, f a b = (r, .ok ()) ∧ R r (F A B))
    (hg : ∀ b B, Q b B → ∃ r, g b = .ok r ∧ R r (G B)) {cs : List α} {Cs : List α'}
    {ys : List β} {Ys : List β'} (hc : List.Forall₂ R cs Cs) (hy : List.Forall₂ Q ys Ys) :
    ∃ r, forBoth f g cs ys = (r, .ok ()) ∧ List.Forall₂ R r (bothSpec F G Cs Ys) := by
  induction hy generalizing cs Cs with
  | nil => exact ⟨cs, by cases cs <;> rfl, by cases Cs <;> exact hc⟩
  | cons h1 _ ih =>
    cases hc with
    | nil =>
      obtain ⟨r, r1, r2⟩ := hg _ _ h1
      obtain ⟨s, s1, s2⟩ := ih (.nil (R := R))
      exact ⟨r :: s, by simp only [forBoth, r1, s1], .cons r2 s2⟩
    | cons h2 hc =>
      obtain ⟨r, r1, r2⟩ := hf _ _ _ _ h2 h1
      obtain ⟨s, s1, s2⟩ := ih hc
      exact ⟨r :: s, by simp only [forBoth, r1, s1], .cons r2 s2⟩

theorem all_rel {f : α → Res α} {F : α' → α'} (hf : ∀ a A, R a A → ∃ r, f a = (r, .ok ()) ∧ R r (F A))
    {cs : List α} {Cs : List α'} (hc : List.Forall₂ R cs Cs) :
    ∃ r, Res.all f cs = (r, .ok ()) ∧ List.Forall₂ R r (Cs.map F) := by
  induction hc with
  | nil => exact ⟨[], rfl, .nil⟩
  | cons h _ ih =>
    obtain ⟨r, r1, r2⟩ := hf _ _ h
    obtain ⟨s, s1, s2⟩ := ih
    exact ⟨r :: s, by simp only [Res.all, r1, s1], .cons r2 s2⟩

theorem mapM_rel {f : α → Outcome β} {F : α' → β'} {R' : β → β' → Prop}
    (hf : ∀ a A, R a A → ∃ r, f a = .ok r ∧ R' r (F A)) {cs : List α} {Cs : List α'} (hc : List.Forall₂ R cs Cs) :
    ∃ r, cs.mapM f = .ok r ∧ List.Forall₂ R' r (Cs.map F) := by
  induction hc with
  | nil => exact ⟨[], rfl, .nil⟩
  | cons h _ ih =>
    obtain ⟨r, r1, r2⟩ := hf _ _ h
    obtain ⟨s, s1, s2⟩ := ih
    exact ⟨r :: s, by rw [List.mapM_cons, r1, Outcome.bind_ok, s1, Outcome.bind_ok]; rfl, .cons r2 s2⟩

/-- Two loops in step. -/
theorem loop_rel {n : ℕ} {f : ℕ → α → Outcome α} {F : ℕ → α' → Outcome α'} {s : α} {S : α'} (h0 : R s S)
    (hs : ∀ j s S, j < n → R s S → ∃ s' S', f j s = .ok s' ∧ F j S = .ok S' ∧ R s' S') :
    ∃ s' S', loop n f s = .ok s' ∧ loop n F S = .ok S' ∧ R s' S' := by
  suffices H : ∀ k i s S, i + k ≤ n → R s S → ∃ s' S', Shell.loopFrom f k i s = .ok s' ∧
      Shell.loopFrom F k i S = .ok S' ∧ R s' S' from H n 0 s S (by omega) h0
  intro k
  induction k with
  | zero => intro i s S _ h; exact ⟨s, S, rfl, rfl, h⟩
  | succ k ih =>
    intro i s S hi h
    obtain ⟨s', S', e1, e2, e3⟩ := hs i s S (by omega) h
    obtain ⟨t, T, f1, f2, f3⟩ := ih (i + 1) s' S' (by omega) e3
    exact ⟨t, T, by rw [Shell.loopFrom, e1, Outcome.bind_ok, f1], by rw [Shell.loopFrom, e2, Outcome.bind_ok, f2], f3⟩

theorem forall₂_set {cs : List α} {Cs : List α'} (h : List.Forall₂ R cs Cs) (i : ℕ) {x : α} {X : α'} (hx : R x X) :
    List.Forall₂ R (cs.set i x) (Cs.set i X) := by
  induction h generalizing i with
  | nil => exact .nil
  | cons h1 h2 ih =>
    cases i with
    | zero => exact .cons hx h2
    | succ i => exact .cons h1 (ih i)

theorem forall₂_getD {cs : List α} {Cs : List α'} (h : List.Forall₂ R cs Cs) {i : ℕ} (hi : i < cs.length) (d : α)
    (D : α') : R (cs.getD i d) (Cs.getD i D) := by
  rw [List.getD_eq_getElem _ _ hi, List.getD_eq_getElem _ _ (by rw [← h.length_eq]; exact hi)]
  exact (List.forall₂_iff_get.mp h).2 i hi _

theorem forall₂_replicate (k : ℕ) {x : α} {X : α'} (h : R x X) :
    List.Forall₂ R (List.replicate k x) (List.replicate k X) := by
  induction k with
  | zero => exact .nil
  | succ k ih => exact .cons h ih

theorem forall₂_append {a b : List α} {A B : List α'} (h : List.Forall₂ R a A) (h' : List.Forall₂ R b B) :
    List.Forall₂ R (a ++ b) (A ++ B) := by
  induction h with
  | nil => exact h'
  | cons h1 _ ih => exact .cons h1 ih
end

theorem eachSpec_spec {α : Type} [AddGroup α] {F : α → α → α} (cs ys : List α) (h : ys.length ≤ cs.length) :
    (eachSpec F cs ys).length = cs.length ∧
    ∀ i, (eachSpec F cs ys).getD i 0 = if i < ys.length then F (cs.getD i 0) (ys.getD i 0) else cs.getD i 0 := by
  induction ys generalizing cs with
  | nil => cases cs <;> simp [eachSpec]
  | cons y ys ih =>
    cases cs with
    | nil => simp at h
    | cons c cs =>
      obtain ⟨h1, h2⟩ := ih cs (by simpa using h)
      refine ⟨by simp [eachSpec, h1], fun i => ?_⟩
      cases i with
      | zero => simp [eachSpec]
      | succ i => simpa [eachSpec] using h2 i

theorem fusedComponents_eq (b : C.Poly) (c a : List C.Poly) :
    fusedComponents b c a = bothSpec (fun c a => c + a * b) (· * b) c a := by
  induction a generalizing c with
  | nil => cases c <;> rfl
  | cons x a ih => cases c <;> simp [fusedComponents, bothSpec, ih]

theorem mergeComponents_eq (c a : List C.Poly) : mergeComponents c a = bothSpec (· + ·) id c a := by
  induction a generalizing c with
  | nil => cases c <;> rfl
  | cons x a ih => cases c <;> simp [mergeComponents, bothSpec, ih]

/-! ### The polynomial operations -/

theorem vec_ok {r : List ℕ} {x : Poly.InPlace} (h : x = (r, none)) : vec x = (r, .ok ()) := by rw [h]; rfl

/-- A context whose parameters are those of the words. -/
structure Fit (C : Ctx) (p : MParams) : Prop where
  ok : C.Ok
  good : Good p C.w C.q
  log : Lazy.LogGood p C.w C.q

variable (hC : Fit C p)
include hC

theorem LazyRep.export {s : Lazy.LPoly} {F : C.Poly} (h : LazyRep p C.w C.q C.n s F) :
    Poly.Rep p C.q C.n (Lazy.exportPoly p s) F := by
  obtain ⟨S, h1, h2⟩ := h
  obtain ⟨e1, e2⟩ := h1.export hC.good hC.log
  refine ⟨e1, fun i hi => ?_, fun i => ?_⟩
  · rw [e2 i hi]; exact (Nat.mod_lt _ hC.good.pos).le
  · rw [e2 i i.2, res_mod, ← h2 i]; unfold res; push_cast; rfl

theorem LazyRep.step {s : Lazy.LPoly} {F A B : C.Poly} {a b : List ℕ} (h : LazyRep p C.w C.q C.n s F)
    (ha : Poly.Rep p C.q C.n a A) (hb : Poly.Rep p C.q C.n b B) :
    ∃ r, lazyStep p b s a = (r, .ok ()) ∧ LazyRep p C.w C.q C.n r (F + A * B) := by
  obtain ⟨S, h1, h2⟩ := h
  obtain ⟨⟨s', e1, e2⟩, -⟩ := h1.step hC.good hC.log ha.len hb.len ha.le hb.le
  refine ⟨s', by unfold lazyStep; rw [e1]; rfl, _, e2, fun i => ?_⟩
  have h3 := ha.val i
  have h4 := hb.val i
  unfold res at h3 h4
  show _ = F i + A i * B i
  rw [← h2 i, ← h3, ← h4]
  push_cast
  ring

theorem LazyRep.create {A B : C.Poly} {a b : List ℕ}
    (ha : Poly.Rep p C.q C.n a A) (hb : Poly.Rep p C.q C.n b B) :
    ∃ r, Lazy.create p a b = .ok r ∧ LazyRep p C.w C.q C.n r (A * B) := by
  obtain ⟨s', e1, e2⟩ := Lazy.inv_create hC.good hC.log ha.len hb.len ha.le hb.le
  refine ⟨s', e1, _, e2, fun i => ?_⟩
  have h3 := ha.val i
  have h4 := hb.val i
  unfold res at h3 h4
  show _ = A i * B i
  rw [← h3, ← h4]
  push_cast
  ring

theorem LazyRep.empty : ∃ r, Lazy.createEmpty p C.n = .ok r ∧ LazyRep p C.w C.q C.n r 0 := by
  obtain ⟨s', e1, e2⟩ := Lazy.inv_empty hC.good hC.log C.n
  exact ⟨s', e1, _, e2, fun i => by simp⟩

omit hC in
theorem head_len {y : List (List ℕ)} {Y : List C.Poly} (hy : List.Forall₂ (Poly.Rep p C.q C.n) y Y) (h : 0 < y.length) :
    (y.headD []).length = C.n := by
  cases hy with
  | nil => simp at h
  | cons h1 _ => exact h1.len

omit hC in
theorem pad_rel {x y : List (List ℕ)} {X Y : List C.Poly} (hx : List.Forall₂ (Poly.Rep p C.q C.n) x X)
    (hy : List.Forall₂ (Poly.Rep p C.q C.n) y Y) : List.Forall₂ (Poly.Rep p C.q C.n) (pad x y) (padTo X Y) := by
  unfold pad padTo
  rw [hx.length_eq, hy.length_eq]
  split_ifs with h
  · rw [head_len hy (by rw [hy.length_eq]; omega)]
    exact forall₂_append hx (forall₂_replicate _ (Word.rep_zero _))
  · exact hx

omit hC in
theorem pad_length {x y : List (List ℕ)} : (pad x y).length = max x.length y.length := by
  unfold pad; split_ifs <;> simp <;> omega

omit hC in
/-- A sum of residue vectors, from its components. -/
theorem eq_eachSpec {F : C.Poly → C.Poly → C.Poly} (hF : ∀ a, F a 0 = a) {X Y r : List C.Poly}
    (h1 : r.length = max X.length Y.length) (h2 : ∀ i, r.getD i 0 = F (X.getD i 0) (Y.getD i 0)) :
    r = eachSpec F (padTo X Y) Y := by
  have hl : Y.length ≤ (padTo X Y).length := by rw [padTo_length]; omega
  obtain ⟨e1, e2⟩ := eachSpec_spec (F := F) (padTo X Y) Y hl
  refine ext_getD 0 (by rw [h1, e1, padTo_length]) fun i _ => ?_
  rw [h2, e2, padTo_getD]
  split_ifs with hi
  · rfl
  · rw [getD_eq_zero (c := Y) (by omega), hF]

theorem add_agrees {x y : Obj ℝ} {X Y : Tracked C} (hx : Carries C p x X) (hy : Carries C p y Y) :
    Agrees C p (addIn p x y) (ErrorTrack.add X Y) := by
  unfold addIn ErrorTrack.add
  rw [hx.power, hy.power]
  by_cases hp : X.ct.power = Y.ct.power
  · obtain ⟨r, e1, e2, e3⟩ := add_ok X.ct Y.ct hp
    obtain ⟨s, s1, s2⟩ := forEach_rel (R := Poly.Rep p C.q C.n) (Q := Poly.Rep p C.q C.n)
      (f := fun a b => vec (Poly.addInPlace p a b)) (F := (· + ·))
      (fun a A b B ha hb => by
        obtain ⟨r, r1, r2⟩ := ha.add hC.good hb
        exact ⟨r, vec_ok r1, r2⟩) (pad_rel hx.c hy.c) hy.c (by rw [pad_length]; omega)
    rw [if_neg (by simpa using hp), e1, s1]
    refine ⟨rfl, ?_, hx.power, ?_, hx.lazy⟩
    · show List.Forall₂ _ s r
      rw [eq_eachSpec (F := (· + ·)) (fun a => add_zero a) e2 e3]
      exact s2
    · show x.error + y.error = X.error + Y.error
      rw [hx.error, hy.error]
  · rw [if_pos hp]
    unfold addInPlace
    rw [if_pos hp]
    exact rfl

theorem sub_agrees {x y : Obj ℝ} {X Y : Tracked C} (hx : Carries C p x X) (hy : Carries C p y Y) :
    Agrees C p (subIn p x y) (ErrorTrack.sub X Y) := by
  unfold subIn ErrorTrack.sub
  rw [hx.power, hy.power]
  by_cases hp : X.ct.power = Y.ct.power
  · obtain ⟨r, e1, e2, e3⟩ := sub_ok X.ct Y.ct hp
    obtain ⟨s, s1, s2⟩ := forEach_rel (R := Poly.Rep p C.q C.n) (Q := Poly.Rep p C.q C.n)
      (f := fun a b => vec (Poly.subInPlace p a b)) (F := (· - ·))
      (fun a A b B ha hb => by
        obtain ⟨r, r1, r2⟩ := ha.sub hC.good hb
        exact ⟨r, vec_ok r1, r2⟩) (pad_rel hx.c hy.c) hy.c (by rw [pad_length]; omega)
    rw [if_neg (by simpa using hp), e1, s1]
    refine ⟨rfl, ?_, hx.power, ?_, hx.lazy⟩
    · show List.Forall₂ _ s r
      rw [eq_eachSpec (F := (· - ·)) (fun a => sub_zero a) e2 e3]
      exact s2
    · show x.error + y.error = X.error + Y.error
      rw [hx.error, hy.error]
  · rw [if_pos hp]
    unfold subInPlace
    rw [if_pos hp]
    exact rfl

theorem absorb_agrees {P : ErrorParams} {x : Obj ℝ} {X : Tracked C} (hx : Carries C p x X) {f : List ℕ} {F : C.Poly}
    (hf : Poly.Rep p C.q C.n f F) :
    Agrees C p (absorbIn p (P.bPlaintext C.n) x f) (.ok (ErrorTrack.absorb P X F)) := by
  obtain ⟨s, s1, s2⟩ := all_rel (R := Poly.Rep p C.q C.n) (f := fun a => vec (Poly.mulInPlace p a f)) (F := (· * F))
    (fun a A ha => by
      obtain ⟨r, r1, r2⟩ := ha.mul hC.good hf
      exact ⟨r, vec_ok r1, r2⟩) hx.c
  unfold absorbIn
  rw [s1]
  refine ⟨rfl, s2, hx.power, ?_, hx.lazy⟩
  show x.error * _ = X.error * _
  rw [hx.error]

theorem absorbScalar_agrees {x : Obj ℝ} {X : Tracked C} (hx : Carries C p x X) {c : ℕ} (hc : c ≤ C.q) :
    Agrees C p (absorbScalarIn p x c) (.ok (ErrorTrack.absorbScalar X (Mont.exportInt p c : ℕ))) := by
  have hcast : ((Mont.exportInt p c : ℕ) : ZMod C.q) = res p C.q c := res_export hC.good hc
  obtain ⟨s, s1, s2⟩ := all_rel (R := Poly.Rep p C.q C.n) (f := fun a => vec (Poly.mulScalarInPlace p a c))
    (F := scalarMul (Mont.exportInt p c : ℕ))
    (fun a A ha => by
      obtain ⟨r, r1, r2⟩ := ha.mulScalar hC.good hc
      exact ⟨r, vec_ok r1, by rw [hcast]; exact r2⟩) hx.c
  unfold absorbScalarIn
  rw [s1]
  refine ⟨rfl, s2, hx.power, ?_, hx.lazy⟩
  show x.error * (Mont.exportInt p c : ℕ) = X.error * (((Mont.exportInt p c : ℕ) : ZMod C.q).val : ℕ)
  rw [hx.error, hcast, ← export_eq_val hC.good hc]
  rfl

theorem fused_agrees {P : ErrorParams} {x a : Obj ℝ} {X A : Tracked C} (hx : Carries C p x X) (ha : Carries C p a A)
    {f : List ℕ} {F : C.Poly} (hf : Poly.Rep p C.q C.n f F) :
    Agrees C p (fusedIn p (P.bPlaintext C.n) x a f) (ErrorTrack.fusedAbsorbAdd P X A F) := by
  unfold fusedIn ErrorTrack.fusedAbsorbAdd Sym.fusedAbsorbAdd
  rw [hx.power, ha.power]
  by_cases hp : X.ct.power = A.ct.power
  · obtain ⟨s, s1, s2⟩ := forBoth_rel (R := Poly.Rep p C.q C.n) (Q := Poly.Rep p C.q C.n)
      (f := fun c y => vec (Poly.fusedMulAddInPlace p c y f)) (g := fun y => Poly.mul p y f)
      (F := fun c a => c + a * F) (G := (· * F))
      (fun a A b B ha hb => by
        obtain ⟨r, r1, r2⟩ := ha.fusedMulAdd hC.good hb hf
        exact ⟨r, vec_ok r1, r2⟩)
      (fun b B hb => by
        obtain ⟨r, r1, r2⟩ := hb.mul hC.good hf
        exact ⟨r, Word.copy_ok r1, r2⟩) hx.c ha.c
    rw [if_neg (by simpa using hp), if_neg (by simpa using hp), s1]
    refine ⟨rfl, ?_, hx.power, ?_, hx.lazy⟩
    · show List.Forall₂ _ s (fusedComponents F X.ct.c A.ct.c)
      rw [fusedComponents_eq]
      exact s2
    · show x.error + a.error * _ = X.error + A.error * _
      rw [hx.error, ha.error]
  · rw [if_pos hp, if_pos hp]
    exact rfl

theorem fusedConst_agrees {P : ErrorParams} {x a : Obj ℝ} {X A : Tracked C} (hx : Carries C p x X)
    (ha : Carries C p a A) {f : List ℕ} {F : C.Poly} (hf : Poly.Rep p C.q C.n f F) {b : Poly.Const}
    (hb : Poly.computeConstant p f = .ok b) :
    Agrees C p (fusedConstIn p (P.bPlaintext C.n) x a b) (ErrorTrack.fusedAbsorbAdd P X A F) := by
  unfold fusedConstIn ErrorTrack.fusedAbsorbAdd Sym.fusedAbsorbAdd
  rw [hx.power, ha.power]
  by_cases hp : X.ct.power = A.ct.power
  · obtain ⟨s, s1, s2⟩ := forBoth_rel (R := Poly.Rep p C.q C.n) (Q := Poly.Rep p C.q C.n)
      (f := fun c y => vec (Poly.fusedMulConstantAddInPlace p c y b)) (g := fun y => Poly.mulConstant p y b)
      (F := fun c a => c + a * F) (G := (· * F))
      (fun a A b B ha hb' => by
        obtain ⟨r, r1, r2⟩ := ha.fusedMulConstantAdd hC.good hb' hf hb
        exact ⟨r, vec_ok r1, r2⟩)
      (fun b B hb' => by
        obtain ⟨r, r1, r2⟩ := hb'.mulConstant hC.good hf hb
        exact ⟨r, Word.copy_ok r1, r2⟩) hx.c ha.c
    rw [if_neg (by simpa using hp), if_neg (by simpa using hp), s1]
    refine ⟨rfl, ?_, hx.power, ?_, hx.lazy⟩
    · show List.Forall₂ _ s (fusedComponents F X.ct.c A.ct.c)
      rw [fusedComponents_eq]
      exact s2
    · show x.error + a.error * _ = X.error + A.error * _
      rw [hx.error, ha.error]
  · rw [if_pos hp, if_pos hp]
    exact rfl

theorem merge_agrees {x : Obj ℝ} {X : Tracked C} (hx : Carries C p x X) :
    Agrees C p (mergeIn p x) (ErrorTrack.mergeLazy X) := by
  unfold mergeIn ErrorTrack.mergeLazy Sym.mergeLazy
  have hiff : x.lazy = [] ↔ X.ct.lazy = [] := by
    rw [← List.length_eq_zero_iff, ← List.length_eq_zero_iff, hx.lazy.length_eq]
  by_cases h : X.ct.lazy = []
  · rw [if_pos (hiff.mpr h), if_pos h]
    exact rfl
  · rw [if_neg (fun h' => h (hiff.mp h')), if_neg h]
    obtain ⟨s, s1, s2⟩ := forBoth_rel (R := Poly.Rep p C.q C.n) (Q := LazyRep p C.w C.q C.n)
      (f := fun c s => vec (Poly.addInPlace p c (Lazy.exportPoly p s))) (g := fun s => .ok (Lazy.exportPoly p s))
      (F := (· + ·)) (G := id)
      (fun a A b B ha hb => by
        obtain ⟨r, r1, r2⟩ := ha.add hC.good (LazyRep.export hC hb)
        exact ⟨r, vec_ok r1, r2⟩)
      (fun b B hb => ⟨_, rfl, LazyRep.export hC hb⟩) hx.c hx.lazy
    rw [s1]
    refine ⟨rfl, ?_, hx.power, hx.error, .nil⟩
    show List.Forall₂ _ s (mergeComponents X.ct.c X.ct.lazy)
    rw [mergeComponents_eq]
    exact s2

/-! ### Lazy sums -/

theorem lazyLoop_rel {b : List ℕ} {B : C.Poly} (hb : Poly.Rep p C.q C.n b B) {z : List Lazy.LPoly} {Z : List C.Poly}
    (hz : List.Forall₂ (LazyRep p C.w C.q C.n) z Z) {a : List (List ℕ)} {A : List C.Poly}
    (ha : List.Forall₂ (Poly.Rep p C.q C.n) a A) :
    (z.length ≤ a.length → ∃ r, lazyLoop p b z a = (r, .ok ()) ∧
      List.Forall₂ (LazyRep p C.w C.q C.n) r (eachSpec (fun u v => u + v * B) Z (A.take Z.length))) ∧
    (a.length < z.length → (lazyLoop p b z a).2 = .ub .outOfBounds) := by
  induction hz generalizing a A with
  | nil => exact ⟨fun _ => ⟨[], rfl, by simp [eachSpec]⟩, fun h => by simp at h⟩
  | cons h1 _ ih =>
    cases ha with
    | nil => exact ⟨fun h => by simp at h, fun _ => rfl⟩
    | cons h2 ha =>
      obtain ⟨r, r1, r2⟩ := LazyRep.step hC h1 h2 hb
      obtain ⟨i1, i2⟩ := ih ha
      constructor
      · intro h
        obtain ⟨s, s1, s2⟩ := i1 (by simpa using h)
        refine ⟨r :: s, by simp only [lazyLoop, r1, s1], ?_⟩
        simp only [List.length_cons, List.take_succ_cons, eachSpec]
        exact .cons r2 s2
      · intro h
        simp only [lazyLoop, r1]
        exact i2 (by simpa using h)

omit hC in
theorem residue_lazyLoop (B : C.Poly) (Z A : List C.Poly) :
    (Z.length ≤ A.length → loop Z.length (fun j lz => do
      let u ← rd lz j
      let v ← rd A j
      wr lz j (u + v * B)) Z = .ok (eachSpec (fun u v => u + v * B) Z (A.take Z.length))) ∧
    (A.length < Z.length → loop Z.length (fun j lz => do
      let u ← rd lz j
      let v ← rd A j
      wr lz j (u + v * B)) Z = .ub .outOfBounds) := by
  constructor
  · intro h
    obtain ⟨r, r1, r2, r3⟩ := update_loop (fun u v => u + v * B) A Z Z.length le_rfl h
    rw [r1]
    congr 1
    obtain ⟨e1, e2⟩ := eachSpec_spec (F := fun u v => u + v * B) Z (A.take Z.length) (by simp)
    refine ext_getD 0 (by rw [r2, e1]) fun i hi => ?_
    rw [r3, e2, if_pos (by omega), if_pos (by simp; omega)]
    simp only [List.getD_eq_getElem?_getD, List.getElem?_take]
    rw [if_pos (by omega)]
  · intro h
    refine loop_ub (fun j (r : List C.Poly) => r.length = Z.length) A.length h _ rfl ?_ ?_
    · intro j r hj hr
      refine ⟨r.set j (r.getD j 0 + A.getD j 0 * B), ?_, by simpa using hr⟩
      rw [rd_getD 0 (by omega), Outcome.bind_ok, rd_getD 0 (by omega), Outcome.bind_ok, wr_ok (by omega)]
    · intro r hr
      rw [rd_getD 0 (by omega), Outcome.bind_ok, rd_ub (by omega), Outcome.bind_ub]

theorem lazily_agrees {P : ErrorParams} {x a : Obj ℝ} {X A : Tracked C} (hx : Carries C p x X) (ha : Carries C p a A)
    {f : List ℕ} {F : C.Poly} (hf : Poly.Rep p C.q C.n f F) :
    Agrees C p (fusedLazilyIn p (P.bPlaintext C.n) x a f) (ErrorTrack.fusedAbsorbAddLazily P X A F) := by
  unfold fusedLazilyIn ErrorTrack.fusedAbsorbAddLazily Sym.fusedAbsorbAddLazily
  by_cases hp : X.ct.power = A.ct.power
  swap
  · have hp' : x.power ≠ a.power := by rw [hx.power, ha.power]; exact hp
    rw [if_pos hp', if_pos hp]
    exact rfl
  have hp' : ¬ x.power ≠ a.power := by rw [hx.power, ha.power]; simpa using hp
  have hp'' : ¬ X.ct.power ≠ A.ct.power := by simpa using hp
  rw [if_neg hp', if_neg hp'']
  by_cases h0 : A.ct.c.length = 0
  · have h0' : a.c.length = 0 := by rw [ha.c.length_eq]; exact h0
    rw [if_pos h0', if_pos h0]
    simp only [Outcome.bind_ok, if_pos h0]
    exact ⟨rfl, hx⟩
  have h0' : ¬ a.c.length = 0 := by rw [ha.c.length_eq]; exact h0
  rw [if_neg h0', if_neg h0]
  have herr : x.error + a.error * P.bPlaintext C.n = X.error + A.error * P.bPlaintext C.n := by
    rw [hx.error, ha.error]
  dsimp only
  by_cases hz : X.ct.lazy.length = 0
  · rw [if_pos (by rw [hx.lazy.length_eq]; exact hz), if_pos hz]
    have hz' : x.lazy = [] := List.length_eq_zero_iff.mp (by rw [hx.lazy.length_eq]; exact hz)
    obtain ⟨s, s1, s2⟩ := forBoth_rel (R := LazyRep p C.w C.q C.n) (Q := Poly.Rep p C.q C.n)
      (f := fun s _ => (s, .ok ())) (g := fun a => Lazy.create p a f) (F := fun u _ => u) (G := (· * F))
      (fun a A b B ha hb => ⟨a, rfl, ha⟩)
      (fun b B hb => LazyRep.create hC hb hf) (.nil (R := LazyRep p C.w C.q C.n)) ha.c
    have hmap : ∀ L : List C.Poly, bothSpec (fun u (_ : C.Poly) => u) (· * F) [] L = L.map (· * F) := by
      intro L; induction L with
      | nil => rfl
      | cons y L ih => simp [bothSpec, ih]
    rw [Outcome.bind_ok, if_neg h0]
    unfold lazyCreate
    dsimp only
    rw [hz', s1]
    refine ⟨rfl, hx.c, hx.power, herr, ?_⟩
    show List.Forall₂ _ s (A.ct.c.map (· * F))
    rw [← hmap]
    exact s2
  rw [if_neg (by rw [hx.lazy.length_eq]; exact hz), if_neg hz]
  -- the padded accumulators
  have hpad : ∃ z, lazyPad p { x with error := x.error + a.error * P.bPlaintext C.n } a.c =
      ({ x with error := x.error + a.error * P.bPlaintext C.n, lazy := z }, .ok ()) ∧
      List.Forall₂ (LazyRep p C.w C.q C.n) z (padTo X.ct.lazy A.ct.c) := by
    unfold lazyPad padTo
    dsimp only
    rw [ha.c.length_eq, hx.lazy.length_eq]
    by_cases hl : X.ct.lazy.length < A.ct.c.length
    · rw [if_pos hl, if_pos hl, head_len ha.c (by rw [ha.c.length_eq]; omega)]
      obtain ⟨r, r1, r2⟩ := LazyRep.empty hC
      rw [r1]
      exact ⟨_, rfl, forall₂_append hx.lazy (forall₂_replicate _ r2)⟩
    · rw [if_neg hl, if_neg hl]
      exact ⟨x.lazy, rfl, hx.lazy⟩
  obtain ⟨z, z1, z2⟩ := hpad
  rw [z1]
  simp only [Res.andThen]
  obtain ⟨l1, l2⟩ := lazyLoop_rel hC hf z2 ha.c
  obtain ⟨m1, m2⟩ := residue_lazyLoop F (padTo X.ct.lazy A.ct.c) A.ct.c
  by_cases hl : (padTo X.ct.lazy A.ct.c).length ≤ A.ct.c.length
  · obtain ⟨r, r1, r2⟩ := l1 (by rw [z2.length_eq, ha.c.length_eq]; exact hl)
    rw [m1 hl, Outcome.bind_ok]
    simp only [Outcome.bind_ok, if_neg h0, r1, onLazy]
    exact ⟨rfl, hx.c, hx.power, herr, r2⟩
  · rw [m2 (by omega), Outcome.bind_ub]
    exact l2 (by rw [z2.length_eq, ha.c.length_eq]; omega)

/-! ### Functions that return a new ciphertext -/

theorem mul_agrees {x y : Obj ℝ} {X Y : Tracked C} (hx : Carries C p x X) (hy : Carries C p y Y) :
    AgreesNew C p (WordCt.mul p x y) (ErrorTrack.mul X Y) := by
  unfold WordCt.mul ErrorTrack.mul Sym.mul
  rw [hx.power, hy.power, hx.c.length_eq, hy.c.length_eq]
  by_cases hp : X.ct.power = Y.ct.power
  swap
  · rw [if_pos hp, if_pos hp]
    exact rfl
  have hp' : ¬ X.ct.power ≠ Y.ct.power := by simpa using hp
  rw [if_neg hp', if_neg hp']
  by_cases h0 : X.ct.c.length ≤ 0 ∨ Y.ct.c.length ≤ 0
  · rw [if_pos h0, if_pos h0]
    exact rfl
  rw [if_neg h0, if_neg h0]
  have hx0 : 0 < x.c.length := by rw [hx.c.length_eq]; omega
  have hy0 : 0 < y.c.length := by rw [hy.c.length_eq]; omega
  have hn : 0 < C.n := by unfold Ctx.n; positivity
  rw [head_len hx.c hx0, head_len hy.c hy0, if_neg (by omega)]
  obtain ⟨r, S, r1, r2, r3, -⟩ := loop_rel
    (R := fun r S => List.Forall₂ (Poly.Rep p C.q C.n) r S ∧ S.length = X.ct.c.length + Y.ct.c.length - 1)
    (n := X.ct.c.length)
    (f := fun i r =>
      loop Y.ct.c.length (fun j r => do
        let t ← rd r (i + j)
        let u ← rd x.c i
        let v ← rd y.c j
        let t ← Poly.copying (Poly.fusedMulAddInPlace p t u v)
        wr r (i + j) t) r)
    (F := fun i r =>
      loop Y.ct.c.length (fun j r => do
        let t ← rd r (i + j)
        let u ← rd X.ct.c i
        let v ← rd Y.ct.c j
        wr r (i + j) (t + u * v)) r)
    (s := List.replicate (X.ct.c.length + Y.ct.c.length - 1) (List.replicate C.n 0))
    (S := List.replicate (X.ct.c.length + Y.ct.c.length - 1) 0)
    ⟨forall₂_replicate _ (Word.rep_zero _), by simp⟩
    (by
      intro i r S hi hr
      apply loop_rel (R := fun r S => List.Forall₂ (Poly.Rep p C.q C.n) r S ∧
        S.length = X.ct.c.length + Y.ct.c.length - 1) hr
      rintro j r S hj ⟨h1, h2⟩
      have hl := h1.length_eq
      obtain ⟨t, t1, t2⟩ := (forall₂_getD h1 (i := i + j) (by omega) [] 0).fusedMulAdd hC.good
        (forall₂_getD hx.c (i := i) (by rw [hx.c.length_eq]; exact hi) [] 0)
        (forall₂_getD hy.c (i := j) (by rw [hy.c.length_eq]; exact hj) [] 0)
      refine ⟨r.set (i + j) t, S.set (i + j) (S.getD (i + j) 0 + X.ct.c.getD i 0 * Y.ct.c.getD j 0), ?_, ?_,
        forall₂_set h1 _ t2, by simpa using h2⟩
      · rw [rd_getD [] (by omega), Outcome.bind_ok, rd_getD [] (by rw [hx.c.length_eq]; exact hi), Outcome.bind_ok,
          rd_getD [] (by rw [hy.c.length_eq]; exact hj), Outcome.bind_ok, Word.copy_ok t1, Outcome.bind_ok,
          wr_ok (by omega)]
      · rw [rd_getD 0 (by omega), Outcome.bind_ok, rd_getD 0 hi, Outcome.bind_ok, rd_getD 0 hj, Outcome.bind_ok,
          wr_ok (by omega)])
  rw [r1, r2]
  refine ⟨_, rfl, r3, ?_, ?_, .nil⟩
  · rfl
  · show x.error * y.error = X.error * Y.error
    rw [hx.error, hy.error]

variable {q : Ntt.NttParams} (ht : Ntt.Tables p C.w C.q C.l C.psi q)
include ht

theorem polySubstitute_agrees {v : List ℕ} {F : C.Poly} (hv : Poly.Rep p C.q C.n v F) (k : ℤ) :
    (∃ r G, Poly.substitute q v k = .ok r ∧ C.substitute F k = .ok G ∧ Poly.Rep p C.q C.n r G) ∨
    (Poly.substitute q v k = .err .invalidArgument ∧ C.substitute F k = .err .invalidArgument) := by
  have hl := hC.ok.l15
  have hlen : v.length = 2 ^ C.l := hv.len
  have hlt : 2 ^ C.l ≤ 2 ^ 15 := Nat.pow_le_pow_right (by norm_num) hl
  by_cases h1 : 0 > k ∨ k.tmod 2 = 0
  · exact Or.inr ⟨by unfold Poly.substitute; rw [if_pos h1], by unfold Ctx.substitute; rw [if_pos h1]⟩
  · have hk : 0 ≤ k := by omega
    obtain ⟨k, rfl⟩ := Int.eq_ofNat_of_zero_le hk
    by_cases h2 : (k : ℤ) ≥ 2 * C.n
    · refine Or.inr ⟨?_, by unfold Ctx.substitute; rw [if_neg h1, if_pos h2]⟩
      have h2' : (k : ℤ) ≥ 2 * v.length := by rw [hlen]; exact h2
      unfold Poly.substitute
      rw [if_neg h1, if_neg (by omega), if_pos h2']
    · have hodd : k % 2 = 1 := by
        have := Int.tmod_eq_emod_of_nonneg (a := (k : ℤ)) (b := 2) (by omega)
        omega
      have h3 : k < 2 * 2 ^ C.l := by
        have : ((C.n : ℕ) : ℤ) = ((2 ^ C.l : ℕ) : ℤ) := rfl
        omega
      obtain ⟨r, r1, r2⟩ := Poly.Rep.substitute (by omega) ht.bitrevs hv hodd h3
      exact Or.inl ⟨r, _, r1, ctx_substitute F k hodd h3, r2⟩

theorem substitute_agrees {x : Obj ℝ} {X : Tracked C} (hx : Carries C p x X) (k : ℤ) :
    AgreesNew C p (WordCt.substitute q x k) (ErrorTrack.substitute X k) := by
  have hm : (∃ c G, x.c.mapM (fun f => Poly.substitute q f k) = .ok c ∧
      X.ct.c.mapM (fun f => C.substitute f k) = .ok G ∧ List.Forall₂ (Poly.Rep p C.q C.n) c G) ∨
      (x.c.mapM (fun f => Poly.substitute q f k) = .err .invalidArgument ∧
      X.ct.c.mapM (fun f => C.substitute f k) = .err .invalidArgument) := by
    have h := hx.c
    generalize x.c = c at h
    generalize X.ct.c = G at h
    induction h with
    | nil => exact Or.inl ⟨[], [], rfl, rfl, .nil⟩
    | cons h1 _ ih =>
      rcases polySubstitute_agrees hC ht h1 k with ⟨r, G, r1, r2, r3⟩ | ⟨r1, r2⟩
      · rcases ih with ⟨s, H, s1, s2, s3⟩ | ⟨s1, s2⟩
        · exact Or.inl ⟨r :: s, G :: H, by rw [List.mapM_cons, r1, Outcome.bind_ok, s1, Outcome.bind_ok]; rfl,
            by rw [List.mapM_cons, r2, Outcome.bind_ok, s2, Outcome.bind_ok]; rfl, .cons r3 s3⟩
        · exact Or.inr ⟨by rw [List.mapM_cons, r1, Outcome.bind_ok, s1, Outcome.bind_err],
            by rw [List.mapM_cons, r2, Outcome.bind_ok, s2, Outcome.bind_err]⟩
      · exact Or.inr ⟨by rw [List.mapM_cons, r1, Outcome.bind_err], by rw [List.mapM_cons, r2, Outcome.bind_err]⟩
  unfold WordCt.substitute ErrorTrack.substitute Sym.substitute
  rcases hm with ⟨c, G, m1, m2, m3⟩ | ⟨m1, m2⟩
  swap
  · rw [m1, m2]; exact rfl
  rw [m1, m2, Outcome.bind_ok, Outcome.bind_ok, hx.power, hx.c.length_eq]
  cases hp : Transcription.int32 (X.ct.power * k) with
  | err e => exact rfl
  | ub u => exact rfl
  | ok v =>
    rw [Outcome.bind_ok, Outcome.bind_ok]
    by_cases h0 : X.ct.c.length = 0
    · rw [if_pos h0, if_pos h0]; exact rfl
    rw [if_neg h0, if_neg h0, head_len hx.c (by rw [hx.c.length_eq]; omega)]
    have hl := hC.ok.l15
    have hlt : 2 ^ C.l ≤ 2 ^ 15 := Nat.pow_le_pow_right (by norm_num) hl
    have hpos : 0 < 2 ^ C.l := by positivity
    have hcn : ((C.n : ℕ) : ℤ) = ((2 ^ C.l : ℕ) : ℤ) := rfl
    have h1 : Transcription.int32 (2 * (C.n : ℤ)) = .ok (2 * (C.n : ℤ)) := by
      unfold Transcription.int32
      rw [if_pos ⟨by omega, by omega⟩]
    rw [h1, Outcome.bind_ok, if_neg (by omega)]
    exact ⟨_, rfl, m3, rfl, hx.error, .nil⟩

omit hC ht in
theorem switchCoeff_lt (w a b t x : ℕ) : switchCoeff w a b t x < 2 ^ w := by
  unfold switchCoeff
  dsimp only
  split_ifs
  · exact trunc_lt _ _
  · exact Nat.mod_lt _ (by positivity)

theorem switch_agrees {D : Ctx} {p' : MParams} (hD : Fit D p') {q' : Ntt.NttParams}
    (ht' : Ntt.Tables p' D.w D.q D.l D.psi q') (hl : C.l = D.l) (hw : C.w = D.w) {Q : ErrorParams} {x : Obj ℝ}
    {X : Tracked C} (hx : Carries C p x X) (t : ℕ) :
    AgreesNew D p' (WordCt.switchModulus p p' q q' (Q.bScale D.n) x t) (ErrorTrack.switchModulus Q D hl X t) := by
  obtain ⟨w', N', l', psi'⟩ := D
  dsimp only at hl hw
  subst hl hw
  unfold WordCt.switchModulus ErrorTrack.switchModulus Sym.switchModulus
  rw [hC.good.hN, hD.good.hN]
  by_cases h0 : t = 0
  · rw [if_pos h0, if_pos h0]; exact rfl
  rw [if_neg h0, if_neg h0]
  by_cases hm : C.q % t = N' % t
  swap
  · rw [if_pos hm, if_pos hm]; exact rfl
  have hm' : ¬ C.q % t ≠ N' % t := by simpa using hm
  dsimp only
  rw [if_neg hm', if_neg hm']
  obtain ⟨c, c1, c2⟩ := mapM_rel (R := Poly.Rep p C.q C.n) (R' := Poly.Rep p' N' C.n)
    (f := fun f => do
      let v ← Poly.inverseNtt p q f
      Poly.convertToNtt p' q' (v.map fun a =>
        Mont.importInt p' (Sym.switchCoeff p.w C.q N' t (Mont.exportInt p a))))
    (F := fun f => (⟨C.w, N', C.l, psi'⟩ : Ctx).toNtt fun i =>
      (switchCoeff C.w C.q N' t (C.fromNtt f (Fin.cast rfl i)).val : ZMod N'))
    (fun v F hv => by
      obtain ⟨u, u1, u2, -⟩ := hv.inverse hC.good hC.ok.prime ht
      have hrep : Poly.Rep p' N' C.n (u.map fun a =>
          Mont.importInt p' (Sym.switchCoeff p.w C.q N' t (Mont.exportInt p a))) (fun i =>
          (switchCoeff C.w C.q N' t (C.fromNtt F (Fin.cast rfl i)).val : ZMod N')) := by
        refine ⟨by simpa using u2.len, fun i hi => ?_, fun i => ?_⟩
        · rw [Poly.getD_map' _ (by rw [u2.len]; exact hi)]
          exact (importInt_lt hD.good _ (by rw [hC.good.hw]; exact switchCoeff_lt ..)).le
        · rw [Poly.getD_map' _ (by rw [u2.len]; exact i.2),
            res_import hD.good (by rw [hC.good.hw]; exact switchCoeff_lt ..), hC.good.hw]
          have : Mont.exportInt p (u.getD i 0) = (C.fromNtt F (Fin.cast rfl i)).val := by
            have h1 : C.fromNtt F (Fin.cast rfl i) = NttRing.intt C.psi C.l F i := rfl
            rw [h1, ← u2.val i]
            exact export_eq_val hC.good (u2.le i i.2)
          rw [this]
      obtain ⟨r, r1, r2, -⟩ := hrep.forward hD.good ht'
      exact ⟨r, by rw [u1, Outcome.bind_ok, r1], r2⟩) hx.c
  rw [c1]
  refine ⟨_, rfl, c2, hx.power, ?_, .nil⟩
  show (N' : ℝ) / C.q * x.error + _ = (N' : ℝ) / C.q * X.error + _
  rw [hx.error]

end Shell.WordCt
