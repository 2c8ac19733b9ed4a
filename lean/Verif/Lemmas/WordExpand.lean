import Verif.Spec.WordExpand
import Verif.Props.WordSwitch
import Verif.Props.Expand
/-!
Oblivious expansion on stored words computes oblivious expansion on residues.
-/

namespace Shell.WordExpand
open Rns Rns.Res Spec ErrorTrack Sym MParams WordCt

/-! ### Related computations -/

section
variable {α β α' β' : Type}

theorem OutRel.mono {R S : α → β → Prop} (h : ∀ a b, R a b → S a b) {x : Outcome α} {y : Outcome β}
    (hx : OutRel R x y) : OutRel S x y := by
  cases hx with
  | ok h' => exact .ok (h _ _ h')
  | err e => exact .err e
  | ub u => exact .ub u

theorem OutRel.same {R : α → β → Prop} {x : Outcome α} {y : Outcome β} (h : OutRel R x y) : SameOutcome R x y := by
  cases h with
  | ok h => exact h
  | err e => exact rfl
  | ub u => exact rfl

theorem rel_rd {R : α → β → Prop} {a : List α} {b : List β} (h : List.Forall₂ R a b) (i : ℕ) :
    OutRel R (rd a i) (rd b i) := by
  by_cases hi : i < a.length
  · rw [rd_ok hi, rd_ok (by rw [← h.length_eq]; exact hi)]
    exact .ok ((List.forall₂_iff_get.mp h).2 i hi (by rw [← h.length_eq]; exact hi))
  · have hb : ¬ i < b.length := by rw [← h.length_eq]; exact hi
    unfold rd
    rw [List.getElem?_eq_none (by omega), List.getElem?_eq_none (by omega)]
    exact .ub _

theorem rel_wr {R : α → β → Prop} {a : List α} {b : List β} (h : List.Forall₂ R a b) (i : ℕ) {x : α} {y : β}
    (hx : R x y) : OutRel (List.Forall₂ R) (wr a i x) (wr b i y) := by
  unfold wr
  rw [h.length_eq]
  split_ifs
  · exact .ok (forall₂_set h i hx)
  · exact .ub _

theorem rel_loop {R : α → β → Prop} (n : ℕ) {f : ℕ → α → Outcome α} {g : ℕ → β → Outcome β}
    (hf : ∀ i, i < n → ∀ x y, R x y → OutRel R (f i x) (g i y)) {x : α} {y : β} (h : R x y) :
    OutRel R (loop n f x) (loop n g y) := by
  induction n with
  | zero => exact .ok h
  | succ n ih =>
    have e : ∀ {γ : Type} (f : ℕ → γ → Outcome γ) (x : γ), loop (n + 1) f x = loop n f x >>= f n := by
      intro γ f x
      have := loopFrom_succ f n 0 x
      rw [Nat.zero_add] at this
      exact this
    rw [e, e]
    exact OutRel.bind (ih fun i hi => hf i (by omega)) fun x y hxy => hf n (by omega) x y hxy

theorem rel_mapM {R : α → β → Prop} {S : α' → β' → Prop} {f : α → Outcome α'} {g : β → Outcome β'}
    (hf : ∀ x y, R x y → OutRel S (f x) (g y)) {a : List α} {b : List β} (h : List.Forall₂ R a b) :
    OutRel (List.Forall₂ S) (a.mapM f) (b.mapM g) := by
  induction h with
  | nil => rw [List.mapM_nil, List.mapM_nil]; exact .ok .nil
  | cons h1 _ ih =>
    rw [List.mapM_cons, List.mapM_cons]
    exact OutRel.bind (hf _ _ h1) fun x y hxy => OutRel.bind ih fun xs ys hxs => .ok (.cons hxy hxs)

theorem rel_foldlM {γ : Type} {R : α → β → Prop} {f : α → γ → Outcome α} {g : β → γ → Outcome β}
    (hf : ∀ x y c, R x y → OutRel R (f x c) (g y c)) (l : List γ) {x : α} {y : β} (h : R x y) :
    OutRel R (l.foldlM f x) (l.foldlM g y) := by
  induction l generalizing x y with
  | nil => exact .ok h
  | cons c l ih =>
    rw [List.foldlM_cons, List.foldlM_cons]
    exact OutRel.bind (hf _ _ _ h) fun x y hxy => ih hxy

theorem forall₂_flatten {R : α → β → Prop} {a : List (List α)} {b : List (List β)}
    (h : List.Forall₂ (List.Forall₂ R) a b) : List.Forall₂ R a.flatten b.flatten := by
  induction h with
  | nil => exact .nil
  | cons h1 _ ih => exact forall₂_append h1 ih

theorem forall₂_take {R : α → β → Prop} {a : List α} {b : List β} (h : List.Forall₂ R a b) (n : ℕ) :
    List.Forall₂ R (a.take n) (b.take n) := List.forall₂_take n h

end

variable {C : Ctx} {p : MParams} {q : Ntt.NttParams}

theorem bears_of {x : Obj ℝ} {X : Tracked C} (h : Carries C p x X) : Bears C p x X.ct :=
  ⟨h.c, h.power, rfl, h.lazy⟩

theorem rel_new {r : Outcome (Obj ℝ)} {O : Outcome (Tracked C)} (h : AgreesNew C p r O) :
    OutRel (Carries C p) r O := by
  cases O with
  | ok Y => obtain ⟨y, rfl, h2⟩ := h; exact .ok h2
  | err e => cases h; exact .err e
  | ub u => cases h; exact .ub u

theorem rel_value {r : Res (Obj ℝ)} {O : Outcome (Tracked C)} (h : Agrees C p r O) :
    OutRel (Carries C p) r.value O := by
  unfold Res.value
  cases O with
  | ok Y => obtain ⟨h1, h2⟩ := h; rw [h1]; exact .ok h2
  | err e => have h : r.2 = .err e := h; rw [h]; exact .err e
  | ub u => have h : r.2 = .ub u := h; rw [h]; exact .ub u

/-- Forgetting the estimate of the residue-level computation. -/
theorem rel_forget {a : Outcome (Obj ℝ)} {c : Outcome (Ct C)} {f : Ct C → ℝ}
    (h : OutRel (Carries C p) a (c >>= fun z => .ok ⟨z, f z⟩)) : OutRel (Bears C p) a c := by
  cases c with
  | ok z => rw [Outcome.bind_ok] at h; cases h with | ok h => exact .ok (bears_of h)
  | err e => cases h; exact .err e
  | ub u => cases h; exact .ub u

section
variable (hC : Fit C p)
include hC

theorem rel_add {x y : Obj ℝ} {X Y : Ct C} (hx : Bears C p x X) (hy : Bears C p y Y) :
    OutRel (Bears C p) (addIn p x y).value (addInPlace X Y) :=
  rel_forget (rel_value (add_agrees hC hx hy))

theorem rel_sub {x y : Obj ℝ} {X Y : Ct C} (hx : Bears C p x X) (hy : Bears C p y Y) :
    OutRel (Bears C p) (subIn p x y).value (subInPlace X Y) :=
  rel_forget (rel_value (sub_agrees hC hx hy))

theorem rel_absorb (P : ErrorParams) {e : Env ℝ} (hp : e.p = p) (he : e.bPlain = P.bPlaintext C.n) {x : Obj ℝ}
    {X : Ct C} (hx : Bears C p x X) {f : List ℕ} {F : C.Poly} (hf : Poly.Rep p C.q C.n f F) :
    ∃ y, absorbMonomial e x f = .ok y ∧ Bears C p y (Sym.absorb X F) ∧ y.error = x.error := by
  have h := rel_value (absorb_agrees (P := P) hC hx hf)
  unfold absorbMonomial
  rw [hp, he]
  generalize (absorbIn p (P.bPlaintext C.n) x f).value = r at h ⊢
  cases h with
  | ok h => exact ⟨_, rfl, ⟨h.c, h.power, rfl, h.lazy⟩, rfl⟩

end

section
variable (hC : Fit C p) (ht : Ntt.Tables p C.w C.q C.l C.psi q)
include hC ht

theorem rel_substitute {x : Obj ℝ} {X : Ct C} (hx : Bears C p x X) (k : ℤ) :
    OutRel (Bears C p) (WordCt.substitute q x k) (Sym.substitute X k) :=
  rel_forget (rel_new (substitute_agrees hC ht hx k))

theorem rel_galois (hcr : create C.w C.q = .ok p) {rk : Word.RKey} {RK : Relin.RKey C}
    (hrk : HoldsSwitch C p q rk RK) (hb : RK.logDecomp < C.w) (h0 : 0 < RK.logDecomp) (h31 : RK.logDecomp < 31)
    (P : ErrorParams) {x : Obj ℝ} {X : Ct C} (hx : Bears C p x X) :
    OutRel (Bears C p) (galoisApply rk (P.bRelinearize C.n) x) (Galois.applyTo RK X) := by
  have h := rel_new (galois_agrees hC ht hcr hrk hb P hx)
  obtain ⟨v, hv⟩ := estimate_ok P C.n RK.parts.length h0 h31
  unfold Galois.applyTo
  dsimp only at h
  by_cases hp : X.power ≠ RK.power
  · rw [if_pos hp] at h ⊢
    generalize galoisApply rk (P.bRelinearize C.n) x = r at h ⊢
    cases h
    exact .err _
  · rw [if_neg hp] at h ⊢
    unfold ErrorTrack.relinearize at h
    rw [hv] at h
    exact rel_forget (f := fun _ => x.error + v) h

/-- `num_coeffs` of the parameters. -/
theorem num_coeffs : q.numberCoeffs = C.n := ht.num

theorem rep_transform {v : List ℕ} {F : C.Poly} (hv : Poly.Rep p C.q C.n v F) :
    ∃ r, Poly.convertToNtt p q v = .ok r ∧ Poly.Rep p C.q C.n r (C.toNtt F) := by
  obtain ⟨r, h1, h2, -⟩ := hv.forward hC.good ht
  exact ⟨r, h1, h2⟩

theorem rel_monomial (j : ℕ) (hj : 2 ^ j ≤ C.n) :
    ∃ m, monomial p C.n j = .ok m ∧ Poly.Rep p C.q C.n m (Expand.monomial C j) := by
  have hn : 0 < 2 ^ j := by positivity
  unfold monomial
  rw [if_neg (by omega), wr_ok (by rw [List.length_replicate]; omega)]
  have hg : ∀ i < C.n, ((List.replicate C.n (Mont.importZero p)).set (C.n - 2 ^ j)
      (Mont.negate p (Mont.importOne p))).getD i 0 =
      if C.n - 2 ^ j = i then Mont.negate p (Mont.importOne p) else 0 := by
    intro i hi
    rw [getD_set _ _ _ _ _ (by rw [List.length_replicate]; omega)]
    congr 1
    rw [List.getD_eq_getElem _ _ (by rw [List.length_replicate]; exact hi), List.getElem_replicate]
    rfl
  refine ⟨_, rfl, by simp, fun i hi => ?_, fun i => ?_⟩
  · rw [hg i hi]
    split_ifs
    · exact negate_le hC.good (importOne_lt hC.good).le
    · exact Nat.zero_le _
  · rw [hg i i.2]
    unfold Expand.monomial
    by_cases h : (i : ℕ) = C.n - 2 ^ j
    · rw [if_pos h.symm, if_pos h, res_negate hC.good (importOne_lt hC.good).le, res_one hC.good]
    · rw [if_neg (fun e => h e.symm), if_neg h]
      exact res_zero

/-- Two expanders that agree. -/
def SubRel (C : Ctx) (p : MParams) (sub : Sub ℝ) (Sb : Expand.Sub C) : Prop :=
  ∀ x X, Bears C p x X → ∀ k, OutRel (Bears C p) (sub x k) (Sb X k)

variable {P : ErrorParams} {e : Env ℝ} (hep : e.p = p) (heq : e.q = q) (heb : e.bPlain = P.bPlaintext C.n)
  {sub : Sub ℝ} {Sb : Expand.Sub C} (hs : SubRel C p sub Sb)
include hep heq heb hs

omit ht heq in
theorem rel_inner (j : ℕ) {f : List ℕ} {F : C.Poly} (hf : Poly.Rep p C.q C.n f F) (k : ℕ) {r : List (Obj ℝ)}
    {R : List (Ct C)} (hr : List.Forall₂ (Bears C p) r R) :
    OutRel (List.Forall₂ (Bears C p)) (expandInner e sub C.n j f k r) (Expand.expandInner Sb j F k R) := by
  unfold expandInner Expand.expandInner
  refine OutRel.bind (rel_rd hr k) fun x X hx => OutRel.bind (hs x X hx _) fun s S hS => ?_
  rw [hep]
  refine OutRel.bind (rel_sub hC hx hS) fun d D hD => OutRel.bind (rel_wr hr _ hD) fun r R hr => ?_
  obtain ⟨y, y1, y2, -⟩ := rel_absorb hC P hep heb hD hf
  rw [y1, Outcome.bind_ok]
  exact OutRel.bind (rel_wr hr _ y2) fun r R hr => OutRel.bind (rel_add hC hx hS) fun a A hA => rel_wr hr _ hA

theorem rel_outer (j : ℕ) {r : List (Obj ℝ)} {R : List (Ct C)} (hr : List.Forall₂ (Bears C p) r R) :
    OutRel (List.Forall₂ (Bears C p)) (expandOuter e sub C.n j r) (Expand.expandOuter Sb j R) := by
  unfold expandOuter Expand.expandOuter
  rw [hep, heq]
  by_cases hj : 2 ^ j > C.n
  · rw [if_pos hj]
    unfold monomial
    rw [if_pos hj]
    exact .ub _
  · rw [if_neg hj]
    obtain ⟨m, m1, m2⟩ := rel_monomial hC ht j (by omega)
    obtain ⟨v, v1, v2⟩ := rep_transform hC ht m2
    rw [m1, Outcome.bind_ok, v1, Outcome.bind_ok]
    exact rel_loop _ (fun i _ x X hx => rel_inner hC hep heb hs j v2 i hx) hr

theorem rel_expand (L : ℕ) {x : Obj ℝ} {X : Ct C} (hx : Bears C p x X) :
    OutRel (List.Forall₂ (Bears C p)) (expandCiphertext e sub L x) (Expand.expandCiphertext Sb L X) := by
  unfold expandCiphertext Expand.expandCiphertext
  refine OutRel.bind (component_agrees hx 0) fun c F hc => ?_
  rw [hc.len, heq, num_coeffs hC ht, if_neg (by simp)]
  split_ifs
  · exact .ub _
  · refine OutRel.bind (rel_wr (forall₂_replicate _ ?_) 0 hx) fun r R hr =>
      rel_loop _ (fun j _ x X h => rel_outer hC ht hep heq heb hs j h) hr
    exact ⟨.nil, rfl, rfl, .nil⟩

theorem rel_oblivious {cts : List (Obj ℝ)} {Cts : List (Ct C)} (h : List.Forall₂ (Bears C p) cts Cts)
    (levels out : ℤ) :
    OutRel (List.Forall₂ (Bears C p)) (obliviousExpand e sub cts levels out)
      (Expand.obliviousExpand Sb Cts levels out) := by
  unfold obliviousExpand Expand.obliviousExpand
  rw [h.length_eq]
  dsimp only
  split_ifs
  · exact .err _
  · exact .err _
  · exact .ok h
  · exact .err _
  · refine OutRel.bind (rel_mapM (fun x X hx => rel_expand hC ht hep heq heb hs _ hx) h) fun ps Ps hps => ?_
    have hf := forall₂_flatten hps
    rw [hf.length_eq]
    split_ifs
    · exact .ok (forall₂_take hf _)
    · exact .err _
    · exact .ok hf

end

/-! ### The expanders -/

section
variable (hC : Fit C p) (ht : Ntt.Tables p C.w C.q C.l C.psi q) (hcr : create C.w C.q = .ok p) (P : ErrorParams)
include hC ht hcr

theorem rel_keysSub {ks : List Word.RKey} {Ks : List (Relin.RKey C)} (h : List.Forall₂ (HoldsGalois C p q) ks Ks) :
    SubRel C p (keysSub q (P.bRelinearize C.n) ks) (Expand.keysSub Ks) := by
  intro x X hx k
  unfold keysSub Expand.keysSub
  refine OutRel.bind (rel_substitute hC ht hx k) fun s S hS => ?_
  rw [num_coeffs hC ht, h.length_eq]
  cases Expand.keyIndex C.n k Ks.length with
  | none => exact .ub _
  | some i =>
    exact OutRel.bind (rel_rd h i) fun g G hg => rel_galois hC ht hcr hg.holds hg.word hg.pos hg.small P hS

theorem rel_generatorSub {g : Word.RKey} {G : Relin.RKey C} (h : HoldsGalois C p q g G) :
    SubRel C p (generatorSub q (P.bRelinearize C.n) g) (Expand.generatorSub G) := by
  intro x X hx k
  unfold generatorSub Expand.generatorSub
  refine OutRel.bind (component_agrees hx 0) fun c F _ => ?_
  rw [num_coeffs hC ht]
  refine OutRel.bind (R := (· = ·)) ?_ fun m M hm => ?_
  · cases Expand.numSubstitutions C.n k with
    | ok m => exact .ok rfl
    | err e => exact .err e
    | ub u => exact .ub u
  · subst hm
    exact rel_loop (R := Bears C p) _ (fun i _ y Y hy => OutRel.bind (rel_substitute hC ht hy _) fun s S hS =>
      rel_galois hC ht hcr h.holds h.word h.pos h.small P hS) hx

end

theorem rel_checkKeys {n : ℕ} {ks : List Word.RKey} {Ks : List (Relin.RKey C)}
    (h : List.Forall₂ (HoldsGalois C p q) ks Ks) (i : ℕ) : checkKeys n i ks = Expand.checkKeys n i Ks := by
  induction h generalizing i with
  | nil => rfl
  | cons h1 _ ih =>
    unfold checkKeys Expand.checkKeys
    rw [h1.holds.power, ih]

/-! ### The query -/

section
variable (hC : Fit C p) (ht : Ntt.Tables p C.w C.q C.l C.psi q)
include hC ht

omit ht in
theorem rel_setIndex (total : ℤ) (L : ℕ) {v : List (List ℕ)} {V : List C.Poly}
    (h : List.Forall₂ (Poly.Rep p C.q C.n) v V) (x : ℤ) :
    OutRel (List.Forall₂ (Poly.Rep p C.q C.n)) (setIndex p total L v x) (Expand.setIndex total L V x) := by
  unfold setIndex Expand.setIndex
  split_ifs
  · exact .err _
  · refine OutRel.bind (rel_rd h _) fun u U hu => ?_
    dsimp only
    by_cases hi : x.toNat % 2 ^ L ≥ C.n
    · rw [if_pos hi]
      unfold wr
      rw [if_neg (by rw [hu.len]; omega)]
      exact .ub _
    · rw [if_neg hi, wr_ok (by rw [hu.len]; omega), Outcome.bind_ok]
      have hg : ∀ i, (u.set (x.toNat % 2 ^ L) (Mont.importOne p)).getD i 0 =
          if x.toNat % 2 ^ L = i then Mont.importOne p else u.getD i 0 := fun i =>
        getD_set _ _ _ _ _ (by rw [hu.len]; omega)
      refine rel_wr h _ ⟨by rw [List.length_set, hu.len], fun i hi => ?_, fun i => ?_⟩
      · rw [hg]
        split_ifs
        · exact (importOne_lt hC.good).le
        · exact hu.le i hi
      · rw [hg]
        by_cases he : (i : ℕ) = x.toNat % 2 ^ L
        · rw [if_pos he.symm, if_pos he, res_one hC.good]
        · rw [if_neg (fun e => he e.symm), if_neg he, hu.val]

theorem rel_compressed (total : ℤ) (indices : List ℤ) (L : ℤ) :
    OutRel (List.Forall₂ (Poly.Rep p C.q C.n)) (makeCompressedVector p q total indices L)
      (Expand.makeCompressedVector C total indices L) := by
  unfold makeCompressedVector Expand.makeCompressedVector
  rw [num_coeffs hC ht]
  dsimp only
  split_ifs
  · exact .err _
  · exact .err _
  · exact .err _
  · refine OutRel.bind (rel_foldlM (fun v V x h => rel_setIndex hC total _ h x) indices
      (forall₂_replicate _ (Word.rep_zero _))) fun v V hv => ?_
    have : ∀ {v : List (List ℕ)} {V : List C.Poly}, List.Forall₂ (Poly.Rep p C.q C.n) v V →
        ∃ r, v.mapM (Poly.convertToNtt p q) = .ok r ∧ List.Forall₂ (Poly.Rep p C.q C.n) r (V.map C.toNtt) := by
      intro v V h
      induction h with
      | nil => exact ⟨[], by rw [List.mapM_nil]; rfl, .nil⟩
      | cons h1 _ ih =>
        obtain ⟨r, r1, r2⟩ := ih
        obtain ⟨u, u1, u2⟩ := rep_transform hC ht h1
        refine ⟨u :: r, ?_, .cons u2 r2⟩
        rw [List.mapM_cons, u1, Outcome.bind_ok, r1, Outcome.bind_ok]
        rfl
    obtain ⟨r, r1, r2⟩ := this hv
    rw [r1]
    exact .ok r2

end

/-! ### Estimates -/

section
variable {E : Type} [Field E]

theorem value_error {r : Res (Obj E)} {x : Obj E} {c : Res (List (List ℕ))} {e : E} {y : Obj E}
    (hr : r = (onC x c).andThen (done e)) (h : r.value = .ok y) : y.error = e := by
  subst hr
  unfold Res.value Res.andThen onC done at h
  dsimp only at h
  cases hc : c.2 with
  | ok u => rw [hc] at h; cases h; rfl
  | err s => rw [hc] at h; cases h
  | ub u => rw [hc] at h; cases h

theorem add_error {p : MParams} {x y z : Obj E} (h : (addIn p x y).value = .ok z) : z.error = x.error + y.error := by
  unfold WordCt.addIn at h
  split_ifs at h
  · cases h
  · exact value_error rfl h

theorem sub_error {p : MParams} {x y z : Obj E} (h : (subIn p x y).value = .ok z) : z.error = x.error + y.error := by
  unfold WordCt.subIn at h
  split_ifs at h
  · cases h
  · exact value_error rfl h

theorem absorb_error {e : Env E} {x y : Obj E} {f : List ℕ} (h : absorbMonomial e x f = .ok y) :
    y.error = x.error := by
  unfold absorbMonomial at h
  obtain ⟨z, -, h⟩ := Outcome.bind_eq_ok.mp h
  cases h
  rfl

theorem wr_inv {α : Type} {v r : List α} {i : ℕ} {x : α} (h : wr v i x = .ok r) : i < v.length ∧ r = v.set i x := by
  unfold wr at h
  split_ifs at h with hi
  cases h
  exact ⟨hi, rfl⟩

theorem rd_inv {α : Type} {v : List α} {i : ℕ} {x : α} (h : rd v i = .ok x) : v[i]? = some x := by
  unfold rd at h
  cases hv : v[i]? with
  | none => rw [hv] at h; cases h
  | some y => rw [hv] at h; cases h; rfl

/-- The estimates after `k` iterations of the inner loop of level `j`. -/
def Level (L j k : ℕ) (a b : E) (r : List (Obj E)) : Prop :=
  r.length = 2 ^ L ∧ ∀ i x, r[i]? = some x →
    (i < k → x.error = b) ∧ (k ≤ i → i < 2 ^ j → x.error = a) ∧ (2 ^ j ≤ i → i < 2 ^ j + k → x.error = b)

theorem inner_level {e : Env E} {sub : Sub E} {n j L k : ℕ} {a B : E} {f : List ℕ} {r r' : List (Obj E)}
    (hB : ∀ x y, sub x ((n >>> j) + 1 : ℕ) = .ok y → y.error = x.error + B) (hk : k < 2 ^ j)
    (hr : Level L j k a (2 * a + B) r) (h : expandInner e sub n j f k r = .ok r') :
    Level L j (k + 1) a (2 * a + B) r' := by
  unfold expandInner at h
  obtain ⟨x, h1, h⟩ := Outcome.bind_eq_ok.mp h
  obtain ⟨s, h2, h⟩ := Outcome.bind_eq_ok.mp h
  obtain ⟨d, h3, h⟩ := Outcome.bind_eq_ok.mp h
  obtain ⟨r1, h4, h⟩ := Outcome.bind_eq_ok.mp h
  obtain ⟨d', h5, h⟩ := Outcome.bind_eq_ok.mp h
  obtain ⟨r2, h6, h⟩ := Outcome.bind_eq_ok.mp h
  obtain ⟨z, h7, h⟩ := Outcome.bind_eq_ok.mp h
  have hx := ((hr.2 k x (rd_inv h1)).2.1 le_rfl hk)
  have hs := hB _ _ h2
  have hd : d'.error = 2 * a + B := by
    rw [absorb_error h5, sub_error h3, hs, hx]; ring
  have hz : z.error = 2 * a + B := by rw [add_error h7, hs, hx]; ring
  obtain ⟨l1, rfl⟩ := wr_inv h4
  obtain ⟨l2, rfl⟩ := wr_inv h6
  obtain ⟨l3, rfl⟩ := wr_inv h
  refine ⟨by simp [hr.1], fun i y hy => ?_⟩
  have hy' : (i = k ∧ y = z) ∨ (i ≠ k ∧ i = k + 2 ^ j ∧ y = d') ∨ (i ≠ k ∧ i ≠ k + 2 ^ j ∧ r[i]? = some y) := by
    have l0 : k + 2 ^ j < r.length := l1
    by_cases e1 : i = k
    · subst e1
      rw [List.getElem?_set_self (by simpa using l3)] at hy
      exact .inl ⟨rfl, (Option.some.inj hy).symm⟩
    · rw [List.getElem?_set_ne (fun h => e1 h.symm)] at hy
      by_cases e2 : i = k + 2 ^ j
      · subst e2
        rw [List.getElem?_set_self (by simpa using l0)] at hy
        exact .inr (.inl ⟨e1, rfl, (Option.some.inj hy).symm⟩)
      · rw [List.getElem?_set_ne (fun h => e2 h.symm), List.getElem?_set_ne (fun h => e2 h.symm)] at hy
        exact .inr (.inr ⟨e1, e2, hy⟩)
  rcases hy' with ⟨rfl, rfl⟩ | ⟨e1, rfl, rfl⟩ | ⟨e1, e2, e3⟩
  · exact ⟨fun _ => hz, fun h => by omega, fun h => by omega⟩
  · exact ⟨fun h => by omega, fun _ h => by omega, fun _ _ => hd⟩
  · obtain ⟨g1, g2, g3⟩ := hr.2 i y e3
    exact ⟨fun h => g1 (by omega), fun h => g2 (by omega), fun h h' => g3 h (by omega)⟩

theorem outer_level {e : Env E} {sub : Sub E} {n L : ℕ} {B : ℕ → E} {a : E}
    (hB : ∀ j < L, ∀ x y, sub x ((n >>> j) + 1 : ℕ) = .ok y → y.error = x.error + B j) {j : ℕ} (hj : j < L)
    {r r' : List (Obj E)}
    (hr : r.length = 2 ^ L ∧ ∀ i x, r[i]? = some x → i < 2 ^ j → x.error = expandEstimate B a j)
    (h : expandOuter e sub n j r = .ok r') :
    r'.length = 2 ^ L ∧ ∀ i x, r'[i]? = some x → i < 2 ^ (j + 1) → x.error = expandEstimate B a (j + 1) := by
  unfold expandOuter at h
  obtain ⟨m, -, h⟩ := Outcome.bind_eq_ok.mp h
  obtain ⟨f, -, h⟩ := Outcome.bind_eq_ok.mp h
  have := loop_inv (fun k r => Level L j k (expandEstimate B a j) (2 * expandEstimate B a j + B j) r)
    ⟨hr.1, fun i x hx => ⟨fun h => by omega, fun _ h => hr.2 i x hx h, fun h h' => by omega⟩⟩
    (fun k r r' hk hr h => inner_level (hB j hj) hk hr h) h
  refine ⟨this.1, fun i x hx hi => ?_⟩
  obtain ⟨g1, -, g3⟩ := this.2 i x hx
  rcases Nat.lt_or_ge i (2 ^ j) with h1 | h1
  · exact g1 h1
  · exact g3 h1 (by rw [pow_succ] at hi; omega)

theorem expand_estimate {e : Env E} {sub : Sub E} {L : ℕ} {B : ℕ → E}
    (hB : ∀ j < L, ∀ x y, sub x ((e.q.numberCoeffs >>> j) + 1 : ℕ) = .ok y → y.error = x.error + B j) {x : Obj E}
    {r : List (Obj E)} (h : expandCiphertext e sub L x = .ok r) :
    r.length = 2 ^ L ∧ ∀ y ∈ r, y.error = expandEstimate B x.error L := by
  unfold expandCiphertext at h
  obtain ⟨c, -, h⟩ := Outcome.bind_eq_ok.mp h
  by_cases h1 : c.length ≠ e.q.numberCoeffs
  · rw [if_pos h1] at h; cases h
  rw [if_neg h1] at h
  by_cases h2 : L ≥ 31
  · rw [if_pos h2] at h; cases h
  rw [if_neg h2] at h
  obtain ⟨r0, h3, h⟩ := Outcome.bind_eq_ok.mp h
  obtain ⟨l0, rfl⟩ := wr_inv h3
  push Not at h1
  rw [h1] at h
  have := loop_inv (fun j (r : List (Obj E)) => r.length = 2 ^ L ∧ ∀ i y, r[i]? = some y → i < 2 ^ j →
      y.error = expandEstimate B x.error j) (by
    refine ⟨by simp, fun i y hy hi => ?_⟩
    have : i = 0 := by simpa using hi
    subst this
    rw [List.getElem?_set_self (by simpa using l0)] at hy
    cases hy
    rfl) (fun j r r' hj hr h => outer_level hB hj hr h) h
  refine ⟨this.1, fun y hy => ?_⟩
  obtain ⟨i, hi, rfl⟩ := List.mem_iff_getElem.mp hy
  exact this.2 i _ (List.getElem?_eq_getElem hi) (by rw [← this.1]; exact hi)

theorem galois_error {rk : Word.RKey} {bR : ℕ → ℕ → Outcome E} {x y : Obj E} (h : galoisApply rk bR x = .ok y) :
    ∃ b, bR rk.parts.length rk.logDecomp = .ok b ∧ y.error = x.error + b := by
  unfold galoisApply at h
  split_ifs at h
  unfold WordCt.relinearize at h
  by_cases h1 : (x.c.length : ℤ) > rk.numParts
  · rw [if_pos h1] at h; cases h
  rw [if_neg h1] at h
  obtain ⟨_, -, h⟩ := Outcome.bind_eq_ok.mp h
  obtain ⟨_, -, h⟩ := Outcome.bind_eq_ok.mp h
  obtain ⟨_, -, h⟩ := Outcome.bind_eq_ok.mp h
  obtain ⟨_, -, h⟩ := Outcome.bind_eq_ok.mp h
  obtain ⟨_, -, h⟩ := Outcome.bind_eq_ok.mp h
  obtain ⟨_, -, h⟩ := Outcome.bind_eq_ok.mp h
  obtain ⟨_, -, h⟩ := Outcome.bind_eq_ok.mp h
  obtain ⟨b, hb, h⟩ := Outcome.bind_eq_ok.mp h
  cases h
  exact ⟨b, hb, rfl⟩

theorem substitute_error {q : Ntt.NttParams} {x y : Obj E} {k : ℤ} (h : WordCt.substitute q x k = .ok y) :
    y.error = x.error := by
  unfold WordCt.substitute at h
  obtain ⟨_, -, h⟩ := Outcome.bind_eq_ok.mp h
  obtain ⟨_, -, h⟩ := Outcome.bind_eq_ok.mp h
  split_ifs at h
  obtain ⟨_, -, h⟩ := Outcome.bind_eq_ok.mp h
  split_ifs at h
  cases h
  rfl

theorem mapM_inv {α β : Type} {f : α → Outcome β} {xs : List α} {ys : List β} (h : xs.mapM f = .ok ys) :
    List.Forall₂ (fun x y => f x = .ok y) xs ys := by
  induction xs generalizing ys with
  | nil => rw [List.mapM_nil] at h; cases h; exact .nil
  | cons x xs ih =>
    rw [List.mapM_cons] at h
    obtain ⟨y, h1, h⟩ := Outcome.bind_eq_ok.mp h
    obtain ⟨r, h2, h⟩ := Outcome.bind_eq_ok.mp h
    cases h
    exact .cons h1 (ih h2)

/-- The blocks of a concatenation. -/
theorem flatten_blocks {α β : Type} {m : ℕ} {P : α → β → Prop} {xs : List α} {ys : List (List β)}
    (h : List.Forall₂ (fun x y => y.length = m ∧ ∀ z ∈ y, P x z) xs ys) :
    ys.flatten.length = xs.length * m ∧
      ∀ i z, ys.flatten[i]? = some z → ∃ x, xs[i / m]? = some x ∧ P x z := by
  induction h with
  | nil => exact ⟨by simp, fun i z h => by simp at h⟩
  | @cons x y xs ys h1 _ ih =>
    refine ⟨by rw [List.flatten_cons, List.length_append, h1.1, ih.1, List.length_cons]; ring, fun i z hz => ?_⟩
    rw [List.flatten_cons] at hz
    rcases Nat.lt_or_ge i m with hi | hi
    · rw [List.getElem?_append_left (by omega)] at hz
      refine ⟨x, by rw [Nat.div_eq_of_lt hi]; rfl, h1.2 z (List.mem_of_getElem? hz)⟩
    · rw [List.getElem?_append_right (by omega), h1.1] at hz
      obtain ⟨u, u1, u2⟩ := ih.2 _ z hz
      refine ⟨u, ?_, u2⟩
      have hm : 0 < m := by
        by_contra hc
        have : m = 0 := by omega
        subst this
        have hl := ih.1
        rw [Nat.mul_zero] at hl
        have := (List.getElem?_eq_some_iff.mp hz).1
        omega
      have : i / m = (i - m) / m + 1 := by
        rw [Nat.div_eq_sub_div hm hi]
      rw [this, List.getElem?_cons_succ, u1]

/-! ### No pending products -/

theorem value_lazy {r : Res (Obj E)} {x : Obj E} {c : Res (List (List ℕ))} {e : E} {y : Obj E}
    (hr : r = (onC x c).andThen (done e)) (h : r.value = .ok y) : y.lazy = x.lazy := by
  subst hr
  unfold Res.value Res.andThen onC done at h
  dsimp only at h
  cases hc : c.2 with
  | ok u => rw [hc] at h; cases h; rfl
  | err s => rw [hc] at h; cases h
  | ub u => rw [hc] at h; cases h

theorem inner_lazy {e : Env E} {sub : Sub E} {n j k : ℕ} {f : List ℕ} {r r' : List (Obj E)}
    (hr : ∀ x ∈ r, x.lazy = []) (h : expandInner e sub n j f k r = .ok r') : ∀ x ∈ r', x.lazy = [] := by
  unfold expandInner at h
  obtain ⟨x, h1, h⟩ := Outcome.bind_eq_ok.mp h
  obtain ⟨s, h2, h⟩ := Outcome.bind_eq_ok.mp h
  obtain ⟨d, h3, h⟩ := Outcome.bind_eq_ok.mp h
  obtain ⟨r1, h4, h⟩ := Outcome.bind_eq_ok.mp h
  obtain ⟨d', h5, h⟩ := Outcome.bind_eq_ok.mp h
  obtain ⟨r2, h6, h⟩ := Outcome.bind_eq_ok.mp h
  obtain ⟨z, h7, h⟩ := Outcome.bind_eq_ok.mp h
  have hx := hr x (List.mem_of_getElem? (rd_inv h1))
  have hd : d.lazy = [] := by
    unfold WordCt.subIn at h3
    split_ifs at h3
    · cases h3
    · rw [value_lazy rfl h3, hx]
  have hz : z.lazy = [] := by
    unfold WordCt.addIn at h7
    split_ifs at h7
    · cases h7
    · rw [value_lazy rfl h7, hx]
  have hd' : d'.lazy = [] := by
    unfold absorbMonomial at h5
    obtain ⟨y, h8, h5⟩ := Outcome.bind_eq_ok.mp h5
    cases h5
    have h9 : y.lazy = d.lazy := value_lazy rfl h8
    rw [← hd, ← h9]
  obtain ⟨-, rfl⟩ := wr_inv h4
  obtain ⟨-, rfl⟩ := wr_inv h6
  obtain ⟨-, rfl⟩ := wr_inv h
  intro y hy
  rcases List.mem_or_eq_of_mem_set hy with hy | rfl
  · rcases List.mem_or_eq_of_mem_set hy with hy | rfl
    · rcases List.mem_or_eq_of_mem_set hy with hy | rfl
      · exact hr y hy
      · exact hd
    · exact hd'
  · exact hz

/-- Expansion leaves no products to merge. -/
theorem oblivious_lazy {e : Env E} {sub : Sub E} {cts rs : List (Obj E)} {L out : ℤ} (hc : ∀ x ∈ cts, x.lazy = [])
    (h : obliviousExpand e sub cts L out = .ok rs) : ∀ y ∈ rs, y.lazy = [] := by
  unfold obliviousExpand at h
  split_ifs at h
  · cases h; exact hc
  dsimp only at h
  split_ifs at h
  obtain ⟨ps, hp, h⟩ := Outcome.bind_eq_ok.mp h
  have hall : ∀ {cts : List (Obj E)} {ps : List (List (Obj E))},
      List.Forall₂ (fun x y => expandCiphertext e sub L.toNat x = .ok y) cts ps → (∀ x ∈ cts, x.lazy = []) →
      ∀ y ∈ ps.flatten, y.lazy = [] := by
    intro cts ps hps hc
    induction hps with
    | nil => simp
    | @cons x y xs ys h1 _ ih =>
      intro z hz
      rw [List.flatten_cons, List.mem_append] at hz
      rcases hz with hz | hz
      · revert z
        show ∀ z ∈ y, z.lazy = []
        unfold expandCiphertext at h1
        obtain ⟨c, -, h⟩ := Outcome.bind_eq_ok.mp h1
        split_ifs at h
        obtain ⟨r0, h3, h⟩ := Outcome.bind_eq_ok.mp h
        obtain ⟨-, rfl⟩ := wr_inv h3
        refine loop_inv (fun _ (r : List (Obj E)) => ∀ z ∈ r, z.lazy = []) ?_ (fun j r r' _ hr h => ?_) h
        · intro z hz
          rcases List.mem_or_eq_of_mem_set hz with hz | rfl
          · rw [List.eq_of_mem_replicate hz]
          · exact hc _ List.mem_cons_self
        · unfold expandOuter at h
          obtain ⟨m, -, h⟩ := Outcome.bind_eq_ok.mp h
          obtain ⟨f, -, h⟩ := Outcome.bind_eq_ok.mp h
          exact loop_inv (fun _ (r : List (Obj E)) => ∀ z ∈ r, z.lazy = []) hr (fun k r r' _ hr h => inner_lazy hr h) h
      · exact ih (fun x hx => hc x (List.mem_cons_of_mem _ hx)) z hz
  split_ifs at h
  · cases h; exact fun y hy => hall (mapM_inv hp) hc y (List.mem_of_mem_take hy)
  · cases h; exact hall (mapM_inv hp) hc

end
end Shell.WordExpand
