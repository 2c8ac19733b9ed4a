import Verif.Spec.Store
import Verif.Props.WordCt
import Verif.Lemmas.Expand
/-!
Every call of a program simulates the call of the machine on integer polynomials.
-/

namespace Shell.Store
open Rns Rns.Res Spec ErrorTrack Sym WordCt NttRing MParams
variable {C : Ctx} {p : MParams}

/-- The words `v` represent the polynomial `f`. -/
abbrev PRel (C : Ctx) (p : MParams) (v : List ℕ) (f : Fin C.n → ℤ) : Prop :=
  Poly.Rep p C.q C.n v (C.toNtt (modq C.q f))

/-- The secret `σ(X^k)`. -/
abbrev secret (C : Ctx) (σ : Fin C.n → ℤ) (k : ℕ) : C.Poly := C.toNtt (modq C.q (substPow k σ))

/-- The ciphertext on residues `Y` stands for `X`. -/
structure IdRel (C : Ctx) (σ : Fin C.n → ℤ) (Y : Tracked C) (X : IdealCt C.n) : Prop where
  size : Y.ct.c.length = X.size
  power : Y.ct.power = X.power
  value : Noisy (secret C σ X.power) Y.ct X.value
  error : Y.error = X.error
  pendingSize : Y.ct.lazy.length = X.pendingSize
  pending : C.toNtt (modq C.q X.pending) = phase (secret C σ X.power) Y.ct.lazy
  odd : X.power % 2 = 1
  lt : X.power < 2 * C.n

/-- The ciphertext on words `x` stands for `X`. -/
def CRel (C : Ctx) (p : MParams) (σ : Fin C.n → ℤ) (x : Obj ℝ) (X : IdealCt C.n) : Prop :=
  ∃ Y, Carries C p x Y ∧ IdRel C σ Y X

/-- The objects of the program stand for those of the machine. -/
structure MRel (C : Ctx) (p : MParams) (σ : Fin C.n → ℤ) (m : Mem ℝ) (M : IdealMem C.n) : Prop where
  polys : List.Forall₂ (PRel C p) m.polys M.polys
  cts : List.Forall₂ (CRel C p σ) m.cts M.cts

/-- Same status, and related results. -/
def Match {α β : Type} (R : α → β → Prop) : Outcome α → Except Status β → Prop
  | .ok a, .ok b => R a b
  | .err e, .error e' => e = e'
  | _, _ => False

/-- The call returned the status of the machine and left related objects. -/
def MatchRes {α β : Type} (R : α → β → Prop) (a : α) (b : β) (r : Res α) (o : Except Status β) : Prop :=
  match o with
  | .ok b' => r.2 = .ok () ∧ R r.1 b'
  | .error e => r.2 = .err e ∧ R r.1 b

theorem forall₂_object {α β : Type} {R : α → β → Prop} {l : List α} {L : List β} (h : List.Forall₂ R l L) {i : ℕ}
    (hi : i < L.length) : ∃ x X, rd l i = .ok x ∧ object L i = .ok X ∧ L[i]? = some X ∧ R x X := by
  have hi' : i < l.length := by rw [h.length_eq]; exact hi
  refine ⟨l[i], L[i], ?_, ?_, List.getElem?_eq_getElem hi, h.get hi' hi⟩
  · unfold rd; rw [List.getElem?_eq_getElem hi']
  · unfold object; rw [List.getElem?_eq_getElem hi]

theorem object_of {β : Type} {L : List β} {i : ℕ} {X : β} (h : L[i]? = some X) : object L i = .ok X := by
  unfold object; rw [h]

theorem lt_of_some {β : Type} {L : List β} {i : ℕ} {X : β} (h : L[i]? = some X) : i < L.length := by
  by_contra hc
  rw [List.getElem?_eq_none (by omega)] at h
  cases h

variable (hC : Fit C p) (σ : Fin C.n → ℤ)

/-! ### Calls on polynomials -/

variable {σ} {m : Mem ℝ} {M : IdealMem C.n} (hM : MRel C p σ m M)

include hM in
theorem newPoly_match {v : List ℕ} {f : Fin C.n → ℤ} (h : PRel C p v f) :
    MatchRes (MRel C p σ) m M (newPoly m (.ok v)) (.ok { M with polys := M.polys ++ [f] }) :=
  ⟨rfl, forall₂_append hM.polys (.cons h .nil), hM.cts⟩

include hM in
theorem onPoly_match {i : ℕ} {x : List ℕ} (hx : rd m.polys i = .ok x) {g : List ℕ → Res (List ℕ)} {v : List ℕ}
    (hg : g x = (v, .ok ())) {f : Fin C.n → ℤ} (h : PRel C p v f) :
    MatchRes (MRel C p σ) m M (onPoly m i g) (.ok { M with polys := M.polys.set i f }) := by
  unfold onPoly
  rw [hx]
  show (g x).2 = .ok () ∧ MRel C p σ { m with polys := m.polys.set i (g x).1 } _
  rw [hg]
  exact ⟨rfl, forall₂_set hM.polys i h, hM.cts⟩

include hM in
theorem newCt_match {x : Obj ℝ} {X : IdealCt C.n} (h : CRel C p σ x X) :
    MatchRes (MRel C p σ) m M (newCt m (.ok x)) (.ok { M with cts := M.cts ++ [X] }) :=
  ⟨rfl, hM.polys, forall₂_append hM.cts (.cons h .nil)⟩

include hC

theorem prel_neg {v : List ℕ} {f : Fin C.n → ℤ} (h : PRel C p v f) : PRel C p (Poly.negate p v) (-f) := by
  show Poly.Rep p C.q C.n _ (C.toNtt (modq C.q (-f)))
  rw [modq_neg, toNtt_neg]
  exact h.negate hC.good

theorem prel_bin (b : Bin) {u v : List ℕ} {f g : Fin C.n → ℤ} (hu : PRel C p u f) (hv : PRel C p v g) :
    ∃ r, b.inPlace p u v = (r, none) ∧ PRel C p r (Spec.binary b f g) := by
  cases b with
  | add =>
    obtain ⟨r, r1, r2⟩ := Poly.Rep.add hC.good hu hv
    refine ⟨r, r1, ?_⟩
    show Poly.Rep p C.q C.n r (C.toNtt (modq C.q (f + g)))
    rw [modq_add, toNtt_add]; exact r2
  | sub =>
    obtain ⟨r, r1, r2⟩ := Poly.Rep.sub hC.good hu hv
    refine ⟨r, r1, ?_⟩
    show Poly.Rep p C.q C.n r (C.toNtt (modq C.q (f - g)))
    rw [modq_sub, toNtt_sub]; exact r2
  | mul =>
    obtain ⟨r, r1, r2⟩ := Poly.Rep.mul hC.good hu hv
    refine ⟨r, r1, ?_⟩
    show Poly.Rep p C.q C.n r (C.toNtt (modq C.q (negMul f g)))
    rw [modq_negMul, toNtt_negMul hC.ok]; exact r2

theorem prel_fused {t u v : List ℕ} {h f g : Fin C.n → ℤ} (ht : PRel C p t h) (hu : PRel C p u f) (hv : PRel C p v g) :
    (∃ r, Poly.fusedMulAddInPlace p t u v = (r, none) ∧ PRel C p r (h + negMul f g)) ∧
    ∃ k, Poly.computeConstant p v = .ok k ∧
      (∃ r, Poly.fusedMulConstantAddInPlace p t u k = (r, none) ∧ PRel C p r (h + negMul f g)) ∧
      ∃ r, Poly.mulConstantInPlace p u k = (r, none) ∧ PRel C p r (negMul f g) := by
  have e1 : C.toNtt (modq C.q h) + C.toNtt (modq C.q f) * C.toNtt (modq C.q g) = C.toNtt (modq C.q (h + negMul f g)) := by
    rw [modq_add, toNtt_add, modq_negMul, toNtt_negMul hC.ok]
  have e2 : C.toNtt (modq C.q f) * C.toNtt (modq C.q g) = C.toNtt (modq C.q (negMul f g)) := by
    rw [modq_negMul, toNtt_negMul hC.ok]
  refine ⟨?_, _, Poly.computeConstant_ok v, ?_, ?_⟩
  · obtain ⟨r, r1, r2⟩ := Poly.Rep.fusedMulAdd hC.good ht hu hv
    exact ⟨r, r1, by rw [e1] at r2; exact r2⟩
  · obtain ⟨r, r1, r2⟩ := Poly.Rep.fusedMulConstantAdd hC.good ht hu hv (Poly.computeConstant_ok v)
    exact ⟨r, r1, by rw [e1] at r2; exact r2⟩
  · obtain ⟨r, r1, r2⟩ := Poly.Rep.mulConstant hC.good hu hv (Poly.computeConstant_ok v)
    exact ⟨r, r1, by rw [e2] at r2; exact r2⟩

theorem prel_scale {u : List ℕ} {f : Fin C.n → ℤ} (hu : PRel C p u f) {c : ℕ} (hc : c < 2 ^ C.w) :
    ∃ r, Poly.mulScalarInPlace p u (Mont.importInt p c) = (r, none) ∧ PRel C p r (fun k => c * f k) := by
  obtain ⟨r, r1, r2⟩ := Poly.Rep.mulScalar hC.good hu (importInt_lt hC.good c hc).le
  refine ⟨r, r1, ?_⟩
  show Poly.Rep p C.q C.n r (C.toNtt (modq C.q fun k => ((c : ℕ) : ℤ) * f k))
  rw [modq_smul, toNtt_smul]
  rw [res_import hC.good hc] at r2
  exact_mod_cast r2

theorem prel_zero : PRel C p (List.replicate C.n (Mont.importZero p)) 0 := by
  have h0 : modq C.q (0 : Fin C.n → ℤ) = 0 := by funext i; simp [modq]
  show Poly.Rep p C.q C.n _ (C.toNtt (modq C.q 0))
  rw [h0, toNtt_zero]
  refine ⟨by simp, fun i hi => ?_, fun i => ?_⟩
  · simp [Mont.importZero, List.getD_eq_getElem?_getD, List.getElem?_replicate, hi]
  · simp [Mont.importZero, List.getD_eq_getElem?_getD, List.getElem?_replicate, res]

theorem prel_import (f : Fin C.n → ℤ) :
    Poly.Rep p C.q C.n (List.ofFn fun i => Mont.importInt p (f i % C.q).toNat) (modq C.q f) := by
  have hq : (0 : ℤ) < C.q := by have := hC.ok.prime.pos; omega
  have hlt : ∀ i, (f i % C.q).toNat < 2 ^ C.w := by
    intro i
    have h1 := Int.emod_lt_of_pos (f i) hq
    have h2 := Int.emod_nonneg (f i) hq.ne'
    have := hC.good.lt
    omega
  refine ⟨by simp, fun i hi => ?_, fun i => ?_⟩
  · rw [List.getD_eq_getElem _ _ (by simpa using hi), List.getElem_ofFn]
    exact (importInt_lt hC.good _ (hlt _)).le
  · rw [List.getD_eq_getElem _ _ (by simp), List.getElem_ofFn, res_import hC.good (hlt _)]
    have h2 := Int.emod_nonneg (f i) hq.ne'
    show (((f i % C.q).toNat : ℕ) : ZMod C.q) = (f i : ZMod C.q)
    rw [← Int.cast_natCast (R := ZMod C.q), Int.toNat_of_nonneg h2, ZMod.intCast_mod]

/-! ### Calls on ciphertexts -/

omit hC in
theorem op_lazy {S : C.Poly} {f g : Fin C.n → ℤ} (hok : C.Ok) {x a r : List C.Poly}
    (hx : C.toNtt (modq C.q f) = phase S x) (F : C.Poly)
    (ha : C.toNtt (modq C.q g) = phase S a * F) (hr : ∀ i, r.getD i 0 = x.getD i 0 + a.getD i 0 * F) :
    C.toNtt (modq C.q (f + g)) = phase S r := by
  rw [modq_add, toNtt_add, hx, ha, ← phase_map_mul]
  refine (phase_add S fun i => ?_).symm
  rw [hr i]
  congr 1
  simp only [List.getD_eq_getElem?_getD, List.getElem?_map]
  cases a[i]? <;> simp

/-- Fused absorption. -/
theorem fused_match (P : ErrorParams) {Y W : Tracked C} {X Z : IdealCt C.n} (hY : IdRel C σ Y X) (h4 : IdRel C σ W Z)
    (_hM : MRel C p σ m M) {b i : ℕ} (h2 : object M.cts b = .ok Z) {F : Fin C.n → ℤ} (g2 : object M.polys i = .ok F) :
    Match (IdRel C σ) (ErrorTrack.fusedAbsorbAdd P Y W (C.toNtt (modq C.q F)))
      (idealOp (P.bPlaintext C.n) C.q M X (.fused b i)) := by
  simp only [idealOp, ErrorTrack.fusedAbsorbAdd]
  rw [h2]
  show Match _ _ (object M.polys i >>= _)
  rw [g2]
  show Match _ _ (if X.power ≠ Z.power then _ else _)
  by_cases hpw : X.power = Z.power
  · rw [if_neg (not_not.mpr hpw)]
    have h4v := h4.value
    rw [← hpw] at h4v
    obtain ⟨r, r1, r2, r3, r4⟩ := (c21_fused hC.ok _ Y.ct W.ct hY.value h4v F).2 (by rw [hY.power, h4.power, hpw])
    have hr : r.lazy = Y.ct.lazy := by
      unfold Sym.fusedAbsorbAdd at r1
      rw [if_neg (by rw [hY.power, h4.power, hpw]; simp)] at r1
      cases r1; rfl
    rw [r1]
    refine ⟨?_, ?_, r2, ?_, ?_, ?_, hY.odd, hY.lt⟩
    · show r.c.length = _; rw [r4, hY.size, h4.size]
    · show r.power = _; rw [r3, hY.power]
    · show Y.error + W.error * _ = _; rw [hY.error, h4.error]
    · show r.lazy.length = _; rw [hr, hY.pendingSize]
    · show _ = phase _ r.lazy; rw [hr]; exact hY.pending
  · rw [if_pos hpw]
    rw [(c21_fused hC.ok (secret C σ X.power) Y.ct W.ct hY.value (noisy_exists hC.ok _ W.ct).choose_spec F).1
      (by rw [hY.power, h4.power]; exact_mod_cast hpw)]
    rfl

theorem op_match (P : ErrorParams) {Y : Tracked C} {X : IdealCt C.n} (hY : IdRel C σ Y X) (hM : MRel C p σ m M)
    {op : CtOp} (hp : OpProper C.w M X op) {q : Ntt.NttParams} :
    ∃ c Op, (importOp p op).operands ⟨p, q, P.bPlaintext C.n⟩ m = .ok c ∧ Denotes C p c Op ∧
      Match (IdRel C σ) (Op.run P Y) (idealOp (P.bPlaintext C.n) C.q M X op) := by
  cases op with
  | add b =>
    obtain ⟨y, Z, h1, h2, -, W, h3, h4⟩ := forall₂_object hM.cts hp
    refine ⟨.add y, .add W, ?_, .add h3, ?_⟩
    · show (rd m.cts b >>= fun y => _) = _
      rw [h1]; rfl
    show Match _ (ErrorTrack.add Y W) _
    simp only [idealOp, ErrorTrack.add]
    rw [h2]
    show Match _ _ (if X.power ≠ Z.power then _ else _)
    by_cases hpw : X.power = Z.power
    · rw [if_neg (not_not.mpr hpw)]
      obtain ⟨r, r1, r2, r3⟩ := add_ok Y.ct W.ct (by rw [hY.power, h4.power, hpw])
      rw [r1]
      refine ⟨?_, hY.power, ?_, ?_, hY.pendingSize, hY.pending, hY.odd, hY.lt⟩
      · show r.length = _; rw [r2, hY.size, h4.size]
      · have e1 := hY.value
        have e2 := h4.value
        unfold Noisy at *
        rw [← hpw] at e2
        dsimp only
        rw [modq_add, toNtt_add, e1, e2, phase_add _ r3]
      · show Y.error + W.error = _; rw [hY.error, h4.error]
    · rw [if_pos hpw]
      have : addInPlace Y.ct W.ct = .err .invalidArgument := by
        unfold addInPlace; rw [if_pos]; rw [hY.power, h4.power]; exact_mod_cast hpw
      rw [this]; rfl
  | sub b =>
    obtain ⟨y, Z, h1, h2, -, W, h3, h4⟩ := forall₂_object hM.cts hp
    refine ⟨.sub y, .sub W, ?_, .sub h3, ?_⟩
    · show (rd m.cts b >>= fun y => _) = _
      rw [h1]; rfl
    show Match _ (ErrorTrack.sub Y W) _
    simp only [idealOp, ErrorTrack.sub]
    rw [h2]
    show Match _ _ (if X.power ≠ Z.power then _ else _)
    by_cases hpw : X.power = Z.power
    · rw [if_neg (not_not.mpr hpw)]
      obtain ⟨r, r1, r2, r3⟩ := sub_ok Y.ct W.ct (by rw [hY.power, h4.power, hpw])
      rw [r1]
      refine ⟨?_, hY.power, ?_, ?_, hY.pendingSize, hY.pending, hY.odd, hY.lt⟩
      · show r.length = _; rw [r2, hY.size, h4.size]
      · have e1 := hY.value
        have e2 := h4.value
        unfold Noisy at *
        rw [← hpw] at e2
        dsimp only
        rw [modq_sub, toNtt_sub, e1, e2, phase_sub _ r3]
      · show Y.error + W.error = _; rw [hY.error, h4.error]
    · rw [if_pos hpw]
      have : subInPlace Y.ct W.ct = .err .invalidArgument := by
        unfold subInPlace; rw [if_pos]; rw [hY.power, h4.power]; exact_mod_cast hpw
      rw [this]; rfl
  | absorb i =>
    obtain ⟨f, F, h1, h2, -, h3⟩ := forall₂_object hM.polys hp
    refine ⟨.absorb f, .absorb _, ?_, .absorb h3, ?_⟩
    · show (rd m.polys i >>= fun y => _) = _
      rw [h1]; rfl
    simp only [idealOp]
    rw [h2]
    refine ⟨?_, hY.power, (c21_absorb hC.ok _ Y.ct hY.value).1 F |>.1, ?_, hY.pendingSize, hY.pending, hY.odd, hY.lt⟩
    · show (Y.ct.c.map _).length = _; rw [List.length_map, hY.size]
    · show Y.error * _ = _; rw [hY.error]
  | scale c =>
    have hc : c < 2 ^ C.w := hp
    refine ⟨.absorbScalar (Mont.importInt p c), .absorbScalar _, rfl,
      .absorbScalar (importInt_lt hC.good c hc).le, ?_⟩
    have e : Mont.exportInt p (Mont.importInt p c) = c % C.q := export_import hC.good c hc
    have e' : ((c % C.q : ℕ) : ZMod C.q) = ((c : ℤ) : ZMod C.q) := by simp
    rw [e]
    haveI : NeZero C.q := ⟨hC.ok.prime.ne_zero⟩
    refine ⟨?_, hY.power, ?_, ?_, hY.pendingSize, hY.pending, hY.odd, hY.lt⟩
    · show (Y.ct.c.map _).length = _; rw [List.length_map, hY.size]
    · show Noisy _ (Sym.absorbScalar Y.ct ((c % C.q : ℕ) : ZMod C.q)) _
      rw [e']
      exact ((c21_absorb hC.ok _ Y.ct hY.value).2 (c : ℤ)).1
    · show Y.error * _ = X.error * _
      rw [hY.error, ZMod.val_natCast, Nat.mod_mod]
  | fused b i =>
    obtain ⟨y, Z, h1, h2, -, W, h3, h4⟩ := forall₂_object hM.cts hp.1
    obtain ⟨f, F, g1, g2, -, g3⟩ := forall₂_object hM.polys hp.2
    refine ⟨.fused y f, .fused W _, ?_, .fused h3 g3, ?_⟩
    · show (rd m.cts b >>= fun y => _) = _
      rw [h1]
      show (rd m.polys i >>= fun y => _) = _
      rw [g1]; rfl
    exact fused_match hC P hY h4 hM h2 g2
  | fusedConst b i =>
    obtain ⟨y, Z, h1, h2, -, W, h3, h4⟩ := forall₂_object hM.cts hp.1
    obtain ⟨f, F, g1, g2, -, g3⟩ := forall₂_object hM.polys hp.2
    refine ⟨.fusedConst y _, .fused W _, ?_, .fusedConst h3 g3 (Poly.computeConstant_ok f), ?_⟩
    · show (rd m.cts b >>= fun y => _) = _
      rw [h1]
      show (rd m.polys i >>= fun y => _) = _
      rw [g1]
      show (Poly.computeConstant p f >>= fun y => _) = _
      rw [Poly.computeConstant_ok]; rfl
    exact fused_match hC P hY h4 hM h2 g2
  | lazily b i =>
    obtain ⟨hi, Z', hZ', hle⟩ := hp
    obtain ⟨y, Z, h1, h2, h2', W, h3, h4⟩ := forall₂_object hM.cts (lt_of_some hZ')
    obtain rfl : Z' = Z := by rw [hZ'] at h2'; exact Option.some.inj h2'
    obtain ⟨f, F, g1, g2, -, g3⟩ := forall₂_object hM.polys hi
    refine ⟨.fusedLazily y f, .fusedLazily W _, ?_, .fusedLazily h3 g3, ?_⟩
    · show (rd m.cts b >>= fun y => _) = _
      rw [h1]
      show (rd m.polys i >>= fun y => _) = _
      rw [g1]; rfl
    show Match _ (ErrorTrack.fusedAbsorbAddLazily P Y W _) _
    simp only [idealOp, ErrorTrack.fusedAbsorbAddLazily]
    rw [h2]
    show Match _ _ (object M.polys i >>= _)
    rw [g2]
    show Match _ _ (if X.power ≠ Z'.power then _ else _)
    by_cases hpw : X.power = Z'.power
    · rw [if_neg (not_not.mpr hpw)]
      have hpw' : Y.ct.power = W.ct.power := by rw [hY.power, h4.power, hpw]
      by_cases h0 : Z'.size = 0
      · have h0' : W.ct.c.length = 0 := by rw [h4.size, h0]
        rw [if_pos h0]
        have : Sym.fusedAbsorbAddLazily Y.ct W.ct (C.toNtt (modq C.q F)) = .ok Y.ct := by
          unfold Sym.fusedAbsorbAddLazily
          rw [if_neg (not_not.mpr hpw'), if_pos h0']
        rw [this, if_pos h0']
        exact hY
      · have h0' : ¬ W.ct.c.length = 0 := by rw [h4.size]; exact h0
        rw [if_neg h0]
        obtain ⟨lz, l1, l2, l3⟩ := lazy_step Y.ct W.ct (C.toNtt (modq C.q F)) hpw'
          (by rw [hY.pendingSize, h4.size]; exact hle hpw h0)
        rw [l1, if_neg h0']
        refine ⟨hY.size, hY.power, hY.value, ?_, ?_, ?_, hY.odd, hY.lt⟩
        · show Y.error + W.error * _ = _; rw [hY.error, h4.error]
        · show lz.length = _; rw [l2, h4.size]
        · refine op_lazy hC.ok hY.pending (C.toNtt (modq C.q F)) ?_ l3
          have e := h4.value
          unfold Noisy at e
          rw [modq_negMul, toNtt_negMul hC.ok, e, hpw]
    · rw [if_pos hpw]
      have : Sym.fusedAbsorbAddLazily Y.ct W.ct (C.toNtt (modq C.q F)) = .err .invalidArgument := by
        unfold Sym.fusedAbsorbAddLazily; rw [if_pos]; rw [hY.power, h4.power]; exact_mod_cast hpw
      rw [this]; rfl
  | merge =>
    refine ⟨.merge, .merge, rfl, .merge, ?_⟩
    show Match _ (ErrorTrack.mergeLazy Y) _
    simp only [idealOp, ErrorTrack.mergeLazy, Sym.mergeLazy]
    by_cases h0 : X.pendingSize = 0
    · rw [if_pos h0]
      have : Y.ct.lazy = [] := List.length_eq_zero_iff.mp (by rw [hY.pendingSize, h0])
      rw [this]; rfl
    · rw [if_neg h0]
      have : Y.ct.lazy ≠ [] := fun hc => h0 (by rw [← hY.pendingSize, hc]; rfl)
      obtain ⟨e1, e2⟩ := mergeComponents_spec Y.ct.c Y.ct.lazy
      rw [if_neg this]
      have ev := hY.value
      unfold Noisy at ev
      refine ⟨?_, hY.power, ?_, hY.error, rfl, ?_, hY.odd, hY.lt⟩
      · show (mergeComponents _ _).length = _; rw [e1, hY.size, hY.pendingSize]
      · show C.toNtt (modq C.q (X.value + X.pending)) = phase _ (mergeComponents _ _)
        rw [modq_add, toNtt_add, ev, hY.pending, phase_add _ e2]
      · have h0 : modq C.q (0 : Fin C.n → ℤ) = 0 := by funext i; simp [modq]
        show C.toNtt (modq C.q 0) = phase _ []
        rw [phase_nil, h0, toNtt_zero]

theorem crel_op (P : ErrorParams) {x : Obj ℝ} {X : IdealCt C.n} (hx : CRel C p σ x X) (hM : MRel C p σ m M)
    {op : CtOp} (hp : OpProper C.w M X op) {q : Ntt.NttParams} :
    ∃ c, (importOp p op).operands ⟨p, q, P.bPlaintext C.n⟩ m = .ok c ∧
      MatchRes (CRel C p σ) x X (c.run p (P.bPlaintext C.n) x) (idealOp (P.bPlaintext C.n) C.q M X op) := by
  obtain ⟨Y, h1, h2⟩ := hx
  obtain ⟨c, Op, h3, h4, h5⟩ := op_match hC P h2 hM hp (q := q)
  obtain ⟨h6, h7⟩ := c72_call hC P h1 h4
  refine ⟨c, h3, ?_⟩
  generalize idealOp (P.bPlaintext C.n) C.q M X op = o at h5
  cases hr : Op.run P Y with
  | ok Z =>
    rw [hr] at h5 h6
    cases o with
    | ok W => exact ⟨h6.1, Z, h6.2, h5⟩
    | error e => exact h5.elim
  | err e =>
    rw [hr] at h5 h6
    cases o with
    | ok W => exact h5.elim
    | error e' =>
      obtain rfl : e = e' := h5
      refine ⟨h6, ?_⟩
      rw [h7 e h6]
      exact ⟨Y, h1, h2⟩
  | ub u => rw [hr] at h5; cases o <;> exact h5.elim

theorem crel_mul {x y : Obj ℝ} {X Z : IdealCt C.n} (hx : CRel C p σ x X) (hy : CRel C p σ y Z) :
    if X.power ≠ Z.power ∨ X.size = 0 ∨ Z.size = 0 then WordCt.mul p x y = .err .invalidArgument
    else ∃ r, WordCt.mul p x y = .ok r ∧ CRel C p σ r
      ⟨X.size + Z.size - 1, X.power, negMul X.value Z.value, X.error * Z.error, 0, 0⟩ := by
  obtain ⟨Y, h1, h2⟩ := hx
  obtain ⟨W, h3, h4⟩ := hy
  have key := c72_mul hC h1 h3
  unfold ErrorTrack.mul at key
  have hz : Noisy (secret C σ X.power) W.ct Z.value ∨ X.power ≠ Z.power := by
    by_cases h : X.power = Z.power
    · left; rw [h]; exact h4.value
    · exact Or.inr h
  split_ifs with hc
  · have : Sym.mul Y.ct W.ct = .err .invalidArgument := by
      refine (c21_mul hC.ok (secret C σ X.power) Y.ct W.ct h2.value (noisy_exists hC.ok _ W.ct).choose_spec).1 ?_
      rcases hc with hc | hc | hc
      · left; rw [h2.power, h4.power]; exact_mod_cast hc
      · right; left; exact List.length_eq_zero_iff.mp (by rw [h2.size, hc])
      · right; right; exact List.length_eq_zero_iff.mp (by rw [h4.size, hc])
    rw [this] at key
    exact key
  · push Not at hc
    obtain ⟨c1, c2, c3⟩ := hc
    have hz := hz.resolve_right (not_not.mpr c1)
    have hp : Y.ct.power = W.ct.power := by rw [h2.power, h4.power, c1]
    have hYc : Y.ct.c ≠ [] := fun h => c2 (by rw [← h2.size, h]; rfl)
    have hWc : W.ct.c ≠ [] := fun h => c3 (by rw [← h4.size, h]; rfl)
    obtain ⟨r, r1, r2, r3⟩ := mul_ok Y.ct W.ct hp hYc hWc
    rw [r1] at key
    obtain ⟨v, v1, v2⟩ := key
    refine ⟨v, v1, _, v2, ?_, h2.power, ?_, ?_, rfl, ?_, h2.odd, h2.lt⟩
    · show r.length = _; rw [r2, h2.size, h4.size]
    · have e1 := h2.value
      unfold Noisy at *
      dsimp only
      rw [modq_negMul, toNtt_negMul hC.ok, e1, hz, r3]
    · show Y.error * W.error = _; rw [h2.error, h4.error]
    · have h0 : modq C.q (0 : Fin C.n → ℤ) = 0 := by funext i; simp [modq]
      show C.toNtt (modq C.q 0) = phase _ []
      rw [phase_nil, h0, toNtt_zero]

variable {q : Ntt.NttParams} (ht : Ntt.Tables p C.w C.q C.l C.psi q)

omit hC in
theorem admissible_iff {k : ℤ} : Admissible C.n k ↔ ¬ (0 > k ∨ k.tmod 2 = 0) ∧ ¬ k ≥ 2 * C.n := by
  unfold Admissible
  constructor
  · rintro ⟨h1, h2, h3⟩
    have := Int.tmod_eq_emod_of_nonneg (a := k) (b := 2) h1
    omega
  · rintro ⟨h1, h2⟩
    have h0 : 0 ≤ k := by omega
    have := Int.tmod_eq_emod_of_nonneg (a := k) (b := 2) h0
    omega

include ht in
theorem prel_substitute {v : List ℕ} {f : Fin C.n → ℤ} (hv : PRel C p v f) (k : ℤ) :
    if Admissible C.n k then ∃ r, Poly.substitute q v k = .ok r ∧ PRel C p r (substPow k.toNat f)
    else Poly.substitute q v k = .err .invalidArgument := by
  have key := polySubstitute_agrees hC ht hv k
  split_ifs with ha
  · obtain ⟨a1, a2⟩ := admissible_iff.mp ha
    rcases key with ⟨r, G, r1, r2, r3⟩ | ⟨r1, r2⟩
    · refine ⟨r, r1, ?_⟩
      unfold Ctx.substitute at r2
      rw [if_neg a1, if_neg a2] at r2
      cases r2
      show Poly.Rep p C.q C.n r (C.toNtt (modq C.q (substPow k.toNat f)))
      have := ha.1
      have := ha.2.1
      rw [modq_substPow, toNtt_substPow hC.ok _ (by omega)]
      exact r3
    · unfold Ctx.substitute at r2
      rw [if_neg a1, if_neg a2] at r2
      cases r2
  · rcases key with ⟨r, G, r1, r2, r3⟩ | ⟨r1, r2⟩
    · unfold Ctx.substitute at r2
      split_ifs at r2 with h1 h2
      exact absurd (admissible_iff.mpr ⟨h1, h2⟩) ha
    · exact r1

theorem secret_subst (σ : Fin C.n → ℤ) {a b : ℕ} (ha : a % 2 = 1) (hb : b % 2 = 1) :
    subst C.l b (secret C σ a) = secret C σ (a * b % (2 * C.n)) := by
  show _ = C.toNtt (modq C.q (substPow (a * b % (2 * C.n)) σ))
  have h1 : substPow (a * b % (2 * C.n)) σ = substPow b (substPow a σ) := by
    rw [Expand.substPow_mod, Expand.substPow_comp b a hb, mul_comm]
  rw [h1, modq_substPow, toNtt_substPow hC.ok _ hb]

include ht in
theorem crel_substitute {x : Obj ℝ} {X : IdealCt C.n} (hx : CRel C p σ x X) (k : ℤ) (hs : X.size ≠ 0)
    (hk : X.power * k < 2 ^ 31) :
    if Admissible C.n k then ∃ r, WordCt.substitute q x k = .ok r ∧ CRel C p σ r
      ⟨X.size, X.power * k.toNat % (2 * C.n), substPow k.toNat X.value, X.error, 0, 0⟩
    else WordCt.substitute q x k = .err .invalidArgument := by
  obtain ⟨Y, h1, h2⟩ := hx
  have key := c72_substitute hC ht h1 k
  unfold ErrorTrack.substitute at key
  have hYc : Y.ct.c ≠ [] := fun h => hs (by rw [← h2.size, h]; rfl)
  split_ifs with ha
  · obtain ⟨k, rfl⟩ := Int.eq_ofNat_of_zero_le ha.1
    have hodd : k % 2 = 1 := by have := ha.2.1; omega
    have hlt : k < 2 * C.n := by have := ha.2.2; omega
    simp only [Int.toNat_natCast]
    have e1 : Sym.substitute Y.ct k = .ok
        { c := Y.ct.c.map (subst C.l k), power := (Y.ct.power * k).tmod (2 * C.n : ℕ) } := by
      unfold Sym.substitute
      rw [mapM_ok _ (subst C.l k) _ (fun F _ => ctx_substitute F k hodd hlt), Outcome.bind_ok]
      unfold Transcription.int32
      rw [h2.power]
      have hk0 : (0 : ℤ) ≤ X.power * k := by positivity
      rw [if_pos ⟨by omega, hk⟩, Outcome.bind_ok, if_neg (by simpa using hYc)]
      simp
    rw [e1] at key
    obtain ⟨v, v1, v2⟩ := key
    have hn : 0 < 2 * C.n := by positivity
    refine ⟨v, v1, _, v2, ?_, ?_, ?_, h2.error, rfl, ?_, ?_, Nat.mod_lt _ hn⟩
    · show (Y.ct.c.map _).length = _; rw [List.length_map, h2.size]
    · show (Y.ct.power * k).tmod (2 * C.n : ℕ) = ((X.power * k % (2 * C.n) : ℕ) : ℤ)
      rw [h2.power, Int.tmod_eq_emod_of_nonneg (by positivity)]
      push_cast; rfl
    · show C.toNtt (modq C.q (substPow k X.value)) = phase (secret C σ (X.power * k % (2 * C.n))) (Y.ct.c.map _)
      have ev := h2.value
      unfold Noisy at ev
      rw [modq_substPow, toNtt_substPow hC.ok _ hodd, ev, ← secret_subst hC σ h2.odd hodd, phase_subst]
    · have h0 : modq C.q (0 : Fin C.n → ℤ) = 0 := by funext i; simp [modq]
      show C.toNtt (modq C.q 0) = phase _ []
      rw [phase_nil, h0, toNtt_zero]
    · show X.power * k % (2 * C.n) % 2 = 1
      rw [Nat.mod_mul_right_mod, Nat.mul_mod, h2.odd, hodd]
  · have : Sym.substitute Y.ct k = .err .invalidArgument := by
      refine c25_bad_power Y.ct hYc k ?_
      unfold Admissible at ha
      by_contra hc
      apply ha
      push Not at hc
      have : k % 2 = 0 ∨ k % 2 = 1 := by omega
      refine ⟨hc.1, ?_, hc.2.2⟩
      rcases this with h | h
      · exact absurd h hc.2.1
      · exact h
    rw [this] at key
    exact key

theorem toNtt_horner (s : Fin C.n → ℤ) (Fs : List (Fin C.n → ℤ)) : C.toNtt (modq C.q (horner s Fs)) =
    phase (C.toNtt (modq C.q s)) (Fs.map fun f => C.toNtt (modq C.q f)) := by
  have h0 : modq C.q (0 : Fin C.n → ℤ) = 0 := by funext i; simp [modq]
  induction Fs with
  | nil => rw [List.map_nil, phase_nil]; show C.toNtt (modq C.q 0) = 0; rw [h0, toNtt_zero]
  | cons f Fs ih =>
    rw [List.map_cons, phase_cons]
    show C.toNtt (modq C.q (f + negMul s (horner s Fs))) = _
    rw [modq_add, toNtt_add, modq_negMul, toNtt_negMul hC.ok, ih]

/-- A ciphertext of given components. -/
theorem crel_make {fs : List (List ℕ)} {Fs : List (Fin C.n → ℤ)} (h : List.Forall₂ (PRel C p) fs Fs) {k : ℕ}
    (hk : k % 2 = 1) (hk2 : k < 2 * C.n) (e : ℝ) :
    CRel C p σ ⟨fs, k, e, []⟩ ⟨fs.length, k, horner (substPow k σ) Fs, e, 0, 0⟩ := by
  have h0 : modq C.q (0 : Fin C.n → ℤ) = 0 := by funext i; simp [modq]
  refine ⟨⟨⟨Fs.map fun f => C.toNtt (modq C.q f), k, []⟩, e⟩, ⟨?_, rfl, rfl, .nil⟩, ?_, rfl, ?_, rfl, rfl, ?_, hk, hk2⟩
  · show List.Forall₂ _ fs (Fs.map _)
    rw [List.forall₂_map_right_iff]; exact h
  · show (Fs.map _).length = _; rw [List.length_map, h.length_eq]
  · show C.toNtt (modq C.q (horner (substPow k σ) Fs)) = phase _ (Fs.map _)
    exact toNtt_horner hC _ Fs
  · show C.toNtt (modq C.q 0) = phase _ []
    rw [phase_nil, h0, toNtt_zero]

omit hC in
theorem except_bind {α β : Type} (a : α) (f : α → Except Status β) : (Except.ok a >>= f) = f a := rfl

omit hC in
theorem except_error {α β : Type} (e : Status) (f : α → Except Status β) : (Except.error e >>= f) = .error e := rfl

omit hC in
theorem withTemp_ok {α β : Type} (x : α) (b : β) (f : β → Res α) : withTemp x (.ok b) f = f b := rfl

omit hC in
theorem mapM_objects {v : List (List ℕ)} {V : List (Fin C.n → ℤ)} (h : List.Forall₂ (PRel C p) v V) :
    ∀ {is : List ℕ}, (∀ i ∈ is, i < V.length) → ∃ fs Fs, is.mapM (rd v) = .ok fs ∧
      is.mapM (object V) = .ok Fs ∧ fs.length = is.length ∧ List.Forall₂ (PRel C p) fs Fs
  | [], _ => ⟨[], [], rfl, rfl, rfl, .nil⟩
  | i :: is, hi => by
    obtain ⟨x, X, h1, h2, -, h3⟩ := forall₂_object h (hi i (by simp))
    obtain ⟨fs, Fs, g1, g2, g3, g4⟩ := mapM_objects h (is := is) fun j hj => hi j (by simp [hj])
    refine ⟨x :: fs, X :: Fs, ?_, ?_, by simp [g3], .cons h3 g4⟩
    · simp only [List.mapM_cons, h1, g1, Outcome.bind_ok]; rfl
    · simp only [List.mapM_cons, h2, g2, except_bind]; rfl

include ht in
/-- Every call of the program simulates the call of the machine. -/
theorem call_match (P : ErrorParams) (hM : MRel C p σ m M) {c : IdealCall C.n} (hp : c.Proper C.w M) :
    MatchRes (MRel C p σ) m M ((c.call p C.q).run ⟨p, q, P.bPlaintext C.n⟩ m) (c.ideal σ (P.bPlaintext C.n) C.q M) := by
  cases c with
  | zero => exact newPoly_match hM (prel_zero hC)
  | ofCoeffs f =>
    obtain ⟨r, r1, r2, -⟩ := Poly.Rep.forward hC.good ht (prel_import hC f)
    simp only [IdealCall.call, Call.run, IdealCall.ideal]
    rw [r1]
    exact newPoly_match hM r2
  | copy i =>
    obtain ⟨x, X, h1, h2, -, h3⟩ := forall₂_object hM.polys hp
    simp only [IdealCall.call, Call.run, IdealCall.ideal, h1, h2, except_bind, withTemp_ok]
    exact newPoly_match hM h3
  | negate i =>
    obtain ⟨x, X, h1, h2, -, h3⟩ := forall₂_object hM.polys hp
    simp only [IdealCall.call, Call.run, IdealCall.ideal, h1, h2, except_bind, withTemp_ok]
    exact newPoly_match hM (prel_neg hC h3)
  | negateIn i =>
    obtain ⟨x, X, h1, h2, -, h3⟩ := forall₂_object hM.polys hp
    simp only [IdealCall.call, Call.run, IdealCall.ideal, h2, except_bind]
    exact onPoly_match hM h1 rfl (prel_neg hC h3)
  | binary f i j =>
    obtain ⟨x, X, h1, h2, -, h3⟩ := forall₂_object hM.polys hp.1
    obtain ⟨y, Y, g1, g2, -, g3⟩ := forall₂_object hM.polys hp.2
    obtain ⟨r, r1, r2⟩ := prel_bin hC f h3 g3
    simp only [IdealCall.call, Call.run, IdealCall.ideal, h1, h2, g1, g2, except_bind, withTemp_ok, r1, Poly.copying]
    exact newPoly_match hM r2
  | binaryIn f i j =>
    obtain ⟨x, X, h1, h2, -, h3⟩ := forall₂_object hM.polys hp.1
    obtain ⟨y, Y, g1, g2, -, g3⟩ := forall₂_object hM.polys hp.2
    obtain ⟨r, r1, r2⟩ := prel_bin hC f h3 g3
    simp only [IdealCall.call, Call.run, IdealCall.ideal, h2, g1, g2, except_bind, withTemp_ok]
    exact onPoly_match hM h1 (by rw [r1]; rfl) r2
  | scale i c =>
    obtain ⟨x, X, h1, h2, -, h3⟩ := forall₂_object hM.polys hp.1
    obtain ⟨r, r1, r2⟩ := prel_scale hC h3 hp.2
    simp only [IdealCall.call, Call.run, IdealCall.ideal, h1, h2, except_bind, withTemp_ok, Poly.mulScalar, r1,
      Poly.copying]
    exact newPoly_match hM r2
  | scaleIn i c =>
    obtain ⟨x, X, h1, h2, -, h3⟩ := forall₂_object hM.polys hp.1
    obtain ⟨r, r1, r2⟩ := prel_scale hC h3 hp.2
    simp only [IdealCall.call, Call.run, IdealCall.ideal, h2, except_bind]
    exact onPoly_match hM h1 (by rw [r1]; rfl) r2
  | mulConstant i j =>
    obtain ⟨x, X, h1, h2, -, h3⟩ := forall₂_object hM.polys hp.1
    obtain ⟨y, Y, g1, g2, -, g3⟩ := forall₂_object hM.polys hp.2
    obtain ⟨-, k, k1, -, r, r1, r2⟩ := prel_fused hC h3 h3 g3
    simp only [IdealCall.call, Call.run, IdealCall.ideal, h1, h2, g1, g2, k1, except_bind, withTemp_ok,
      Poly.mulConstant, r1, Poly.copying]
    exact newPoly_match hM r2
  | mulConstantIn i j =>
    obtain ⟨x, X, h1, h2, -, h3⟩ := forall₂_object hM.polys hp.1
    obtain ⟨y, Y, g1, g2, -, g3⟩ := forall₂_object hM.polys hp.2
    obtain ⟨-, k, k1, -, r, r1, r2⟩ := prel_fused hC h3 h3 g3
    simp only [IdealCall.call, Call.run, IdealCall.ideal, h2, g1, g2, k1, except_bind, withTemp_ok]
    exact onPoly_match hM h1 (by rw [r1]; rfl) r2
  | fusedIn i j k =>
    obtain ⟨x, X, h1, h2, -, h3⟩ := forall₂_object hM.polys hp.1
    obtain ⟨y, Y, g1, g2, -, g3⟩ := forall₂_object hM.polys hp.2.1
    obtain ⟨z, Z, k1, k2, -, k3⟩ := forall₂_object hM.polys hp.2.2
    obtain ⟨⟨r, r1, r2⟩, -⟩ := prel_fused hC h3 g3 k3
    simp only [IdealCall.call, Call.run, IdealCall.ideal, h2, g1, g2, k1, k2, except_bind, withTemp_ok]
    exact onPoly_match hM h1 (by rw [r1]; rfl) r2
  | fusedConstIn i j k =>
    obtain ⟨x, X, h1, h2, -, h3⟩ := forall₂_object hM.polys hp.1
    obtain ⟨y, Y, g1, g2, -, g3⟩ := forall₂_object hM.polys hp.2.1
    obtain ⟨z, Z, k1, k2, -, k3⟩ := forall₂_object hM.polys hp.2.2
    obtain ⟨-, c, c1, ⟨r, r1, r2⟩, -⟩ := prel_fused hC h3 g3 k3
    simp only [IdealCall.call, Call.run, IdealCall.ideal, h2, g1, g2, k1, k2, c1, except_bind, withTemp_ok]
    exact onPoly_match hM h1 (by rw [r1]; rfl) r2
  | substitute i power =>
    obtain ⟨x, X, h1, h2, -, h3⟩ := forall₂_object hM.polys hp
    have key := prel_substitute hC ht h3 power
    simp only [IdealCall.call, Call.run, IdealCall.ideal, h1, h2, except_bind, withTemp_ok]
    by_cases ha : Admissible C.n power
    · rw [if_pos ha] at key ⊢
      obtain ⟨r, r1, r2⟩ := key
      rw [r1]
      exact newPoly_match hM r2
    · rw [if_neg ha] at key ⊢
      rw [key]
      exact ⟨rfl, hM⟩
  | ctMake is power error =>
    obtain ⟨hi, ha⟩ := hp
    obtain ⟨fs, Fs, h1, h2, h3, h4⟩ := mapM_objects hM.polys hi
    simp only [IdealCall.call, Call.run, IdealCall.ideal, h1, h2, except_bind, Outcome.bind_ok]
    have a2 := ha.2.1
    have a3 := ha.2.2
    rw [← h3]
    exact newCt_match hM (crel_make hC h4 (by omega) (by omega) error)
  | ctCopy a =>
    obtain ⟨x, X, h1, h2, -, h3⟩ := forall₂_object hM.cts hp
    simp only [IdealCall.call, Call.run, IdealCall.ideal, h1, h2, except_bind]
    exact newCt_match hM h3
  | ctNew a op =>
    obtain ⟨X', hX, ho⟩ := hp
    obtain ⟨x, X, h1, h2, h4, h3⟩ := forall₂_object hM.cts (lt_of_some hX)
    obtain rfl : X = X' := by rw [h4] at hX; exact Option.some.inj hX
    obtain ⟨c, c1, c2⟩ := crel_op hC P h3 hM ho (q := q)
    simp only [IdealCall.call, Call.run, IdealCall.ideal, h1, h2, except_bind, withTemp_ok, c1]
    generalize idealOp (P.bPlaintext C.n) C.q M X op = o at c2
    cases o with
    | ok Z =>
      obtain ⟨e1, e2⟩ := c2
      simp only [Res.value, e1, except_bind]
      exact newCt_match hM e2
    | error e =>
      obtain ⟨e1, e2⟩ := c2
      simp only [Res.value, e1]
      exact ⟨rfl, hM⟩
  | ctIn a op =>
    obtain ⟨X', hX, ho⟩ := hp
    obtain ⟨x, X, h1, h2, h4, h3⟩ := forall₂_object hM.cts (lt_of_some hX)
    obtain rfl : X = X' := by rw [h4] at hX; exact Option.some.inj hX
    obtain ⟨c, c1, c2⟩ := crel_op hC P h3 hM ho (q := q)
    simp only [IdealCall.call, Call.run, IdealCall.ideal, h1, h2, except_bind, withTemp_ok, c1, onCt]
    generalize idealOp (P.bPlaintext C.n) C.q M X op = o at c2
    cases o with
    | ok Z =>
      obtain ⟨e1, e2⟩ := c2
      exact ⟨e1, hM.polys, forall₂_set hM.cts a e2⟩
    | error e =>
      obtain ⟨e1, e2⟩ := c2
      refine ⟨e1, hM.polys, ?_⟩
      have := forall₂_set hM.cts a e2
      have hs : M.cts.set a X = M.cts := by
        rw [List.getElem?_eq_some_iff] at h4
        obtain ⟨l1, l2⟩ := h4
        rw [← l2, List.set_getElem_self]
      rwa [hs] at this
  | ctMul a b =>
    obtain ⟨x, X, h1, h2, -, h3⟩ := forall₂_object hM.cts hp.1
    obtain ⟨y, Y, g1, g2, -, g3⟩ := forall₂_object hM.cts hp.2
    have key := crel_mul hC h3 g3
    simp only [IdealCall.call, Call.run, IdealCall.ideal, h1, h2, g1, g2, except_bind, withTemp_ok]
    by_cases ha : X.power ≠ Y.power ∨ X.size = 0 ∨ Y.size = 0
    · rw [if_pos ha] at key ⊢
      rw [key]
      exact ⟨rfl, hM⟩
    · rw [if_neg ha] at key ⊢
      obtain ⟨r, r1, r2⟩ := key
      rw [r1]
      exact newCt_match hM r2
  | ctSubstitute a power =>
    obtain ⟨X', hX, ho, ho2⟩ := hp
    obtain ⟨x, X, h1, h2, h4, h3⟩ := forall₂_object hM.cts (lt_of_some hX)
    obtain rfl : X = X' := by rw [h4] at hX; exact Option.some.inj hX
    have key := crel_substitute hC ht h3 power ho ho2
    simp only [IdealCall.call, Call.run, IdealCall.ideal, h1, h2, except_bind, withTemp_ok]
    by_cases ha : Admissible C.n power
    · rw [if_pos ha] at key ⊢
      obtain ⟨r, r1, r2⟩ := key
      rw [r1]
      exact newCt_match hM r2
    · rw [if_neg ha] at key ⊢
      rw [key]
      exact ⟨rfl, hM⟩
  | setError a error =>
    obtain ⟨x, X, h1, h2, -, Y, h3, h4⟩ := forall₂_object hM.cts hp
    simp only [IdealCall.call, Call.run, IdealCall.ideal, h1, h2, except_bind, withTemp_ok, onCt]
    refine ⟨rfl, hM.polys, forall₂_set hM.cts a ⟨{ Y with error := error }, ?_, ?_⟩⟩
    · exact ⟨h3.c, h3.power, rfl, h3.lazy⟩
    · exact ⟨h4.size, h4.power, h4.value, rfl, h4.pendingSize, h4.pending, h4.odd, h4.lt⟩

include ht in
/-- Every program simulates the machine. -/
theorem run_match (P : ErrorParams) : ∀ {cs : List (IdealCall C.n)} {m : Mem ℝ} {M : IdealMem C.n}, MRel C p σ m M →
    IdealProper σ (P.bPlaintext C.n) C.q C.w M cs →
    (runAll ⟨p, q, P.bPlaintext C.n⟩ m (cs.map (·.call p C.q))).1 = (idealRun σ (P.bPlaintext C.n) C.q M cs).1 ∧
    MRel C p σ (runAll ⟨p, q, P.bPlaintext C.n⟩ m (cs.map (·.call p C.q))).2
      (idealRun σ (P.bPlaintext C.n) C.q M cs).2
  | [], m, M, hM, _ => ⟨rfl, hM⟩
  | c :: cs, m, M, hM, hp => by
    obtain ⟨h1, h2⟩ := hp
    have key := call_match hC ht P hM h1
    simp only [List.map_cons, runAll, idealRun]
    generalize c.ideal σ (P.bPlaintext C.n) C.q M = o at key h2
    cases o with
    | ok M' =>
      obtain ⟨k1, k2⟩ := key
      obtain ⟨i1, i2⟩ := run_match P k2 h2
      simp only [k1, i1]
      exact ⟨trivial, i2⟩
    | error e =>
      obtain ⟨k1, k2⟩ := key
      obtain ⟨i1, i2⟩ := run_match P k2 h2
      simp only [k1, i1]
      exact ⟨trivial, i2⟩

end Shell.Store
