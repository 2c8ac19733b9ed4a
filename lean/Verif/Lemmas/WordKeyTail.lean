import Verif.Lemmas.KeyTail
import Verif.Props.ErrorTail
import Verif.Props.WordSwitch
/-! The errors of relinearization keys and Galois keys, on stored words. -/

namespace Shell.WordCt
open Spec Rns ErrorTrack MParams Ntt NttRing Sym
variable {σ : Type} {C : Ctx} {p : MParams} {q : NttParams}

theorem times_append {α : Type} (T : Tree α) (a b : ℕ) {s s₁ s₂ : List (Fin 256)} {xs ys : List α}
    (h1 : (T.times a).run s = .ok (xs, s₁)) (h2 : (T.times b).run s₁ = .ok (ys, s₂)) :
    (T.times (a + b)).run s = .ok (xs ++ ys, s₂) := by
  induction a generalizing s xs with
  | zero =>
    cases h1
    rw [zero_add]
    exact h2
  | succ a ih =>
    rw [show a + 1 + b = (a + b) + 1 by omega]
    have e1 : (T.bind fun x => (T.times a).bind fun xs => .ret (.ok (x :: xs))).run s = .ok (xs, s₁) := h1
    rw [Tree.run_bind] at e1
    obtain ⟨⟨x, s'⟩, x1, e1⟩ := Outcome.bind_eq_ok.mp e1
    dsimp only at e1
    rw [Tree.run_bind] at e1
    obtain ⟨⟨xs', s''⟩, x2, e1⟩ := Outcome.bind_eq_ok.mp e1
    cases e1
    show (T.bind fun x => (T.times (a + b)).bind fun xs => .ret (.ok (x :: xs))).run s = _
    rw [Tree.run_bind, x1, Outcome.bind_ok, Tree.run_bind, ih x2, Outcome.bind_ok]
    rfl

/-- The sum of the absolute values of all coefficients of sampled errors. -/
def drawnNorm (l : ℕ) (v : ℤ) (psss : List (List (List (ℕ × ℕ)))) : ℤ :=
  (psss.map fun pss => norm1 (drawnPoly l v pss)).sum

section
variable (hC : Fit C p) (ht : Tables p C.w C.q C.l C.psi q)
include hC ht

/-- One column. -/
theorem column_drawn (G : Gen σ) (hcr : create C.w C.q = .ok p) {k : Word.Key}
    {K : Sym.Key C} (hk : HoldsKey C p q k K) (hv : 4 * k.variance < C.q) {pt : List ℕ} {F : C.Poly}
    (hpt : Poly.Rep p C.q C.n pt F) {fuel : ℕ} {s s' : σ} {t t' : List (Fin 256)} {c : List ℕ × List ℕ}
    (h : Word.column G bytesSource fuel k C.n pt s t = .ok (c, s', t')) :
    ∃ (pad : C.Poly) (pss : List (List (ℕ × ℕ))), (errTree C.l k.variance).run t = .ok (pss, t') ∧
      Rep2 C p c (Relin.column K F pad (modq C.q (drawnPoly C.l k.variance pss))) := by
  unfold Word.column at h
  rw [hk.params, hk.ntt, hk.key.len] at h
  obtain ⟨⟨a, s₁⟩, h1, h⟩ := Outcome.bind_eq_ok.mp h
  have ha := Word.pad_rep G hC.good fuel C.n s s₁ a h1
  obtain ⟨m, m1, m2⟩ := ha.mul hC.good hk.key
  dsimp only at h
  rw [show Poly.mul p a k.key = .ok m from Word.copy_ok m1, Outcome.bind_ok] at h
  obtain ⟨⟨er, t₁⟩, h2, h⟩ := Outcome.bind_eq_ok.mp h
  obtain ⟨e, e1, e2⟩ := Word.error_rep bytesSource bytesSource_words hcr C.n k.variance (by omega) t t₁ er h2
  obtain ⟨pss, r1, r2⟩ := sampleError_tape hcr hv h2
  rw [signed_rep hC.good e2 fun i => by have := e1 i; omega] at r2
  dsimp only at h
  obtain ⟨v, v1, v2, -⟩ := e2.forward hC.good ht
  obtain ⟨w, w1, w2⟩ := v2.mulScalar hC.good hk.tLe
  obtain ⟨y, y1, y2⟩ := w2.add hC.good (m2.negate hC.good)
  obtain ⟨z, z1, z2⟩ := y2.add hC.good hpt
  rw [v1, Outcome.bind_ok, Word.copy_ok w1, Outcome.bind_ok, Word.copy_ok y1, Outcome.bind_ok, Word.copy_ok z1,
    Outcome.bind_ok] at h
  cases h
  have he : e = drawnPoly C.l k.variance pss := r2
  refine ⟨_, pss, r1, ?_, ha⟩
  rw [← he]
  have hr : res p C.q k.tMod = K.tUnderQ := by
    rw [← hk.t, ← res_export hC.good hk.tLe]; rfl
  rw [hr] at z2
  exact z2

theorem columns_drawn (G : Gen σ) (hcr : create C.w C.q = .ok p) {k : Word.Key}
    {K : Sym.Key C} (hk : HoldsKey C p q k K) (hv : 4 * k.variance < C.q) {pts : List (List ℕ)} {Fs : List C.Poly}
    (hpt : List.Forall₂ (Poly.Rep p C.q C.n) pts Fs) {fuel : ℕ} {s s' : σ} {t t' : List (Fin 256)}
    {cs : List (List ℕ × List ℕ)} (h : Word.columns G bytesSource fuel k C.n pts s t = .ok (cs, s', t')) :
    ∃ (pads : ℕ → C.Poly) (E : ℕ → Fin C.n → ℤ) (psss : List (List (List (ℕ × ℕ)))),
      ((errTree C.l k.variance).times pts.length).run t = .ok (psss, t') ∧
      ∑ j ∈ Finset.range pts.length, norm1 (E j) = drawnNorm C.l k.variance psss ∧ cs.length = pts.length ∧
      ∀ j < pts.length, Rep2 C p (cs.getD j ([], [])) (Relin.column K (Fs.getD j 0) (pads j) (modq C.q (E j))) := by
  induction hpt generalizing s t cs with
  | nil =>
    cases h
    exact ⟨fun _ => 0, fun _ _ => 0, [], rfl, rfl, rfl, fun j hj => by simp at hj⟩
  | @cons pt F pts Fs h1 _ ih =>
    unfold Word.columns at h
    obtain ⟨⟨c, s₁, t₁⟩, h2, h⟩ := Outcome.bind_eq_ok.mp h
    obtain ⟨⟨cs', s₂, t₂⟩, h3, h⟩ := Outcome.bind_eq_ok.mp h
    cases h
    obtain ⟨pad, pss, e1, e2⟩ := column_drawn hC ht G hcr hk hv h1 h2
    obtain ⟨pads, E, psss, f0, f1, f2, f3⟩ := ih h3
    refine ⟨fun j => Nat.casesOn j pad pads, fun j => Nat.casesOn j (drawnPoly C.l k.variance pss) E, pss :: psss, ?_, ?_,
      by simp [f2], fun j hj => ?_⟩
    · show ((errTree C.l k.variance).bind fun x => ((errTree C.l k.variance).times pts.length).bind fun xs =>
        .ret (.ok (x :: xs))).run t = _
      rw [Tree.run_bind, e1, Outcome.bind_ok, Tree.run_bind, f0, Outcome.bind_ok]
      rfl
    · rw [List.length_cons, Finset.sum_range_succ']
      show (∑ j ∈ Finset.range pts.length, norm1 (E j)) + norm1 (drawnPoly C.l k.variance pss) = _
      rw [f1]
      unfold drawnNorm
      rw [List.map_cons, List.sum_cons, add_comm]
    · cases j with
      | zero => exact e2
      | succ j => exact f3 j (by simpa using hj)

/-- One key part. -/
theorem createPart_drawn (G : Gen σ) (hcr : create C.w C.q = .ok p) {k : Word.Key}
    {K : Sym.Key C} (hk : HoldsKey C p q k K) (hv : 4 * k.variance < C.q) {kp : List ℕ} {F : C.Poly}
    (hkp : Poly.Rep p C.q C.n kp F) {T : ℕ} (hT : T ≤ C.q) {b d : ℕ} (hd : 0 < d) {fuel : ℕ} {s s' : σ}
    {t t' : List (Fin 256)} {m : Word.Part}
    (h : Word.Part.create G bytesSource fuel kp k b T d s t = .ok (m, s', t')) :
    ∃ (pads : ℕ → C.Poly) (E : ℕ → Fin C.n → ℤ) (M : Relin.Part C) (psss : List (List (List (ℕ × ℕ)))),
      ((errTree C.l k.variance).times d).run t = .ok (psss, t') ∧
      ∑ j ∈ Finset.range d, norm1 (E j) = drawnNorm C.l k.variance psss ∧
      Relin.Part.create F K (res p C.q T) d pads (fun j => modq C.q (E j)) = .ok M ∧ HoldsPart C p b m M := by
  unfold Word.Part.create at h
  obtain ⟨pw, p1, p2⟩ := powers_agree hC hT d 0 hkp
  rw [hk.params, p1, Outcome.bind_ok, hkp.len] at h
  obtain ⟨⟨cs, s₁, t₁⟩, h2, h⟩ := Outcome.bind_eq_ok.mp h
  cases h
  obtain ⟨pads, E, psss, f0, f1, f2, f3⟩ := columns_drawn hC ht G hcr hk hv p2 h2
  obtain ⟨M, m1, m2, m3, m4⟩ := Relin.part_create F K (res p C.q T) d pads (fun j => modq C.q (E j))
  obtain ⟨q1, q2⟩ := Relin.powersOfT_getD (res p C.q T) d 0 F
  have hl : cs.length = d := by rw [f2, p2.length_eq, q1]
  have hpl : pw.length = d := by omega
  rw [hpl] at f0 f1
  have hget : ∀ j < d, Rep2 C p (cs.getD j ([], [])) (M.row0.getD j 0, M.row1.getD j 0) := by
    intro j hj
    have h3 := f3 j (by omega)
    rw [q2 j hj, if_pos rfl] at h3
    rw [(m4 j hj).1, (m4 j hj).2]
    exact h3
  refine ⟨pads, E, M, psss, f0, f1, m1, ?_, ?_, by simp, by simpa [hl] using hd, rfl⟩
  · refine forall₂_of_getD [] 0 (by simp [hl, m2]) fun j hj => ?_
    have hj' : j < cs.length := by simpa using hj
    have := (hget j (by omega)).1
    rw [List.getD_eq_getElem _ _ hj'] at this
    rw [List.getD_eq_getElem _ _ hj, List.getElem_map]
    exact this
  · refine forall₂_of_getD [] 0 (by simp [hl, m3]) fun j hj => ?_
    have hj' : j < cs.length := by simpa using hj
    have := (hget j (by omega)).2
    rw [List.getD_eq_getElem _ _ hj'] at this
    rw [List.getD_eq_getElem _ _ hj, List.getElem_map]
    exact this

theorem createParts_drawn (G : Gen σ) (hcr : create C.w C.q = .ok p) {k : Word.Key}
    {K : Sym.Key C} (hk : HoldsKey C p q k K) (hv : 4 * k.variance < C.q) {base : List ℕ} {Base : C.Poly}
    (hbase : Poly.Rep p C.q C.n base Base) {T : ℕ} (hT : T ≤ C.q) {b d : ℕ} (hd : 0 < d) {fuel : ℕ} (cnt i j : ℕ)
    {kp : List ℕ} {F : C.Poly} (hkp : Poly.Rep p C.q C.n kp F) {s s' : σ} {t t' : List (Fin 256)} {ms : List Word.Part}
    (h : Word.createParts G bytesSource fuel k base b T d cnt i kp s t = .ok (ms, s', t')) :
    ∃ (pads : ℕ → ℕ → C.Poly) (E : ℕ → ℕ → Fin C.n → ℤ) (Ms : List (Relin.Part C)) (psss : List (List (List (ℕ × ℕ)))),
      ((errTree C.l k.variance).times (cnt * d)).run t = .ok (psss, t') ∧
      ∑ u ∈ Finset.range cnt, ∑ v ∈ Finset.range d, norm1 (E (j + u) v) = drawnNorm C.l k.variance psss ∧
      Relin.createParts K Base (res p C.q T) d pads (fun u v => modq C.q (E u v)) cnt i j F = .ok Ms ∧
      List.Forall₂ (HoldsPart C p b) ms Ms := by
  induction cnt generalizing i j kp F s t ms with
  | zero =>
    cases h
    exact ⟨fun _ _ => 0, fun _ _ _ => 0, [], [], by rw [zero_mul]; rfl, rfl, rfl, .nil⟩
  | succ cnt ih =>
    unfold Word.createParts at h
    obtain ⟨kp', F', e1, e2, e3⟩ : ∃ kp' F', (if i ≠ 1 then Poly.copying (Poly.mulInPlace k.p kp base) else .ok kp :
        Outcome (List ℕ)) = .ok kp' ∧ (if i ≠ 1 then F * Base else F) = F' ∧ Poly.Rep p C.q C.n kp' F' := by
      by_cases hi : i ≠ 1
      · obtain ⟨r, r1, r2⟩ := hkp.mul hC.good hbase
        rw [if_pos hi, if_pos hi, hk.params]
        exact ⟨r, _, Word.copy_ok r1, rfl, r2⟩
      · rw [if_neg hi, if_neg hi]
        exact ⟨kp, F, rfl, rfl, hkp⟩
    rw [e1, Outcome.bind_ok] at h
    obtain ⟨⟨m, s₁, t₁⟩, h2, h⟩ := Outcome.bind_eq_ok.mp h
    obtain ⟨⟨ms', s₂, t₂⟩, h3, h⟩ := Outcome.bind_eq_ok.mp h
    cases h
    obtain ⟨pad, e, M, psss, f0, f1, f2, f3⟩ := createPart_drawn hC ht G hcr hk hv e3 hT hd h2
    obtain ⟨pads, E, Ms, psss', g0, g1, g2, g3⟩ := ih (i + 1) (j + 1) e3 h3
    refine ⟨fun u => if u = j then pad else pads u, fun u => if u = j then e else E u, M :: Ms, psss ++ psss', ?_, ?_, ?_,
      .cons f3 g3⟩
    · rw [show (cnt + 1) * d = d + cnt * d by ring]
      exact times_append _ _ _ f0 g0
    · rw [Finset.sum_range_succ']
      have h1 : ∀ u ∈ Finset.range cnt, ∑ v ∈ Finset.range d,
          norm1 ((if j + (u + 1) = j then e else E (j + (u + 1))) v) = ∑ v ∈ Finset.range d, norm1 (E (j + 1 + u) v) := by
        intro u _
        rw [if_neg (by omega), show j + (u + 1) = j + 1 + u by omega]
      rw [Finset.sum_congr rfl h1, g1]
      simp only [add_zero, if_true]
      rw [f1]
      unfold drawnNorm
      rw [List.map_append, List.sum_append, add_comm]
    · unfold Relin.createParts
      dsimp only
      rw [e2, if_pos rfl]
      have hcong : ∀ (cnt i j' : ℕ) (F : C.Poly), j < j' →
          Relin.createParts K Base (res p C.q T) d (fun u => if u = j then pad else pads u)
            (fun u v => modq C.q ((fun u => if u = j then e else E u) u v)) cnt i j' F =
          Relin.createParts K Base (res p C.q T) d pads (fun u v => modq C.q (E u v)) cnt i j' F := by
        intro cnt
        induction cnt with
        | zero => intros; rfl
        | succ cnt ih =>
          intro i j' F hj
          unfold Relin.createParts
          dsimp only
          rw [ih _ _ _ (by omega)]
          have hne : ¬ j' = j := by omega
          simp only [if_neg hne]
      have := hcong cnt (i + 1) (j + 1) F' (by omega)
      dsimp only at this
      rw [this, g2]
      simp only [if_true]
      rw [f2]
      rfl

theorem tapeRng_start {prng : PrngType} {tape t : List (Fin 256)} (h : tapeRng.start prng (tape.map Fin.val) = .ok t) :
    t = tape := by
  unfold Word.Rng.start at h
  split_ifs at h
  have := Outcome.ok.inj h
  rw [← this, List.map_map]
  refine (List.map_congr_left fun b _ => ?_).trans (List.map_id _)
  show Fin.ofNat 256 (b : ℕ) = b
  exact Fin.ext (Nat.mod_eq_of_lt b.2)

/-- `RelinearizationKey::Create`: the number of sampled errors is the number of parts times the number of digits. -/
theorem create_drawn (hw : C.w ≤ 128) (hcr : create C.w C.q = .ok p)
    {k : Word.Key} {K : Sym.Key C} (hk : HoldsKey C p q k K) (hv : 4 * k.variance < C.q) {T : ℕ}
    (htm : plaintextModulus C.w K.logT = .ok T) {fuel : ℕ} {prng : PrngType} {numParts : ℤ} {b : ℕ} {pw : ℤ}
    {seed : List ℕ} {tape : List (Fin 256)} {rk : Word.RKey}
    (h : Word.RKey.create tapeRng fuel k prng numParts b pw seed (tape.map Fin.val) = .ok rk) :
    ∃ (pads : ℕ → ℕ → C.Poly) (E : ℕ → ℕ → Fin C.n → ℤ) (RK : Relin.RKey C) (psss : List (List (List (ℕ × ℕ))))
      (t' : List (Fin 256)),
      ((errTree C.l k.variance).times ((numParts - Relin.firstKeyIndex pw).toNat *
        ((C.logModulus + (b - 1)) / b))).run tape = .ok (psss, t') ∧
      ∑ u ∈ Finset.range (numParts - Relin.firstKeyIndex pw).toNat, ∑ v ∈ Finset.range ((C.logModulus + (b - 1)) / b),
        norm1 (E u v) = drawnNorm C.l k.variance psss ∧
      Relin.create K prng numParts b pw pads (fun u v => modq C.q (E u v)) = .ok RK ∧ HoldsSwitch C p q rk RK ∧
      RK.parts.length = (numParts - Relin.firstKeyIndex pw).toNat := by
  have hlog : p.logModulus = C.logModulus := logModulus_of_create hcr
  obtain ⟨l1, l2, l3⟩ := ctx_logModulus hC.ok hw
  unfold Word.RKey.create at h
  unfold Relin.create
  rw [hk.params, hk.ntt, hC.good.hw, hlog] at h
  obtain ⟨_, h⟩ | ⟨c1, h⟩ := ite_eq_iff.mp h
  · cases h
  obtain ⟨_, h⟩ | ⟨c2, h⟩ := ite_eq_iff.mp h
  · cases h
  obtain ⟨_, h⟩ | ⟨c3, h⟩ := ite_eq_iff.mp h
  · cases h
  simp only [if_neg c1, if_neg c2, if_neg c3]
  obtain ⟨one, m1, m2, m3⟩ := mask_eq (w := C.w) (b := b) (by omega)
  have hone : one < 2 ^ C.w := by rw [m2]; exact Nat.pow_lt_pow_right (by norm_num) (by omega)
  rw [m1, Outcome.bind_ok] at h
  obtain ⟨base, h1, h⟩ := Outcome.bind_eq_ok.mp h
  obtain ⟨s, h2, h⟩ := Outcome.bind_eq_ok.mp h
  obtain ⟨t, h3, h⟩ := Outcome.bind_eq_ok.mp h
  have htape := tapeRng_start hC ht h3
  rw [htape] at h
  obtain ⟨d, h4, h⟩ := Outcome.bind_eq_ok.mp h
  obtain ⟨⟨ms, s', t'⟩, h5, h⟩ := Outcome.bind_eq_ok.mp h
  cases h
  have hpr : prng ≠ .invalid := by
    intro hc
    unfold Word.Rng.start at h2
    rw [if_pos hc] at h2
    cases h2
  rcases polySubstitute_agrees hC ht hk.key pw with ⟨r, G, r1, r2, r3⟩ | ⟨r1, r2⟩
  swap
  · rw [r1] at h1; cases h1
  rw [r1] at h1
  cases h1
  have hd' := h4
  unfold Gadget.gadgetSize at hd'
  rw [if_neg c2] at hd'
  have hde : (C.logModulus + (b - 1)) / b = d := Outcome.ok.inj hd'
  have hd : 0 < d := by
    rw [← hde]
    exact Nat.div_pos (by omega) (by omega)
  obtain ⟨pads, E, Ms, psss, g0, g1, g2, g3⟩ := createParts_drawn hC ht bytesSource hcr hk hv r3
    (importInt_lt hC.good _ hone).le hd _ _ 0 r3 h5
  rw [res_import hC.good hone] at g2
  simp only [Nat.zero_add] at g1
  rw [hde]
  refine ⟨pads, E, ⟨numParts, b, pw, Ms⟩, psss, t', g0, g1, ?_, ⟨rfl, rfl, rfl, rfl, rfl, g3⟩, ?_⟩
  · rw [m1, Outcome.bind_ok]
    unfold Key.substitute
    rw [htm, Outcome.bind_ok, r2, Outcome.bind_ok]
    simp only [Outcome.bind_ok, pure]
    rw [if_neg hpr, h4, Outcome.bind_ok, g2, Outcome.bind_ok]
  · obtain ⟨L, L1, L2, -⟩ := Relin.createParts_ok K G ((one : ℕ) : ZMod C.q) d pads (fun u v => modq C.q (E u v))
      (numParts - Relin.firstKeyIndex pw).toNat (Relin.firstKeyIndex pw) 0 G
      (by unfold Relin.firstKeyIndex; split_ifs <;> omega) (by unfold Relin.firstKeyIndex; split_ifs <;> simp_all [pow_two])
    rw [g2] at L1
    cases L1
    exact L2

end

end Shell.WordCt
