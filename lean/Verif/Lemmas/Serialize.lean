import Verif.Lemmas.Word
import Verif.Props.Convert
/-!
Round trips of serialized polynomials and replay of the drawn pads.
-/

namespace Shell.Word
open Shell.Spec MParams Ntt NttRing Sampler
variable {σ τ : Type} {p : MParams} {w N l : ℕ} {q : NttParams} {psi : ZMod N} {n : ℕ}

theorem poly_roundtrip (h : create w N = .ok p) (hw : w ≤ 128) (hw8 : 8 ≤ w) {x : List ℕ}
    (h0 : x ≠ []) (h15 : x.length ≤ 2 ^ 15) (hx : ∀ a ∈ x, a ≤ N) :
    ∃ s, serPoly p x = .ok s ∧ desPoly p s = .ok x := by
  obtain ⟨s, s1, -, -, s2⟩ := (c10_round_trip h hw hw8).1 x h0 h15 hx
  have hpos : 0 < x.length := List.length_pos_iff.mpr h0
  refine ⟨((x.length : ℤ), s), ?_, ?_⟩
  · unfold serPoly Poly.serialize; rw [s1]; rfl
  · unfold desPoly Poly.deserialize
    dsimp only
    rw [if_neg (by omega), if_neg (by unfold Mont.kMaxNumCoeffs; omega), s2]

theorem polys_roundtrip (h : create w N = .ok p) (hw : w ≤ 128) (hw8 : 8 ≤ w) {xs : List (List ℕ)}
    (hx : ∀ x ∈ xs, x ≠ [] ∧ x.length ≤ 2 ^ 15 ∧ ∀ a ∈ x, a ≤ N) :
    ∃ ss, xs.mapM (serPoly p) = .ok ss ∧ List.Forall₂ (fun s x => desPoly p s = .ok x) ss xs := by
  induction xs with
  | nil => exact ⟨[], rfl, .nil⟩
  | cons x xs ih =>
    obtain ⟨h0, h1, h2⟩ := hx x (by simp)
    obtain ⟨s, s1, s2⟩ := poly_roundtrip h hw hw8 h0 h1 h2
    obtain ⟨ss, t1, t2⟩ := ih (fun y hy => hx y (by simp [hy]))
    refine ⟨s :: ss, ?_, .cons s2 t2⟩
    rw [List.mapM_cons, s1, Outcome.bind_ok, t1]; rfl

theorem mapM_des {ss : List SPoly} {xs : List (List ℕ)}
    (h : List.Forall₂ (fun s x => desPoly p s = .ok x) ss xs) : ss.mapM (desPoly p) = .ok xs := by
  induction h with
  | nil => rfl
  | cons h1 _ ih => rw [List.mapM_cons, h1, Outcome.bind_ok, ih]; rfl

theorem valid_ser (hn : 1 ≤ n) (hn15 : n ≤ 2 ^ 15) {x : List ℕ} (hx : ValidPoly N n x) :
    x ≠ [] ∧ x.length ≤ 2 ^ 15 ∧ ∀ a ∈ x, a ≤ N :=
  ⟨by rintro rfl; have := hx.1; simp at this; omega, by rw [hx.1]; exact hn15, hx.2⟩

theorem flatMap_length {dim : ℕ} {parts : List Part} (h : ∀ y ∈ parts, y.row0.length = dim) :
    (parts.flatMap Part.row0).length = parts.length * dim := by
  induction parts with
  | nil => simp
  | cons x xs ih =>
    rw [List.flatMap_cons, List.length_append, ih (fun y hy => h y (by simp [hy])),
      h x (by simp), List.length_cons]; ring

/-! ### Relinearization keys -/

section
variable (P : Gen σ) (Q : Gen τ) (g : Good p w N) (t : Tables p w N l psi q) (k : Key)
  (hkp : k.p = p) (hkq : k.q = q) (hk : ValidPoly N (2 ^ l) k.key) (hT : k.tMod ≤ N)
include g t hkp hkq hk hT

theorem column_valid {fuel : ℕ} {pt e r : List ℕ} (hpt : ValidPoly N (2 ^ l) pt) {s s' : σ} {u u' : τ}
    (h : column P Q fuel k (2 ^ l) pt s u = .ok ((e, r), s', u')) :
    ValidPoly N (2 ^ l) e ∧ samplePolynomial P p fuel (2 ^ l : ℕ) s = .ok (r, s') := by
  unfold column at h
  rw [hkp, hkq, hk.1] at h
  obtain ⟨⟨r₀, s₁⟩, h1, h⟩ := Outcome.bind_eq_ok.mp h
  obtain ⟨rt, h2, h⟩ := Outcome.bind_eq_ok.mp h
  obtain ⟨⟨er, u₁⟩, h3, h⟩ := Outcome.bind_eq_ok.mp h
  obtain ⟨e1, h4, h⟩ := Outcome.bind_eq_ok.mp h
  obtain ⟨e2, h5, h⟩ := Outcome.bind_eq_ok.mp h
  obtain ⟨e3, h6, h⟩ := Outcome.bind_eq_ok.mp h
  obtain ⟨e4, h7, h⟩ := Outcome.bind_eq_ok.mp h
  cases h
  refine ⟨?_, h1⟩
  have v1 := valid_pad P g fuel s s' r h1
  obtain ⟨x, x1, v2⟩ := valid_mul g v1 hk
  have h2' : Poly.copying (Poly.mulInPlace p r k.key) = .ok rt := h2
  rw [x1] at h2'
  cases h2'
  have v3 := valid_negate g v2
  have v4 := valid_error Q g k.variance u u' er h3
  obtain ⟨y, y1, v5⟩ := valid_ntt g t v4
  rw [y1] at h4; cases h4
  obtain ⟨z, z1, v6⟩ := valid_scalar g v5 hT
  rw [z1] at h5; cases h5
  obtain ⟨a, a1, v7⟩ := valid_add g v6 v3
  rw [a1] at h6; cases h6
  obtain ⟨b, b1, v8⟩ := valid_add g v7 hpt
  rw [b1] at h7; cases h7
  exact v8

theorem powers_valid {T : ℕ} (hTT : T ≤ N) (d i : ℕ) {cur : List ℕ} (hc : ValidPoly N (2 ^ l) cur) :
    ∃ ps, powersOfT p T d i cur = .ok ps ∧ ps.length = d ∧ ∀ x ∈ ps, ValidPoly N (2 ^ l) x := by
  induction d generalizing i cur with
  | zero => exact ⟨[], rfl, rfl, by simp⟩
  | succ d ih =>
    obtain ⟨c', c1, c2⟩ : ∃ c', (if i ≠ 0 then Poly.copying (Poly.mulScalarInPlace p cur T)
        else .ok cur : Outcome (List ℕ)) = .ok c' ∧ ValidPoly N (2 ^ l) c' := by
      split_ifs
      · exact valid_scalar g hc hTT
      · exact ⟨cur, rfl, hc⟩
    obtain ⟨ps, p1, p2, p3⟩ := ih (i + 1) c2
    refine ⟨c' :: ps, ?_, by simp [p2], ?_⟩
    · rw [powersOfT, c1, Outcome.bind_ok, p1]; rfl
    · intro x hx
      rcases List.mem_cons.mp hx with rfl | hx
      · exact c2
      · exact p3 x hx

/-- The created columns are valid, and deserializing their upper entries with the pad generator in the
same state gives the same columns. -/
theorem columns_replay {fuel : ℕ} {pts : List (List ℕ)} (hpts : ∀ x ∈ pts, ValidPoly N (2 ^ l) x)
    {s s' : σ} {u u' : τ} {cols : List (List ℕ × List ℕ)}
    (h : columns P Q fuel k (2 ^ l) pts s u = .ok (cols, s', u')) :
    cols.length = pts.length ∧ (∀ c ∈ cols, ValidPoly N (2 ^ l) c.1) ∧
    ∀ ss, List.Forall₂ (fun x y => desPoly p x = .ok y) ss (cols.map Prod.fst) →
      desColumns P fuel p ss s = .ok (cols, s') := by
  induction pts generalizing s u cols with
  | nil => cases h; exact ⟨rfl, by simp, fun ss hs => by cases hs; rfl⟩
  | cons pt pts ih =>
    rw [columns] at h
    obtain ⟨⟨⟨e, r⟩, s₁, u₁⟩, h1, h⟩ := Outcome.bind_eq_ok.mp h
    obtain ⟨⟨cs, s₂, u₂⟩, h2, h⟩ := Outcome.bind_eq_ok.mp h
    cases h
    obtain ⟨i1, i2, i3⟩ := ih (fun x hx => hpts x (by simp [hx])) h2
    obtain ⟨v1, v2⟩ := column_valid P Q g t k hkp hkq hk hT (hpts pt (by simp)) h1
    refine ⟨by simp [i1], ?_, ?_⟩
    · intro c hc
      rcases List.mem_cons.mp hc with rfl | hc
      · exact v1
      · exact i2 c hc
    · intro ss hs
      cases hs with
      | cons hd tl =>
        rw [desColumns, hd, Outcome.bind_ok, v1.1, v2, Outcome.bind_ok]
        dsimp only
        rw [i3 _ tl]; rfl

/-- The same for one part. -/
theorem part_replay {fuel logDecomp T dim : ℕ} (hTT : T ≤ N) {keyPower : List ℕ}
    (hkpow : ValidPoly N (2 ^ l) keyPower) {s s' : σ} {u u' : τ} {part : Part}
    (h : Part.create P Q fuel keyPower k logDecomp T dim s u = .ok (part, s', u')) :
    part.row0.length = dim ∧ (∀ c ∈ part.row0, ValidPoly N (2 ^ l) c) ∧
    ∀ ss, List.Forall₂ (fun x y => desPoly p x = .ok y) ss part.row0 →
      Part.deserialize P fuel p ss logDecomp s = .ok (part, s') := by
  unfold Part.create at h
  obtain ⟨ps, p1, p2, p3⟩ := powers_valid g t k hkp hkq hk hT hTT dim 0 hkpow
  rw [hkp, p1, Outcome.bind_ok, hkpow.1] at h
  obtain ⟨⟨cols, s₁, u₁⟩, h1, h⟩ := Outcome.bind_eq_ok.mp h
  cases h
  obtain ⟨c1, c2, c3⟩ := columns_replay P Q g t k hkp hkq hk hT p3 h1
  refine ⟨by simp [c1, p2], ?_, ?_⟩
  · intro c hc
    obtain ⟨x, hx, rfl⟩ := List.mem_map.mp hc
    exact c2 x hx
  · intro ss hs
    unfold Part.deserialize
    rw [c3 ss hs]; rfl

theorem parts_replay {fuel logDecomp T dim : ℕ} (hTT : T ≤ N) {base : List ℕ}
    (hbase : ValidPoly N (2 ^ l) base) (cnt i : ℕ) {keyPower : List ℕ}
    (hkpow : ValidPoly N (2 ^ l) keyPower) {s s' : σ} {u u' : τ} {parts : List Part}
    (h : createParts P Q fuel k base logDecomp T dim cnt i keyPower s u = .ok (parts, s', u')) :
    parts.length = cnt ∧ (∀ x ∈ parts, x.row0.length = dim ∧ ∀ c ∈ x.row0, ValidPoly N (2 ^ l) c) ∧
    ∀ pre ss j, pre.length = j * dim →
      List.Forall₂ (fun x y => desPoly p x = .ok y) ss (parts.flatMap Part.row0) →
      desParts P fuel p logDecomp dim (pre ++ ss) cnt j s = .ok (parts, s') := by
  induction cnt generalizing i keyPower s u parts with
  | zero => cases h; exact ⟨rfl, by simp, fun _ _ _ _ _ => rfl⟩
  | succ cnt ih =>
    rw [createParts, hkp] at h
    obtain ⟨kp, k1, h⟩ := Outcome.bind_eq_ok.mp h
    have hkpv : ValidPoly N (2 ^ l) kp := by
      split_ifs at k1
      · obtain ⟨r, r1, r2⟩ := valid_mul g hkpow hbase
        rw [r1] at k1; cases k1; exact r2
      · cases k1; exact hkpow
    obtain ⟨⟨part, s₁, u₁⟩, h1, h⟩ := Outcome.bind_eq_ok.mp h
    obtain ⟨⟨rest, s₂, u₂⟩, h2, h⟩ := Outcome.bind_eq_ok.mp h
    cases h
    obtain ⟨a1, a2, a3⟩ := part_replay P Q g t k hkp hkq hk hT hTT hkpv h1
    obtain ⟨b1, b2, b3⟩ := ih _ hkpv h2
    refine ⟨by simp [b1], ?_, ?_⟩
    · intro x hx
      rcases List.mem_cons.mp hx with rfl | hx
      · exact ⟨a1, a2⟩
      · exact b2 x hx
    · intro pre ss j hpre hs
      rw [List.flatMap_cons] at hs
      obtain ⟨s1, s2, hf1, hf2, rfl⟩ : ∃ s1 s2,
          List.Forall₂ (fun x y => desPoly p x = .ok y) s1 part.row0 ∧
          List.Forall₂ (fun x y => desPoly p x = .ok y) s2 (rest.flatMap Part.row0) ∧
          ss = s1 ++ s2 :=
        ⟨_, _, List.forall₂_take_append _ _ _ hs, List.forall₂_drop_append _ _ _ hs,
          (List.take_append_drop _ _).symm⟩
      have hl1 : s1.length = dim := by rw [hf1.length_eq, a1]
      rw [desParts]
      have e1 : List.take dim (List.drop (j * dim) (pre ++ (s1 ++ s2))) = s1 := by
        rw [← hpre, List.drop_left, ← hl1, List.take_left]
      rw [e1, a3 s1 hf1, Outcome.bind_ok]
      dsimp only
      rw [← List.append_assoc, b3 (pre ++ s1) s2 (j + 1) (by
        rw [List.length_append, hpre, hl1]; ring) hf2]
      rfl

end

end Shell.Word
