import Verif.Spec.StoreSafe
import Verif.Lemmas.RnsStore
/-!
# Undefined behaviour in programs on polynomials, ciphertexts and keys
-/

namespace Shell.Store
open Spec Rns Res WordCt MParams Ntt
variable {E : Type} {w l : ℕ} {p : MParams} {m : Modulus}

/-- Defined, whatever the value. -/
abbrev Def {α : Type} (o : Outcome α) : Prop := Safe (fun _ => True) o

/-- Defined, whatever the object is afterwards. -/
abbrev DefRes {α : Type} (r : Res α) : Prop := Tame (fun _ => True) r

theorem safe_loopFrom {σ : Type} {f : ℕ → σ → Outcome σ} {I : σ → Prop} (k i : ℕ) {s : σ} (h0 : I s)
    (h : ∀ j s, i ≤ j → j < i + k → I s → Safe I (f j s)) : Safe I (loopFrom f k i s) := by
  induction k generalizing i s with
  | zero => exact .ok h0
  | succ k ih =>
    rw [loopFrom]
    exact (h i s le_rfl (by omega) h0).bind fun s' hs' => ih (i + 1) hs' fun j t h1 h2 => h j t (by omega) (by omega)

theorem safe_loop {σ : Type} {f : ℕ → σ → Outcome σ} {I : σ → Prop} {n : ℕ} {s : σ} (h0 : I s)
    (h : ∀ j s, j < n → I s → Safe I (f j s)) : Safe I (loop n f s) :=
  safe_loopFrom n 0 h0 fun j s _ h2 => h j s (by omega)

/-! ### Polynomials -/

theorem def_copying (r : Poly.InPlace) : Def (Poly.copying r) := by
  unfold Poly.copying
  split
  · exact .ok trivial
  · exact .err

theorem def_vec (r : Poly.InPlace) : DefRes (vec r) := by
  refine ⟨trivial, fun u => ?_⟩
  unfold vec
  cases r.2 <;> simp

theorem def_computeConstant (x : List ℕ) : Def (Poly.computeConstant p x) := by
  unfold Poly.computeConstant Poly.Const.create
  exact .ite (fun _ => .err) fun _ => .ok trivial

theorem def_convertToNtt (hm : GoodModulus w l m) {v : List ℕ} (h0 : v ≠ []) (hl : v.length ≤ 2 ^ l) :
    Def (Poly.convertToNtt m.p m.q v) := by
  have hne : v.length ≠ 0 := by simpa using h0
  have h15 := hm.l15
  have : 2 ^ l ≤ 2 ^ 15 := Nat.pow_le_pow_right (by norm_num) (by omega)
  by_cases hp : v.length = 2 ^ Nat.log2 v.length
  · rcases forward_safe hm hp hl with ⟨y, h, _⟩ | ⟨e, h⟩
    · unfold Poly.convertToNtt; rw [h]; exact .ok trivial
    · unfold Poly.convertToNtt; rw [h]; exact .ok trivial
  · have : Ntt.forward m.p m.q v = .err .invalidArgument := by
      unfold Ntt.forward
      rw [if_neg hne, if_neg (by omega)]
      simp only
      rw [if_pos (by rw [Nat.one_shiftLeft]; exact hp)]
    unfold Poly.convertToNtt
    rw [this]
    exact .ok trivial

theorem safe_inverseNtt (hm : GoodModulus w l m) {v : List ℕ} (h0 : v ≠ []) (hl : v.length ≤ 2 ^ l) :
    Safe (fun u => u.length = v.length) (Poly.inverseNtt m.p m.q v) := by
  have hne : v.length ≠ 0 := by simpa using h0
  have h15 := hm.l15
  have : 2 ^ l ≤ 2 ^ 15 := Nat.pow_le_pow_right (by norm_num) (by omega)
  by_cases hp : v.length = 2 ^ Nat.log2 v.length
  · obtain ⟨psi, t⟩ := hm.tables
    have hv := hp
    obtain ⟨out, h1, h2⟩ := inverse_shape m.p m.q _ (log2_le_30 (by omega))
      (by rw [t.invC, List.length_map, t.inv_len, ← hv]; omega) v hv
    unfold Poly.inverseNtt
    rw [h1]
    exact .ok (h2.trans hv.symm)
  · have : Ntt.inverse m.p m.q v = .err .invalidArgument := by
      unfold Ntt.inverse
      rw [if_neg hne, if_neg (by omega)]
      simp only
      rw [if_pos (by rw [Nat.one_shiftLeft]; exact hp)]
    unfold Poly.inverseNtt
    rw [this]
    exact .ok rfl

theorem safe_substitute (hm : GoodModulus w l m) {v : List ℕ} (hv : v = [] ∨ v.length = 2 ^ l) (k : ℤ) :
    Safe (fun u => v ≠ []) (Poly.substitute m.q v k) := by
  have h15 := hm.l15
  have hb : 2 ^ l ≤ 2 ^ 15 := Nat.pow_le_pow_right (by norm_num) (by omega)
  obtain ⟨psi, t⟩ := hm.tables
  unfold Poly.substitute
  refine .ite (fun _ => .err) fun h1 => ?_
  rcases hv with rfl | hv
  · rw [if_neg (by simp), if_pos (by simp at h1 ⊢; omega)]
    exact .err
  refine .ite (fun h => absurd h (by omega)) fun _ => .ite (fun _ => .err) fun h2 => ?_
  rw [hv] at h2
  push Not at h1 h2
  have hk : k ≠ 0 := by rintro rfl; exact h1.2 rfl
  have hd := Int.tdiv_eq_ediv_of_nonneg (a := k - 1) (b := 2) (by omega)
  obtain ⟨s, e1, _⟩ := loop_ok (n := v.length) (s := (((k - 1).tdiv 2).toNat, v))
    (f := Poly.substStep m.q.bitrevs v k.toNat) (fun _ s => s.1 < 2 ^ l ∧ s.2.length = 2 ^ l)
    ⟨by simp only; omega, hv⟩ (by
      rintro j ⟨a, u⟩ hj ⟨e1, e2⟩
      simp only at e1 e2
      unfold Poly.substStep
      have b1 := bitrev_lt l a (by omega)
      have b2 := bitrev_lt l j (by omega)
      rw [t.bitrevs, rd_bitrevArray e1, Outcome.bind_ok, if_neg (by omega), rd_getD 0 (by omega), Outcome.bind_ok,
        rd_bitrevArray (by omega), Outcome.bind_ok, wr_ok (by simp only; omega), Outcome.bind_ok]
      exact ⟨_, rfl, by simp only; rw [hv]; exact Nat.mod_lt _ (by positivity), by simp [e2]⟩)
  rw [e1, Outcome.bind_ok]
  refine .ok ?_
  rintro rfl
  have : 0 < 2 ^ l := by positivity
  rw [List.length_nil] at hv
  omega

/-! ### Ciphertexts -/

theorem def_forEach {α β : Type} {f : α → β → Res α} (h : ∀ a b, DefRes (f a b)) {cs : List α} {ys : List β}
    (hl : ys.length ≤ cs.length) : DefRes (forEach f cs ys) := by
  induction ys generalizing cs with
  | nil => cases cs <;> exact .done trivial
  | cons y ys ih => cases cs with
    | nil => simp at hl
    | cons c cs =>
      rw [forEach]
      split
      · exact ⟨trivial, (ih (by simpa using hl)).2⟩
      · exact .err trivial
      · next u hu => exact absurd hu ((h c y).2 u)

theorem def_forBoth {α β : Type} {f : α → β → Res α} {g : β → Outcome α} (h : ∀ a b, DefRes (f a b))
    (hg : ∀ b, Def (g b)) {cs : List α} {ys : List β} : DefRes (forBoth f g cs ys) := by
  induction ys generalizing cs with
  | nil => cases cs <;> exact .done trivial
  | cons y ys ih => cases cs with
    | nil =>
      rw [forBoth]
      rcases hg y with ⟨z, hz, _⟩ | ⟨e, he⟩
      · rw [hz]; exact ⟨trivial, ih.2⟩
      · rw [he]; exact .err trivial
    | cons c cs =>
      rw [forBoth]
      split
      · exact ⟨trivial, ih.2⟩
      · exact .err trivial
      · next u hu => exact absurd hu ((h c y).2 u)

theorem def_all {α : Type} {f : α → Res α} (h : ∀ a, DefRes (f a)) (cs : List α) : DefRes (Res.all f cs) :=
  (Tame.all (S := fun _ => True) (by simp) fun x _ => h x).mono fun _ _ => trivial

theorem def_fusedMulAdd (s : Lazy.LPoly) (a b : List ℕ) : Def (Lazy.fusedMulAdd p s a b) := by
  unfold Lazy.fusedMulAdd
  exact .ite (fun _ => .err) fun _ => .ok trivial

theorem def_logMaxLevel : Def (Lazy.logMaxLevel p) := by
  unfold Lazy.logMaxLevel
  exact .ite (fun _ => .err) fun _ => .ok trivial

theorem def_lazyCreate (a b : List ℕ) : Def (Lazy.create p a b) := by
  unfold Lazy.create
  exact .ite (fun _ => .err) fun _ => def_logMaxLevel.bind fun _ _ => .ok trivial

theorem def_lazyLoop (b : List ℕ) {ss : List Lazy.LPoly} {as : List (List ℕ)} (h : ss.length ≤ as.length) :
    DefRes (lazyLoop p b ss as) := by
  induction ss generalizing as with
  | nil => exact .done trivial
  | cons s ss ih => cases as with
    | nil => simp at h
    | cons a as =>
      have : DefRes (lazyStep p b s a) := Tame.withTemp trivial (def_fusedMulAdd s a b) fun _ _ => .done trivial
      rw [lazyLoop]
      split
      · exact ⟨trivial, (ih (by simpa using h)).2⟩
      · exact .err trivial
      · next u hu => exact absurd hu (this.2 u)

theorem length_pad (cs ys : List (List ℕ)) : ys.length ≤ (pad cs ys).length := by
  unfold pad
  split_ifs
  · simp; omega
  · omega

section calls
variable [Add E] [Mul E] [Div E] [NatCast E] {B : E} {x y : Obj E}

theorem def_onC {r : Res (List (List ℕ))} (h : DefRes r) : DefRes (onC x r) := ⟨trivial, h.2⟩

theorem def_onLazy {r : Res (List Lazy.LPoly)} (h : DefRes r) : DefRes (onLazy x r) := ⟨trivial, h.2⟩

theorem def_then {α : Type} {r : Res α} {f : α → Res α} (h : DefRes r) (hf : ∀ y, DefRes (f y)) : DefRes (r.andThen f) :=
  h.andThen (fun _ => id) fun y _ => hf y

theorem def_done (e : E) (x : Obj E) : DefRes (WordCt.done e x) := .done trivial

theorem def_addIn : DefRes (WordCt.addIn p x y) :=
  .ite (fun _ => .reject trivial) fun _ => def_then (def_onC (def_forEach (fun _ _ => def_vec _) (length_pad _ _))) (def_done _)

theorem def_subIn : DefRes (WordCt.subIn p x y) :=
  .ite (fun _ => .reject trivial) fun _ => def_then (def_onC (def_forEach (fun _ _ => def_vec _) (length_pad _ _))) (def_done _)

theorem def_fusedLazilyIn {b : List ℕ} (h : x.power = y.power → y.c ≠ [] → x.lazy.length ≤ y.c.length) :
    DefRes (fusedLazilyIn p B x y b) := by
  unfold fusedLazilyIn
  refine .ite (fun _ => .reject trivial) fun h1 => .ite (fun _ => .done trivial) fun h2 => ?_
  have h3 := h (not_not.1 h1) (by simpa using h2)
  refine .ite (fun _ => ?_) fun h4 => ?_
  · exact def_onLazy (def_forBoth (fun _ _ => .done trivial) fun a => def_lazyCreate a b)
  · unfold lazyPad
    simp only
    split_ifs with h5
    · unfold Lazy.createEmpty
      rcases def_logMaxLevel (p := p) with ⟨v, hv, _⟩ | ⟨e, he⟩
      · rw [hv, Outcome.bind_ok]
        exact def_onLazy (def_lazyLoop b (by simp [withTemp]; omega))
      · rw [he, Outcome.bind_err]
        exact .err trivial
    · exact def_onLazy (def_lazyLoop b h3)

theorem def_mergeIn : DefRes (mergeIn p x) :=
  .ite (fun _ => .err trivial) fun _ => def_then (def_onC (def_forBoth (fun _ _ => def_vec _) fun _ => .ok trivial)) fun _ => .done trivial

theorem def_mul : Def (WordCt.mul p x y) := by
  unfold WordCt.mul
  refine .ite (fun _ => .err) fun _ => .ite (fun _ => .err) fun h1 => .ite (fun _ => .err) fun _ => ?_
  refine (safe_loop (I := fun r : List (List ℕ) => r.length = x.c.length + y.c.length - 1) (by simp) fun i r hi hr => ?_).bind
    fun _ _ => .ok trivial
  refine safe_loop (I := fun r : List (List ℕ) => r.length = x.c.length + y.c.length - 1) hr fun j r hj hr => ?_
  refine (Safe.rd (by omega)).bind fun t _ => (Safe.rd hi).bind fun u _ => (Safe.rd hj).bind fun v _ =>
    (def_copying _).bind fun t _ => ?_
  rw [wr_ok (by omega)]
  exact .ok (by simpa using hr)

theorem def_substituteCt (hm : GoodModulus w l m) {k : ℤ} (h0 : x.c ≠ []) (hv : ∀ v ∈ x.c, v = [] ∨ v.length = 2 ^ l)
    (h1 : -2 ^ 31 ≤ x.power * k) (h2 : x.power * k < 2 ^ 31) : Def (WordCt.substitute m.q x k) := by
  have h15 := hm.l15
  have hb : 2 ^ l ≤ 2 ^ 15 := Nat.pow_le_pow_right (by norm_num) (by omega)
  unfold WordCt.substitute
  rcases Safe.mapM (g := fun f => Poly.substitute m.q f k) (xs := x.c) (S := fun _ => True)
    fun v h => (safe_substitute hm (hv v h) k).mono fun _ _ => trivial with ⟨c, hc, _⟩ | ⟨e, he⟩
  · rw [hc, Outcome.bind_ok]
    have hfirst : (x.c.headD []).length = 2 ^ l := by
      cases hx : x.c with
      | nil => exact absurd hx h0
      | cons v vs =>
        rw [hx, List.mapM_cons] at hc
        rcases safe_substitute hm (hv v (by simp [hx])) k with ⟨u, _, hne⟩ | ⟨e, he⟩
        · exact (hv v (by simp [hx])).resolve_left hne
        · rw [he] at hc; cases hc
    unfold Transcription.int32
    rw [if_pos ⟨h1, h2⟩, Outcome.bind_ok, if_neg (by simpa using h0), hfirst, if_pos (by omega), Outcome.bind_ok,
      if_neg (by have := Nat.two_pow_pos l; omega)]
    exact .ok trivial
  · rw [he]
    exact .err

theorem rd_some {α : Type} {v : List α} {i : ℕ} {a : α} (h : v[i]? = some a) : rd v i = .ok a := by
  unfold rd
  rw [h]

theorem def_call {m : Mem E} {e : Env E} {op : CtOp} (h : OpFits m x op) :
    ∃ c, op.operands e m = .ok c ∧ DefRes (c.run e.p e.bPlain x) := by
  cases op with
  | add b =>
    obtain ⟨y, hy, _⟩ := h
    exact ⟨.add y, by rw [CtOp.operands, rd_some hy]; rfl, def_addIn⟩
  | sub b =>
    obtain ⟨y, hy, _⟩ := h
    exact ⟨.sub y, by rw [CtOp.operands, rd_some hy]; rfl, def_subIn⟩
  | absorb i =>
    obtain ⟨v, hv, _⟩ := h
    exact ⟨.absorb v, by rw [CtOp.operands, rd_some hv]; rfl, def_then (def_onC (def_all (fun _ => def_vec _) _)) (def_done _)⟩
  | scale s => exact ⟨.absorbScalar s, rfl, def_then (def_onC (def_all (fun _ => def_vec _) _)) (def_done _)⟩
  | fused b i =>
    obtain ⟨⟨y, hy, _⟩, v, hv, _⟩ := h
    refine ⟨.fused y v, by rw [CtOp.operands, rd_some hy, rd_some hv]; rfl, ?_⟩
    exact .ite (fun _ => .reject trivial) fun _ => def_then (def_onC (def_forBoth (fun _ _ => def_vec _)
      fun _ => def_copying _)) (def_done _)
  | fusedConst b i =>
    obtain ⟨⟨y, hy, _⟩, v, hv, _⟩ := h
    refine ⟨.fusedConst y ⟨v.map fun a => (Mont.getConstant e.p a).1, v.map fun a => (Mont.getConstant e.p a).2⟩, ?_, ?_⟩
    · rw [CtOp.operands, rd_some hy, rd_some hv]
      simp [Poly.computeConstant, Poly.Const.create, Outcome.bind_ok]
    · exact .ite (fun _ => .reject trivial) fun _ => def_then (def_onC (def_forBoth (fun _ _ => def_vec _)
        fun _ => def_copying _)) (def_done _)
  | lazily b i =>
    obtain ⟨⟨y, hy, hl⟩, v, hv, _⟩ := h
    exact ⟨.fusedLazily y v, by rw [CtOp.operands, rd_some hy, rd_some hv]; rfl, def_fusedLazilyIn hl⟩
  | merge => exact ⟨.merge, rfl, def_mergeIn⟩

end calls

/-! ### Programs -/

section programs
variable [Add E] [Mul E] [Div E] [NatCast E] {e : Env E} {m : Mem E}

theorem def_newPoly {o : Outcome (List ℕ)} (h : Def o) : DefRes (newPoly m o) := .withTemp trivial h fun _ _ => .done trivial

theorem def_newCt {o : Outcome (Obj E)} (h : Def o) : DefRes (newCt m o) := .withTemp trivial h fun _ _ => .done trivial

theorem def_poly {α : Type} {i : ℕ} {P : List ℕ → Prop} (h : HasPoly m i P) {x : α} {f : List ℕ → Res α}
    (hf : ∀ v, P v → DefRes (f v)) : DefRes (withTemp x (rd m.polys i) f) := by
  obtain ⟨v, h1, h2⟩ := h
  rw [rd_some h1]
  exact hf v h2

theorem def_ct {α : Type} {a : ℕ} {P : Obj E → Prop} (h : HasCt m a P) {x : α} {f : Obj E → Res α}
    (hf : ∀ v, P v → DefRes (f v)) : DefRes (withTemp x (rd m.cts a) f) := by
  obtain ⟨v, h1, h2⟩ := h
  rw [rd_some h1]
  exact hf v h2

theorem def_onPoly {i : ℕ} (h : HasPoly m i) {f : List ℕ → Res (List ℕ)} (hf : ∀ v, DefRes (f v)) :
    DefRes (onPoly m i f) :=
  def_poly h fun v _ => ⟨trivial, (hf v).2⟩

theorem def_onCt {a : ℕ} {P : Obj E → Prop} (h : HasCt m a P) {f : Obj E → Res (Obj E)} (hf : ∀ v, P v → DefRes (f v)) :
    DefRes (onCt m a f) :=
  def_ct h fun v hv => ⟨trivial, (hf v hv).2⟩

theorem def_const {α : Type} (y : List ℕ) {x : α} {f : Poly.Const → Res α} (hf : ∀ v, DefRes (f v)) :
    DefRes (withTemp x (Poly.computeConstant e.p y) f) := .withTemp trivial (def_computeConstant y) fun v _ => hf v

theorem def_run {c : Store.Call E} {M : Modulus} (hm : GoodModulus w l M) (hw : w ≤ 128) (hp : e.p = M.p) (hq : e.q = M.q)
    (h : CallFits l m c) : DefRes (c.run e m) := by
  cases c with
  | zero len => exact def_newPoly (.ok trivial)
  | make v => exact def_newPoly (.ok trivial)
  | ofCoeffs v => exact def_newPoly (by rw [hp, hq]; exact def_convertToNtt hm h.1 h.2)
  | parse n bytes =>
    refine def_newPoly ?_
    unfold Poly.deserialize
    refine .ite (fun _ => .err) fun h1 => .ite (fun _ => .err) fun _ => ?_
    rw [hp, show n = ((n.toNat : ℕ) : ℤ) by omega]
    exact (deserializeVector_safe hm.create hw bytes).mono fun _ _ => trivial
  | copy i => exact def_poly h fun v _ => .done trivial
  | negate i => exact def_poly h fun v _ => def_newPoly (.ok trivial)
  | negateIn i => exact def_onPoly h fun v => .done trivial
  | binary f i j => exact def_poly h.1 fun v _ => def_poly h.2 fun v _ => def_newPoly (def_copying _)
  | binaryIn f i j => exact def_poly h.2 fun v _ => def_onPoly h.1 fun v => def_vec _
  | scale i c => exact def_poly h fun v _ => def_newPoly (def_copying _)
  | scaleIn i c => exact def_onPoly h fun v => def_vec _
  | mulConstant i j =>
    exact def_poly h.1 fun v _ => def_poly h.2 fun v _ => def_const v fun v => def_newPoly (def_copying _)
  | mulConstantIn i j => exact def_poly h.2 fun v _ => def_const v fun v => def_onPoly h.1 fun v => def_vec _
  | fusedIn i j k => exact def_poly h.2.1 fun v _ => def_poly h.2.2 fun v _ => def_onPoly h.1 fun v => def_vec _
  | fusedConstIn i j k =>
    exact def_poly h.2.1 fun v _ => def_poly h.2.2 fun v _ => def_const v fun v => def_onPoly h.1 fun v => def_vec _
  | substitute i k =>
    exact def_poly h fun v hv => def_newPoly (by rw [hq]; exact (safe_substitute hm hv k).mono fun _ _ => trivial)
  | component a i =>
    refine def_ct h fun x _ => def_newPoly ?_
    unfold WordCt.component
    exact .ite (fun _ => .err) fun h1 => (Safe.rd (by omega)).mono fun _ _ => trivial
  | ctMake is power error =>
    refine def_newCt ((Safe.mapM (S := fun _ => True) fun i hi => ?_).bind fun _ _ => .ok trivial)
    obtain ⟨v, hv, _⟩ := h i hi
    rw [rd_some hv]
    exact .ok trivial
  | ctCopy a => exact def_ct h fun v _ => .done trivial
  | ctNew a op =>
    refine def_ct h fun x hx => ?_
    obtain ⟨c, h1, h2⟩ := def_call (e := e) hx
    rw [h1]
    exact def_newCt h2.safe
  | ctIn a op =>
    obtain ⟨x, h0, hx⟩ := h
    obtain ⟨c, h1, h2⟩ := def_call (e := e) hx
    rw [Call.run, h1]
    exact def_onCt (P := fun y => y = x) ⟨x, h0, rfl⟩ fun y hy => hy ▸ h2
  | ctMul a b => exact def_ct h.1 fun v _ => def_ct h.2 fun v _ => def_newCt def_mul
  | ctSubstitute a k =>
    exact def_ct h fun x ⟨h1, h2, h3, h4⟩ => def_newCt (by rw [hq]; exact def_substituteCt hm h1 h2 h3 h4)
  | setError a error => exact def_onCt h fun v _ => .done trivial

/-! ### Keys -/

theorem length_digitsLoop (mask b d : ℕ) (cur : List ℕ) : (Gadget.digitsLoop p mask b d cur).length = d ∧
    ∀ v ∈ Gadget.digitsLoop p mask b d cur, v.length = cur.length := by
  induction d generalizing cur with
  | zero => simp [Gadget.digitsLoop]
  | succ d ih =>
    obtain ⟨h1, h2⟩ := ih (cur.map fun x => x >>> b)
    rw [Gadget.digitsLoop]
    refine ⟨by simp [h1], fun v hv => ?_⟩
    rcases List.mem_cons.1 hv with rfl | hv
    · simp
    · simpa using h2 v hv

theorem def_applyPart {M : Modulus} (hm : GoodModulus w l M) {part : Word.Part} (h1 : part.row0 ≠ [])
    (h2 : part.row1.length = part.row0.length) (h3 : part.logDecomp < max M.p.w 32) {c : List ℕ} (hc : c ≠ [])
    (hl : c.length ≤ 2 ^ l) : Def (applyPart M.p M.q part c) := by
  have h0 : 0 < part.row0.length := List.length_pos_iff.2 h1
  unfold applyPart
  refine (safe_inverseNtt hm hc hl).bind fun v hv => ?_
  unfold Gadget.baseDecompose Transcription.shl
  simp only
  rw [if_pos h3, Outcome.bind_ok]
  simp only [Outcome.pure_eq, Outcome.bind_ok]
  obtain ⟨d1, d2⟩ := length_digitsLoop (p := M.p) (trunc M.p.w (((1 <<< part.logDecomp % 2 ^ M.p.w : ℕ) : ℤ) - 1))
    part.logDecomp part.row0.length (v.map (Mont.exportInt M.p))
  generalize Gadget.digitsLoop _ _ _ _ _ = ds at d1 d2
  unfold matrixMultiply
  refine (Safe.rd (by omega)).bind fun d0 _ => safe_loop trivial fun j r hj _ => ?_
  refine (Safe.rd (by omega)).bind fun d hd => ?_
  have hlen : d.length = c.length := by rw [d2 d hd, List.length_map, hv]
  have hne : d ≠ [] := by
    rintro rfl
    exact hc (List.length_eq_zero_iff.1 hlen.symm)
  exact (def_convertToNtt hm hne (by omega)).bind fun d _ => (Safe.rd hj).bind fun a _ => (def_copying _).bind fun r0 _ =>
    (Safe.rd (by omega)).bind fun b _ => (def_copying _).bind fun r1 _ => .ok trivial

theorem safe_component {x : Obj E} (i : ℤ) : Safe (fun v => v ∈ x.c) (WordCt.component x i) := by
  unfold WordCt.component
  exact .ite (fun _ => .err) fun h1 => Safe.rd (by omega)

theorem def_relinearize {M : Modulus} (hm : GoodModulus w l M) (hp : e.p = M.p) (hq : e.q = M.q) {bR : ℕ → ℕ → Outcome E}
    {k : Word.RKey} (hk : KeyFits e bR k) {x : Obj E} (hx : ∀ v ∈ x.c, v ≠ [] ∧ v.length ≤ 2 ^ l) :
    Def (WordCt.relinearize k bR x) := by
  have hpart : ∀ part ∈ k.parts, ∀ v ∈ x.c, Def (applyPart k.p k.q part v) := fun part h v hv => by
    have hb := hk.base part h
    rw [hp] at hb
    rw [hk.params, hk.tables, hp, hq]
    exact def_applyPart hm (hk.rows part h).1 (hk.rows part h).2 hb (hx v hv).1 (hx v hv).2
  have rest : ∀ (ps : List Word.Part) (i : ℕ) (r : List ℕ × List ℕ), (∀ part ∈ ps, part ∈ k.parts) →
      Def (applyRest k.p k.q x (Relin.firstKeyIndex k.power) ps i r) := fun ps => by
    induction ps with
    | nil => exact fun i r _ => .ok trivial
    | cons part ps ih =>
      exact fun i r h => (safe_component _).bind fun c hc => (hpart part (h part (by simp)) c hc).bind fun rp _ =>
        (def_copying _).bind fun r0 _ => (def_copying _).bind fun r1 _ => ih _ _ fun q hq => h q (by simp [hq])
  unfold WordCt.relinearize
  refine .ite (fun _ => .err) fun _ => ?_
  refine (safe_component _).bind fun c1 h1 => (Safe.rd (List.length_pos_iff.2 hk.some)).bind fun m0 hm0 =>
    (hpart m0 hm0 c1 h1).bind fun r _ => (rest _ _ _ fun q hq => List.mem_of_mem_drop hq).bind fun r _ =>
    (safe_component _).bind fun c0 _ => (def_copying _).bind fun r0 _ => ?_
  refine Safe.bind (S := fun _ => True) ?_ fun r1 _ => (Safe.of_not_ub hk.estimate fun _ _ => trivial).bind fun b _ => .ok trivial
  exact .ite (fun _ => (safe_component _).bind fun c _ => def_copying _) fun _ => .ok trivial

theorem def_keyed {c : KeyedCall E} {M : Modulus} (hm : GoodModulus w l M) (hw : w ≤ 128) (hp : e.p = M.p) (hq : e.q = M.q)
    {bR : ℕ → ℕ → Outcome E} {keys : List Word.RKey} (hk : ∀ k ∈ keys, KeyFits e bR k) (h : KeyedFits l keys m c) :
    DefRes (c.run e bR keys m) := by
  cases c with
  | plain c => exact def_run hm hw hp hq h
  | relinearize a r =>
    exact def_ct h.2 fun x hx => .withTemp trivial (Safe.rd h.1) fun k h => def_newCt (def_relinearize hm hp hq (hk k h) hx)
  | galois a r =>
    exact def_ct h.2 fun x hx => .withTemp trivial (Safe.rd h.1) fun k h => def_newCt
      (.ite (fun _ => .err) fun _ => def_relinearize hm hp hq (hk k h) hx)

end programs

/-! ### Keys that the library returns -/

section keys
variable {σ τ : Type}

theorem length_powersOfT {T : ℕ} (d i : ℕ) {cur : List ℕ} {r : List (List ℕ)} (h : Word.powersOfT p T d i cur = .ok r) :
    r.length = d := by
  induction d generalizing i cur r with
  | zero => cases h; rfl
  | succ d ih =>
    simp only [Word.powersOfT, Outcome.bind_eq_ok] at h
    obtain ⟨c, _, rest, h2, h3⟩ := h
    cases h3
    simp [ih _ h2]

theorem length_columns {P : Gen σ} {Q : Gen τ} {fuel : ℕ} {k : Word.Key} {n : ℕ} (pts : List (List ℕ)) {s : σ} {t : τ}
    {r : List (List ℕ × List ℕ) × σ × τ} (h : Word.columns P Q fuel k n pts s t = .ok r) : r.1.length = pts.length := by
  induction pts generalizing s t r with
  | nil => cases h; rfl
  | cons pt pts ih =>
    simp only [Word.columns, Outcome.bind_eq_ok] at h
    obtain ⟨c, _, rest, h2, h3⟩ := h
    cases h3
    simp [ih h2]

/-- Both rows have `d` entries, and the digits are those of `b`. -/
def PartShape (d b : ℕ) (m : Word.Part) : Prop := m.row0.length = d ∧ m.row1.length = d ∧ m.logDecomp = b

theorem shape_createParts {P : Gen σ} {Q : Gen τ} {fuel : ℕ} {k : Word.Key} {base : List ℕ} {b T d : ℕ} (cnt i : ℕ)
    {kp : List ℕ} {s : σ} {t : τ} {r : List Word.Part × σ × τ}
    (h : Word.createParts P Q fuel k base b T d cnt i kp s t = .ok r) :
    r.1.length = cnt ∧ ∀ m ∈ r.1, PartShape d b m := by
  induction cnt generalizing i kp s t r with
  | zero => cases h; simp
  | succ cnt ih =>
    simp only [Word.createParts, Word.Part.create, Outcome.bind_eq_ok] at h
    obtain ⟨c, _, part, ⟨ps, h1, cols, h2, h3⟩, rest, h4, h5⟩ := h
    cases h3
    cases h5
    obtain ⟨i1, i2⟩ := ih _ h4
    refine ⟨by simp [i1], fun m hm => ?_⟩
    rcases List.mem_cons.1 hm with rfl | hm
    · have := length_columns _ h2
      rw [length_powersOfT _ _ h1] at this
      exact ⟨by simpa using this, by simpa using this, rfl⟩
    · exact i2 m hm

theorem length_desColumns {P : Gen σ} {fuel : ℕ} (xs : List Word.SPoly) {s : σ} {r : List (List ℕ × List ℕ) × σ}
    (h : Word.desColumns P fuel p xs s = .ok r) : r.1.length = xs.length := by
  induction xs generalizing s r with
  | nil => cases h; rfl
  | cons x xs ih =>
    simp only [Word.desColumns, Outcome.bind_eq_ok] at h
    obtain ⟨_, _, _, _, rest, h2, h3⟩ := h
    cases h3
    simp [ih h2]

theorem shape_desParts {P : Gen σ} {fuel b per : ℕ} {c : List Word.SPoly} (cnt i : ℕ) (hc : (i + cnt) * per ≤ c.length)
    {s : σ} {r : List Word.Part × σ} (h : Word.desParts P fuel p b per c cnt i s = .ok r) :
    r.1.length = cnt ∧ ∀ m ∈ r.1, PartShape per b m := by
  induction cnt generalizing i s r with
  | zero => cases h; simp
  | succ cnt ih =>
    simp only [Word.desParts, Word.Part.deserialize, Outcome.bind_eq_ok] at h
    obtain ⟨part, ⟨cols, h2, h3⟩, rest, h4, h5⟩ := h
    cases h3
    cases h5
    obtain ⟨i1, i2⟩ := ih (i + 1) (by rw [show i + 1 + cnt = i + (cnt + 1) by omega]; exact hc) h4
    refine ⟨by simp [i1], fun m hm => ?_⟩
    rcases List.mem_cons.1 hm with rfl | hm
    · have h6 := length_desColumns _ h2
      rw [List.length_take, List.length_drop] at h6
      have h7 : (i + 1) * per ≤ c.length := le_trans (Nat.mul_le_mul_right _ (by omega)) hc
      rw [Nat.add_mul] at h7
      have h8 : cols.1.length = per := by omega
      exact ⟨by simpa using h8, by simpa using h8, rfl⟩
    · exact i2 m hm

theorem gadgetSize_pos {a b d : ℕ} (hb : 0 < b) (hab : b ≤ a) (h : Gadget.gadgetSize a b = .ok d) : 0 < d := by
  unfold Gadget.gadgetSize at h
  rw [if_neg (by omega)] at h
  cases h
  exact Nat.div_pos (by omega) hb

theorem fits_of_shape [Add E] [Mul E] [Div E] [NatCast E] {e : Env E} {bR : ℕ → ℕ → Outcome E} {k : Word.RKey} {d b : ℕ} (h1 : k.p = e.p)
    (h2 : k.q = e.q) (h3 : k.parts.length ≠ 0) (hd : 0 < d) (hb : b < 31) (h : ∀ m ∈ k.parts, PartShape d b m)
    (h4 : ∀ u, bR k.parts.length k.logDecomp ≠ .ub u) : KeyFits e bR k := by
  refine ⟨h1, h2, by simpa using h3, fun m hm => ?_, fun m hm => ?_, h4⟩
  · obtain ⟨a1, a2, a3⟩ := h m hm
    exact ⟨by rintro h0; rw [h0] at a1; simp at a1; omega, by omega⟩
  · rw [(h m hm).2.2]
    omega

end keys

end Shell.Store
