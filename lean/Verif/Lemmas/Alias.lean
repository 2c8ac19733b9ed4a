import Mathlib.Data.List.Nodup
import Mathlib.Data.List.GetD
import Verif.Lemmas.Loop
import Verif.Lemmas.InPlace
import Verif.Spec.Alias

namespace Shell.Alias
open Rns Rns.Res

theorem rd_some {α : Type} {v : List α} {i : ℕ} {x : α} (h : v[i]? = some x) : rd v i = .ok x := by
  unfold rd; rw [h]

theorem wr_lt {α : Type} {v : List α} {i : ℕ} {x : α} (h : i < v.length) : wr v i x = .ok (v.set i x) := by
  unfold wr; rw [if_pos h]

theorem getD_set_self {h : Heap} {d : ℕ} (hd : d < h.length) (v : List ℕ) : (h.set d v).getD d [] = v := by
  simp [List.getD_eq_getElem?_getD, List.getElem?_set_self hd]

theorem getD_set_ne {h : Heap} {d l : ℕ} (hl : d ≠ l) (v : List ℕ) : (h.set d v).getD l [] = h.getD l [] := by
  simp [List.getD_eq_getElem?_getD, List.getElem?_set_ne hl]

theorem getAt_ok {h : Heap} {l i x : ℕ} (hl : l < h.length) (hx : (h.getD l [])[i]? = some x) :
    getAt h l i = .ok x := by
  have e : h.getD l [] = h[l] := by simp [List.getD_eq_getElem?_getD, hl]
  unfold getAt
  rw [rd_some (List.getElem?_eq_getElem hl), Outcome.bind_ok]
  exact rd_some (e ▸ hx)

theorem putAt_ok {h : Heap} {l i x : ℕ} (hl : l < h.length) (hi : i < (h.getD l []).length) :
    putAt h l i x = .ok (h.set l ((h.getD l []).set i x)) := by
  have e : h.getD l [] = h[l] := by simp [List.getD_eq_getElem?_getD, hl]
  unfold putAt
  rw [rd_some (List.getElem?_eq_getElem hl), Outcome.bind_ok]
  rw [e] at hi ⊢
  rw [wr_lt hi, Outcome.bind_ok, wr_lt hl]

/-- The vector after `j` iterations. -/
def mixed (out x : List ℕ) (j : ℕ) : List ℕ := out.take j ++ x.drop j

theorem mixed_length {out x : List ℕ} (h : out.length = x.length) (j : ℕ) (hj : j ≤ x.length) :
    (mixed out x j).length = x.length := by
  simp [mixed]; omega

theorem mixed_get_ge {out x : List ℕ} (h : out.length = x.length) {j i : ℕ} (hj : j ≤ i) (hi : i < x.length) :
    (mixed out x j)[i]? = x[i]? := by
  have e : (out.take j).length = j := by simp; omega
  unfold mixed
  rw [List.getElem?_append_right (by omega), e, List.getElem?_drop]
  congr 1; omega

theorem mixed_get_lt {out x : List ℕ} (h : out.length = x.length) {j i : ℕ} (hj : i < j) (hx : j ≤ x.length) :
    (mixed out x j)[i]? = out[i]? := by
  have e : (out.take j).length = j := by simp; omega
  unfold mixed
  rw [List.getElem?_append_left (by omega), List.getElem?_take_of_lt hj]

theorem mixed_set {out x : List ℕ} (h : out.length = x.length) {j : ℕ} (hj : j < x.length) (y : ℕ)
    (hy : out[j]? = some y) : (mixed out x j).set j y = mixed out x (j + 1) := by
  apply List.ext_getElem?
  intro i
  rw [List.getElem?_set]
  split_ifs with h1 h2
  · subst h1
    rw [mixed_get_lt h (by omega) (by omega), hy]
  · rw [mixed_length h j (by omega)] at h2
    omega
  · by_cases hi : i < x.length
    · rcases Nat.lt_or_ge i j with h3 | h3
      · rw [mixed_get_lt h h3 (by omega), mixed_get_lt h (by omega) (by omega)]
      · rw [mixed_get_ge h h3 hi, mixed_get_ge h (by omega) hi]
    · rw [List.getElem?_eq_none, List.getElem?_eq_none]
      · rw [mixed_length h _ (by omega)]; omega
      · rw [mixed_length h _ (by omega)]; omega

/-- A loop over a vector in memory whose iteration `j` yields `out[j]` when the first `j` elements have been replaced
already. -/
theorem pointwise_ok {d : ℕ} {g : ℕ → Heap → Outcome ℕ} {h : Heap} (hd : d < h.length) {out : List ℕ}
    (hlen : out.length = (h.getD d []).length)
    (hg : ∀ j y, out[j]? = some y → g j (h.set d (mixed out (h.getD d []) j)) = .ok y) :
    pointwise (h.getD d []).length d g h = .ok (h.set d out) := by
  set x := h.getD d [] with hx
  obtain ⟨s, h1, h2⟩ := loop_ok (f := fun i h => do let x ← g i h; putAt h d i x) (n := x.length) (s := h)
    (fun j (s : Heap) => s = h.set d (mixed out x j))
    (by
      have : mixed out x 0 = x := by simp [mixed]
      rw [this, hx]
      apply List.ext_getElem?
      intro i
      rw [List.getElem?_set]
      split_ifs with h1
      · subst h1; simp [List.getD_eq_getElem?_getD, hd]
      · rfl)
    (by
      rintro j s hj rfl
      have hy : out[j]? = some out[j] := List.getElem?_eq_getElem (by omega)
      have e : (h.set d (mixed out x j)).getD d [] = mixed out x j := getD_set_self hd _
      refine ⟨_, ?_, rfl⟩
      rw [hg j _ hy, Outcome.bind_ok, putAt_ok (by simpa using hd) (by rw [e, mixed_length hlen j (by omega)]; exact hj),
        e, mixed_set hlen hj _ hy, List.set_set])
  rw [pointwise, h1, h2]
  congr 2
  unfold mixed
  rw [List.take_of_length_le (by omega), List.drop_length, List.append_nil]

/-- What iteration `j` reads at index `j` of any vector is what the vector held at the beginning. -/
theorem getAt_mixed {d a : ℕ} {h : Heap} (hd : d < h.length) (ha : a < h.length) {out : List ℕ}
    (hlen : out.length = (h.getD d []).length) {j y : ℕ} (hj : (h.getD a [])[j]? = some y)
    (hjd : j < (h.getD d []).length) :
    getAt (h.set d (mixed out (h.getD d []) j)) a j = .ok y := by
  apply getAt_ok (by simpa using ha)
  by_cases e : d = a
  · subst e
    rw [getD_set_self hd, mixed_get_ge hlen le_rfl hjd, hj]
  · rw [getD_set_ne e, hj]

theorem rd_heap {h : Heap} {l : ℕ} (hl : l < h.length) : rd h l = .ok (h.getD l []) := by
  rw [rd_some (List.getElem?_eq_getElem hl)]
  simp [List.getD_eq_getElem?_getD, hl]

/-- The memory after an operation on the vector at `d`. -/
def onVec (h : Heap) (d : ℕ) (r : Res (List ℕ)) : Res Heap := (h.set d r.1, r.2)

theorem set_getD_self (h : Heap) (d : ℕ) : h.set d (h.getD d []) = h := by
  apply List.ext_getElem?
  intro i
  rw [List.getElem?_set]
  split_ifs with h1 h2
  · subst h1; simp [List.getD_eq_getElem?_getD, h2]
  · subst h1; rw [List.getElem?_eq_none (by omega)]
  · rfl

theorem batch2_eq (f : ℕ → ℕ → ℕ) {d a : ℕ} {h : Heap} (hd : d < h.length) (ha : a < h.length) :
    batch2 f d a h = onVec h d (if (h.getD d []).length ≠ (h.getD a []).length
      then (h.getD d [], .err .invalidArgument)
      else (List.zipWith f (h.getD d []) (h.getD a []), .ok ())) := by
  unfold batch2 onVec
  rw [rd_heap hd, rd_heap ha]
  simp only [withTemp]
  split_ifs with h1
  · simp only [reject, set_getD_self]
  · have hlen : (List.zipWith f (h.getD d []) (h.getD a [])).length = (h.getD d []).length := by
      rw [List.length_zipWith]; omega
    rw [pointwise_ok hd hlen]
    · rfl
    · intro j y hy
      have hj : j < (h.getD d []).length := by
        rw [← hlen]; exact (List.getElem?_eq_some_iff.1 hy).1
      rw [getAt_mixed hd hd hlen (List.getElem?_eq_getElem hj) hj, Outcome.bind_ok,
        getAt_mixed hd ha hlen (List.getElem?_eq_getElem (by omega)) hj, Outcome.bind_ok]
      rw [List.getElem?_zipWith, List.getElem?_eq_getElem hj, List.getElem?_eq_getElem (by omega)] at hy
      simp only [Option.some.injEq] at hy
      rw [← hy]; rfl

theorem batchAdd_eq (p : MParams) {d a : ℕ} {h : Heap} (hd : d < h.length) (ha : a < h.length) :
    batchAdd p d a h = onVec h d (vec (Poly.addInPlace p (h.getD d []) (h.getD a []))) := by
  rw [batchAdd, batch2_eq _ hd ha, Poly.addInPlace]
  split_ifs <;> rfl

theorem batchSub_eq (p : MParams) {d a : ℕ} {h : Heap} (hd : d < h.length) (ha : a < h.length) :
    batchSub p d a h = onVec h d (vec (Poly.subInPlace p (h.getD d []) (h.getD a []))) := by
  rw [batchSub, batch2_eq _ hd ha, Poly.subInPlace]
  split_ifs <;> rfl

theorem batchMul_eq (p : MParams) {d a : ℕ} {h : Heap} (hd : d < h.length) (ha : a < h.length) :
    batchMul p d a h = onVec h d (vec (Poly.mulInPlace p (h.getD d []) (h.getD a []))) := by
  rw [batchMul, batch2_eq _ hd ha, Poly.mulInPlace]
  split_ifs <;> rfl

theorem batchFused_eq (p : MParams) {d a b : ℕ} {h : Heap} (hd : d < h.length) (ha : a < h.length)
    (hb : b < h.length) :
    batchFused p d a b h =
      onVec h d (vec (Poly.fusedMulAddInPlace p (h.getD d []) (h.getD a []) (h.getD b []))) := by
  unfold batchFused onVec Poly.fusedMulAddInPlace
  rw [rd_heap hd, rd_heap ha, rd_heap hb]
  simp only [withTemp]
  split_ifs with h1
  · simp only [reject, vec, set_getD_self]
  · obtain ⟨h1, h2⟩ := not_or.1 h1
    set out := List.zipWith (fun s (k : ℕ × ℕ) => Mont.fusedMulAdd p s k.1 k.2) (h.getD d [])
      ((h.getD a []).zip (h.getD b [])) with hout
    have hlen : out.length = (h.getD d []).length := by
      rw [hout, List.length_zipWith, List.length_zip]; omega
    rw [pointwise_ok hd hlen]
    · rfl
    · intro j y hy
      have hj : j < (h.getD d []).length := by
        rw [← hlen]; exact (List.getElem?_eq_some_iff.1 hy).1
      rw [getAt_mixed hd hd hlen (List.getElem?_eq_getElem hj) hj, Outcome.bind_ok,
        getAt_mixed hd ha hlen (List.getElem?_eq_getElem (by omega)) hj, Outcome.bind_ok,
        getAt_mixed hd hb hlen (List.getElem?_eq_getElem (by omega)) hj, Outcome.bind_ok]
      rw [hout, List.getElem?_zipWith, List.zip, List.getElem?_zipWith, List.getElem?_eq_getElem hj,
        List.getElem?_eq_getElem (by omega), List.getElem?_eq_getElem (by omega)] at hy
      simp only [Option.some.injEq] at hy
      rw [← hy]; rfl

theorem batchFusedConstant_eq (p : MParams) {d a : ℕ} (b : Poly.Const) {h : Heap} (hd : d < h.length)
    (ha : a < h.length) :
    batchFusedConstant p d a b h =
      onVec h d (vec (Poly.fusedMulConstantAddInPlace p (h.getD d []) (h.getD a []) b)) := by
  unfold batchFusedConstant onVec Poly.fusedMulConstantAddInPlace
  rw [rd_heap hd, rd_heap ha]
  simp only [withTemp]
  split_ifs with h1
  · simp only [reject, vec, set_getD_self]
  · obtain ⟨h1, h2⟩ := not_or.1 h1
    obtain ⟨h2, h3⟩ := not_or.1 h2
    set out := List.zipWith (fun s (k : ℕ × ℕ × ℕ) => Mont.fusedMulConstantAdd p s k.1 k.2.1 k.2.2) (h.getD d [])
      ((h.getD a []).zip (b.c.zip b.cb)) with hout
    have hlen : out.length = (h.getD d []).length := by
      rw [hout, List.length_zipWith, List.length_zip, List.length_zip]; omega
    rw [pointwise_ok hd hlen]
    · rfl
    · intro j y hy
      have hj : j < (h.getD d []).length := by
        rw [← hlen]; exact (List.getElem?_eq_some_iff.1 hy).1
      rw [getAt_mixed hd hd hlen (List.getElem?_eq_getElem hj) hj, Outcome.bind_ok,
        getAt_mixed hd ha hlen (List.getElem?_eq_getElem (by omega)) hj, Outcome.bind_ok,
        rd_some (List.getElem?_eq_getElem (by omega)), Outcome.bind_ok,
        rd_some (List.getElem?_eq_getElem (by omega)), Outcome.bind_ok]
      rw [hout, List.getElem?_zipWith, List.zip, List.zip, List.getElem?_zipWith, List.getElem?_zipWith,
        List.getElem?_eq_getElem hj,
        List.getElem?_eq_getElem (by omega), List.getElem?_eq_getElem (by omega),
        List.getElem?_eq_getElem (by omega)] at hy
      simp only [Option.some.injEq] at hy
      rw [← hy]; rfl

theorem batchMulScalar_value (p : MParams) (d c : ℕ) {h : Heap} (hd : d < h.length) :
    batchMulScalar p d (.value c) h = onVec h d (vec (Poly.mulScalarInPlace p (h.getD d []) c)) := by
  unfold batchMulScalar onVec Poly.mulScalarInPlace
  rw [rd_heap hd]
  simp only [withTemp]
  have hlen : ((h.getD d []).map fun a => Mont.mul p a c).length = (h.getD d []).length := by simp
  rw [pointwise_ok hd hlen]
  · rfl
  · intro j y hy
    have hj : j < (h.getD d []).length := by
      rw [← hlen]; exact (List.getElem?_eq_some_iff.1 hy).1
    rw [getAt_mixed hd hd hlen (List.getElem?_eq_getElem hj) hj, Outcome.bind_ok, Ref.get, Outcome.bind_ok]
    rw [List.getElem?_map, List.getElem?_eq_getElem hj] at hy
    simp only [Option.map_some, Option.some.injEq] at hy
    rw [← hy]; rfl

theorem batchMulScalar_other (p : MParams) {d l k c : ℕ} {h : Heap} (hd : d < h.length) (hl : l < h.length)
    (hne : d ≠ l) (hc : (h.getD l [])[k]? = some c) :
    batchMulScalar p d (.element l k) h = onVec h d (vec (Poly.mulScalarInPlace p (h.getD d []) c)) := by
  unfold batchMulScalar onVec Poly.mulScalarInPlace
  rw [rd_heap hd]
  simp only [withTemp]
  have hlen : ((h.getD d []).map fun a => Mont.mul p a c).length = (h.getD d []).length := by simp
  rw [pointwise_ok hd hlen]
  · rfl
  · intro j y hy
    have hj : j < (h.getD d []).length := by
      rw [← hlen]; exact (List.getElem?_eq_some_iff.1 hy).1
    rw [getAt_mixed hd hd hlen (List.getElem?_eq_getElem hj) hj, Outcome.bind_ok, Ref.get,
      getAt_ok (by simpa using hl) (by rw [getD_set_ne hne, hc]), Outcome.bind_ok]
    rw [List.getElem?_map, List.getElem?_eq_getElem hj] at hy
    simp only [Option.map_some, Option.some.injEq] at hy
    rw [← hy]; rfl

theorem batchMulScalar_self (p : MParams) {d k c : ℕ} {h : Heap} (hd : d < h.length)
    (hc : (h.getD d [])[k]? = some c) :
    batchMulScalar p d (.element d k) h = onVec h d (scalarAliased (Mont.mul p) (h.getD d []) k c, .ok ()) := by
  unfold batchMulScalar onVec
  rw [rd_heap hd]
  simp only [withTemp]
  have hlen : (scalarAliased (Mont.mul p) (h.getD d []) k c).length = (h.getD d []).length := by
    simp [scalarAliased]
  obtain ⟨hk, hck⟩ := List.getElem?_eq_some_iff.1 hc
  rw [pointwise_ok hd hlen]
  · rfl
  · intro j y hy
    have hj : j < (h.getD d []).length := by
      rw [← hlen]; exact (List.getElem?_eq_some_iff.1 hy).1
    have hy' : (if j ≤ k then Mont.mul p (h.getD d [])[j] c else Mont.mul p (h.getD d [])[j] (Mont.mul p c c)) = y := by
      rw [scalarAliased, List.getElem?_mapIdx, List.getElem?_eq_getElem hj] at hy
      simpa using hy
    rw [getAt_mixed hd hd hlen (List.getElem?_eq_getElem hj) hj, Outcome.bind_ok, Ref.get]
    rcases Nat.lt_or_ge k j with h1 | h1
    · rw [getAt_ok (x := Mont.mul p c c) (by simpa using hd)
        (by rw [getD_set_self hd, mixed_get_lt hlen h1 (by omega), scalarAliased, List.getElem?_mapIdx, hc]; simp),
        Outcome.bind_ok]
      rw [if_neg (by omega)] at hy'
      rw [hy']; rfl
    · rw [getAt_ok (x := c) (by simpa using hd)
        (by rw [getD_set_self hd, mixed_get_ge hlen h1 hk, hc]), Outcome.bind_ok]
      rw [if_pos h1] at hy'
      rw [hy']; rfl

/-! ### Loops over objects -/

theorem Frame.refl (h : Heap) (ls : List ℕ) : Frame h h ls := ⟨rfl, fun _ _ => rfl⟩

theorem Frame.trans {h h' h'' : Heap} {ls ls' ls'' : List ℕ} (a : Frame h h' ls) (b : Frame h' h'' ls')
    (h1 : ∀ l ∈ ls, l ∈ ls'') (h2 : ∀ l ∈ ls', l ∈ ls'') : Frame h h'' ls'' :=
  ⟨b.1.trans a.1, fun l hl => (b.2 l fun e => hl (h2 l e)).trans (a.2 l fun e => hl (h1 l e))⟩

theorem onVec_frame (h : Heap) (d : ℕ) (r : Res (List ℕ)) : Frame h (onVec h d r).1 [d] := by
  refine ⟨by simp [onVec], fun l hl => ?_⟩
  rw [onVec, List.getElem?_set_ne]
  simpa [eq_comm] using hl

/-- Kinds of objects in memory: where they are and what they hold. -/
structure Kind (α V : Type) where
  locs : α → List ℕ
  val : Heap → α → V
  ext : ∀ h h' a, (∀ l ∈ locs a, h'[l]? = h[l]?) → val h' a = val h a

theorem Kind.frame {α V : Type} (K : Kind α V) {h h' : Heap} {ls : List ℕ} (f : Frame h h' ls) (a : α)
    (hd : ∀ l ∈ K.locs a, l ∉ ls) : K.val h' a = K.val h a :=
  K.ext h h' a fun l hl => f.2 l (hd l hl)

/-- A function that changes the object `a` in memory behaves as `F` does on values. -/
def Acts {α β V B : Type} (K : Kind α V) (L : Kind β B) (f : α → β → Heap → Res Heap) (F : V → B → Res V)
    (h : Heap) (a : α) (b : β) : Prop :=
  K.val (f a b h).1 a = (F (K.val h a) (L.val h b)).1 ∧ (f a b h).2 = (F (K.val h a) (L.val h b)).2 ∧
  Frame h (f a b h).1 (K.locs a)

theorem eachLoc_acts {α β V B : Type} (K : Kind α V) (L : Kind β B) (f : α → β → Heap → Res Heap) (F : V → B → Res V)
    (zs : List (α × β)) (N : ℕ)
    (hf : ∀ z ∈ zs, ∀ h : Heap, h.length = N → Acts K L f F h z.1 z.2)
    (hp : zs.Pairwise fun y z => (∀ l ∈ K.locs y.1, l ∉ K.locs z.1) ∧ (∀ l ∈ K.locs y.1, l ∉ L.locs z.2))
    (h : Heap) (hN : h.length = N) :
    let r := eachLoc f (zs.map Prod.fst) (zs.map Prod.snd) h
    let s := each F (zs.map fun z => K.val h z.1) (zs.map fun z => L.val h z.2)
    (zs.map fun z => K.val r.1 z.1) = s.1 ∧ r.2 = s.2 ∧ Frame h r.1 (zs.flatMap fun z => K.locs z.1) := by
  induction zs generalizing h with
  | nil => exact ⟨rfl, rfl, Frame.refl _ _⟩
  | cons z zs ih =>
    obtain ⟨a1, a2, a3⟩ := hf z (by simp) h hN
    rw [List.pairwise_cons] at hp
    obtain ⟨p1, p2⟩ := hp
    simp only [List.map_cons, eachLoc, each, andThen]
    -- values of the later objects after the first step
    have hv : (zs.map fun y => K.val (f z.1 z.2 h).1 y.1) = zs.map fun y => K.val h y.1 :=
      List.map_congr_left fun y hy => K.frame a3 y.1 fun l hl e => (p1 y hy).1 l e hl
    have hw : (zs.map fun y => L.val (f z.1 z.2 h).1 y.2) = zs.map fun y => L.val h y.2 :=
      List.map_congr_left fun y hy => L.frame a3 y.2 fun l hl e => (p1 y hy).2 l e hl
    rcases e : (f z.1 z.2 h).2 with u | e' | u
    · rw [← a2, e]
      obtain ⟨b1, b2, b3⟩ := ih (fun y hy => hf y (by simp [hy])) p2 (f z.1 z.2 h).1 (a3.1.trans hN)
      rw [hv, hw] at b1 b2
      refine ⟨?_, b2, ?_⟩
      · simp only
        rw [← b1, ← a1]
        congr 1
        apply K.frame b3
        intro l hl e
        obtain ⟨y, hy, hl'⟩ := List.mem_flatMap.1 e
        exact (p1 y hy).1 l hl hl'
      · refine a3.trans b3 ?_ ?_ <;> intro l hl <;> simp only [List.flatMap_cons, List.mem_append]
        · exact Or.inl hl
        · exact Or.inr hl
    · rw [← a2, e]
      exact ⟨by simp only; rw [hv, ← a1], rfl, a3.trans (Frame.refl _ []) (by
        intro l hl; simp only [List.flatMap_cons, List.mem_append]; exact Or.inl hl) (by simp)⟩
    · rw [← a2, e]
      exact ⟨by simp only; rw [hv, ← a1], rfl, a3.trans (Frame.refl _ []) (by
        intro l hl; simp only [List.flatMap_cons, List.mem_append]; exact Or.inl hl) (by simp)⟩

/-! ### Vectors, RNS polynomials and ciphertexts as objects -/

/-- Single vectors. -/
def vecKind : Kind ℕ (List ℕ) where
  locs := fun l => [l]
  val := fun h l => h.getD l []
  ext := fun h h' l e => by
    simp only [List.getD_eq_getElem?_getD, e l (by simp)]

/-- A modulus (not in memory) and a vector. -/
def modVecKind : Kind (Modulus × ℕ) (Modulus × List ℕ) where
  locs := fun b => [b.2]
  val := fun h b => (b.1, h.getD b.2 [])
  ext := fun h h' b e => by
    simp only [List.getD_eq_getElem?_getD, e b.2 (by simp)]

/-- A modulus and two vectors. -/
def modVec2Kind : Kind (Modulus × ℕ × ℕ) (Modulus × List ℕ × List ℕ) where
  locs := fun b => [b.2.1, b.2.2]
  val := fun h b => (b.1, h.getD b.2.1 [], h.getD b.2.2 [])
  ext := fun h h' b e => by
    simp only [List.getD_eq_getElem?_getD, e b.2.1 (by simp), e b.2.2 (by simp)]

/-- RNS polynomials. -/
def rKind : Kind RObj RPoly where
  locs := RObj.locs
  val := RObj.val
  ext := fun h h' x e => by
    unfold RObj.val
    congr 1
    apply List.map_congr_left
    intro l hl
    simp only [List.getD_eq_getElem?_getD, e l hl]

theorem acts_of_onVec {β B : Type} {L : Kind β B} {f : ℕ → β → Heap → Res Heap} {F : List ℕ → B → Res (List ℕ)}
    {h : Heap} {d : ℕ} {b : β} (hd : d < h.length)
    (e : f d b h = onVec h d (F (h.getD d []) (L.val h b))) : Acts vecKind L f F h d b := by
  unfold Acts
  rw [e]
  refine ⟨?_, rfl, onVec_frame _ _ _⟩
  simp only [vecKind, onVec]
  rw [getD_set_self hd]

theorem zip_fst {α β : Type} {xs : List α} {ys : List β} (h : xs.length = ys.length) :
    (xs.zip ys).map Prod.fst = xs := List.map_fst_zip (by omega)

theorem zip_snd {α β : Type} {xs : List α} {ys : List β} (h : xs.length = ys.length) :
    (xs.zip ys).map Prod.snd = ys := List.map_snd_zip (by omega)

theorem flatMap_fst {α β : Type} (g : α → List ℕ) (zs : List (α × β)) :
    (zs.flatMap fun z => g z.1) = (zs.map Prod.fst).flatMap g := by rw [List.flatMap_map]

theorem flatMap_single (xs : List ℕ) : xs.flatMap (fun l => [l]) = xs := by
  induction xs <;> simp_all

/-- Later operands are not overwritten by earlier iterations. -/
theorem pairwise_vec {β : Type} {xs : List ℕ} {bs : List β} {g : β → List ℕ} (hl : xs.length = bs.length)
    (hn : xs.Nodup)
    (hg : ∀ i j (hi : i < xs.length) (hj : j < bs.length), i < j → xs[i] ∉ g bs[j]) :
    (xs.zip bs).Pairwise fun y z => (∀ l ∈ [y.1], l ∉ [z.1]) ∧ (∀ l ∈ [y.1], l ∉ g z.2) := by
  rw [List.pairwise_iff_getElem]
  intro i j hi hj hij
  rw [List.length_zip] at hi hj
  simp only [List.getElem_zip, List.mem_singleton, forall_eq]
  refine ⟨fun e => ?_, hg i j (by omega) (by omega) hij⟩
  have := (List.Nodup.getElem_inj_iff hn).1 e
  omega

theorem notMem_of_sameOrApart {xs ys : List ℕ} (hn : xs.Nodup) (h : SameOrApart xs ys) {i j : ℕ}
    (hi : i < xs.length) (hj : j < ys.length) (hij : i < j) : xs[i] ≠ ys[j] := by
  rcases h with rfl | h
  · intro e
    have := (List.Nodup.getElem_inj_iff hn).1 e
    omega
  · intro e
    exact h _ (List.getElem_mem hi) (e ▸ List.getElem_mem hj)

theorem map_zip_val {h : Heap} {ms : List Modulus} {ys : List ℕ} :
    ((ms.zip ys).map fun b => (b.1, h.getD b.2 [])) = ms.zip (ys.map fun l => h.getD l []) := by
  rw [List.zip_map_right]; rfl

theorem map_zip_val2 {h : Heap} {ms : List Modulus} {ys zs : List ℕ} :
    ((ms.zip (ys.zip zs)).map fun b => (b.1, h.getD b.2.1 [], h.getD b.2.2 [])) =
      ms.zip ((ys.map fun l => h.getD l []).zip (zs.map fun l => h.getD l [])) := by
  rw [List.zip_map, List.zip_map_right]; rfl

theorem rns2_acts {f : MParams → ℕ → ℕ → Heap → Res Heap} {F : MParams → List ℕ → List ℕ → Poly.InPlace}
    (hf : ∀ p d a (h : Heap), d < h.length → a < h.length →
      f p d a h = onVec h d (vec (F p (h.getD d []) (h.getD a []))))
    {ms : List Modulus} {x y : RObj} {h : Heap} (hl : y.locs.length = x.locs.length)
    (hm : ms.length = x.locs.length) (hx : Stored h x.locs) (hy : ∀ l ∈ y.locs, l < h.length)
    (hxy : SameOrApart x.locs y.locs) :
    let r := eachLoc (fun d (b : Modulus × ℕ) => f b.1.p d b.2) x.locs (ms.zip y.locs) h
    let s := onCoeffs (x.val h) (each (fun v (b : Modulus × List ℕ) => vec (F b.1.p v b.2)) (x.val h).coeffs
      (ms.zip (y.val h).coeffs))
    x.val r.1 = s.1 ∧ r.2 = s.2 ∧ Frame h r.1 x.locs := by
  have hzl : x.locs.length = (ms.zip y.locs).length := by rw [List.length_zip]; omega
  have key := eachLoc_acts vecKind modVecKind (fun d (b : Modulus × ℕ) => f b.1.p d b.2)
    (fun v (b : Modulus × List ℕ) => vec (F b.1.p v b.2)) (x.locs.zip (ms.zip y.locs)) h.length
    (by
      rintro ⟨d, m, a⟩ hz h' hh'
      have h1 := List.of_mem_zip hz
      have h2 := List.of_mem_zip h1.2
      have hd : d < h'.length := by rw [hh']; exact hx.2 d h1.1
      refine acts_of_onVec hd ?_
      exact hf m.p d a h' hd (by rw [hh']; exact hy a h2.2))
    (pairwise_vec (g := fun b : Modulus × ℕ => [b.2]) hzl hx.1 (by
      intro i j hi hj hij
      simp only [List.getElem_zip, List.mem_singleton]
      exact notMem_of_sameOrApart hx.1 hxy hi (by rw [List.length_zip] at hj; omega) hij))
    h rfl
  rw [zip_fst hzl, zip_snd hzl] at key
  obtain ⟨k1, k2, k3⟩ := key
  have e1 : ∀ h' : Heap, ((x.locs.zip (ms.zip y.locs)).map fun z => vecKind.val h' z.1) = (x.val h').coeffs := by
    intro h'
    rw [show (fun z : ℕ × Modulus × ℕ => vecKind.val h' z.1) = (fun l => h'.getD l []) ∘ Prod.fst from rfl,
      ← List.map_map, zip_fst hzl]; rfl
  have e2 : ((x.locs.zip (ms.zip y.locs)).map fun z => modVecKind.val h z.2) = ms.zip (y.val h).coeffs := by
    rw [show (fun z : ℕ × Modulus × ℕ => modVecKind.val h z.2) = (fun b => (b.1, h.getD b.2 [])) ∘ Prod.snd from rfl,
      ← List.map_map, zip_snd hzl, map_zip_val]; rfl
  have e3 : ((x.locs.zip (ms.zip y.locs)).flatMap fun z => vecKind.locs z.1) = x.locs := by
    rw [flatMap_fst vecKind.locs, zip_fst hzl]; exact flatMap_single _
  rw [e1, e1, e2] at k1
  rw [e1, e2] at k2
  rw [e3] at k3
  refine ⟨?_, k2, k3⟩
  simp only [onCoeffs, ← k1]
  rfl

theorem rnsAdd_acts {ms : List Modulus} {x y : RObj} {h : Heap} (hx : Stored h x.locs)
    (hy : ∀ l ∈ y.locs, l < h.length) (hxy : SameOrApart x.locs y.locs) :
    Acts rKind rKind (rnsAdd ms) (addIn ms) h x y := by
  unfold Acts
  simp only [rKind, rnsAdd, addIn]
  have e1 : (x.val h).coeffs.length = x.locs.length := by simp [RObj.val]
  have e2 : (y.val h).coeffs.length = y.locs.length := by simp [RObj.val]
  simp only [e1, e2]
  split_ifs with h1 h2
  · exact ⟨rfl, rfl, Frame.refl _ _⟩
  · exact ⟨rfl, rfl, Frame.refl _ _⟩
  · exact rns2_acts (fun p d a h hd ha => batchAdd_eq p hd ha) (not_not.1 h1) (not_not.1 h2) hx hy hxy

theorem rnsSub_acts {ms : List Modulus} {x y : RObj} {h : Heap} (hx : Stored h x.locs)
    (hy : ∀ l ∈ y.locs, l < h.length) (hxy : SameOrApart x.locs y.locs) :
    Acts rKind rKind (rnsSub ms) (subIn ms) h x y := by
  unfold Acts
  simp only [rKind, rnsSub, subIn]
  have e1 : (x.val h).coeffs.length = x.locs.length := by simp [RObj.val]
  have e2 : (y.val h).coeffs.length = y.locs.length := by simp [RObj.val]
  simp only [e1, e2]
  split_ifs with h1 h2
  · exact ⟨rfl, rfl, Frame.refl _ _⟩
  · exact ⟨rfl, rfl, Frame.refl _ _⟩
  · exact rns2_acts (fun p d a h hd ha => batchSub_eq p hd ha) (not_not.1 h1) (not_not.1 h2) hx hy hxy

theorem rnsMul_acts {ms : List Modulus} {x y : RObj} {h : Heap} (hx : Stored h x.locs)
    (hy : ∀ l ∈ y.locs, l < h.length) (hxy : SameOrApart x.locs y.locs) :
    Acts rKind rKind (rnsMul ms) (mulIn ms) h x y := by
  unfold Acts
  simp only [rKind, rnsMul, mulIn]
  have e1 : (x.val h).coeffs.length = x.locs.length := by simp [RObj.val]
  have e2 : (y.val h).coeffs.length = y.locs.length := by simp [RObj.val]
  have e3 : (x.val h).ntt = x.ntt := rfl
  have e4 : (y.val h).ntt = y.ntt := rfl
  simp only [e1, e2, e3, e4]
  split_ifs with h1 h2 h3 h4
  · exact ⟨rfl, rfl, Frame.refl _ _⟩
  · exact ⟨rfl, rfl, Frame.refl _ _⟩
  · exact ⟨rfl, rfl, Frame.refl _ _⟩
  · exact ⟨rfl, rfl, Frame.refl _ _⟩
  · exact rns2_acts (fun p d a h hd ha => batchMul_eq p hd ha) (not_not.1 h1) (not_not.1 h2) hx hy hxy

/-- Two RNS polynomials as operands. -/
def rKind2 : Kind (RObj × RObj) (RPoly × RPoly) where
  locs := fun z => z.1.locs ++ z.2.locs
  val := fun h z => (z.1.val h, z.2.val h)
  ext := fun h h' z e => by
    exact Prod.ext (rKind.ext h h' z.1 fun l hl => e l (by simp only [List.mem_append]; exact Or.inl hl))
      (rKind.ext h h' z.2 fun l hl => e l (by simp only [List.mem_append]; exact Or.inr hl))

theorem rnsFused_acts {ms : List Modulus} {x a b : RObj} {h : Heap} (hx : Stored h x.locs)
    (ha : ∀ l ∈ a.locs, l < h.length) (hb : ∀ l ∈ b.locs, l < h.length)
    (hxa : SameOrApart x.locs a.locs) (hxb : SameOrApart x.locs b.locs) :
    Acts rKind rKind2 (fun u v => rnsFused ms u v.1 v.2) (fun u v => fusedMulAddIn ms u v.1 v.2) h x (a, b) := by
  unfold Acts
  simp only [rKind, rKind2, rnsFused, fusedMulAddIn]
  have e1 : (x.val h).coeffs.length = x.locs.length := by simp [RObj.val]
  have e2 : (a.val h).coeffs.length = a.locs.length := by simp [RObj.val]
  have e2' : (b.val h).coeffs.length = b.locs.length := by simp [RObj.val]
  have e3 : (x.val h).ntt = x.ntt := rfl
  have e4 : (a.val h).ntt = a.ntt := rfl
  have e5 : (b.val h).ntt = b.ntt := rfl
  simp only [e1, e2, e2', e3, e4, e5]
  split_ifs with h1 h2 h3 h4 h5 h6
  · exact ⟨rfl, rfl, Frame.refl _ _⟩
  · exact ⟨rfl, rfl, Frame.refl _ _⟩
  · exact ⟨rfl, rfl, Frame.refl _ _⟩
  · exact ⟨rfl, rfl, Frame.refl _ _⟩
  · exact ⟨rfl, rfl, Frame.refl _ _⟩
  · exact ⟨rfl, rfl, Frame.refl _ _⟩
  · have hzl : x.locs.length = (ms.zip (a.locs.zip b.locs)).length := by
      rw [List.length_zip, List.length_zip]; omega
    have key := eachLoc_acts vecKind modVec2Kind (fun d (k : Modulus × ℕ × ℕ) => batchFused k.1.p d k.2.1 k.2.2)
      (fun v (k : Modulus × List ℕ × List ℕ) => vec (Poly.fusedMulAddInPlace k.1.p v k.2.1 k.2.2))
      (x.locs.zip (ms.zip (a.locs.zip b.locs))) h.length
      (by
        rintro ⟨d, m, a', b'⟩ hz h' hh'
        have h1 := List.of_mem_zip hz
        have h2 := List.of_mem_zip h1.2
        have h3 := List.of_mem_zip h2.2
        have hd : d < h'.length := by rw [hh']; exact hx.2 d h1.1
        refine acts_of_onVec hd ?_
        exact batchFused_eq m.p hd (by rw [hh']; exact ha a' h3.1) (by rw [hh']; exact hb b' h3.2))
      (pairwise_vec (g := fun b : Modulus × ℕ × ℕ => [b.2.1, b.2.2]) hzl hx.1 (by
        intro i j hi hj hij
        rw [List.length_zip, List.length_zip] at hj
        simp only [List.getElem_zip, List.mem_cons, List.not_mem_nil, or_false]
        rintro (e | e)
        · exact notMem_of_sameOrApart hx.1 hxa hi (by omega) hij e
        · exact notMem_of_sameOrApart hx.1 hxb hi (by omega) hij e))
      h rfl
    rw [zip_fst hzl, zip_snd hzl] at key
    obtain ⟨k1, k2, k3⟩ := key
    have e1 : ∀ h' : Heap, ((x.locs.zip (ms.zip (a.locs.zip b.locs))).map fun z => vecKind.val h' z.1) =
        (x.val h').coeffs := by
      intro h'
      rw [show (fun z : ℕ × Modulus × ℕ × ℕ => vecKind.val h' z.1) = (fun l => h'.getD l []) ∘ Prod.fst from rfl,
        ← List.map_map, zip_fst hzl]; rfl
    have e2 : ((x.locs.zip (ms.zip (a.locs.zip b.locs))).map fun z => modVec2Kind.val h z.2) =
        ms.zip ((a.val h).coeffs.zip (b.val h).coeffs) := by
      rw [show (fun z : ℕ × Modulus × ℕ × ℕ => modVec2Kind.val h z.2) =
          (fun b => (b.1, h.getD b.2.1 [], h.getD b.2.2 [])) ∘ Prod.snd from rfl,
        ← List.map_map, zip_snd hzl, map_zip_val2]; rfl
    have e3 : ((x.locs.zip (ms.zip (a.locs.zip b.locs))).flatMap fun z => vecKind.locs z.1) = x.locs := by
      rw [flatMap_fst vecKind.locs, zip_fst hzl]; exact flatMap_single _
    rw [e1, e1, e2] at k1
    rw [e1, e2] at k2
    rw [e3] at k3
    refine ⟨?_, k2, k3⟩
    simp only [onCoeffs, ← k1]
    rfl

/-! ### Ciphertexts -/

theorem ct_pairs {x y : CObj} {h : Heap} (hx : Stored h x.locs) (hxy : CtSameOrApart x y)
    (hl : x.c.length = y.c.length) :
    ((x.c.zip y.c).Pairwise fun u v => (∀ l ∈ u.1.locs, l ∉ v.1.locs) ∧ (∀ l ∈ u.1.locs, l ∉ v.2.locs)) ∧
    ∀ z ∈ x.c.zip y.c, SameOrApart z.1.locs z.2.locs := by
  obtain ⟨n1, n2⟩ := List.nodup_flatMap.1 hx.1
  rw [List.pairwise_iff_getElem] at n2
  constructor
  · rw [List.pairwise_iff_getElem]
    intro i j hi hj hij
    rw [List.length_zip] at hi hj
    simp only [List.getElem_zip]
    have n3 := n2 i j (by omega) (by omega) hij
    refine ⟨fun l h1 h2 => n3 h1 h2, fun l h1 h2 => ?_⟩
    rcases hxy with e | e
    · apply n3 h1
      simpa only [e] using h2
    · exact e l (List.mem_flatMap.2 ⟨_, List.getElem_mem (by omega : i < x.c.length), h1⟩)
        (List.mem_flatMap.2 ⟨_, List.getElem_mem (by omega : j < y.c.length), h2⟩)
  · intro z hz
    obtain ⟨i, hi, rfl⟩ := List.getElem_of_mem hz
    rw [List.length_zip] at hi
    simp only [List.getElem_zip]
    rcases hxy with e | e
    · left; simp only [e]
    · right
      intro l h1 h2
      exact e l (List.mem_flatMap.2 ⟨_, List.getElem_mem (by omega : i < x.c.length), h1⟩)
        (List.mem_flatMap.2 ⟨_, List.getElem_mem (by omega : i < y.c.length), h2⟩)

theorem mem_locs {x : CObj} {a : RObj} (ha : a ∈ x.c) {l : ℕ} (hl : l ∈ a.locs) : l ∈ x.locs :=
  List.mem_flatMap.2 ⟨a, ha, hl⟩

theorem stored_component {x : CObj} {h : Heap} (hx : Stored h x.locs) {a : RObj} (ha : a ∈ x.c) :
    Stored h a.locs :=
  ⟨(List.nodup_flatMap.1 hx.1).1 a ha, fun l hl => hx.2 l (mem_locs ha hl)⟩

theorem ct2_acts {f : RObj → RObj → Heap → Res Heap} {F : RPoly → RPoly → Res RPoly} {x y : CObj} {h : Heap}
    (hf : ∀ (u v : RObj) (h' : Heap), h'.length = h.length → Stored h' u.locs → (∀ l ∈ v.locs, l < h'.length) →
      SameOrApart u.locs v.locs → Acts rKind rKind f F h' u v)
    (hl : x.c.length = y.c.length) (hx : Stored h x.locs) (hy : ∀ l ∈ y.locs, l < h.length)
    (hxy : CtSameOrApart x y) :
    let r := eachLoc f x.c y.c h
    let s := RCt.onComponents (x.val h) (each F (x.val h).c (y.val h).c)
    x.val r.1 = s.1 ∧ r.2 = s.2 ∧ Frame h r.1 x.locs := by
  obtain ⟨p1, p2⟩ := ct_pairs hx hxy hl
  have key := eachLoc_acts rKind rKind f F (x.c.zip y.c) h.length
    (by
      rintro ⟨u, v⟩ hz h' hh'
      have h1 := List.of_mem_zip hz
      have hu := stored_component hx h1.1
      exact hf u v h' hh' ⟨hu.1, fun l hl => by rw [hh']; exact hu.2 l hl⟩
        (fun l hl => by rw [hh']; exact hy l (mem_locs h1.2 hl)) (p2 _ hz))
    p1 h rfl
  rw [zip_fst hl, zip_snd hl] at key
  obtain ⟨k1, k2, k3⟩ := key
  have e1 : ∀ h' : Heap, ((x.c.zip y.c).map fun z => rKind.val h' z.1) = x.c.map (RObj.val h') := by
    intro h'
    rw [show (fun z : RObj × RObj => rKind.val h' z.1) = (RObj.val h') ∘ Prod.fst from rfl,
      ← List.map_map, zip_fst hl]
  have e2 : ((x.c.zip y.c).map fun z => rKind.val h z.2) = y.c.map (RObj.val h) := by
    rw [show (fun z : RObj × RObj => rKind.val h z.2) = (RObj.val h) ∘ Prod.snd from rfl,
      ← List.map_map, zip_snd hl]
  have e3 : ((x.c.zip y.c).flatMap fun z => rKind.locs z.1) = x.locs := by
    rw [flatMap_fst rKind.locs, zip_fst hl]; rfl
  rw [e1, e1, e2] at k1
  rw [e1, e2] at k2
  rw [e3] at k3
  refine ⟨?_, k2, k3⟩
  simp only [RCt.onComponents, CObj.val] at k1 ⊢
  rw [k1]

theorem check_val (x y : CObj) (h : Heap) : RCt.check (x.val h) (y.val h) = x.check y := by
  unfold RCt.check CObj.check CObj.val
  simp only [List.length_map]

theorem check_len {x y : CObj} {u : Unit} (h : x.check y = .ok u) : x.c.length = y.c.length := by
  unfold CObj.check at h
  split_ifs at h with h1
  exact not_not.1 h1

theorem ctAdd_acts {x y : CObj} {h : Heap} (hx : Stored h x.locs) (hy : ∀ l ∈ y.locs, l < h.length)
    (hxy : CtSameOrApart x y) :
    x.val (ctAdd x y h).1 = (RCt.addIn (x.val h) (y.val h)).1 ∧
    (ctAdd x y h).2 = (RCt.addIn (x.val h) (y.val h)).2 ∧ Frame h (ctAdd x y h).1 x.locs := by
  unfold ctAdd RCt.addIn
  rw [check_val]
  rcases e : x.check y with u | e' | u
  · exact ct2_acts (fun u v h' _ h1 h2 h3 => rnsAdd_acts h1 h2 h3) (check_len e) hx hy hxy
  · exact ⟨rfl, rfl, Frame.refl _ _⟩
  · exact ⟨rfl, rfl, Frame.refl _ _⟩

theorem ctSub_acts {x y : CObj} {h : Heap} (hx : Stored h x.locs) (hy : ∀ l ∈ y.locs, l < h.length)
    (hxy : CtSameOrApart x y) :
    x.val (ctSub x y h).1 = (RCt.subIn (x.val h) (y.val h)).1 ∧
    (ctSub x y h).2 = (RCt.subIn (x.val h) (y.val h)).2 ∧ Frame h (ctSub x y h).1 x.locs := by
  unfold ctSub RCt.subIn
  rw [check_val]
  rcases e : x.check y with u | e' | u
  · exact ct2_acts (fun u v h' _ h1 h2 h3 => rnsSub_acts h1 h2 h3) (check_len e) hx hy hxy
  · exact ⟨rfl, rfl, Frame.refl _ _⟩
  · exact ⟨rfl, rfl, Frame.refl _ _⟩

theorem eachLoc_map {α β γ : Type} (f : α → γ → Heap → Res Heap) (g : β → γ) (xs : List α) (bs : List β) (h : Heap) :
    eachLoc f xs (bs.map g) h = eachLoc (fun x b => f x (g b)) xs bs h := by
  induction xs generalizing bs h with
  | nil => cases bs <;> rfl
  | cons x xs ih =>
    cases bs with
    | nil => rfl
    | cons b bs =>
      simp only [List.map_cons, eachLoc]
      congr 1
      funext h'
      exact ih bs h'

theorem each_map {α β γ : Type} (f : α → γ → Res α) (g : β → γ) (xs : List α) (bs : List β) :
    each f xs (bs.map g) = each (fun x b => f x (g b)) xs bs := by
  induction xs generalizing bs with
  | nil => cases bs <;> rfl
  | cons x xs ih =>
    cases bs with
    | nil => rfl
    | cons b bs =>
      simp only [List.map_cons, each, ih bs]

theorem ctFused_acts {x y : CObj} {pt : RObj} {h : Heap} (hx : Stored h x.locs) (hy : ∀ l ∈ y.locs, l < h.length)
    (hpt : ∀ l ∈ pt.locs, l < h.length) (hxy : CtSameOrApart x y) (hxp : ∀ l ∈ x.locs, l ∉ pt.locs) :
    x.val (ctFused x y pt h).1 = (RCt.fusedAbsorbAddIn (x.val h) (y.val h) (pt.val h)).1 ∧
    (ctFused x y pt h).2 = (RCt.fusedAbsorbAddIn (x.val h) (y.val h) (pt.val h)).2 ∧
    Frame h (ctFused x y pt h).1 x.locs := by
  unfold ctFused RCt.fusedAbsorbAddIn
  rw [check_val]
  rcases e : x.check y with u | e' | u
  · have hl := check_len e
    obtain ⟨p1, p2⟩ := ct_pairs hx hxy hl
    have hl' : x.c.length = (y.c.map fun v => (v, pt)).length := by simpa using hl
    have hz : x.c.zip (y.c.map fun v => (v, pt)) = (x.c.zip y.c).map fun z => (z.1, z.2, pt) := by
      rw [List.zip_map_right]; rfl
    have key := eachLoc_acts rKind rKind2 (fun u v => rnsFused x.ms u v.1 v.2)
      (fun u v => fusedMulAddIn x.ms u v.1 v.2) (x.c.zip (y.c.map fun v => (v, pt))) h.length
      (by
        rw [hz]
        intro z hz' h' hh'
        obtain ⟨⟨u, v⟩, huv, rfl⟩ := List.mem_map.1 hz'
        have h1 := List.of_mem_zip huv
        have hu := stored_component hx h1.1
        exact rnsFused_acts ⟨hu.1, fun l hl => by rw [hh']; exact hu.2 l hl⟩
          (fun l hl => by rw [hh']; exact hy l (mem_locs h1.2 hl)) (fun l hl => by rw [hh']; exact hpt l hl)
          (p2 _ huv) (Or.inr fun l hl => hxp l (mem_locs h1.1 hl)))
      (by
        rw [hz, List.pairwise_map]
        refine p1.imp_of_mem ?_
        intro a b ha hb hab
        refine ⟨hab.1, fun l h1 h2 => ?_⟩
        rcases List.mem_append.1 h2 with h2 | h2
        · exact hab.2 l h1 h2
        · exact hxp l (mem_locs (List.of_mem_zip ha).1 h1) h2)
      h rfl
    rw [zip_fst hl', zip_snd hl', eachLoc_map] at key
    obtain ⟨k1, k2, k3⟩ := key
    have e1 : ∀ h' : Heap, ((x.c.zip (y.c.map fun v => (v, pt))).map fun z => rKind.val h' z.1) =
        x.c.map (RObj.val h') := by
      intro h'
      rw [show (fun z : RObj × RObj × RObj => rKind.val h' z.1) = (RObj.val h') ∘ Prod.fst from rfl,
        ← List.map_map, zip_fst hl']
    have e2 : ((x.c.zip (y.c.map fun v => (v, pt))).map fun z => rKind2.val h z.2) =
        (y.c.map (RObj.val h)).map fun v => (v, pt.val h) := by
      rw [show (fun z : RObj × RObj × RObj => rKind2.val h z.2) = (rKind2.val h) ∘ Prod.snd from rfl,
        ← List.map_map, zip_snd hl', List.map_map, List.map_map]; rfl
    have e3 : ((x.c.zip (y.c.map fun v => (v, pt))).flatMap fun z => rKind.locs z.1) = x.locs := by
      rw [flatMap_fst rKind.locs, zip_fst hl']; rfl
    rw [e1, e1, e2, each_map] at k1
    rw [e1, e2, each_map] at k2
    rw [e3] at k3
    refine ⟨?_, k2, k3⟩
    simp only [withTemp, RCt.onComponents, CObj.val] at k1 ⊢
    rw [k1]
  · exact ⟨rfl, rfl, Frame.refl _ _⟩
  · exact ⟨rfl, rfl, Frame.refl _ _⟩

/-! ### Symmetric ciphertexts -/

theorem forEachLoc_acts {f : ℕ → ℕ → Heap → Res Heap} {F : List ℕ → List ℕ → Res (List ℕ)}
    (hf : ∀ d a (h : Heap), d < h.length → a < h.length →
      f d a h = onVec h d (F (h.getD d []) (h.getD a [])))
    (cs ys : List ℕ) (h : Heap) (hn : cs.Nodup) (hc : ∀ l ∈ cs, l < h.length) (hy : ∀ l ∈ ys, l < h.length)
    (hij : ∀ (i j a b : ℕ), i < j → cs[i]? = some a → ys[j]? = some b → a ≠ b) :
    let r := forEachLoc f cs ys h
    let s := WordCt.forEach F (cs.map fun l => h.getD l []) (ys.map fun l => h.getD l [])
    (cs.map fun l => r.1.getD l []) = s.1 ∧ r.2 = s.2 ∧ Frame h r.1 cs := by
  induction ys generalizing cs h with
  | nil =>
    cases cs <;> exact ⟨rfl, rfl, Frame.refl _ _⟩
  | cons y ys ih =>
    cases cs with
    | nil => exact ⟨rfl, rfl, Frame.refl _ _⟩
    | cons c cs =>
      have hc0 : c < h.length := hc c (by simp)
      have e := hf c y h hc0 (hy y (by simp))
      have hncs : c ∉ cs := (List.nodup_cons.1 hn).1
      have hnys : c ∉ ys := by
        intro hm
        obtain ⟨j, hj, hj'⟩ := List.getElem_of_mem hm
        exact hij 0 (j + 1) c c (by omega) (by simp) (by simp [hj, hj']) rfl
      have a3 := onVec_frame h c (F (h.getD c []) (h.getD y []))
      have hv : ∀ ls : List ℕ, c ∉ ls → (ls.map fun l => (h.set c (F (h.getD c []) (h.getD y [])).1).getD l []) =
          ls.map fun l => h.getD l [] := by
        intro ls hls
        exact List.map_congr_left fun l hl => getD_set_ne (fun e => hls (by rw [e]; exact hl)) _
      simp only [List.map_cons, forEachLoc, WordCt.forEach, e, onVec, andThen]
      rcases e2 : (F (h.getD c []) (h.getD y [])).2 with u | e' | u
      · obtain ⟨b1, b2, b3⟩ := ih cs (h.set c (F (h.getD c []) (h.getD y [])).1) (List.nodup_cons.1 hn).2
          (fun l hl => by simpa using hc l (by simp [hl])) (fun l hl => by simpa using hy l (by simp [hl]))
          (fun i j a b h1 h2 h3 => hij (i + 1) (j + 1) a b (by omega) (by simpa using h2) (by simpa using h3))
        rw [hv cs hncs, hv ys hnys] at b1 b2
        refine ⟨?_, b2, ?_⟩
        · simp only
          rw [← b1]
          congr 1
          have := vecKind.frame b3 c (by simpa [vecKind] using hncs)
          simp only [vecKind] at this
          rw [this, getD_set_self hc0]
        · exact a3.trans b3 (by intro l hl; simp only [List.mem_cons, List.not_mem_nil, or_false] at hl ⊢; exact Or.inl hl)
            (by intro l hl; simp only [List.mem_cons]; exact Or.inr hl)
      · refine ⟨?_, rfl, a3.trans (Frame.refl _ []) (by
          intro l hl; simp only [List.mem_cons, List.not_mem_nil, or_false] at hl ⊢; exact Or.inl hl) (by simp)⟩
        simp only
        rw [hv cs hncs, getD_set_self hc0]
      · refine ⟨?_, rfl, a3.trans (Frame.refl _ []) (by
          intro l hl; simp only [List.mem_cons, List.not_mem_nil, or_false] at hl ⊢; exact Or.inl hl) (by simp)⟩
        simp only
        rw [hv cs hncs, getD_set_self hc0]

variable {E : Type} [Add E] [Mul E] [Div E] [NatCast E]

theorem getD_append_left' {h g : Heap} {l : ℕ} (hl : l < h.length) : (h ++ g).getD l [] = h.getD l [] := by
  simp [List.getD_eq_getElem?_getD, List.getElem?_append_left hl]

theorem symPad_spec {x y : SObj E} {h : Heap} (hx : Stored h x.c) (hy : ∀ l ∈ y.c, l < h.length)
    (hxy : SameOrApart x.c y.c) :
    let hp := symPad x y h
    (hp.2.map fun l => hp.1.getD l []) = WordCt.pad (x.val h).c (y.val h).c ∧
    (y.c.map fun l => hp.1.getD l []) = (y.val h).c ∧
    hp.2.Nodup ∧ (∀ l ∈ hp.2, l < hp.1.length) ∧ (∀ l ∈ y.c, l < hp.1.length) ∧
    (∀ (i j a b : ℕ), i < j → hp.2[i]? = some a → y.c[j]? = some b → a ≠ b) ∧
    (∀ l < h.length, hp.1[l]? = h[l]?) ∧ (∀ l < h.length, l ∉ x.c → l ∉ hp.2) := by
  have hsame : ∀ (i j a b : ℕ), i < j → x.c[i]? = some a → y.c[j]? = some b → a ≠ b := by
    intro i j a b hij h1 h2
    obtain ⟨i1, rfl⟩ := List.getElem?_eq_some_iff.1 h1
    obtain ⟨i2, rfl⟩ := List.getElem?_eq_some_iff.1 h2
    exact notMem_of_sameOrApart hx.1 hxy i1 i2 hij
  have e1 : (x.val h).c.length = x.c.length := by simp [SObj.val]
  have e2 : (y.val h).c.length = y.c.length := by simp [SObj.val]
  simp only [symPad, WordCt.pad, e1, e2]
  split_ifs with hlt
  · refine ⟨?_, ?_, ?_, ?_, ?_, ?_, ?_, ?_⟩
    · rw [List.map_append]
      congr 1
      · exact List.map_congr_left fun l hl => getD_append_left' (hx.2 l hl)
      · rw [List.map_map, List.eq_replicate_iff]
        refine ⟨by simp, ?_⟩
        intro b hb
        obtain ⟨i, hi, rfl⟩ := List.mem_map.1 hb
        rw [List.mem_range] at hi
        simp only [Function.comp]
        rw [List.getD_eq_getElem?_getD, List.getElem?_append_right (by omega),
          List.getElem?_replicate, if_pos (by omega)]
        rfl
    · exact List.map_congr_left fun l hl => getD_append_left' (hy l hl)
    · rw [List.nodup_append]
      refine ⟨hx.1, ?_, ?_⟩
      · exact List.Nodup.map (fun a b e => by simpa using e) List.nodup_range
      · intro a ha b hb e
        obtain ⟨i, hi, rfl⟩ := List.mem_map.1 hb
        have := hx.2 a ha
        omega
    · intro l hl
      rw [List.length_append, List.length_replicate]
      rcases List.mem_append.1 hl with h1 | h1
      · have := hx.2 l h1; omega
      · obtain ⟨i, hi, rfl⟩ := List.mem_map.1 h1
        rw [List.mem_range] at hi
        omega
    · intro l hl
      rw [List.length_append]
      have := hy l hl
      omega
    · intro i j a b hij h1 h2
      rcases Nat.lt_or_ge i x.c.length with h3 | h3
      · rw [List.getElem?_append_left h3] at h1
        exact hsame i j a b hij h1 h2
      · rw [List.getElem?_append_right h3] at h1
        obtain ⟨k, hk, rfl⟩ := List.mem_map.1 (List.mem_of_getElem? h1)
        have := hy b (List.mem_of_getElem? h2)
        omega
    · intro l hl
      exact List.getElem?_append_left hl
    · intro l hl hnl hm
      rcases List.mem_append.1 hm with h1 | h1
      · exact hnl h1
      · obtain ⟨i, hi, rfl⟩ := List.mem_map.1 h1
        omega
  · exact ⟨rfl, rfl, hx.1, hx.2, hy, hsame, fun _ _ => rfl, fun _ _ h => h⟩

theorem symOp_acts {f : ℕ → ℕ → Heap → Res Heap} {F : List ℕ → List ℕ → Poly.InPlace}
    (hf : ∀ d a (h : Heap), d < h.length → a < h.length →
      f d a h = onVec h d (vec (F (h.getD d []) (h.getD a []))))
    {x y : SObj E} {h : Heap} (hx : Stored h x.c) (hy : ∀ l ∈ y.c, l < h.length) (hxy : SameOrApart x.c y.c) :
    let r := symOp f x y h
    let s := if (x.val h).power ≠ (y.val h).power then reject (x.val h)
      else (WordCt.onC (x.val h) (WordCt.forEach (fun a b => vec (F a b)) (WordCt.pad (x.val h).c (y.val h).c)
        (y.val h).c)).andThen (WordCt.done ((x.val h).error + (y.val h).error))
    r.1.2.val r.1.1 = s.1 ∧ r.2 = s.2 ∧ ∀ l < h.length, l ∉ x.c → r.1.1[l]? = h[l]? := by
  obtain ⟨p1, p2, p3, p4, p5, p6, p7, p8⟩ := symPad_spec hx hy hxy
  have e1 : (x.val h).power = x.power := rfl
  have e2 : (y.val h).power = y.power := rfl
  simp only [symOp, e1, e2]
  split_ifs with hpw
  · exact ⟨rfl, rfl, fun _ _ _ => rfl⟩
  · obtain ⟨k1, k2, k3⟩ := forEachLoc_acts (F := fun a b => vec (F a b)) hf (symPad x y h).2 y.c (symPad x y h).1
      p3 p4 p5 p6
    rw [p1, p2] at k1 k2
    have hfr : ∀ l < h.length, l ∉ x.c → (forEachLoc f (symPad x y h).2 y.c (symPad x y h).1).1[l]? = h[l]? :=
      fun l hl hnl => (k3.2 l (p8 l hl hnl)).trans (p7 l hl)
    simp only [WordCt.onC, andThen, WordCt.done, ← k2]
    rcases e : (forEachLoc f (symPad x y h).2 y.c (symPad x y h).1).2 with u | e' | u
    · refine ⟨?_, rfl, hfr⟩
      simp only [SObj.val] at k1 ⊢
      rw [k1]
    · refine ⟨?_, rfl, hfr⟩
      simp only [SObj.val] at k1 ⊢
      rw [k1]
    · refine ⟨?_, rfl, hfr⟩
      simp only [SObj.val] at k1 ⊢
      rw [k1]

/-! ### `uint256` -/

theorem rd_set_self {α : Type} {h : List α} {d : ℕ} (hd : d < h.length) (v : α) : rd (h.set d v) d = .ok v :=
  rd_some (List.getElem?_set_self hd)

theorem rd_set_ne {α : Type} {h : List α} {d b : ℕ} (hb : d ≠ b) (v : α) : rd (h.set d v) b = rd h b := by
  unfold rd; rw [List.getElem?_set_ne hb]

theorem setHi_ok {h : Ints} {d : ℕ} {v : U256} (hv : h[d]? = some v) (x : ℕ) :
    setHi h d x = .ok (h.set d { v with hi := x }) := by
  unfold setHi
  rw [rd_some hv, Outcome.bind_ok, wr_lt (List.getElem?_eq_some_iff.1 hv).1]

theorem setLo_ok {h : Ints} {d : ℕ} {v : U256} (hv : h[d]? = some v) (x : ℕ) :
    setLo h d x = .ok (h.set d { v with lo := x }) := by
  unfold setLo
  rw [rd_some hv, Outcome.bind_ok, wr_lt (List.getElem?_eq_some_iff.1 hv).1]

theorem intAdd_eq {h : Ints} {d b : ℕ} {x y : U256} (hx : h[d]? = some x) (hy : h[b]? = some y) :
    intAdd d b h = .ok (h.set d (U256.add x y)) := by
  have hd := (List.getElem?_eq_some_iff.1 hx).1
  by_cases hb : d = b
  · subst hb
    obtain rfl : x = y := by rw [hx] at hy; exact Option.some.inj hy
    simp [intAdd, rd_some hx, setHi_ok hx, rd_set_self hd, setHi_ok (List.getElem?_set_self hd),
      setLo_ok (List.getElem?_set_self hd), hd, U256.add]
  · simp [intAdd, rd_some hx, rd_some hy, setHi_ok hx, rd_set_self hd, setHi_ok (List.getElem?_set_self hd),
      setLo_ok (List.getElem?_set_self hd), hd, rd_set_ne hb, U256.add]

theorem intSub_eq {h : Ints} {d b : ℕ} {x y : U256} (hx : h[d]? = some x) (hy : h[b]? = some y) :
    intSub d b h = .ok (h.set d (U256.sub x y)) := by
  have hd := (List.getElem?_eq_some_iff.1 hx).1
  by_cases hb : d = b
  · subst hb
    obtain rfl : x = y := by rw [hx] at hy; exact Option.some.inj hy
    simp [intSub, rd_some hx, setHi_ok hx, rd_set_self hd, setHi_ok (List.getElem?_set_self hd),
      setLo_ok (List.getElem?_set_self hd), hd, U256.sub]
  · simp [intSub, rd_some hx, rd_some hy, setHi_ok hx, rd_set_self hd, setHi_ok (List.getElem?_set_self hd),
      setLo_ok (List.getElem?_set_self hd), hd, rd_set_ne hb, U256.sub]

theorem intMul_eq {h : Ints} {d b : ℕ} {x y : U256} (hx : h[d]? = some x) (hy : h[b]? = some y) :
    intMul d b h = .ok (h.set d (U256.mul x y)) := by
  have hd := (List.getElem?_eq_some_iff.1 hx).1
  by_cases hb : d = b
  · subst hb
    obtain rfl : x = y := by rw [hx] at hy; exact Option.some.inj hy
    simp [intMul, rd_some hx, setHi_ok hx, rd_set_self hd, setLo_ok (List.getElem?_set_self hd), hd, U256.mul,
      wr_lt]
  · simp [intMul, rd_some hx, rd_some hy, setHi_ok hx, rd_set_self hd, setLo_ok (List.getElem?_set_self hd), hd,
      rd_set_ne hb, U256.mul, wr_lt]

end Shell.Alias
