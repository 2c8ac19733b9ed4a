import Verif.Lemmas.InPlaceClean
/-!
# Calls on a ciphertext object: errors are decided before anything is changed
-/

namespace Shell.Rns
open Res Spec

variable {w l : ℕ}

/-- What a successful call leaves: uniform components and no new moduli. -/
def Next (l : ℕ) (x y : RCt) : Prop := (∀ m ∈ y.ms, m ∈ x.ms) ∧ Uniform l y

/-- Some condition decides. -/
def Settled {α : Type} (x : α) (S : α → Prop) (r : Res α) : Prop := ∃ P, Decides P x S r

theorem Settled.reject {α : Type} {x : α} {S : α → Prop} (e : Status) : Settled x S (x, .err e) :=
  ⟨True, .rejects trivial e⟩

theorem Settled.done {α : Type} {x y : α} {S : α → Prop} (h : S y) : Settled x S (y, .ok ()) :=
  ⟨False, .done not_false h⟩

theorem Settled.undef {α : Type} {x y : α} {S : α → Prop} {u : UB} : Settled x S (y, .ub u) :=
  ⟨False, .undef not_false⟩

theorem Settled.ite {α : Type} {x : α} {S : α → Prop} {Q : Prop} [Decidable Q] {r r' : Res α} (h : Q → Settled x S r)
    (h' : ¬ Q → Settled x S r') : Settled x S (if Q then r else r') := by
  by_cases hQ : Q
  · rw [if_pos hQ]; exact h hQ
  · rw [if_neg hQ]; exact h' hQ

theorem Settled.withTemp {α β : Type} {x : α} {S : α → Prop} {o : Outcome β} {g : β → Res α}
    (h : ∀ b, o = .ok b → Settled x S (g b)) : Settled x S (withTemp x o g) := by
  cases o with
  | ok b => exact h b rfl
  | err e => exact .reject e
  | ub u => exact .undef

theorem Settled.map {α γ : Type} {x : α} {S : α → Prop} {r : Res α} (g : α → γ) {S' : γ → Prop} (h : Settled x S r)
    (hS : ∀ y, S y → S' (g y)) : Settled (g x) S' (g r.1, r.2) := by
  obtain ⟨P, h⟩ := h
  exact ⟨P, h.map g hS⟩

namespace RCt
variable {x y : RCt} {k : ℕ} {f : Bool}

theorem onComponents_settled {P : Prop} {r : Res (List RPoly)} {k' : ℕ} {f' : Bool}
    (h : Decides P x.c (fun ys => ys.length = x.c.length ∧ ∀ y ∈ ys, Shape l k' f' y) r) :
    Settled x (Next l x) (onComponents x r) :=
  ⟨P, h.map (fun c => { x with c }) fun _ hy => ⟨fun _ => id, k', f', hy.2⟩⟩

theorem onFirst_settled {P : Prop} {g : RPoly → Res RPoly} (hx : ∀ c ∈ x.c, Shape l k f c)
    (h : ∀ c, x.c.head? = some c → Decides P c (Shape l k f) (g c)) : Settled x (Next l x) (onFirst x g) := by
  obtain ⟨cs, ms, pw⟩ := x
  cases cs with
  | nil => exact .undef
  | cons c cs =>
    refine ⟨P, (h c rfl).map (fun c => ({ c := c :: cs, ms := ms, power := pw } : RCt)) fun y hy => ?_⟩
    refine ⟨fun _ => id, k, f, ?_⟩
    intro d hd
    simp only [List.mem_cons] at hd
    rcases hd with rfl | hd
    · exact hy
    · exact hx d (by simp [hd])

theorem negateIn_settled (hx : Uniform l x) : Settled x (Next l x) (negateIn x) := by
  obtain ⟨k, f, hx⟩ := hx
  exact onComponents_settled (all_decides _ _ fun c hc => Rns.negateIn_decides (hx c hc))

theorem addIn_settled {l' : ℕ} (hx : Uniform l x) (hy : Uniform l' y) : Settled x (Next l x) (addIn x y) := by
  obtain ⟨k, f, hx⟩ := hx
  obtain ⟨k', f', hy⟩ := hy
  exact .withTemp fun _ hc => onComponents_settled (each_decides _ _ _ (forall₂_of_mem (check_ok hc)
    fun c hc d hd => Rns.addIn_decides (hx c hc) (hy d hd)))

theorem subIn_settled {l' : ℕ} (hx : Uniform l x) (hy : Uniform l' y) : Settled x (Next l x) (subIn x y) := by
  obtain ⟨k, f, hx⟩ := hx
  obtain ⟨k', f', hy⟩ := hy
  exact .withTemp fun _ hc => onComponents_settled (each_decides _ _ _ (forall₂_of_mem (check_ok hc)
    fun c hc d hd => Rns.subIn_decides (hx c hc) (hy d hd)))

theorem addPlainIn_settled {pt : RPoly} (hx : Uniform l x) (hp : Rectangular pt) :
    Settled x (Next l x) (addPlainIn x pt) := by
  obtain ⟨k, f, hx⟩ := hx
  obtain ⟨l', k', f', hp⟩ := hp
  exact .ite (fun _ => .reject _) fun _ => onFirst_settled hx fun c hc =>
    Rns.addIn_decides (hx c (List.mem_of_mem_head? hc)) hp

theorem subPlainIn_settled {pt : RPoly} (hx : Uniform l x) (hp : Rectangular pt) :
    Settled x (Next l x) (subPlainIn x pt) := by
  obtain ⟨k, f, hx⟩ := hx
  obtain ⟨l', k', f', hp⟩ := hp
  exact .ite (fun _ => .reject _) fun _ => onFirst_settled hx fun c hc =>
    Rns.subIn_decides (hx c (List.mem_of_mem_head? hc)) hp

theorem absorbIn_settled {pt : RPoly} (hx : Uniform l x) (hp : Rectangular pt) :
    Settled x (Next l x) (absorbIn x pt) := by
  obtain ⟨k, f, hx⟩ := hx
  obtain ⟨l', k', f', hp⟩ := hp
  exact onComponents_settled (all_decides _ _ fun c hc => Rns.mulIn_decides (hx c hc) hp)

theorem absorbSimpleIn_settled {pt : RPoly} (hx : Uniform l x) (hp : Rectangular pt) :
    Settled x (Next l x) (absorbSimpleIn x pt) :=
  .ite (fun _ => .reject _) fun _ => .ite (fun _ => .reject _) fun _ => absorbIn_settled hx hp

theorem absorbRnsIn_settled (z : List ℕ) (hx : Uniform l x) : Settled x (Next l x) (absorbRnsIn x z) := by
  obtain ⟨k, f, hx⟩ := hx
  exact .ite (fun _ => .reject _) fun _ =>
    onComponents_settled (all_decides _ _ fun c hc => Rns.mulRnsIn_decides z (hx c hc))

theorem absorbIntIn_settled (z : ℕ) (hx : Uniform l x) : Settled x (Next l x) (absorbIntIn x z) := by
  obtain ⟨k, f, hx⟩ := hx
  exact onComponents_settled (all_decides _ _ fun c hc => Rns.mulIntIn_decides z (hx c hc))

theorem fusedAbsorbAddIn_settled {l' : ℕ} {pt : RPoly} (hx : Uniform l x) (hy : Uniform l' y) (hp : Rectangular pt) :
    Settled x (Next l x) (fusedAbsorbAddIn x y pt) := by
  obtain ⟨k, f, hx⟩ := hx
  obtain ⟨k', f', hy⟩ := hy
  obtain ⟨l'', k'', f'', hp⟩ := hp
  exact .withTemp fun _ hc => onComponents_settled (each_decides _ _ _ (forall₂_of_mem (check_ok hc)
    fun c hc d hd => Rns.fusedMulAddIn_decides (hx c hc) (hy d hd) hp))

theorem rd_mem {α : Type} {v : List α} {i : ℕ} {a : α} (h : rd v i = .ok a) : a ∈ v := by
  unfold rd at h
  split at h
  · next h' => cases h; exact List.mem_of_getElem? h'
  · cases h

theorem fusedAbsorbAddWithoutPadIn_settled {l' : ℕ} {pt : RPoly} (hx : Uniform l x) (hy : Uniform l' y)
    (hp : Rectangular pt) : Settled x (Next l x) (fusedAbsorbAddWithoutPadIn x y pt) := by
  obtain ⟨k, f, hx⟩ := hx
  obtain ⟨k', f', hy⟩ := hy
  obtain ⟨l'', k'', f'', hp⟩ := hp
  exact .ite (fun _ => .reject _) fun _ => .ite (fun _ => .reject _) fun _ => .ite (fun _ => .reject _) fun _ =>
    .withTemp fun v hv => onFirst_settled hx fun c hc => Rns.fusedMulAddIn_decides (hx c (List.mem_of_mem_head? hc)) (hy v (rd_mem hv)) hp

theorem setPadIn_settled {a : RPoly} (ha : Shape l k f a) (hx : ∀ c ∈ x.c, Shape l k f c) :
    Settled x (Next l x) (setPadIn x a) := by
  refine .ite (fun _ => .reject _) fun _ => .ite (fun _ => .withTemp fun c hc => .done ?_) fun _ => .done ?_
  · unfold wr at hc
    split at hc
    · cases hc
      refine ⟨fun _ => id, k, f, fun d hd => ?_⟩
      rcases List.mem_or_eq_of_mem_set hd with h | rfl
      · exact hx d h
      · exact ha
    · cases hc
  · refine ⟨fun _ => id, k, f, fun d hd => ?_⟩
    simp only [List.mem_append, List.mem_singleton] at hd
    rcases hd with h | rfl
    · exact hx d h
    · exact ha

theorem toNttIn_settled (hg : ∀ m ∈ x.ms, GoodModulus w l m) (hx : Uniform l x) :
    Settled x (Next l x) (toNttIn x) := by
  obtain ⟨k, f, hx⟩ := hx
  exact onComponents_settled (all_decides _ _ fun c hc => Rns.toNttIn_decides hg (hx c hc))

theorem toCoeffIn_settled (hg : ∀ m ∈ x.ms, GoodModulus w l m) (hx : Uniform l x) :
    Settled x (Next l x) (toCoeffIn x) := by
  obtain ⟨k, f, hx⟩ := hx
  exact onComponents_settled (all_decides _ _ fun c hc => Rns.toCoeffIn_decides hg (hx c hc))

theorem dropLast_settled {r : Res RCt} (h : Settled x (Next l x) r) :
    Settled x (Next l x) (r.andThen fun x => ({ x with ms := x.ms.dropLast }, .ok ())) := by
  obtain ⟨P, h⟩ := h
  by_cases hP : P
  · obtain ⟨e, he⟩ := h.1 hP
    rw [he]
    exact .reject e
  · rcases h.2 hP with ⟨y, hy, e⟩ | ⟨z, u, e⟩
    · rw [e]
      exact .done ⟨fun m hm => hy.1 m (List.mem_of_mem_dropLast hm), hy.2⟩
    · rw [e]
      exact .undef

theorem modReduceBgvIn_settled (t : ℕ) (qlInv : List ℕ) (hg : ∀ m ∈ x.ms, GoodModulus w l m) (hx : Uniform l x) :
    Settled x (Next l x) (modReduceBgvIn x t qlInv) := by
  obtain ⟨k, f, hx⟩ := hx
  exact .ite (fun _ => .reject _) fun _ => dropLast_settled (onComponents_settled
    (all_decides _ _ fun c hc => modReduceLsbIn_decides t qlInv hg (hx c hc)))

theorem modReduceBfvIn_settled (ctx : Ctx) (hg : ∀ m ∈ x.ms, GoodModulus w l m) (hx : Uniform l x) :
    Settled x (Next l x) (modReduceBfvIn ctx x) := by
  obtain ⟨k, f, hx⟩ := hx
  exact .ite (fun _ => .reject _) fun _ => .withTemp fun row _ => .ite (fun _ => .undef) fun _ =>
    dropLast_settled (onComponents_settled (all_decides _ _ fun c hc => modReduceMsbIn_decides _ hg (hx c hc)))

end RCt

/-! ### Lazy sums -/

theorem firstN_length {v u : List ℕ} {n : ℕ} (h : LRns.firstN v n = .ok u) : u.length = n := by
  unfold LRns.firstN at h
  split at h
  · cases h
  · cases h; simp; omega

theorem perModulus_mem {α β : Type} {g : Modulus → α → Outcome β} {S : β → Prop} (hg : ∀ m v r, g m v = .ok r → S r)
    {ms : List Modulus} {vs : List α} {rs : List β} (h : perModulus g ms vs = .ok rs) : ∀ r ∈ rs, S r := by
  induction vs generalizing ms rs with
  | nil => cases ms with
    | nil => cases h; simp
    | cons _ _ => cases h
  | cons v vs ih => cases ms with
    | nil => cases h
    | cons m ms =>
      rw [perModulus] at h
      obtain ⟨r, h1, h⟩ := Outcome.bind_eq_ok.1 h
      obtain ⟨rs, hrs, h⟩ := Outcome.bind_eq_ok.1 h
      cases h
      simpa [hg _ _ _ h1] using ih hrs

theorem products_length {n : ℕ} {m : Modulus} {ab : List ℕ × List ℕ} {r : List ℕ} (h : LRns.products n m ab = .ok r) :
    r.length = n := by
  unfold LRns.products at h
  obtain ⟨a, ha, h⟩ := Outcome.bind_eq_ok.1 h
  obtain ⟨b, hb, h⟩ := Outcome.bind_eq_ok.1 h
  cases h
  simp [firstN_length ha, firstN_length hb]

theorem addProducts_length {n : ℕ} {m : Modulus} {cab : List ℕ × List ℕ × List ℕ} {r : List ℕ}
    (h : LRns.addProducts n m cab = .ok r) : r.length = n := by
  unfold LRns.addProducts at h
  obtain ⟨c, hc, h⟩ := Outcome.bind_eq_ok.1 h
  obtain ⟨a, ha, h⟩ := Outcome.bind_eq_ok.1 h
  obtain ⟨b, hb, h⟩ := Outcome.bind_eq_ok.1 h
  cases h
  simp [firstN_length ha, firstN_length hb, firstN_length hc]

/-- The vectors of a lazy sum have `2^l` elements. -/
def LLen (l : ℕ) (z : LRns) : Prop := ∀ v ∈ z.coeffs, v.length = 2 ^ l

theorem create_len {ms : List Modulus} {a b : RPoly} {z : LRns} (ha : a.logN = l)
    (h : LRns.create w ms a b = .ok z) : LLen l z := by
  unfold LRns.create at h
  split at h
  · cases h
  split at h
  · cases h
  split at h
  · cases h
  obtain ⟨mx, _, h⟩ := Outcome.bind_eq_ok.1 h
  obtain ⟨cs, hcs, h⟩ := Outcome.bind_eq_ok.1 h
  cases h
  rw [ha] at hcs
  exact perModulus_mem (fun _ _ _ h => products_length h) hcs

theorem LRns.fusedMulAddIn_settled {ms : List Modulus} {z : LRns} {a b : RPoly} (hz : LLen l z) :
    Settled z (LLen l) (LRns.fusedMulAddIn w ms z a b) := by
  refine .ite (fun _ => .reject _) fun _ => .ite (fun _ => .reject _) fun _ => .withTemp fun c0 hc0 =>
    .ite (fun _ => .reject _) fun _ => ?_
  have h0 : c0.length = 2 ^ l := hz c0 (RCt.rd_mem hc0)
  have key : ∀ s : LRns, Settled z (LLen l) (Res.withTemp s
      (perModulus (LRns.addProducts c0.length) ms (s.coeffs.zip (a.coeffs.zip b.coeffs))) fun cs =>
      (({ s with coeffs := cs, level := (s.level + 1) % 2 ^ (2 * w) } : LRns), .ok ())) := by
    intro s
    have hf : Fine (fun _ => True)
        (perModulus (LRns.addProducts c0.length) ms (s.coeffs.zip (a.coeffs.zip b.coeffs))) := by
      have := Fine.perModulus (S := fun _ => True) (g := LRns.addProducts c0.length) (ms := ms)
        (xs := s.coeffs.zip (a.coeffs.zip b.coeffs)) ?_
      · rcases this with ⟨y, h, _⟩ | h
        · exact .inl ⟨y, h, trivial⟩
        · exact .inr h
      · intro m _ cab _
        unfold LRns.addProducts
        have ff : ∀ v : List ℕ, Fine (fun _ => True) (LRns.firstN v c0.length) := by
          intro v
          unfold LRns.firstN
          split
          · exact .inr ⟨_, rfl⟩
          · exact .ok trivial
        exact (ff _).bind fun c _ => (ff _).bind fun a _ => (ff _).bind fun b _ => .ok trivial
    rcases hf with ⟨cs, h, _⟩ | ⟨u, h⟩
    · rw [h]
      refine .done ?_
      have := perModulus_mem (S := fun r => r.length = c0.length) (fun _ _ _ h => addProducts_length h) h
      rw [h0] at this
      exact this
    · rw [h]
      exact .undef
  split
  · have hf : Fine (fun _ => True) (LRns.refresh ms z) := by
      unfold LRns.refresh
      refine (Fine.perModulus (S := fun _ => True) fun m _ v _ => .ok trivial).bind fun cs _ => .ok trivial
    rcases hf with ⟨s, h, _⟩ | ⟨u, h⟩
    · rw [h]
      exact key s
    · rw [h]
      exact .undef
  · exact key z

theorem log2_two_pow' (n : ℕ) : Nat.log2 (2 ^ n) = n := by simp

theorem export_shape {ms : List Modulus} {z : LRns} {e : RPoly} (hz : LLen l z) (h : z.exportPoly ms = .ok e) :
    Shape l z.coeffs.length true e := by
  unfold LRns.exportPoly at h
  split at h
  · cases h
  obtain ⟨v0, hv0, h⟩ := Outcome.bind_eq_ok.1 h
  obtain ⟨cs, hcs, h⟩ := Outcome.bind_eq_ok.1 h
  have hl := perModulus_length hcs
  have hlen : ∀ v ∈ cs, v.length = 2 ^ l := by
    have := Fine.perModulus (S := fun r : List ℕ => r.length = 2 ^ l)
      (g := fun m v => .ok (v.map fun c => m.p.exportInt (m.p.barrettReduceBigInt c))) (ms := ms) (xs := z.coeffs)
      fun m _ v hv => .ok (by simp [hz v hv])
    rcases this with ⟨y, hy, hy'⟩ | ⟨u, hu⟩
    · rw [hcs] at hy
      cases hy
      exact hy'.2
    · rw [hcs] at hu
      cases hu
  unfold Rns.create at h
  split at h
  · cases h
  split at h
  · cases h
  split at h
  · cases h
  cases h
  refine ⟨?_, hl, hlen, rfl⟩
  rw [hlen _ (by simp)]
  exact log2_two_pow' l

namespace LCt
variable {x : LCt}

theorem onCt_settled {r : Res RCt} (hu : Usable w l x) (h : Settled x.ct (Next l x.ct) r) :
    Settled x (Usable w l) (Call.onCt x r) :=
  h.map (fun c => (⟨c, x.lazy⟩ : LCt)) fun _ hy =>
    ⟨fun m hm => hu.moduli m (hy.1 m hm), hy.2, hu.lazyOne, hu.lazyLen⟩

theorem fusedAbsorbLazilyIn_settled {y : RCt} {pt : RPoly} (hu : Usable w l x) (hy : Uniform l y) :
    Settled x (Usable w l) (fusedAbsorbLazilyIn w x y pt) := by
  obtain ⟨k, f, hy⟩ := hy
  refine .ite (fun _ => .reject _) fun _ => .ite (fun _ => .reject _) fun _ => .ite (fun _ => .reject _) fun _ =>
    .withTemp fun v hv => ?_
  have hv := hy v (RCt.rd_mem hv)
  split
  · refine .withTemp fun z hz => .done ⟨hu.moduli, hu.uniform, by simp, ?_⟩
    intro z' hz'
    rw [List.mem_singleton.1 hz']
    exact create_len hv.logN hz
  · next z zs h =>
    have hz : LLen l z := hu.lazyLen z (by simp [h])
    have h1 := hu.lazyOne
    rw [h] at h1
    have : zs = [] := by simpa using h1
    subst this
    have key := (LRns.fusedMulAddIn_settled (w := w) (ms := x.ct.ms) (a := v) (b := pt) hz).map
      (fun z => ({ x with lazy := [z] } : LCt)) (S' := Usable w l)
      fun z hz => ⟨hu.moduli, hu.uniform, by simp, fun z' hz' => by rw [List.mem_singleton.1 hz']; exact hz⟩
    have hx : ({ x with lazy := [z] } : LCt) = x := by rw [← h]
    rw [hx] at key
    exact key

theorem mergeIn_settled (hu : Usable w l x) : Settled x (Usable w l) (mergeIn x) := by
  unfold mergeIn
  refine .ite (fun _ => .reject _) fun hne => ?_
  obtain ⟨⟨cs, ms, pw⟩, lz⟩ := x
  have h1 := hu.lazyOne
  obtain _ | ⟨z, zs⟩ := lz
  · simp at hne
  have : zs = [] := by simpa using h1
  subst this
  have hz : LLen l z := hu.lazyLen z (by simp)
  obtain ⟨k, f, hx⟩ := hu.uniform
  obtain _ | ⟨c, cs⟩ := cs
  · simp only [mergeLoopIn]
    cases he : z.exportPoly ms with
    | ok e =>
      exact .done ⟨hu.moduli, ⟨_, _, fun d hd => by
        rw [List.mem_singleton.1 hd]
        exact export_shape hz he⟩, by simp, by simp⟩
    | err e => exact .reject e
    | ub u => exact .undef
  · simp only [mergeLoopIn]
    cases he : z.exportPoly ms with
    | ok e =>
      have hd := Rns.addIn_decides (ms := ms) (hx c (by simp)) (export_shape hz he)
      simp only [Res.withTemp]
      by_cases hP : z.coeffs.length ≠ k ∨ ms.length ≠ k ∨ (l ≠ l ∧ k ≠ 0)
      · obtain ⟨s, hs⟩ := hd.1 hP
        rw [hs]
        exact .reject s
      · rcases hd.2 hP with ⟨y, hy, hs⟩ | ⟨y, u, hs⟩
        · rw [hs]
          refine .done ⟨hu.moduli, ⟨k, f, fun d hd => ?_⟩, by simp, by simp⟩
          simp only [List.mem_cons] at hd
          rcases hd with rfl | hd
          · exact hy
          · exact hx d (by simp [hd])
        · rw [hs]
          exact .undef
    | err e => exact .reject e
    | ub u => exact .undef

end LCt

theorem Call.run_settled {x : LCt} {op : Call} (hu : Usable w l x) (hf : Fits l x op) :
    Settled x (Usable w l) (op.run w x) := by
  cases op with
  | negate => exact LCt.onCt_settled hu (RCt.negateIn_settled hu.uniform)
  | add y => obtain ⟨l', hy⟩ := hf; exact LCt.onCt_settled hu (RCt.addIn_settled hu.uniform hy)
  | sub y => obtain ⟨l', hy⟩ := hf; exact LCt.onCt_settled hu (RCt.subIn_settled hu.uniform hy)
  | addPlain pt => exact LCt.onCt_settled hu (RCt.addPlainIn_settled hu.uniform hf)
  | subPlain pt => exact LCt.onCt_settled hu (RCt.subPlainIn_settled hu.uniform hf)
  | absorb pt => exact LCt.onCt_settled hu (RCt.absorbIn_settled hu.uniform hf)
  | absorbSimple pt => exact LCt.onCt_settled hu (RCt.absorbSimpleIn_settled hu.uniform hf)
  | absorbRns z => exact LCt.onCt_settled hu (RCt.absorbRnsIn_settled z hu.uniform)
  | absorbInt z => exact LCt.onCt_settled hu (RCt.absorbIntIn_settled z hu.uniform)
  | fusedAbsorbAdd y pt =>
    obtain ⟨⟨l', hy⟩, hp⟩ := hf
    exact LCt.onCt_settled hu (RCt.fusedAbsorbAddIn_settled hu.uniform hy hp)
  | fusedAbsorbAddWithoutPad y pt =>
    obtain ⟨⟨l', hy⟩, hp⟩ := hf
    exact LCt.onCt_settled hu (RCt.fusedAbsorbAddWithoutPadIn_settled hu.uniform hy hp)
  | fusedAbsorbLazily y pt => exact LCt.fusedAbsorbLazilyIn_settled hu hf.1
  | merge => exact LCt.mergeIn_settled hu
  | setPad a =>
    obtain ⟨k, f, ha, hx⟩ := hf
    exact LCt.onCt_settled hu (RCt.setPadIn_settled ha hx)
  | toNtt => exact LCt.onCt_settled hu (RCt.toNttIn_settled hu.moduli hu.uniform)
  | toCoeff => exact LCt.onCt_settled hu (RCt.toCoeffIn_settled hu.moduli hu.uniform)
  | modReduceBgv t q => exact LCt.onCt_settled hu (RCt.modReduceBgvIn_settled t q hu.moduli hu.uniform)
  | modReduceBfv ctx => exact LCt.onCt_settled hu (RCt.modReduceBfvIn_settled ctx hu.moduli hu.uniform)

/-! ### Approximate modulus reduction -/

variable {k : ℕ} {f : Bool} {ms auxMs : List Modulus} {x aux : RPoly}

theorem accumulate_length {conv : List ℕ → MParams → MParams → List ℕ} {pj : MParams} {c : ℕ → Outcome ℕ} :
    ∀ {i : ℕ} {ms : List Modulus} {vs : List (List ℕ)} {acc r : List ℕ},
      accumulate conv pj c i ms vs acc = .ok r → r.length = acc.length := by
  intro i ms vs
  induction vs generalizing i ms with
  | nil =>
    intro acc r h
    cases ms with
    | nil => cases h; rfl
    | cons _ _ => cases h
  | cons v vs ih =>
    intro acc r h
    cases ms with
    | nil => cases h
    | cons m ms =>
      rw [accumulate] at h
      obtain ⟨fac, _, h⟩ := Outcome.bind_eq_ok.1 h
      obtain ⟨s, _, h⟩ := Outcome.bind_eq_ok.1 h
      obtain ⟨acc', ha, h⟩ := Outcome.bind_eq_ok.1 h
      rw [ih h]
      unfold Poly.add Poly.copying Poly.addInPlace at ha
      split at ha
      · next h' =>
        split at h'
        · cases h'
        · next hl => cases ha; simp only [ne_eq, not_not] at hl; simp [hl]
      · cases ha

theorem of_ite_ok {α : Type} {c : Prop} [Decidable c] {a b : Outcome α} {r : α} (h : (if c then a else b) = .ok r) :
    c ∧ a = .ok r ∨ ¬ c ∧ b = .ok r := by
  by_cases hc : c
  · rw [if_pos hc] at h; exact .inl ⟨hc, h⟩
  · rw [if_neg hc] at h; exact .inr ⟨hc, h⟩

theorem approxSwitch_shape {b : Bool} {outs : List Modulus} {hatInv : List ℕ} {hatMod : List (List ℕ)} {d : RPoly}
    (h : approxSwitchBasis b ms outs hatInv hatMod aux = .ok d) : Shape aux.logN outs.length false d := by
  unfold approxSwitchBasis at h
  iterate 4 (rcases of_ite_ok h with ⟨_, h⟩ | ⟨_, h⟩ <;> [cases h; skip])
  obtain ⟨n, hn, h⟩ := Outcome.bind_eq_ok.1 h
  obtain ⟨scaled, _, h⟩ := Outcome.bind_eq_ok.1 h
  obtain ⟨cs, hcs, h⟩ := Outcome.bind_eq_ok.1 h
  cases h
  have hn' : n = 2 ^ aux.logN := by
    unfold shl1 at hn
    split at hn
    · cases hn; rfl
    · cases hn
  refine ⟨rfl, by rw [perModulus_length hcs]; simp, ?_, rfl⟩
  refine perModulus_mem (S := fun r => r.length = 2 ^ aux.logN) (fun _ _ _ h => ?_) hcs
  rw [accumulate_length h, List.length_replicate, hn']

theorem ensureNtt_fine (hg : ∀ m ∈ ms, GoodModulus w l m) (hx : Shape l k f x) (h : ms.length = k) :
    Fine (Shape l k true) (ensureNtt ms x) := by
  unfold ensureNtt
  rw [hx.form]
  cases f with
  | true => exact .ok hx
  | false => exact toNtt_fine hg hx h

theorem Settled.of_fine {α : Type} {x : α} {S : α → Prop} {r : Res α} (h : Fine S r.value) : Settled x S r :=
  ⟨False, .of_fine not_false h⟩

theorem approxModReduceLsbIn_settled (pInv hatInv : List ℕ) (hatMod : List (List ℕ)) (tInv : List ℕ) (pModT t : ℕ)
    (hg : ∀ m ∈ ms, GoodModulus w l m) (hx : Shape l k f x) (ha : aux.logN = l) :
    Settled x (Shape l k true) (approxModReduceLsbIn aux ms auxMs pInv hatInv hatMod tInv pModT t x) := by
  unfold approxModReduceLsbIn
  rw [hx.moduli]
  refine .ite (fun _ => .reject _) fun h1 => .ite (fun _ => .reject _) fun _ => .ite (fun _ => .reject _) fun h3 =>
    .ite (fun _ => .reject _) fun _ => .ite (fun _ => .reject _) fun _ => .ite (fun _ => .reject _) fun _ =>
    .withTemp fun acs _ => .withTemp fun delta hd => ?_
  have h1 := not_not.1 h1
  have hs := approxSwitch_shape hd
  simp only [ha] at hs
  refine .withTemp fun delta' hd' => ?_
  have hs' : Shape l ms.length true delta' := by
    rcases toNtt_fine hg hs rfl with ⟨y, e, hy⟩ | ⟨u, e⟩
    · rw [hd'] at e; cases e; exact hy
    · rw [hd'] at e; cases e
  refine .withTemp fun delta'' hd'' => ?_
  have hs'' : Shape l ms.length true delta'' := by
    rcases mulInt_fine t hs' rfl with ⟨y, e, hy⟩ | ⟨u, e⟩
    · rw [hd''] at e; cases e; exact hy
    · rw [hd''] at e; cases e
  rw [h1] at hs''
  apply Settled.of_fine
  simp only [value_andThen, value_mulIntIn, value_addIn, value_mulRnsIn, value_ensureNttIn]
  exact (ensureNtt_fine hg hx h1).bind fun y hy => (mulInt_fine _ hy h1).bind fun y hy =>
    (add_fine hy hs'' h1).bind fun y hy => mulRns_fine _ hy (not_not.1 h3) h1

theorem approxModReduceMsbIn_settled (pInv hatInv : List ℕ) (hatMod : List (List ℕ))
    (hg : ∀ m ∈ ms, GoodModulus w l m) (hx : Shape l k f x) (ha : aux.logN = l) :
    Settled x (Shape l k true) (approxModReduceMsbIn aux ms auxMs pInv hatInv hatMod x) := by
  unfold approxModReduceMsbIn
  rw [hx.moduli]
  refine .ite (fun _ => .reject _) fun h1 => .ite (fun _ => .reject _) fun _ => .ite (fun _ => .reject _) fun h3 =>
    .ite (fun _ => .reject _) fun _ => .ite (fun _ => .reject _) fun _ => .withTemp fun delta hd => ?_
  have h1 := not_not.1 h1
  have hs := approxSwitch_shape hd
  rw [ha] at hs
  refine .withTemp fun delta' hd' => ?_
  have hs' : Shape l ms.length true delta' := by
    rcases toNtt_fine hg hs rfl with ⟨y, e, hy⟩ | ⟨u, e⟩
    · rw [hd'] at e; cases e; exact hy
    · rw [hd'] at e; cases e
  rw [h1] at hs'
  apply Settled.of_fine
  simp only [value_andThen, value_subIn, value_mulRnsIn, value_ensureNttIn]
  exact (ensureNtt_fine hg hx h1).bind fun y hy => (sub_fine hy hs' h1).bind fun y hy =>
    mulRns_fine _ hy (not_not.1 h3) h1

end Shell.Rns
