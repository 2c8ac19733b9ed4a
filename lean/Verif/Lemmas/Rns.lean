import Verif.Spec.Rns
import Verif.Lemmas.Convert
import Verif.Props.Polynomial
/-! Lemmas about RNS polynomials. -/

namespace Shell.Rns
open Spec Poly NttRing Ntt MParams

/-! ### The loop over the moduli -/

theorem perModulus_ok {α β : Type} {f : Modulus → α → Outcome β} {P : Modulus → α → Prop}
    {R : Modulus → β → Prop} (hf : ∀ m v, P m v → ∃ r, f m v = .ok r ∧ R m r) :
    ∀ {ms : List Modulus} {vs : List α}, List.Forall₂ P ms vs →
      ∃ rs, perModulus f ms vs = .ok rs ∧ List.Forall₂ R ms rs := by
  intro ms vs h
  induction h with
  | nil => exact ⟨[], rfl, .nil⟩
  | cons hm _ ih =>
    obtain ⟨r, r1, r2⟩ := hf _ _ hm
    obtain ⟨rs, h1, h2⟩ := ih
    refine ⟨r :: rs, ?_, .cons r2 h2⟩
    rw [perModulus, r1, Outcome.bind_ok, h1]; rfl

theorem forall₂_zip {α β γ : Type} {P : α → β → Prop} {Q : α → γ → Prop} :
    ∀ {a : List α} {b : List β} {c : List γ}, List.Forall₂ P a b → List.Forall₂ Q a c →
      List.Forall₂ (fun x y => P x y.1 ∧ Q x y.2) a (b.zip c) := by
  intro a b c h
  induction h generalizing c with
  | nil => intro h'; cases h'; exact .nil
  | cons hp _ ih =>
    intro h'
    cases h' with
    | cons hq h2 => exact .cons ⟨hp, hq⟩ (ih h2)

theorem forall₂_and_left {α β : Type} {P : α → Prop} {Q : α → β → Prop} :
    ∀ {a : List α} {b : List β}, (∀ x ∈ a, P x) → List.Forall₂ Q a b →
      List.Forall₂ (fun x y => P x ∧ Q x y) a b := by
  intro a b h hq
  induction hq with
  | nil => exact .nil
  | cons hq _ ih =>
    exact .cons ⟨h _ List.mem_cons_self, hq⟩ (ih fun x hx => h x (List.mem_cons_of_mem _ hx))

/-! ### Representation modulo one prime -/

variable {w l : ℕ} {m : Modulus}

theorem _root_.Shell.Spec.GoodModulus.good (h : GoodModulus w l m) : Good m.p w m.N :=
  good_of_create h.create

theorem _root_.Shell.Spec.GoodModulus.tables (h : GoodModulus w l m) :
    ∃ psi, Tables m.p w m.N l psi m.q := by
  obtain ⟨l', hl', psi, t⟩ := tables_of_init h.create h.prime h.init
  have : l' = l := by omega
  subst this
  exact ⟨psi, t⟩

theorem _root_.Shell.Spec.GoodModulus.l15 (h : GoodModulus w l m) : 1 ≤ l ∧ l ≤ 15 := by
  obtain ⟨psi, t⟩ := h.tables
  exact ⟨t.l1, t.l15⟩

theorem coeffsAre_iff {n : ℕ} {v : List ℕ} {F : Fin n → ℤ} (g : Good m.p w m.N) :
    CoeffsAre m n v F ↔ Rep m.p m.N n v (modq m.N F) := by
  haveI : NeZero m.N := ⟨by have := g.pos; omega⟩
  constructor
  · rintro ⟨h1, h2, h3⟩
    have hr := (show ValidPoly m.N n v from ⟨h1, h2⟩).rep (p := m.p)
    refine ⟨h1, hr.le, fun i => ?_⟩
    rw [← res_export g (hr.le i i.2)]
    have := h3 i
    unfold Mont.exportInt at this
    have h4 : ((Mont.exportInt m.p (v.getD i 0) : ℤ) : ZMod m.N) = ((F i % m.N : ℤ) : ZMod m.N) := by
      rw [h3 i]
    rw [Int.cast_natCast] at h4
    unfold Mont.exportInt at h4
    rw [h4, ZMod.intCast_mod]; rfl
  · intro h
    refine ⟨h.len, h.valid.2, fun i => ?_⟩
    exact res_int_eq g (h.le i i.2) (h.val i)

/-- The residue vector stored for `F`. -/
noncomputable def enc (psi : ZMod m.N) (l : ℕ) (b : Bool) (F : Fin (2 ^ l) → ℤ) :
    Fin (2 ^ l) → ZMod m.N :=
  if b then ntt psi l (modq m.N F) else modq m.N F

theorem inverse_rep {psi : ZMod m.N} (h : GoodModulus w l m) (t : Tables m.p w m.N l psi m.q)
    {v : List ℕ} {X : Fin (2 ^ l) → ZMod m.N} (hv : Rep m.p m.N (2 ^ l) v X) :
    ∃ r, Ntt.inverse m.p m.q v = .ok r ∧ Rep m.p m.N (2 ^ l) r (intt psi l X) := by
  obtain ⟨r, r1, r2, -⟩ := hv.inverse h.good h.prime t
  obtain ⟨r', e1, -⟩ := inverse_ok h.good t v hv.len
    (fun i hi => hv.le i (by rw [← hv.len]; exact hi))
  unfold inverseNtt at r1
  rw [e1] at r1
  cases r1
  exact ⟨r, e1, r2⟩

theorem forward_rep {psi : ZMod m.N} (h : GoodModulus w l m) (t : Tables m.p w m.N l psi m.q)
    {v : List ℕ} {X : Fin (2 ^ l) → ZMod m.N} (hv : Rep m.p m.N (2 ^ l) v X) :
    ∃ r, Ntt.forward m.p m.q v = .ok r ∧ Rep m.p m.N (2 ^ l) r (ntt psi l X) := by
  obtain ⟨r, r1, r2, -⟩ := hv.forward h.good t
  obtain ⟨r', e1, -⟩ := forward_ok h.good t l le_rfl v hv.len
    (fun i hi => hv.le i (by rw [← hv.len]; exact hi))
  unfold convertToNtt at r1
  rw [e1] at r1
  cases r1
  exact ⟨r, e1, r2⟩

theorem holds_iff {psi : ZMod m.N} (h : GoodModulus w l m) (t : Tables m.p w m.N l psi m.q)
    (b : Bool) (v : List ℕ) (F : Fin (2 ^ l) → ℤ) :
    Holds l m b v F ↔ Rep m.p m.N (2 ^ l) v (enc psi l b F) := by
  have g := h.good
  have hl : l ≤ 32 := by have := t.l15; omega
  unfold Holds enc
  cases b with
  | false => simp only [Bool.false_eq_true, if_false]; exact coeffsAre_iff g
  | true =>
    simp only [if_true]
    constructor
    · rintro ⟨h1, h2, r, h3, h4⟩
      have hv := (show ValidPoly m.N (2 ^ l) v from ⟨h1, h2⟩).rep (p := m.p)
      obtain ⟨r', e1, e2⟩ := inverse_rep h t hv
      rw [h3] at e1
      cases e1
      have e3 := (coeffsAre_iff g).mp h4
      have e4 : modq m.N F = intt psi l (fun i => res m.p m.N (v.getD i 0)) := by
        funext i; rw [← e3.val i, ← e2.val i]
      rw [e4, ntt_intt h.prime g.odd t.root hl]
      exact hv
    · intro hv
      obtain ⟨r, e1, e2⟩ := inverse_rep h t hv
      rw [intt_ntt h.prime g.odd t.root hl] at e2
      exact ⟨hv.len, hv.valid.2, r, e1, (coeffsAre_iff g).mpr e2⟩

section
variable {psi : ZMod m.N} {b : Bool} {F G : Fin (2 ^ l) → ℤ}

theorem enc_add : enc psi l b (F + G) = enc psi l b F + enc psi l b G := by
  unfold enc; split <;> simp only [modq_add, ntt_add]
theorem enc_sub : enc psi l b (F - G) = enc psi l b F - enc psi l b G := by
  unfold enc; split <;> simp only [modq_sub, ntt_sub]
theorem enc_neg : enc psi l b (-F) = -enc psi l b F := by
  unfold enc; split <;> simp only [modq_neg, ntt_neg]
theorem enc_smul (c : ℤ) : enc psi l b (fun i => c * F i) = fun i => (c : ZMod m.N) * enc psi l b F i := by
  unfold enc
  split
  · rw [modq_smul]
    have := ntt_smul (psi := psi) (l := l) (c : ZMod m.N) (modq m.N F)
    exact this
  · funext i; simp [modq]
end

variable {b : Bool} {u v x : List ℕ} {F G H : Fin (2 ^ l) → ℤ}

theorem _root_.Shell.Spec.Holds.congr (h : Holds l m b v F) (e : modq m.N F = modq m.N G) (hm : GoodModulus w l m) :
    Holds l m b v G := by
  obtain ⟨psi, t⟩ := hm.tables
  rw [holds_iff hm t] at h ⊢
  unfold enc at h ⊢
  rwa [← e]

theorem copying_ok (r : List ℕ) : copying (r, none) = .ok r := rfl

theorem _root_.Shell.Spec.Holds.add (hm : GoodModulus w l m) (hu : Holds l m b u F) (hv : Holds l m b v G) :
    ∃ r, Poly.add m.p u v = .ok r ∧ Holds l m b r (F + G) := by
  obtain ⟨psi, t⟩ := hm.tables
  rw [holds_iff hm t] at hu hv
  obtain ⟨r, r1, r2⟩ := hu.add hm.good hv
  refine ⟨r, by unfold Poly.add; rw [r1]; rfl, (holds_iff hm t _ _ _).mpr ?_⟩
  rw [enc_add]; exact r2

theorem _root_.Shell.Spec.Holds.sub (hm : GoodModulus w l m) (hu : Holds l m b u F) (hv : Holds l m b v G) :
    ∃ r, Poly.sub m.p u v = .ok r ∧ Holds l m b r (F - G) := by
  obtain ⟨psi, t⟩ := hm.tables
  rw [holds_iff hm t] at hu hv
  obtain ⟨r, r1, r2⟩ := hu.sub hm.good hv
  refine ⟨r, by unfold Poly.sub; rw [r1]; rfl, (holds_iff hm t _ _ _).mpr ?_⟩
  rw [enc_sub]; exact r2

theorem _root_.Shell.Spec.Holds.neg (hm : GoodModulus w l m) (hu : Holds l m b u F) :
    Holds l m b (Poly.negate m.p u) (-F) := by
  obtain ⟨psi, t⟩ := hm.tables
  rw [holds_iff hm t] at hu ⊢
  rw [enc_neg]; exact hu.negate hm.good

theorem _root_.Shell.Spec.Holds.mulScalar (hm : GoodModulus w l m) (hu : Holds l m b u F) {c : ℕ} {z : ℤ}
    (hc : c ≤ m.N) (hz : res m.p m.N c = (z : ZMod m.N)) :
    ∃ r, Poly.mulScalar m.p u c = .ok r ∧ Holds l m b r (fun i => z * F i) := by
  obtain ⟨psi, t⟩ := hm.tables
  rw [holds_iff hm t] at hu
  obtain ⟨r, r1, r2⟩ := hu.mulScalar hm.good hc
  refine ⟨r, by unfold Poly.mulScalar; rw [r1]; rfl, (holds_iff hm t _ _ _).mpr ?_⟩
  rw [enc_smul, ← hz]; exact r2

theorem enc_negMul {psi : ZMod m.N} (t : Tables m.p w m.N l psi m.q) :
    enc psi l true (negMul F G) = enc psi l true F * enc psi l true G := by
  unfold enc
  simp only [if_true]
  rw [modq_negMul, ntt_negMul t.root]

theorem _root_.Shell.Spec.Holds.mul (hm : GoodModulus w l m) (hu : Holds l m true u F) (hv : Holds l m true v G) :
    ∃ r, Poly.mul m.p u v = .ok r ∧ Holds l m true r (negMul F G) := by
  obtain ⟨psi, t⟩ := hm.tables
  rw [holds_iff hm t] at hu hv
  obtain ⟨r, r1, r2⟩ := hu.mul hm.good hv
  refine ⟨r, by unfold Poly.mul; rw [r1]; rfl, (holds_iff hm t _ _ _).mpr ?_⟩
  rw [enc_negMul t]; exact r2

theorem _root_.Shell.Spec.Holds.fusedMulAdd (hm : GoodModulus w l m) (hx : Holds l m true x H)
    (hu : Holds l m true u F) (hv : Holds l m true v G) :
    ∃ r, Poly.fusedMulAddInPlace m.p x u v = (r, none) ∧ Holds l m true r (H + negMul F G) := by
  obtain ⟨psi, t⟩ := hm.tables
  rw [holds_iff hm t] at hu hv hx
  obtain ⟨r, r1, r2⟩ := hx.fusedMulAdd hm.good hu hv
  refine ⟨r, r1, (holds_iff hm t _ _ _).mpr ?_⟩
  rw [enc_add, enc_negMul t]; exact r2

theorem _root_.Shell.Spec.Holds.forward (hm : GoodModulus w l m) (hu : Holds l m false u F) :
    ∃ r, Ntt.forward m.p m.q u = .ok r ∧ Holds l m true r F := by
  obtain ⟨psi, t⟩ := hm.tables
  rw [holds_iff hm t] at hu
  obtain ⟨r, r1, r2⟩ := forward_rep hm t hu
  exact ⟨r, r1, (holds_iff hm t _ _ _).mpr r2⟩

theorem _root_.Shell.Spec.Holds.inverse (hm : GoodModulus w l m) (hu : Holds l m true u F) :
    ∃ r, Ntt.inverse m.p m.q u = .ok r ∧ Holds l m false r F := by
  obtain ⟨psi, t⟩ := hm.tables
  rw [holds_iff hm t] at hu
  obtain ⟨r, r1, r2⟩ := inverse_rep hm t hu
  refine ⟨r, r1, (holds_iff hm t _ _ _).mpr ?_⟩
  unfold enc at r2
  rw [if_pos rfl, intt_ntt hm.prime hm.good.odd t.root (by have := t.l15; omega)] at r2
  exact r2

theorem _root_.Shell.Spec.Holds.len (h : Holds l m b v F) : v.length = 2 ^ l := by
  unfold Holds at h
  cases b with
  | true => exact h.1
  | false => exact h.1

theorem _root_.Shell.Spec.Holds.le (h : Holds l m b v F) : ∀ a ∈ v, a ≤ m.N := by
  unfold Holds at h
  cases b with
  | true => exact h.2.1
  | false => exact h.2.1

/-! ### All moduli -/

variable {ms : List Modulus} {X Y Z : RPoly}

theorem _root_.Shell.Spec.Represents.len (h : Represents l ms X F) : ms.length = X.coeffs.length :=
  h.2.length_eq

theorem _root_.Shell.Spec.Represents.holds (h : Represents l ms X F)
    (hg : ∀ m ∈ ms, GoodModulus w l m) :
    List.Forall₂ (fun m v => GoodModulus w l m ∧ Holds l m X.ntt v F) ms X.coeffs :=
  forall₂_and_left hg h.2

theorem represents_iff : Represents l ms X F ↔
    X.logN = l ∧ List.Forall₂ (fun m v => Holds l m X.ntt v F) ms X.coeffs := Iff.rfl

/-- `F` may be replaced by anything congruent to it modulo each prime. -/
theorem _root_.Shell.Spec.Represents.congr (h : Represents l ms X F) (hg : ∀ m ∈ ms, GoodModulus w l m)
    (e : ∀ m ∈ ms, ∀ i, (m.N : ℤ) ∣ F i - G i) : Represents l ms X G := by
  refine ⟨h.1, ?_⟩
  have h2 := forall₂_and_left e (h.holds hg)
  refine h2.imp fun m v ⟨h3, h4, h5⟩ => h5.congr ?_ h4
  funext i
  exact (ZMod.intCast_eq_intCast_iff_dvd_sub _ _ _).mpr (by
    rw [← neg_sub]; exact (dvd_neg.mpr (h3 i)))

end Shell.Rns
