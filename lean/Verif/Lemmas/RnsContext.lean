import Verif.Spec.RnsContext
import Verif.Lemmas.RnsBasis
/-! The constants of an `RnsContext`. -/

namespace Shell.Rns
open Spec Poly

variable {w l : ℕ}

theorem forall₂_mapIdx {α β : Type} {R : α → β → Prop} : ∀ (a : List α) (f : ℕ → α → β),
    (∀ i x, a[i]? = some x → R x (f i x)) → List.Forall₂ R a (a.mapIdx f) := by
  intro a
  induction a with
  | nil => intro f _; simp
  | cons x a ih =>
    intro f h
    rw [List.mapIdx_cons]
    exact .cons (h 0 x rfl) (ih _ fun i y hy => h (i + 1) y (by simpa using hy))

theorem take_mapIdx {α β : Type} (a : List α) (f : ℕ → α → β) (k : ℕ) :
    (a.mapIdx f).take k = (a.take k).mapIdx f := by
  induction a generalizing k f with
  | nil => simp
  | cons x a ih => cases k with
    | zero => simp
    | succ k => simp [List.mapIdx_cons, ih]

theorem forall₂_map {α β : Type} {R : α → β → Prop} (a : List α) (f : α → β)
    (h : ∀ x ∈ a, R x (f x)) : List.Forall₂ R a (a.map f) := by
  rw [List.forall₂_map_right_iff]
  exact List.forall₂_same.mpr h

theorem mapM_range {β : Type} {f : ℕ → Outcome β} {P : ℕ → β → Prop} (L : List ℕ)
    (h : ∀ i ∈ L, ∃ b, f i = .ok b ∧ P i b) : ∃ bs, L.mapM f = .ok bs ∧ List.Forall₂ P L bs := by
  induction L with
  | nil => exact ⟨[], rfl, .nil⟩
  | cons i L ih =>
    obtain ⟨b, b1, b2⟩ := h i List.mem_cons_self
    obtain ⟨bs, c1, c2⟩ := ih fun j hj => h j (List.mem_cons_of_mem _ hj)
    exact ⟨b :: bs, by rw [List.mapM_cons, b1, Outcome.bind_ok, c1]; rfl, .cons b2 c2⟩

theorem forall₂_comp {α β γ : Type} {P : α → β → Prop} {R : β → γ → Prop} :
    ∀ {a : List α} {b : List β} {c : List γ}, List.Forall₂ P a b → List.Forall₂ R b c →
      List.Forall₂ (fun x z => ∃ y, P x y ∧ R y z) a c := by
  intro a b c h
  induction h generalizing c with
  | nil => intro h'; cases h'; exact .nil
  | cons hp _ ih => intro h'; cases h' with | cons hr h' => exact .cons ⟨_, hp, hr⟩ (ih h')

theorem inverse_of_res {m : Modulus} (g : Good m.p w m.N) {a : ℕ} (ha : a ≤ m.N) {q : ℤ}
    (h : res m.p m.N a * (q : ZMod m.N) = 1) : (m.N : ℤ) ∣ Mont.exportInt m.p a * q - 1 := by
  rw [← ZMod.intCast_zmod_eq_zero_iff_dvd, Int.cast_sub, Int.cast_mul, Int.cast_natCast, Int.cast_one]
  have : ((Mont.exportInt m.p a : ℕ) : ZMod m.N) = res m.p m.N a := res_export g ha
  rw [this, h, sub_self]

theorem export_of_res {m : Modulus} (g : Good m.p w m.N) {a : ℕ} (ha : a ≤ m.N) {z : ℤ}
    (h : res m.p m.N a = (z : ZMod m.N)) : (Mont.exportInt m.p a : ℤ) = z % m.N := by
  haveI : NeZero m.N := ⟨by have := g.pos; omega⟩
  have e : Mont.exportInt m.p a = (res m.p m.N a).val := export_eq_val g ha
  rw [e, h, ZMod.val_intCast]

/-! ### Products -/

section
variable {p : MParams} {N : ℕ} (g : Good p w N) {f : Modulus → ℕ} {ψ : Modulus → ZMod N}
include g

theorem fold_all {s k : ℕ} (hk : k < s) {ms : List Modulus}
    (hf : ∀ m ∈ ms, f m ≤ N ∧ res p N (f m) = ψ m) {acc : ℕ} (ha : acc ≤ N) :
    let r := (ms.zipIdx s).foldl (fun acc mk => if mk.2 ≠ k then Mont.mul p acc (f mk.1) else acc) acc
    r ≤ N ∧ res p N r = res p N acc * (ms.map ψ).prod := by
  induction ms generalizing s acc with
  | nil => simp [ha]
  | cons m ms ih =>
    obtain ⟨h1, h2⟩ := hf m List.mem_cons_self
    have := ih (s := s + 1) (by omega) (fun m' hm' => hf m' (List.mem_cons_of_mem _ hm'))
      (acc := Mont.mul p acc (f m)) (mul_lt g ha h1).le
    simp only [List.zipIdx_cons, List.foldl_cons, List.map_cons, List.prod_cons]
    rw [if_pos (by omega)]
    refine ⟨this.1, ?_⟩
    rw [this.2, res_mul g ha h1, h2]; ring

theorem fold_others {ms : List Modulus} (hf : ∀ m ∈ ms, f m ≤ N ∧ res p N (f m) = ψ m) {s i acc : ℕ}
    (ha : acc ≤ N) :
    let r := (ms.zipIdx s).foldl
      (fun acc mk => if mk.2 ≠ s + i then Mont.mul p acc (f mk.1) else acc) acc
    r ≤ N ∧ res p N r = res p N acc * ((ms.eraseIdx i).map ψ).prod := by
  induction ms generalizing s i acc with
  | nil => simp [ha]
  | cons m ms ih =>
    obtain ⟨h1, h2⟩ := hf m List.mem_cons_self
    have hf' := fun m' hm' => hf m' (List.mem_cons_of_mem m hm')
    simp only [List.zipIdx_cons, List.foldl_cons]
    cases i with
    | zero =>
      rw [if_neg (by simp), Nat.add_zero, List.eraseIdx_cons_zero]
      exact fold_all g (by omega) hf' ha
    | succ i =>
      rw [if_pos (by omega), List.eraseIdx_cons_succ, List.map_cons, List.prod_cons]
      have := ih hf' (s := s + 1) (i := i) (acc := Mont.mul p acc (f m)) (mul_lt g ha h1).le
      rw [show s + 1 + i = s + (i + 1) by omega] at this
      refine ⟨this.1, ?_⟩
      rw [this.2, res_mul g ha h1, h2]; ring

theorem prodOthers_spec (h1 : 1 < N) {ms : List Modulus}
    (hf : ∀ m ∈ ms, f m ≤ N ∧ res p N (f m) = ψ m) (i : ℕ) :
    prodOthers p f i ms ≤ N ∧ res p N (prodOthers p f i ms) = ((ms.eraseIdx i).map ψ).prod := by
  have := fold_others g hf (s := 0) (i := i) (acc := Mont.importOne p) (importOne_lt g).le
  unfold prodOthers
  simp only [Nat.zero_add] at this
  refine ⟨this.1, ?_⟩
  rw [this.2, res_one g, one_mul]

theorem prodAll_spec (h1 : 1 < N) {ms : List Modulus}
    (hf : ∀ m ∈ ms, f m ≤ N ∧ res p N (f m) = ψ m) :
    prodAll p f ms ≤ N ∧ res p N (prodAll p f ms) = (ms.map ψ).prod := by
  have key : ∀ (ms : List Modulus), (∀ m ∈ ms, f m ≤ N ∧ res p N (f m) = ψ m) → ∀ acc ≤ N,
      ms.foldl (fun acc m => Mont.mul p acc (f m)) acc ≤ N ∧
        res p N (ms.foldl (fun acc m => Mont.mul p acc (f m)) acc) = res p N acc * (ms.map ψ).prod := by
    intro ms
    induction ms with
    | nil => intro _ acc ha; simp [ha]
    | cons m ms ih =>
      intro hf acc ha
      obtain ⟨e1, e2⟩ := hf m List.mem_cons_self
      have := ih (fun m' hm' => hf m' (List.mem_cons_of_mem _ hm')) (Mont.mul p acc (f m))
        (mul_lt g ha e1).le
      rw [List.foldl_cons, List.map_cons, List.prod_cons]
      refine ⟨this.1, ?_⟩
      rw [this.2, res_mul g ha e1, e2]; ring
  have := key ms hf (Mont.importOne p) (importOne_lt g).le
  refine ⟨this.1, ?_⟩
  unfold prodAll
  rw [this.2, res_one g, one_mul]

end

theorem prod_cast {N : ℕ} (ms : List Modulus) :
    (ms.map fun m => ((m.N : ℕ) : ZMod N)).prod = ((modulusProd ms : ℕ) : ZMod N) := by
  unfold modulusProd
  induction ms with
  | nil => simp
  | cons m ms ih => rw [List.map_cons, List.prod_cons, ih, List.map_cons, List.prod_cons, Nat.cast_mul]

theorem prod_inv {N : ℕ} (ms : List Modulus) (ψ : Modulus → ZMod N)
    (h : ∀ m ∈ ms, ψ m * ((m.N : ℕ) : ZMod N) = 1) :
    (ms.map ψ).prod * ((modulusProd ms : ℕ) : ZMod N) = 1 := by
  rw [← prod_cast]
  induction ms with
  | nil => simp
  | cons m ms ih =>
    rw [List.map_cons, List.prod_cons, List.map_cons, List.prod_cons]
    have e1 := h m List.mem_cons_self
    have e2 := ih fun m' hm' => h m' (List.mem_cons_of_mem _ hm')
    linear_combination (List.map ψ ms).prod *
      (List.map (fun m => ((m.N : ℕ) : ZMod N)) ms).prod * e1 + e2

theorem hat_eraseIdx {ms : List Modulus} {i : ℕ} {m : Modulus} (hi : ms[i]? = some m) (hN : 0 < m.N) :
    modulusProd (ms.eraseIdx i) = modulusProd ms / m.N := by
  obtain ⟨h, rfl⟩ := List.getElem?_eq_some_iff.mp hi
  have e : ms.map (·.N) = (ms.take i).map (·.N) ++ ms[i].N :: (ms.drop (i + 1)).map (·.N) := by
    conv_lhs => rw [← List.take_append_drop i ms, List.drop_eq_getElem_cons h]
    rw [List.map_append, List.map_cons]
  unfold modulusProd
  rw [e, hat_mul hN, List.eraseIdx_eq_take_drop_succ, List.map_append, List.prod_append]

/-! ### Inverses -/

theorem import_spec {m : Modulus} (g : Good m.p w m.N) {n : ℕ} (hn : n < 2 ^ w) :
    Mont.importInt m.p n ≤ m.N ∧ res m.p m.N (Mont.importInt m.p n) = ((n : ℕ) : ZMod m.N) :=
  ⟨(importInt_lt g n hn).le, res_import g hn⟩

theorem inv_spec {m : Modulus} (g : Good m.p w m.N) (hp : m.N.Prime) {n : ℕ} (hn : n < 2 ^ w)
    (hc : Nat.Coprime n m.N) :
    Mont.multiplicativeInverse m.p (Mont.importInt m.p n) ≤ m.N ∧
      res m.p m.N (Mont.multiplicativeInverse m.p (Mont.importInt m.p n)) * ((n : ℕ) : ZMod m.N) = 1 := by
  obtain ⟨h1, h2⟩ := import_spec g hn
  have hne : res m.p m.N (Mont.importInt m.p n) ≠ 0 := by
    rw [h2]
    haveI : Fact (1 < m.N) := ⟨hp.one_lt⟩
    exact ((ZMod.isUnit_iff_coprime n m.N).mpr hc).ne_zero
  obtain ⟨e1, e2⟩ := res_multiplicativeInverse g hp h1 hne
  refine ⟨e1.le, ?_⟩
  rw [← h2, mul_comm, e2]

theorem lt_word {m : Modulus} (g : Good m.p w m.N) : m.N < 2 ^ w := by have := g.lt; omega

/-! ### Construction -/

theorem makeModulus_ok {q : ℕ} {m : Modulus} (hq : q.Prime) (h : makeModulus w l q = .ok m) :
    GoodModulus w l m ∧ m.N = q := by
  unfold makeModulus at h
  obtain ⟨p, h1, h⟩ := Outcome.bind_eq_ok.mp h
  obtain ⟨n, h2, h⟩ := Outcome.bind_eq_ok.mp h
  have := Outcome.ok.inj h
  subst this
  have hN : p.modulus = q := (good_of_create h1).hN
  exact ⟨⟨by show p.modulus.Prime; rw [hN]; exact hq, by show MParams.create w p.modulus = _; rw [hN]; exact h1, h2⟩, hN⟩

theorem mapM_makeModulus {qs : List ℕ} {ms : List Modulus} (hq : ∀ q ∈ qs, q.Prime)
    (h : qs.mapM (makeModulus w l) = .ok ms) :
    (∀ m ∈ ms, GoodModulus w l m) ∧ ms.map (·.N) = qs := by
  induction qs generalizing ms with
  | nil => cases h; simp
  | cons q qs ih =>
    rw [List.mapM_cons] at h
    obtain ⟨m, h1, h⟩ := Outcome.bind_eq_ok.mp h
    obtain ⟨ms', h2, h⟩ := Outcome.bind_eq_ok.mp h
    have := Outcome.ok.inj h
    subst this
    obtain ⟨e1, e2⟩ := makeModulus_ok (hq q List.mem_cons_self) h1
    obtain ⟨e3, e4⟩ := ih (fun q' h' => hq q' (List.mem_cons_of_mem _ h')) h2
    refine ⟨fun m' hm' => ?_, by rw [List.map_cons, e2, e4]⟩
    rcases List.mem_cons.mp hm' with rfl | hm'
    · exact e1
    · exact e3 m' hm'

/-! ### Residues -/

section
variable {qs ps : List Modulus} (hq : ∀ m ∈ qs, GoodModulus w l m) (hp : ∀ m ∈ ps, GoodModulus w l m)

include hq in
theorem primeQs_ok : List.Forall₂ (fun m row => RnsIntIs qs row m.N) qs (primeQs qs) := by
  refine forall₂_mapIdx _ _ fun i mi hi => ?_
  refine forall₂_mapIdx _ _ fun j mj hj => ?_
  have hmj := hq mj (List.mem_of_getElem? hj)
  have hmi := hq mi (List.mem_of_getElem? hi)
  by_cases h : j = i
  · rw [if_pos h]
    subst h
    rw [hi] at hj
    cases hj
    refine ⟨by unfold Mont.importZero; omega, export_of_res hmj.good (by unfold Mont.importZero; omega) ?_⟩
    unfold Mont.importZero res
    simp
  · rw [if_neg h]
    obtain ⟨h1, h2⟩ := import_spec hmj.good (lt_word hmi.good)
    exact ⟨h1, export_of_res hmj.good h1 (by rw [h2, Int.cast_natCast])⟩

include hq hp in
theorem hatResidues_ok : HatResidues ps qs (primePHatModQs qs ps) := by
  refine forall₂_mapIdx _ _ fun j pj hj => ?_
  refine forall₂_map _ _ fun qi hqi => ?_
  have g := (hq qi hqi).good
  obtain ⟨h1, h2⟩ := prodOthers_spec g (hq qi hqi).prime.one_lt (ms := ps)
    (f := fun pk => Mont.importInt qi.p pk.N) (ψ := fun pk => ((pk.N : ℕ) : ZMod qi.N))
    (fun pk hpk => import_spec g (lt_word (hp pk hpk).good)) j
  refine ⟨h1, export_of_res g h1 ?_⟩
  rw [h2, prod_cast, hat_eraseIdx hj (hp pj (List.mem_of_getElem? hj)).prime.pos, Int.cast_natCast]

include hq hp in
theorem pModQs_ok : RnsIntIs qs (pModQs qs ps) (modulusProd ps) := by
  refine forall₂_map _ _ fun qi hqi => ?_
  have g := (hq qi hqi).good
  obtain ⟨h1, h2⟩ := prodAll_spec g (hq qi hqi).prime.one_lt (ms := ps)
    (f := fun pk => Mont.importInt qi.p pk.N) (ψ := fun pk => ((pk.N : ℕ) : ZMod qi.N))
    (fun pk hpk => import_spec g (lt_word (hp pk hpk).good))
  refine ⟨h1, export_of_res g h1 ?_⟩
  rw [h2, prod_cast, Int.cast_natCast]

include hp in
theorem leveledLoop_ok : ∀ (qs : List Modulus), (∀ m ∈ qs, GoodModulus w l m) → ∀ (acc : List ℕ) (z : ℤ),
    RnsIntIs ps acc z → ∀ level < qs.length, ∃ a, (leveledLoop ps acc qs)[level]? = some a ∧
      RnsIntIs ps a (z * modulusProd (qs.take (level + 1))) := by
  intro qs
  induction qs with
  | nil => intro _ acc z _ level h; simp at h
  | cons q qs ih =>
    intro hq acc z hz level hl
    have step : RnsIntIs ps (List.zipWith (fun (pj : Modulus) a =>
        Mont.mul pj.p a (Mont.importInt pj.p q.N)) ps acc) (z * q.N) := by
      have hqN := lt_word (hq q List.mem_cons_self).good
      clear ih hl
      unfold RnsIntIs at *
      induction hz with
      | nil => exact .nil
      | @cons m a ms as h hs ih' =>
        rw [List.zipWith_cons_cons]
        have gm := (hp m List.mem_cons_self)
        obtain ⟨i1, i2⟩ := import_spec gm.good hqN
        refine .cons ⟨(mul_lt gm.good h.1 i1).le, export_of_res gm.good (mul_lt gm.good h.1 i1).le ?_⟩
          (ih' fun m' hm' => hp m' (List.mem_cons_of_mem _ hm'))
        rw [res_mul gm.good h.1 i1, i2, res_of_export' gm.create h.1 h.2]
        push_cast; rfl
    cases level with
    | zero =>
      refine ⟨_, rfl, ?_⟩
      have : modulusProd ((q :: qs).take (0 + 1)) = q.N := by simp [modulusProd]
      rw [this]; exact step
    | succ level =>
      obtain ⟨a, a1, a2⟩ := ih (fun m hm => hq m (List.mem_cons_of_mem _ hm)) _ _ step level
        (by simpa using hl)
      refine ⟨a, by unfold leveledLoop; simpa using a1, ?_⟩
      have : (modulusProd ((q :: qs).take (level + 1 + 1)) : ℤ) = q.N * modulusProd (qs.take (level + 1)) := by
        simp [modulusProd]
      rw [this, ← mul_assoc]; exact a2

include hq hp in
theorem leveled_ok (level : ℕ) (hl : level < qs.length) : ∃ a, (leveledQModPs qs ps)[level]? = some a ∧
    RnsIntIs ps a (modulusProd (qs.take (level + 1))) := by
  obtain ⟨a, a1, a2⟩ := leveledLoop_ok hp qs hq (ps.map fun pj => Mont.importOne pj.p) 1
    (forall₂_map _ _ fun m hm => by
      have g := (hp m hm).good
      have h1 := importOne_lt g
      exact ⟨h1.le, export_of_res g h1.le (by rw [res_one g]; simp)⟩) level hl
  exact ⟨a, a1, by rw [one_mul] at a2; exact a2⟩

include hq in
theorem leveledProducts_ok {table : List (List ℕ)} {ψ : ∀ m : Modulus, Modulus → ZMod m.N} {level : ℕ}
    (hl : level < qs.length)
    (ht : ∀ i j mi mj, qs[i]? = some mi → qs[j]? = some mj → i ≠ j → ∃ a, entry table i j = .ok a ∧
      a ≤ mi.N ∧ res mi.p mi.N a = ψ mi mj) :
    ∃ r, leveledProducts qs table level = .ok r ∧ List.Forall₂ (fun m x => x ≤ m.N ∧
      ∃ i, (qs.take (level + 1))[i]? = some m ∧
      res m.p m.N x = (((qs.take (level + 1)).eraseIdx i).map (ψ m)).prod) (qs.take (level + 1)) r := by
  obtain ⟨bs, b1, b2⟩ := mapM_range (f := fun i => (do
      let m ← rd qs i
      loop (level + 1) (fun j acc =>
        if j ≠ i then do
          let c ← entry table i j
          return Mont.mul m.p acc c
        else .ok acc) (Mont.importOne m.p) : Outcome ℕ))
    (P := fun i x => ∀ m, (qs.take (level + 1))[i]? = some m → x ≤ m.N ∧
      res m.p m.N x = (((qs.take (level + 1)).eraseIdx i).map (ψ m)).prod)
    (List.range (level + 1)) (fun i hi => by
      have hi' := List.mem_range.mp hi
      have hiq : i < qs.length := by omega
      have hqi : qs[i]? = some qs[i] := List.getElem?_eq_getElem hiq
      generalize qs[i] = mi at hqi
      have hmi := hq mi (List.mem_of_getElem? hqi)
      have g := hmi.good
      have h1 := importOne_lt g
      obtain ⟨x, x1, x2, x3⟩ := loop_ok (f := fun j acc =>
        if j ≠ i then do
          let c ← entry table i j
          return Mont.mul mi.p acc c
        else .ok acc) (fun j acc => acc ≤ mi.N ∧
          res mi.p mi.N acc = (((qs.take j).eraseIdx i).map (ψ mi)).prod) (n := level + 1)
        (s := Mont.importOne mi.p) ⟨h1.le, by rw [res_one g]; simp⟩
        (fun j acc hj ⟨e1, e2⟩ => by
          have hjq : j < qs.length := by omega
          have htk : qs.take (j + 1) = qs.take j ++ [qs[j]] := by
            rw [List.take_add_one, List.getElem?_eq_getElem hjq]; rfl
          have hlen : (qs.take j).length = j := by rw [List.length_take]; omega
          by_cases hji : j = i
          · rw [if_neg (by simpa using hji)]
            refine ⟨acc, rfl, e1, ?_⟩
            rw [e2, htk, ← hji, List.eraseIdx_of_length_le (by omega),
              List.eraseIdx_append_of_length_le (by omega), hlen]
            simp
          · rw [if_pos hji]
            obtain ⟨a, a1, a2, a3⟩ := ht i j mi qs[j] hqi (List.getElem?_eq_getElem hjq) (Ne.symm hji)
            refine ⟨Mont.mul mi.p acc a, by rw [a1]; rfl, (mul_lt g e1 a2).le, ?_⟩
            rw [res_mul g e1 a2, e2, a3, htk]
            rcases Nat.lt_or_gt_of_ne hji with h | h
            · rw [List.eraseIdx_of_length_le (by omega), List.eraseIdx_of_length_le (by simp; omega),
                List.map_append, List.prod_append, List.map_singleton, List.prod_singleton]
            · rw [List.eraseIdx_append_of_lt_length (by omega),
                List.map_append, List.prod_append, List.map_singleton, List.prod_singleton])
      refine ⟨x, by rw [rd_some hqi, Outcome.bind_ok, x1], fun m hm => ?_⟩
      rw [List.getElem?_take_of_lt hi', hqi] at hm
      cases hm
      exact ⟨x2, x3⟩)
  refine ⟨bs, ?_, ?_⟩
  · unfold leveledProducts
    rw [if_neg (by omega), Int.toNat_natCast]
    exact b1
  · have hr := forall₂_range (qs.take (level + 1))
    rw [show (qs.take (level + 1)).length = level + 1 by rw [List.length_take]; omega] at hr
    refine (forall₂_comp hr b2).imp fun m x ⟨i, h1, h2⟩ => ?_
    exact ⟨(h2 m h1).1, i, h1, (h2 m h1).2⟩

include hq in
theorem complements_ok {level : ℕ} (hl : level < qs.length) :
    ∃ a, leveledProducts qs (primeQs qs) level = .ok a ∧
    List.Forall₂ (fun m x => x ≤ m.N ∧ (Mont.exportInt m.p x : ℤ) =
      ((modulusProd (qs.take (level + 1)) / m.N : ℕ) : ℤ) % m.N) (qs.take (level + 1)) a := by
  obtain ⟨a, a1, a2⟩ := leveledProducts_ok hq (table := primeQs qs)
    (ψ := fun m m' => ((m'.N : ℕ) : ZMod m.N)) hl (fun i j mi mj hi hj _ => by
      obtain ⟨a, a1, a2, a3⟩ := entry_ok (h := fun m => (m.N : ℤ)) (primeQs_ok hq)
        (fun m hm => (hq m hm).create) hi hj
      exact ⟨a, a1, a2, by rw [a3, Int.cast_natCast]⟩)
  refine ⟨a, a1, (forall₂_mem a2).imp fun m x ⟨hm, h1, i, h2, h3⟩ => ⟨h1, ?_⟩⟩
  have gm := hq m (List.mem_of_mem_take hm)
  refine export_of_res gm.good h1 ?_
  rw [h3, prod_cast, hat_eraseIdx h2 gm.prime.pos, Int.cast_natCast]

include hq hp in
theorem complementResidues_ok {level : ℕ} (hl : level < qs.length) :
    HatResidues (qs.take (level + 1)) ps ((List.range (level + 1)).map fun i => ps.map fun pj =>
      prodOthers pj.p (fun qk => Mont.importInt pj.p qk.N) i (qs.take (level + 1))) := by
  unfold HatResidues
  rw [List.forall₂_map_right_iff]
  have hr := forall₂_range (qs.take (level + 1))
  rw [show (qs.take (level + 1)).length = level + 1 by rw [List.length_take]; omega] at hr
  refine hr.imp fun m i hi => ?_
  refine forall₂_map _ _ fun pj hpj => ?_
  have g := (hp pj hpj).good
  obtain ⟨h1, h2⟩ := prodOthers_spec g (hp pj hpj).prime.one_lt (ms := qs.take (level + 1))
    (f := fun pk => Mont.importInt pj.p pk.N) (ψ := fun pk => ((pk.N : ℕ) : ZMod pj.N))
    (fun pk hpk => import_spec g (lt_word (hq pk (List.mem_of_mem_take hpk)).good)) i
  refine ⟨h1, export_of_res g h1 ?_⟩
  rw [h2, prod_cast, hat_eraseIdx hi
    (hq m (List.mem_of_mem_take (List.mem_of_getElem? hi))).prime.pos, Int.cast_natCast]

/-! ### Inverses -/

theorem coprime_of_nodup (hnd : (qs.map (·.N)).Nodup) (hq : ∀ m ∈ qs, GoodModulus w l m) {i j : ℕ}
    {mi mj : Modulus} (hi : qs[i]? = some mi) (hj : qs[j]? = some mj) (h : i ≠ j) :
    Nat.Coprime mi.N mj.N := by
  refine (Nat.coprime_primes (hq mi (List.mem_of_getElem? hi)).prime
    (hq mj (List.mem_of_getElem? hj)).prime).mpr fun e => h ?_
  obtain ⟨h1, e1⟩ := List.getElem?_eq_some_iff.mp hi
  obtain ⟨h2, e2⟩ := List.getElem?_eq_some_iff.mp hj
  refine (List.Nodup.getElem_inj_iff hnd (hi := by simpa using h1) (hj := by simpa using h2)).mp ?_
  rw [List.getElem_map, List.getElem_map, e1, e2, e]

theorem primeQInvs_entry (hnd : (qs.map (·.N)).Nodup) (hq : ∀ m ∈ qs, GoodModulus w l m) {i j : ℕ}
    {mi mj : Modulus} (hi : qs[i]? = some mi) (hj : qs[j]? = some mj) (h : i ≠ j) :
    ∃ a, entry (primeQInvs qs) i j = .ok a ∧ a ≤ mi.N ∧
      res mi.p mi.N a * ((mj.N : ℕ) : ZMod mi.N) = 1 := by
  have hmi := hq mi (List.mem_of_getElem? hi)
  have hmj := hq mj (List.mem_of_getElem? hj)
  refine ⟨Mont.multiplicativeInverse mi.p (Mont.importInt mi.p mj.N), ?_,
    inv_spec hmi.good hmi.prime (lt_word hmj.good) (coprime_of_nodup hnd hq hj hi h.symm)⟩
  unfold entry primeQInvs
  rw [rd_some (List.getElem?_mapIdx.trans (by rw [hj]; rfl)), Outcome.bind_ok,
    rd_some (List.getElem?_mapIdx.trans (by rw [hi]; rfl))]
  dsimp only
  rw [if_neg h]

theorem crtFactors_ok (hnd : (qs.map (·.N)).Nodup) (hq : ∀ m ∈ qs, GoodModulus w l m) {level : ℕ}
    (hl : level < qs.length) :
    ∃ a, leveledProducts qs (primeQInvs qs) level = .ok a ∧ HatInvs (qs.take (level + 1)) a := by
  obtain ⟨a, a1, a2⟩ := leveledProducts_ok hq (table := primeQInvs qs)
    (ψ := fun m m' => ((m'.N : ℕ) : ZMod m.N)⁻¹) hl (fun i j mi mj hi hj h => by
      obtain ⟨a, a1, a2, a3⟩ := primeQInvs_entry hnd hq hi hj h
      refine ⟨a, a1, a2, ?_⟩
      have := ZMod.mul_inv_of_unit _ (IsUnit.of_mul_eq_one_right _ a3)
      linear_combination (((mj.N : ℕ) : ZMod mi.N)⁻¹) * a3 - (res mi.p mi.N a) * this)
  refine ⟨a, a1, (forall₂_mem a2).imp fun m x ⟨hm, h1, i, h2, h3⟩ => ⟨h1, ?_⟩⟩
  have gm := hq m (List.mem_of_mem_take hm)
  refine inverse_of_res gm.good h1 ?_
  rw [h3, Int.cast_natCast, ← hat_eraseIdx h2 gm.prime.pos]
  refine prod_inv _ _ fun m' hm' => ?_
  obtain ⟨j, hj1, hj2⟩ := List.mem_eraseIdx_iff_getElem?.mp hm'
  have hi' : qs[i]? = some m := by
    have := (List.getElem?_eq_some_iff.mp h2).1
    rw [List.length_take] at this
    rwa [List.getElem?_take_of_lt (by omega)] at h2
  have hj' : qs[j]? = some m' := by
    have := (List.getElem?_eq_some_iff.mp hj2).1
    rw [List.length_take] at this
    rwa [List.getElem?_take_of_lt (by omega)] at hj2
  have hc := coprime_of_nodup hnd hq hj' hi' hj1
  rw [mul_comm]
  exact ZMod.coe_mul_inv_eq_one _ hc

theorem primeQInvs_ok (hnd : (qs.map (·.N)).Nodup) (hq : ∀ m ∈ qs, GoodModulus w l m) {level : ℕ}
    {m : Modulus} (hm : qs[level]? = some m) : ∃ row, (primeQInvs qs)[level]? = some row ∧
    InverseIs (qs.take level) (row.take level) m.N := by
  refine ⟨_, List.getElem?_mapIdx.trans (by rw [hm]; rfl), ?_⟩
  have hl := (List.getElem?_eq_some_iff.mp hm).1
  dsimp only
  rw [take_mapIdx]
  refine forall₂_mapIdx _ _ fun j mj hj => ?_
  have hj1 := (List.getElem?_eq_some_iff.mp hj).1
  rw [List.length_take] at hj1
  rw [List.getElem?_take_of_lt (by omega)] at hj
  rw [if_neg (by omega)]
  have gm := hq mj (List.mem_of_getElem? hj)
  obtain ⟨h1, h2⟩ := inv_spec gm.good gm.prime (lt_word (hq m (List.mem_of_getElem? hm)).good)
    (coprime_of_nodup hnd hq hm hj (by omega))
  exact ⟨h1, inverse_of_res gm.good h1 (by rw [Int.cast_natCast]; exact h2)⟩

theorem invRows_ok (hq : ∀ m ∈ qs, GoodModulus w l m) (hp : ∀ m ∈ ps, GoodModulus w l m)
    (hc : ∀ q ∈ qs, ∀ p ∈ ps, Nat.Coprime q.N p.N) : InvRows qs ps (primeQInvModPs qs ps) := by
  refine forall₂_map _ _ fun pi hpi => ?_
  rw [List.take_of_length_le (by simp)]
  refine forall₂_map _ _ fun qj hqj => ?_
  have gm := hp pi hpi
  obtain ⟨h1, h2⟩ := inv_spec gm.good gm.prime (lt_word (hq qj hqj).good) (hc qj hqj pi hpi)
  exact ⟨h1, inverse_of_res gm.good h1 (by rw [Int.cast_natCast]; exact h2)⟩

theorem primePHatInvs_ok (hnd : (ps.map (·.N)).Nodup) (hp : ∀ m ∈ ps, GoodModulus w l m) :
    HatInvs ps (primePHatInvs ps) := by
  refine forall₂_mapIdx _ _ fun j pj hj => ?_
  have gm := hp pj (List.mem_of_getElem? hj)
  -- the factors of the skipped index are irrelevant
  have key : prodOthers pj.p (fun pk => Mont.multiplicativeInverse pj.p (Mont.importInt pj.p pk.N)) j ps ≤
      pj.N ∧ res pj.p pj.N (prodOthers pj.p
        (fun pk => Mont.multiplicativeInverse pj.p (Mont.importInt pj.p pk.N)) j ps) =
      ((ps.eraseIdx j).map fun pk => res pj.p pj.N
        (Mont.multiplicativeInverse pj.p (Mont.importInt pj.p pk.N))).prod := by
    refine prodOthers_spec gm.good gm.prime.one_lt (fun pk hpk => ⟨?_, rfl⟩) j
    exact (modExp_lt gm.good _ (import_spec gm.good (lt_word (hp pk hpk).good)).1).le
  refine ⟨key.1, inverse_of_res gm.good key.1 ?_⟩
  rw [key.2, Int.cast_natCast, ← hat_eraseIdx hj gm.prime.pos]
  refine prod_inv _ _ fun pk hpk => ?_
  obtain ⟨k, hk1, hk2⟩ := List.mem_eraseIdx_iff_getElem?.mp hpk
  exact (inv_spec gm.good gm.prime (lt_word (hp pk (List.mem_of_getElem? hk2)).good)
    (coprime_of_nodup hnd hp hk2 hj hk1)).2

theorem pInvModQs_ok (hq : ∀ m ∈ qs, GoodModulus w l m) (hp : ∀ m ∈ ps, GoodModulus w l m)
    (hc : ∀ q ∈ qs, ∀ p ∈ ps, Nat.Coprime q.N p.N) :
    InverseIs qs (pInvModQs qs ps) (modulusProd ps) := by
  refine forall₂_map _ _ fun qi hqi => ?_
  have gm := hq qi hqi
  obtain ⟨h1, h2⟩ := prodAll_spec gm.good gm.prime.one_lt (ms := ps)
    (f := fun pk => Mont.multiplicativeInverse qi.p (Mont.importInt qi.p pk.N))
    (ψ := fun pk => res qi.p qi.N (Mont.multiplicativeInverse qi.p (Mont.importInt qi.p pk.N)))
    (fun pk hpk => ⟨(inv_spec gm.good gm.prime (lt_word (hp pk hpk).good)
      (hc qi hqi pk hpk).symm).1, rfl⟩)
  refine ⟨h1, inverse_of_res gm.good h1 ?_⟩
  rw [h2, Int.cast_natCast]
  exact prod_inv _ _ fun pk hpk => (inv_spec gm.good gm.prime (lt_word (hp pk hpk).good)
    (hc qi hqi pk hpk).symm).2

end

/-! ### Constants of the plaintext modulus -/

theorem prodModT_ok {ms : List Modulus} {t : ℕ} (ht : 1 < t) (htw : t < 2 ^ w)
    (hm : ∀ m ∈ ms, m.N < 2 ^ w) (hw : 1 < 2 ^ w) : prodModT w t ms = modulusProd ms % t := by
  have key : ∀ (ms : List Modulus), (∀ m ∈ ms, m.N < 2 ^ w) → ∀ acc < 2 ^ w,
      ms.foldl (fun acc m => (acc * m.N) % 2 ^ (2 * w) % t) acc % t = (acc * modulusProd ms) % t ∧
      (ms ≠ [] → ms.foldl (fun acc m => (acc * m.N) % 2 ^ (2 * w) % t) acc < t) := by
    intro ms
    induction ms with
    | nil => intro _ acc _; simp [modulusProd]
    | cons m ms ih =>
      intro hm acc ha
      have e : (acc * m.N) % 2 ^ (2 * w) = acc * m.N := Nat.mod_eq_of_lt (by
        rw [two_mul, pow_add]; exact Nat.mul_lt_mul'' ha (hm m List.mem_cons_self))
      have h1 : acc * m.N % t < t := Nat.mod_lt _ (by omega)
      obtain ⟨i1, i2⟩ := ih (fun m' h' => hm m' (List.mem_cons_of_mem _ h')) (acc * m.N % t)
        (h1.trans htw)
      rw [List.foldl_cons, e]
      refine ⟨?_, fun _ => ?_⟩
      · rw [i1]
        have : modulusProd (m :: ms) = m.N * modulusProd ms := by simp [modulusProd]
        rw [this, Nat.mod_mul_mod, mul_assoc]
      · by_cases hms : ms = []
        · subst hms; exact h1
        · exact i2 hms
  obtain ⟨h1, h2⟩ := key ms hm 1 hw
  unfold prodModT
  by_cases hms : ms = []
  · subst hms
    show 1 % 2 ^ w = 1 % t
    rw [Nat.mod_eq_of_lt hw, Nat.mod_eq_of_lt ht]
  · rw [Nat.mod_eq_of_lt ((h2 hms).trans htw), ← Nat.mod_eq_of_lt (h2 hms), h1, one_mul]

theorem bfvLoop_ok {mt : Modulus} (g : Good mt.p w mt.N) : ∀ (qs : List Modulus),
    ∀ (acc : ℕ) (z : ℕ) (r : List (ℕ × ℕ × ℕ)), acc ≤ mt.N →
    res mt.p mt.N acc * ((z : ℕ) : ZMod mt.N) = 1 → bfvLoop mt.p mt.N acc qs = .ok r →
    List.Forall₂ (fun m a => a ≤ mt.N ∧ res mt.p mt.N a = ((m.N : ℕ) : ZMod mt.N)) qs (r.map (·.1)) ∧
    List.Forall₂ (fun m a => a ≤ mt.N ∧ res mt.p mt.N a * ((m.N : ℕ) : ZMod mt.N) = 1) qs
      (r.map (·.2.1)) ∧
    ∀ level < qs.length, ∃ a, (r.map (·.2.2))[level]? = some a ∧ a ≤ mt.N ∧
      res mt.p mt.N a * ((z * modulusProd (qs.take (level + 1)) : ℕ) : ZMod mt.N) = 1 := by
  intro qs
  induction qs with
  | nil =>
    intro acc z r _ _ h
    cases h
    exact ⟨.nil, .nil, fun level hl => by simp at hl⟩
  | cons q qs ih =>
    intro acc z r ha hz h
    unfold bfvLoop at h
    obtain ⟨b, hb, h⟩ := Outcome.bind_eq_ok.mp h
    obtain ⟨r', hr, h⟩ := Outcome.bind_eq_ok.mp h
    have := Outcome.ok.inj h
    subst this
    have hlt : q.N % mt.N < 2 ^ w := (Nat.mod_lt _ g.pos).trans (lt_word g)
    obtain ⟨i1, i2⟩ := import_spec g hlt
    rw [ZMod.natCast_mod] at i2
    have hfast := inverseFast_spec g (Mont.importInt mt.p (q.N % mt.N)) i1
    have hco : Nat.Coprime (mt.p.exportInt (Mont.importInt mt.p (q.N % mt.N))) mt.N := by
      by_contra hn
      rw [hfast.2 hn] at hb
      exact absurd hb (by simp)
    obtain ⟨b', b1, b2, b3⟩ := hfast.1 hco
    rw [b1] at hb
    have hbb := Outcome.ok.inj hb
    subst hbb
    have hres : res mt.p mt.N b' * ((q.N : ℕ) : ZMod mt.N) = 1 := by
      rw [← i2, ← res_export g i1, ← res_export g b2.le, ← Nat.cast_mul, ← ZMod.natCast_mod, mul_comm]
      rw [b3, ZMod.natCast_mod, Nat.cast_one]
    have hmul := mul_lt g ha b2.le
    have hz' : res mt.p mt.N (Mont.mul mt.p acc b') * ((z * q.N : ℕ) : ZMod mt.N) = 1 := by
      rw [res_mul g ha b2.le, Nat.cast_mul]
      linear_combination hz * (res mt.p mt.N b' * ((q.N : ℕ) : ZMod mt.N)) + hres
    obtain ⟨j1, j2, j3⟩ := ih _ _ r' hmul.le hz' hr
    refine ⟨.cons ⟨i1, i2⟩ j1, .cons ⟨b2.le, hres⟩ j2, fun level hl => ?_⟩
    cases level with
    | zero =>
      refine ⟨_, rfl, hmul.le, ?_⟩
      simpa [modulusProd] using hz'
    | succ level =>
      obtain ⟨a, a1, a2, a3⟩ := j3 level (by simpa using hl)
      refine ⟨a, by simpa using a1, a2, ?_⟩
      have : z * modulusProd ((q :: qs).take (level + 1 + 1)) =
          z * q.N * modulusProd (qs.take (level + 1)) := by
        simp [modulusProd, mul_assoc]
      rw [this]; exact a3

theorem bfvLoop_total {mt : Modulus} (g : Good mt.p w mt.N) : ∀ (qs : List Modulus) (acc : ℕ),
    ((∀ m ∈ qs, Nat.Coprime m.N mt.N) → ∃ r, bfvLoop mt.p mt.N acc qs = .ok r) ∧
    ((∃ m ∈ qs, ¬ Nat.Coprime m.N mt.N) → bfvLoop mt.p mt.N acc qs = .err .invalidArgument) := by
  intro qs
  induction qs with
  | nil => intro acc; exact ⟨fun _ => ⟨[], rfl⟩, fun ⟨m, hm, _⟩ => by simp at hm⟩
  | cons q qs ih =>
    intro acc
    have hlt : q.N % mt.N < 2 ^ w := (Nat.mod_lt _ g.pos).trans (lt_word g)
    have hfast := inverseFast_spec g _ (import_spec g hlt).1
    have e : mt.p.exportInt (Mont.importInt mt.p (q.N % mt.N)) = q.N % mt.N := by
      rw [export_import g _ hlt, Nat.mod_mod]
    rw [e] at hfast
    have hco : Nat.Coprime (q.N % mt.N) mt.N ↔ Nat.Coprime q.N mt.N := by
      unfold Nat.Coprime
      rw [← Nat.gcd_rec, Nat.gcd_comm]
    rw [hco] at hfast
    unfold bfvLoop
    by_cases hq : Nat.Coprime q.N mt.N
    · obtain ⟨b, hb, _⟩ := hfast.1 hq
      simp only [hb, Outcome.bind_ok]
      refine ⟨fun h => ?_, fun ⟨m, hm, hn⟩ => ?_⟩
      · obtain ⟨r, hr⟩ := (ih (Mont.mul mt.p acc b)).1 fun m hm => h m (List.mem_cons_of_mem _ hm)
        exact ⟨_, by rw [hr]; rfl⟩
      · rcases List.mem_cons.mp hm with rfl | hm
        · exact absurd hq hn
        · rw [(ih (Mont.mul mt.p acc b)).2 ⟨m, hm, hn⟩]; rfl
    · simp only [hfast.2 hq]
      exact ⟨fun h => absurd (h q List.mem_cons_self) hq, fun _ => rfl⟩

end Shell.Rns
