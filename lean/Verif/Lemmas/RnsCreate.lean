import Verif.Lemmas.RnsPoly
import Mathlib.Data.Nat.GCD.BigOperators
/-! Creating RNS polynomials; uniqueness. -/

namespace Shell.Rns
open Spec Poly NttRing Ntt MParams

variable {w l : ℕ} {ms : List Modulus} {X Y Z : RPoly} {F G H : Fin (2 ^ l) → ℤ}

/-- The constant polynomial `1`. -/
theorem ntt_one {N : ℕ} {psi : ZMod N} :
    ntt psi l (modq N fun i => if (i : ℕ) = 0 then 1 else 0) = fun _ => 1 := by
  funext i
  unfold ntt ev modq
  rw [Finset.sum_eq_single (⟨0, by positivity⟩ : Fin (2 ^ l))]
  · simp
  · intro b _ hb
    have : (b : ℕ) ≠ 0 := fun h => hb (Fin.ext h)
    simp [this]
  · simp

theorem replicate_rep {m : Modulus} {n c : ℕ} {z : ZMod m.N} (hc : c ≤ m.N) (hz : res m.p m.N c = z) :
    Rep m.p m.N n (List.replicate n c) (fun _ => z) := by
  have h1 : ∀ i < n, (List.replicate n c).getD i 0 = c := by
    intro i hi
    simp [List.getD_eq_getElem?_getD, hi]
  exact ⟨by simp, fun i hi => by rw [h1 i hi]; exact hc, fun i => by rw [h1 i i.2]; exact hz⟩

theorem repr_createZero (hg : ∀ m ∈ ms, GoodModulus w l m) (hne : ms ≠ []) (b : Bool) :
    ∃ r, createZero l ms b = .ok r ∧ r.ntt = b ∧ Represents l ms r 0 := by
  obtain ⟨m0, hm0⟩ := List.exists_mem_of_ne_nil ms hne
  have hl := (hg m0 hm0).l15
  unfold createZero createConst shl1
  rw [if_neg (by omega), if_neg (by simpa using hne), Int.toNat_natCast, if_pos (by omega),
    Outcome.bind_ok]
  refine ⟨_, rfl, rfl, rfl, ?_⟩
  simp only
  rw [List.forall₂_map_right_iff, List.forall₂_same]
  intro m hm
  obtain ⟨psi, t⟩ := (hg m hm).tables
  rw [holds_iff (hg m hm) t]
  have := replicate_rep (m := m) (n := 2 ^ l) (c := Mont.importZero m.p) (Nat.zero_le _)
    (res_zero (p := m.p) (N := m.N))
  convert this using 1
  funext i
  have h0 : modq m.N (0 : Fin (2 ^ l) → ℤ) = 0 := by funext i; simp [modq]
  unfold enc
  rw [h0]
  split
  · rw [ntt_zero]; rfl
  · rfl

theorem repr_createOne (hg : ∀ m ∈ ms, GoodModulus w l m) (hne : ms ≠ []) :
    ∃ r, createOne l ms = .ok r ∧ r.ntt = true ∧
      Represents l ms r (fun i => if (i : ℕ) = 0 then 1 else 0) := by
  obtain ⟨m0, hm0⟩ := List.exists_mem_of_ne_nil ms hne
  have hl := (hg m0 hm0).l15
  unfold createOne createConst shl1
  rw [if_neg (by omega), if_neg (by simpa using hne), Int.toNat_natCast, if_pos (by omega),
    Outcome.bind_ok]
  refine ⟨_, rfl, rfl, rfl, ?_⟩
  simp only
  rw [List.forall₂_map_right_iff, List.forall₂_same]
  intro m hm
  obtain ⟨psi, t⟩ := (hg m hm).tables
  rw [holds_iff (hg m hm) t]
  have := replicate_rep (m := m) (n := 2 ^ l) (c := Mont.importOne m.p)
    (importOne_lt (hg m hm).good).le (res_one (hg m hm).good)
  convert this using 1
  unfold enc
  rw [if_pos rfl, ntt_one]

/-! ### Uniqueness -/

theorem prod_dvd_of_coprime : ∀ {ns : List ℕ} {z : ℤ}, ns.Pairwise Nat.Coprime →
    (∀ n ∈ ns, (n : ℤ) ∣ z) → (ns.prod : ℤ) ∣ z := by
  intro ns
  induction ns with
  | nil => intro z _ _; simp
  | cons n ns ih =>
    intro z hp h
    rw [List.pairwise_cons] at hp
    rw [List.prod_cons, Nat.cast_mul]
    apply IsCoprime.mul_dvd
    · rw [Nat.isCoprime_iff_coprime]
      exact Nat.coprime_list_prod_right_iff.mpr hp.1
    · exact h n List.mem_cons_self
    · exact ih hp.2 fun m hm => h m (List.mem_cons_of_mem _ hm)

theorem _root_.Shell.Spec.Holds.unique {m : Modulus} {b : Bool} {v : List ℕ} (hm : GoodModulus w l m)
    (h1 : Holds l m b v F) (h2 : Holds l m b v G) (i : Fin (2 ^ l)) : (m.N : ℤ) ∣ F i - G i := by
  obtain ⟨psi, t⟩ := hm.tables
  rw [holds_iff hm t] at h1 h2
  have he : enc psi l b F = enc psi l b G := by
    funext i; rw [← h1.val i, ← h2.val i]
  have he' : modq m.N F = modq m.N G := by
    unfold enc at he
    split at he
    · exact ntt_injective hm.prime hm.good.odd t.root (by have := t.l15; omega) he
    · exact he
  have := congrFun he' i
  have h3 := (ZMod.intCast_eq_intCast_iff_dvd_sub _ _ _).mp this
  rw [← neg_sub]; exact dvd_neg.mpr h3

theorem forall₂_mem_left {α β : Type} {P : α → β → Prop} : ∀ {a : List α} {b : List β},
    List.Forall₂ P a b → ∀ x ∈ a, ∃ y ∈ b, P x y := by
  intro a b h
  induction h with
  | nil => simp
  | cons hp _ ih =>
    intro x hx
    rcases List.mem_cons.mp hx with rfl | hx
    · exact ⟨_, List.mem_cons_self, hp⟩
    · obtain ⟨y, hy, h⟩ := ih x hx
      exact ⟨y, List.mem_cons_of_mem _ hy, h⟩

theorem forall₂_and {α β : Type} {P Q : α → β → Prop} : ∀ {a : List α} {b : List β},
    List.Forall₂ P a b → List.Forall₂ Q a b → List.Forall₂ (fun x y => P x y ∧ Q x y) a b := by
  intro a b h
  induction h with
  | nil => intro _; exact .nil
  | cons hp _ ih =>
    intro h'
    cases h' with
    | cons hq h2 => exact .cons ⟨hp, hq⟩ (ih h2)

theorem repr_unique (hg : ∀ m ∈ ms, GoodModulus w l m)
    (hc : (ms.map (·.N)).Pairwise Nat.Coprime) (h1 : Represents l ms X F) (h2 : Represents l ms X G)
    (i : Fin (2 ^ l)) : (modulusProd ms : ℤ) ∣ F i - G i := by
  refine prod_dvd_of_coprime hc ?_
  intro n hn
  obtain ⟨m, hm, rfl⟩ := List.mem_map.mp hn
  obtain ⟨v, _, h3, h4⟩ := forall₂_mem_left (forall₂_and h1.2 h2.2) m hm
  exact Holds.unique (hg m hm) h3 h4 i

/-! ### Conversion from one modulus -/

theorem isNotPowerOfTwo_false (l : ℕ) : isNotPowerOfTwo (2 ^ l) = false := by
  unfold isNotPowerOfTwo
  have h : (2 ^ l &&& (2 ^ l - 1)) = 0 := by
    rw [Nat.and_two_pow_sub_one_eq_mod, Nat.mod_self]
  simp [h]

theorem convert_rep {p0 : MParams} {N0 : ℕ} {m : Modulus} (h0 : MParams.create w N0 = .ok p0)
    (hm : MParams.create w m.N = .ok m.p) {n : ℕ} {v : List ℕ} {X : Fin n → ZMod N0} (hv : Rep p0 N0 n v X) :
    Rep m.p m.N n (Convert.convertModulus v p0 m.p) (modq m.N fun i => ((X i).val : ℤ)) := by
  have g0 := good_of_create h0
  have h4 := g0.lt
  have gm := good_of_create hm
  unfold Convert.convertModulus
  have hval : ∀ i : Fin n, Mont.exportInt p0 (v.getD i 0) = (X i).val := fun i => by
    unfold Mont.exportInt
    rw [export_eq_val g0 (hv.le i i.2), hv.val]
  have hlt : ∀ i : Fin n, (X i).val < N0 := fun i => by
    haveI : NeZero N0 := ⟨by have := g0.pos; omega⟩
    exact ZMod.val_lt _
  by_cases e : N0 = m.N
  · rw [if_pos (by rw [g0.hN]; exact e)]
    have hp : p0 = m.p := by
      have := hm
      rw [← e, h0] at this
      exact Outcome.ok.inj this
    refine ⟨hv.len, fun i hi => by rw [← e]; exact hv.le i hi, fun i => ?_⟩
    rw [← res_export gm (by rw [← e]; exact hv.le i i.2), ← hp]
    have := hval i
    unfold Mont.exportInt at this
    rw [this]; simp [modq]
  · rw [if_neg (by rw [g0.hN]; exact e)]
    refine ⟨by simp [hv.len], fun i hi => ?_, fun i => ?_⟩
    · rw [getD_map' _ (by rw [hv.len]; exact hi), hval ⟨i, hi⟩]
      have := hlt ⟨i, hi⟩
      exact (importInt_lt gm _ (by omega)).le
    · rw [getD_map' _ (by rw [hv.len]; exact i.2), hval i]
      have := hlt i
      rw [res_import gm (by omega)]
      simp [modq]

theorem convertBalanced_rep {p0 : MParams} {N0 : ℕ} {m : Modulus} (h0 : MParams.create w N0 = .ok p0)
    (hm : MParams.create w m.N = .ok m.p) {n : ℕ} {v : List ℕ} {X : Fin n → ZMod N0} (hv : Rep p0 N0 n v X) :
    Rep m.p m.N n (Convert.convertModulusBalanced v p0 m.p)
      (modq m.N fun i => centered N0 (X i)) := by
  have g0 := good_of_create h0
  have gm := good_of_create hm
  obtain ⟨h1, h2⟩ := convertBalanced_spec g0 gm
    (fun e => by
      have := hm
      rw [← e, h0] at this
      exact Outcome.ok.inj this) v hv.valid.2
  refine ⟨by rw [h1, hv.len], fun i hi => (h2 i (by rw [hv.len]; exact hi)).1, fun i => ?_⟩
  rw [(h2 i (by rw [hv.len]; exact i.2)).2]
  unfold Mont.exportInt modq
  rw [export_eq_val g0 (hv.le i i.2), balanced_val, hv.val]

theorem repr_convertFrom {p0 : MParams} {N0 : ℕ} (h0 : MParams.create w N0 = .ok p0)
    (hg : ∀ m ∈ ms, GoodModulus w l m) (hne : ms ≠ []) {v : List ℕ} {X : Fin (2 ^ l) → ZMod N0}
    (hv : Rep p0 N0 (2 ^ l) v X) :
    ∃ r, convertFrom v p0 ms = .ok r ∧ r.ntt = true ∧ Represents l ms r (fun i => ((X i).val : ℤ)) := by
  obtain ⟨rs, r1, r2⟩ := perModulus_ok (f := fun m (_ : Unit) =>
      Ntt.forward m.p m.q (Convert.convertModulus v p0 m.p))
    (P := fun m _ => GoodModulus w l m)
    (R := fun m v => Holds l m true v (fun i => ((X i).val : ℤ)))
    (fun m _ hm => by
      have := convert_rep h0 hm.create hv
      rw [← coeffsAre_iff hm.good] at this
      exact Holds.forward hm (by unfold Holds; simpa using this))
    (ms := ms) (vs := ms.map fun _ => ())
    (by rw [List.forall₂_map_right_iff, List.forall₂_same]; exact hg)
  refine ⟨⟨Nat.log2 v.length, rs, true⟩, ?_, rfl, by simp [hv.len, Nat.log2_two_pow], r2⟩
  unfold convertFrom
  rw [if_neg (by rw [hv.len, isNotPowerOfTwo_false]; simp), if_neg (by simpa using hne), r1]
  rfl

theorem repr_convertBalancedFrom {p0 : MParams} {N0 : ℕ} (h0 : MParams.create w N0 = .ok p0)
    (hg : ∀ m ∈ ms, GoodModulus w l m) (hne : ms ≠ []) {v : List ℕ} {X : Fin (2 ^ l) → ZMod N0}
    (hv : Rep p0 N0 (2 ^ l) v X) :
    ∃ r, convertBalancedFrom v p0 ms = .ok r ∧ r.ntt = true ∧
      Represents l ms r (fun i => centered N0 (X i)) := by
  obtain ⟨rs, r1, r2⟩ := perModulus_ok (f := fun m (_ : Unit) =>
      Ntt.forward m.p m.q (Convert.convertModulusBalanced v p0 m.p))
    (P := fun m _ => GoodModulus w l m)
    (R := fun m v => Holds l m true v (fun i => centered N0 (X i)))
    (fun m _ hm => by
      have := convertBalanced_rep h0 hm.create hv
      rw [← coeffsAre_iff hm.good] at this
      exact Holds.forward hm (by unfold Holds; simpa using this))
    (ms := ms) (vs := ms.map fun _ => ())
    (by rw [List.forall₂_map_right_iff, List.forall₂_same]; exact hg)
  refine ⟨⟨Nat.log2 v.length, rs, true⟩, ?_, rfl, by simp [hv.len, Nat.log2_two_pow], r2⟩
  have h := isNotPowerOfTwo_false l
  unfold isNotPowerOfTwo at h
  unfold convertBalancedFrom
  rw [if_neg (by rw [hv.len]; simp at h; simp [h]), if_neg (by simpa using hne), r1]
  rfl

end Shell.Rns
