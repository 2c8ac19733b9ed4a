import Verif.Spec.RnsGadget
import Verif.Lemmas.RnsScheme
import Verif.Lemmas.RnsReduce
import Verif.Lemmas.RnsSample
import Verif.Lemmas.RnsEncoder
import Verif.Lemmas.RnsContext
import Verif.Lemmas.Gadget
import Verif.Props.Relin
/-! The RNS gadget. -/

namespace Shell.Rns
open Spec Poly
variable {w l : ℕ} {ms : List Modulus} {m : Modulus} {F : Fin (2 ^ l) → ℤ}

/-! ### Digits modulo one modulus -/

/-- Digit `j` of the residue of `F` modulo `m`. -/
def dig (m : Modulus) (b j : ℕ) (F : Fin (2 ^ l) → ℤ) : Fin (2 ^ l) → ℤ :=
  fun c => (Spec.digit b j (F c % m.N).toNat : ℕ)

theorem baseDecompose_holds (hm : GoodModulus w l m) {v : List ℕ} (hv : Holds l m false v F) {b : ℕ}
    (hb : b < w) (k : ℕ) :
    ∃ D, Gadget.baseDecompose m.p v b k = .ok D ∧
      List.Forall₂ (fun d j => Holds l m false d (dig m b j F)) D (List.range k) := by
  have g := hm.good
  obtain ⟨one, m1, m2, m3⟩ := mask_eq hb
  have h4 := g.lt
  have hc : CoeffsAre m (2 ^ l) v F := by unfold Holds at hv; simpa using hv
  refine ⟨(List.range k).map fun j => (v.map (Mont.exportInt m.p)).map fun x =>
      Mont.importInt m.p (Spec.digit b j x), ?_, ?_⟩
  · unfold Gadget.baseDecompose
    dsimp only
    rw [g.hw, m1, Outcome.bind_ok, m3, digitsLoop_spec g]
    rfl
  · rw [List.forall₂_map_left_iff, List.forall₂_same]
    intro j _
    have hpos : (0 : ℤ) < m.N := by exact_mod_cast g.pos
    have hlt : ∀ x ∈ v, Mont.exportInt m.p x < m.N := fun x hx =>
      exportInt_lt g x (by have := hc.2.1 x hx; omega) (Or.inr (hc.2.1 x hx))
    have hdig : ∀ x ∈ v, Spec.digit b j (Mont.exportInt m.p x) < m.N := fun x hx =>
      lt_of_le_of_lt (le_trans (Nat.mod_le _ _) (Nat.div_le_self _ _)) (hlt x hx)
    show Holds l m false _ _
    unfold Holds
    simp only [Bool.false_eq_true, if_false]
    refine ⟨by simp [hc.1], ?_, ?_⟩
    · intro a ha
      simp only [List.map_map, List.mem_map, Function.comp] at ha
      obtain ⟨x, hx, rfl⟩ := ha
      exact (importInt_lt g _ (by have := hdig x hx; omega)).le
    · intro i
      have hi : (i : ℕ) < v.length := by rw [hc.1]; exact i.2
      have hmem : v[(i : ℕ)] ∈ v := List.getElem_mem hi
      rw [List.getD_eq_getElem _ _ (by simpa using hi)]
      simp only [List.getElem_map]
      have hd := hdig _ hmem
      have e := export_import g _ (by omega : Spec.digit b j (Mont.exportInt m.p v[(i : ℕ)]) < 2 ^ w)
      rw [Nat.mod_eq_of_lt hd] at e
      unfold Mont.exportInt Mont.importInt at *
      rw [e]
      have h5 := hc.2.2 i
      rw [List.getD_eq_getElem _ _ hi] at h5
      unfold dig Mont.exportInt at *
      have h6 : (F i % m.N).toNat = MParams.exportInt m.p v[(i : ℕ)] := by rw [← h5]; simp
      rw [h6]
      rw [Int.emod_eq_of_lt (by positivity) (by exact_mod_cast hd)]

/-- The digits as `Decompose` returns them: balanced modulo `m`. -/
def digPoly (m : Modulus) (F : Fin (2 ^ l) → ℤ) (b j : ℕ) : Fin (2 ^ l) → ℤ :=
  fun c => centered m.N ((dig m b j F c : ℤ) : ZMod m.N)

theorem digPoly_bound (hm : GoodModulus w l m) (b j : ℕ) (c : Fin (2 ^ l)) :
    |digPoly m F b j c| < 2 ^ b := by
  haveI : NeZero m.N := ⟨by have := hm.good.pos; omega⟩
  have h1 : |dig m b j F c| ≤ 2 ^ b - 1 := by
    unfold dig
    have h2 := digit_lt b j (F c % m.N).toNat
    have h3 : ((Spec.digit b j (F c % m.N).toNat : ℕ) : ℤ) < ((2 ^ b : ℕ) : ℤ) := by exact_mod_cast h2
    push_cast at h3
    rw [abs_of_nonneg (by positivity)]
    omega
  have := centered_abs_le (N := m.N) _ _ h1
  unfold digPoly
  omega

theorem digPoly_sum (hm : GoodModulus w l m) {b k : ℕ} (hbk : m.N ≤ (2 ^ b) ^ k) (c : Fin (2 ^ l)) :
    (m.N : ℤ) ∣ (∑ j ∈ Finset.range k, (2 ^ b : ℤ) ^ j * digPoly m F b j c) - F c := by
  haveI : NeZero m.N := ⟨by have := hm.good.pos; omega⟩
  have hpos : (0 : ℤ) < m.N := by exact_mod_cast hm.good.pos
  rw [← ZMod.intCast_eq_intCast_iff_dvd_sub, eq_comm]
  push_cast
  have h1 : ∀ j, ((digPoly m F b j c : ℤ) : ZMod m.N) = ((Spec.digit b j (F c % m.N).toNat : ℕ) : ZMod m.N) := by
    intro j
    unfold digPoly
    rw [centered_cast]
    unfold dig
    simp
  simp only [h1]
  have h2 : (F c % m.N).toNat < (2 ^ b) ^ k := by
    have := Int.emod_lt_of_pos (F c) hpos
    omega
  have h3 := sum_digit_eq b k (F c % m.N).toNat h2
  have h4 := congrArg (fun x : ℕ => (x : ZMod m.N)) h3
  push_cast at h4
  calc _ = (((F c % m.N).toNat : ℕ) : ZMod m.N) := by
        rw [← h4]
        apply Finset.sum_congr rfl
        intro j _
        ring
    _ = (((F c % m.N : ℤ)) : ZMod m.N) := by
        have : ((F c % m.N).toNat : ℤ) = F c % m.N := Int.toNat_of_nonneg (Int.emod_nonneg _ (by omega))
        rw [← this]; simp
    _ = _ := by rw [ZMod.intCast_mod]

/-! ### One element replaced -/

theorem forall₂_map_set {α β : Type} {P : α → β → Prop} {f : α → β} {x : β} : ∀ {L : List α} {i : ℕ},
    (∀ j a, L[j]? = some a → j = i → P a x) → (∀ j a, L[j]? = some a → j ≠ i → P a (f a)) →
    List.Forall₂ P L ((L.map f).set i x) := by
  intro L
  induction L with
  | nil => intro i _ _; exact .nil
  | cons a L ih =>
    intro i h1 h2
    cases i with
    | zero =>
      refine .cons (h1 0 a rfl rfl) ?_
      rw [List.forall₂_map_right_iff, List.forall₂_same]
      intro b hb
      obtain ⟨j, hj⟩ := List.mem_iff_getElem?.mp hb
      exact h2 (j + 1) b (by simpa using hj) (by omega)
    | succ i =>
      exact .cons (h2 0 a rfl (by omega)) (ih
        (fun j b hb hj => h1 (j + 1) b (by simpa using hb) (by omega))
        (fun j b hb hj => h2 (j + 1) b (by simpa using hb) (by omega)))

theorem decomposeDigits_ok (hg : ∀ m ∈ ms, GoodModulus w l m) {i : ℕ} (hi : ms[i]? = some m)
    {D : List (List ℕ)} {Fs : List (Fin (2 ^ l) → ℤ)}
    (hD : List.Forall₂ (fun d E => Holds l m false d E) D Fs) :
    ∃ xs, decomposeDigits ms i m D = .ok xs ∧
      List.Forall₂ (fun x E => x.ntt = false ∧ Represents l ms x E) xs
        (Fs.map fun E c => centered m.N (E c : ZMod m.N)) := by
  have hm : GoodModulus w l m := hg m (List.mem_of_getElem? hi)
  haveI : NeZero m.N := ⟨by have := hm.good.pos; omega⟩
  induction hD with
  | nil => exact ⟨[], rfl, .nil⟩
  | @cons d E D Fs hd hD ih =>
    obtain ⟨xs, x1, x2⟩ := ih
    have hf : List.Forall₂ (fun m' v => Holds l m' false v fun c => centered m.N (E c : ZMod m.N)) ms
        ((ms.map fun mk => Convert.convertModulusBalanced d m.p mk.p).set i d) := by
      refine forall₂_map_set (fun j a ha hj => ?_) fun j a ha _ => ?_
      · subst hj
        rw [hi] at ha
        cases ha
        refine holds_congr hd fun c => ?_
        rw [← ZMod.intCast_eq_intCast_iff_dvd_sub, centered_cast]
      · exact Spec.Holds.balancedTo hm (hg a (List.mem_of_getElem? ha)) hd
    have hc : create ((ms.map fun mk => Convert.convertModulusBalanced d m.p mk.p).set i d) false =
        .ok ⟨l, (ms.map fun mk => Convert.convertModulusBalanced d m.p mk.p).set i d, false⟩ := by
      refine create_ok' ?_ fun v hv => ?_
      · intro h
        have := hf.length_eq
        rw [h] at this
        have h2 := List.getElem?_eq_some_iff.mp hi
        obtain ⟨h3, _⟩ := h2
        simp at this
        rw [this] at h3
        simp at h3
      · obtain ⟨j, hj⟩ := List.mem_iff_getElem?.mp hv
        obtain ⟨hj1, hj2⟩ := List.getElem?_eq_some_iff.mp hj
        have h3 := List.Forall₂.get hf (i := j) (by rw [hf.length_eq]; exact hj1) hj1
        simp only [List.get_eq_getElem] at h3
        rw [hj2] at h3
        exact h3.len
    refine ⟨⟨l, _, false⟩ :: xs, ?_, .cons ⟨rfl, rfl, hf⟩ x2⟩
    unfold decomposeDigits
    rw [hc, Outcome.bind_ok, x1]
    rfl

/-! ### All moduli -/

/-- The parameters of a gadget for each modulus: the logarithm of the base, the number of digits, the
complement and its inverse. -/
inductive Rows (P : Modulus → ℕ → ℕ → ℕ → ℕ → Prop) :
    List Modulus → List ℕ → List ℕ → List ℕ → List ℕ → Prop
  | nil : Rows P [] [] [] [] []
  | cons {m b k h v ms bs ks hs vs} : P m b k h v → Rows P ms bs ks hs vs →
      Rows P (m :: ms) (b :: bs) (k :: ks) (h :: hs) (v :: vs)

/-- All digits of `F`. -/
def allDs (F : Fin (2 ^ l) → ℤ) : List Modulus → List ℕ → List ℕ → List (Fin (2 ^ l) → ℤ)
  | m :: ms, b :: bs, k :: ks => (List.range k).map (digPoly m F b) ++ allDs F ms bs ks
  | _, _, _ => []

/-- All components of the gadget. -/
def allGs (Q : ℕ) : List Modulus → List ℕ → List ℕ → List ℕ → List ℤ
  | m :: ms, b :: bs, k :: ks, v :: vs =>
    ((List.range k).map fun j => ((Q / m.N : ℕ) * Mont.exportInt m.p v : ℤ) * (2 ^ b) ^ j) ++
      allGs Q ms bs ks vs
  | _, _, _, _ => []

/-- What is required for one modulus. -/
structure RowOk (w Q : ℕ) (m : Modulus) (b k h v : ℕ) : Prop where
  pos : 0 < b
  lt : b < 31
  word : b < w
  size : Gadget.gadgetSize m.p.logModulus b = .ok k
  fits : m.N ≤ (2 ^ b) ^ k
  hat : h ≤ m.N ∧ (Mont.exportInt m.p h : ℤ) = ((Q / m.N : ℕ) : ℤ) % m.N
  inv : v ≤ m.N ∧ (m.N : ℤ) ∣ Mont.exportInt m.p v * (Q / m.N : ℕ) - 1

theorem decomposeLoop_ok (hg : ∀ m ∈ ms, GoodModulus w l m) {Q : ℕ} {rest : List Modulus}
    {bs ks hs vs : List ℕ} (hr : Rows (RowOk w Q) rest bs ks hs vs) :
    ∀ {as : List (List ℕ)} {i : ℕ}, ms.drop i = rest →
      List.Forall₂ (fun m v => Holds l m false v F) rest as →
      ∃ xs, decomposeLoop ms i rest as bs ks = .ok xs ∧
        List.Forall₂ (fun x D => x.ntt = false ∧ Represents l ms x D) xs (allDs F rest bs ks) := by
  induction hr with
  | nil =>
    intro as i _ ha
    cases ha
    exact ⟨[], rfl, .nil⟩
  | @cons m b k h v rest bs ks hs vs hp hr ih =>
    intro as i hd ha
    cases ha with
    | @cons _ a _ as ha1 ha2 =>
      have hi : ms[i]? = some m := by
        have := congrArg (fun L => L[0]?) hd
        simpa using this
      have hm := hg m (List.mem_of_getElem? hi)
      obtain ⟨D, d1, d2⟩ := baseDecompose_holds hm ha1 hp.word k
      have d3 : List.Forall₂ (fun d E => Holds l m false d E) D
          ((List.range k).map fun j => dig m b j F) := by
        rw [List.forall₂_map_right_iff]; exact d2
      obtain ⟨xs, x1, x2⟩ := decomposeDigits_ok hg hi d3
      obtain ⟨ys, y1, y2⟩ := ih (i := i + 1) (by
        rw [← List.tail_drop, hd]; rfl) ha2
      refine ⟨xs ++ ys, ?_, ?_⟩
      · unfold decomposeLoop
        rw [d1, Outcome.bind_ok, x1, Outcome.bind_ok, y1]
        rfl
      · unfold allDs
        rw [List.map_map] at x2
        exact List.rel_append x2 y2

theorem allDs_bound (hg : ∀ m ∈ ms, GoodModulus w l m) : ∀ {bs ks : List ℕ}, bs.length = ms.length →
    ks.length = ms.length → List.Forall₂ (fun b D => ∀ i, |D i| < 2 ^ b) (digitLogs bs ks) (allDs F ms bs ks) := by
  induction ms with
  | nil => intro bs ks h1 h2; cases bs <;> cases ks <;> simp_all [digitLogs, allDs]
  | cons m ms ih =>
    intro bs ks h1 h2
    match bs, ks with
    | b :: bs, k :: ks =>
      unfold digitLogs allDs
      refine List.rel_append ?_ (ih (fun x hx => hg x (List.mem_cons_of_mem _ hx)) (by simpa using h1)
        (by simpa using h2))
      rw [List.forall₂_map_right_iff, ← List.length_range (n := k), ← List.map_const', List.length_range,
        List.forall₂_map_left_iff, List.forall₂_same]
      exact fun j _ => digPoly_bound (hg m List.mem_cons_self) b j

theorem combine_append {n : ℕ} : ∀ {a a' : List ℤ} {b b' : List (Fin n → ℤ)}, a.length = b.length →
    combine (a ++ a') (b ++ b') = combine a b + combine a' b' := by
  intro a
  induction a with
  | nil => intro a' b b' h; cases b <;> simp_all [combine]
  | cons x a ih =>
    intro a' b b' h
    cases b with
    | nil => simp at h
    | cons y b =>
      show _ + combine (a ++ a') (b ++ b') = _
      rw [ih (by simpa using h), ← add_assoc]
      rfl

theorem combine_map {n : ℕ} (f : ℕ → ℤ) (g : ℕ → Fin n → ℤ) (c : Fin n) (k : ℕ) :
    combine ((List.range k).map f) ((List.range k).map g) c = ∑ j ∈ Finset.range k, f j * g j c := by
  induction k with
  | zero => rfl
  | succ k ih =>
    rw [List.range_succ, List.map_append, List.map_append, combine_append (by simp), Finset.sum_range_succ,
      Pi.add_apply, ih]
    simp [combine]

theorem allGs_length {Q : ℕ} {rest : List Modulus} {bs ks hs vs : List ℕ} {P}
    (hr : Rows P rest bs ks hs vs) : (allGs Q rest bs ks vs).length = (allDs F rest bs ks).length := by
  induction hr with
  | nil => rfl
  | cons _ _ ih => simp [allGs, allDs, ih]

theorem Rows.length {rest : List Modulus} {bs ks hs vs : List ℕ} {P} (hr : Rows P rest bs ks hs vs) :
    bs.length = rest.length ∧ ks.length = rest.length := by
  induction hr with
  | nil => exact ⟨rfl, rfl⟩
  | cons _ _ ih => simp [ih]

/-- Modulo one of the moduli, only its own digits contribute. -/
theorem combine_mod (hg : ∀ m ∈ ms, GoodModulus w l m) {Q : ℕ} {N0 : ℕ}
    {bs ks hs vs : List ℕ} (hr : Rows (RowOk w Q) ms bs ks hs vs) (hnd : (ms.map (·.N)).Nodup)
    (h0 : ∀ m ∈ ms, m.N ≠ N0 → N0 ∣ Q / m.N) (c : Fin (2 ^ l)) :
    (N0 : ℤ) ∣ combine (allGs Q ms bs ks vs) (allDs F ms bs ks) c -
      if N0 ∈ ms.map (·.N) then F c else 0 := by
  induction hr with
  | nil => simp [combine, allGs]
  | @cons m b k h v rest bs ks hs vs hp hr ih =>
    have hm := hg m List.mem_cons_self
    have ih := ih (fun x hx => hg x (List.mem_cons_of_mem _ hx)) (List.nodup_cons.mp hnd).2
      fun x hx => h0 x (List.mem_cons_of_mem _ hx)
    unfold allGs allDs
    rw [combine_append (by simp), Pi.add_apply, combine_map]
    have e : ∀ j, ((Q / m.N : ℕ) * Mont.exportInt m.p v : ℤ) * (2 ^ b) ^ j * digPoly m F b j c =
        ((Q / m.N : ℕ) * Mont.exportInt m.p v : ℤ) * ((2 ^ b) ^ j * digPoly m F b j c) := fun j => by ring
    simp only [e]
    rw [← Finset.mul_sum]
    by_cases hN : m.N = N0
    · subst hN
      have hnot : m.N ∉ rest.map (·.N) := (List.nodup_cons.mp hnd).1
      rw [if_neg hnot, sub_zero] at ih
      rw [if_pos (by simp)]
      have h1 := digPoly_sum (F := F) hm hp.fits c
      have h2 := hp.inv.2
      obtain ⟨x, hx⟩ := h1
      obtain ⟨y, hy⟩ := h2
      obtain ⟨z, hz⟩ := ih
      rw [hz]
      have e1 : (Mont.exportInt m.p v : ℤ) * (Q / m.N : ℕ) = m.N * y + 1 := by linarith
      have e2 : ∑ j ∈ Finset.range k, (2 ^ b : ℤ) ^ j * digPoly m F b j c = m.N * x + F c := by linarith
      rw [e2, mul_comm ((Q / m.N : ℕ) : ℤ), e1]
      exact ⟨y * (m.N * x + F c) + x + z, by ring⟩
    · have e3 : (N0 ∈ (m :: rest).map (·.N)) = (N0 ∈ rest.map (·.N)) := by
        simp [Ne.symm hN]
      have h4 : (N0 : ℤ) ∣ ((Q / m.N : ℕ) : ℤ) := by exact_mod_cast h0 m List.mem_cons_self hN
      have h5 : (N0 : ℤ) ∣ ((Q / m.N : ℕ) * Mont.exportInt m.p v : ℤ) *
          ∑ j ∈ Finset.range k, ((2 ^ b : ℤ) ^ j * digPoly m F b j c) := (h4.mul_right _).mul_right _
      have := dvd_add h5 ih
      simp only [e3]
      rwa [add_sub_assoc]

/-! ### The components -/

theorem dvd_hat' (hg : ∀ m ∈ ms, GoodModulus w l m) {m m' : Modulus} (hm : m ∈ ms) (hm' : m' ∈ ms)
    (hne : m.N ≠ m'.N) : m'.N ∣ modulusProd ms / m.N := by
  have h1 := N_dvd_prod hm
  have h2 := N_dvd_prod hm'
  rw [← Nat.mul_div_cancel' h1] at h2
  exact (Nat.Coprime.dvd_of_dvd_mul_left
    ((Nat.coprime_primes (hg m' hm').prime (hg m hm).prime).mpr hne.symm) h2)

theorem gadgetBases_ok {Q : ℕ} (hg : ∀ m ∈ ms, GoodModulus w l m) {bs ks hs vs : List ℕ}
    (hr : Rows (RowOk w Q) ms bs ks hs vs) :
    gadgetBases ms bs = .ok (List.zipWith (fun b k => (2 ^ b, k)) bs ks) := by
  induction hr with
  | nil => rfl
  | @cons m b k h v rest bs ks hs vs hp hr ih =>
    have g := (hg m List.mem_cons_self).good
    unfold gadgetBases shl1
    rw [if_pos hp.lt, Outcome.bind_ok, hp.size, Outcome.bind_ok,
      ih fun x hx => hg x (List.mem_cons_of_mem _ hx), Outcome.bind_ok, g.hw,
      trunc_natCast, Nat.mod_eq_of_lt (Nat.pow_lt_pow_right (by norm_num) hp.word)]
    rfl

theorem gadgetEntries_ok (hg : ∀ m ∈ ms, GoodModulus w l m) {i b : ℕ} (hi : ms[i]? = some m) (hb : b < w)
    (k : ℕ) : ∀ {cur : ℕ} {z : ℤ}, cur ≤ m.N → res m.p m.N cur = (z : ZMod m.N) →
      (∀ j m', ms[j]? = some m' → j ≠ i → (m'.N : ℤ) ∣ z) →
      List.Forall₂ (RnsIntIs ms) (gadgetEntries (ms.map fun m => Mont.importZero m.p) m.p i
        (Mont.importInt m.p (2 ^ b)) k cur) ((List.range k).map fun j => z * (2 ^ b) ^ j) := by
  have g := (hg m (List.mem_of_getElem? hi)).good
  obtain ⟨b1, b2⟩ := import_spec g (n := 2 ^ b) (Nat.pow_lt_pow_right (by norm_num) hb)
  induction k with
  | zero => intro cur z _ _ _; exact .nil
  | succ k ih =>
    intro cur z h1 h2 h3
    rw [List.range_succ_eq_map, List.map_cons, List.map_map]
    refine .cons ?_ ?_
    · rw [pow_zero, mul_one]
      refine forall₂_map_set (fun j a ha hj => ?_) fun j a ha hj => ?_
      · subst hj
        rw [hi] at ha
        cases ha
        exact ⟨h1, export_of_res g h1 h2⟩
      · have ga := (hg a (List.mem_of_getElem? ha)).good
        refine ⟨Nat.zero_le _, export_of_res ga (Nat.zero_le _) ?_⟩
        rw [(ZMod.intCast_zmod_eq_zero_iff_dvd z a.N).mpr (h3 j a ha hj)]
        exact res_zero
    · have := ih (cur := Mont.mul m.p cur (Mont.importInt m.p (2 ^ b))) (z := z * 2 ^ b) (mul_lt g h1 b1).le
        (by rw [res_mul g h1 b1, h2, b2]; push_cast; ring) fun j m' hj hne => (h3 j m' hj hne).mul_right _
      convert this using 3
      simp only [Function.comp, Nat.succ_eq_add_one]
      ring

theorem gadgetRows_ok (hg : ∀ m ∈ ms, GoodModulus w l m) (hnd : (ms.map (·.N)).Nodup)
    {rest : List Modulus} {bs ks hs vs : List ℕ}
    (hr : Rows (RowOk w (modulusProd ms)) rest bs ks hs vs) : ∀ {i : ℕ}, ms.drop i = rest →
    ∃ gs, gadgetRows (ms.map fun m => Mont.importZero m.p) i rest
        (List.zipWith (fun b k => (2 ^ b, k)) bs ks) hs vs = .ok gs ∧
      List.Forall₂ (RnsIntIs ms) gs (allGs (modulusProd ms) rest bs ks vs) := by
  induction hr with
  | nil => intro i _; exact ⟨[], rfl, .nil⟩
  | @cons m b k h v rest bs ks hs vs hp hr ih =>
    intro i hd
    have hi : ms[i]? = some m := by
      have := congrArg (fun L => L[0]?) hd
      simpa using this
    have hm := hg m (List.mem_of_getElem? hi)
    have g := hm.good
    obtain ⟨gs, g1, g2⟩ := ih (i := i + 1) (by rw [← List.tail_drop, hd]; rfl)
    refine ⟨_, by
      unfold gadgetRows
      show Outcome.bind _ _ = _
      rw [g1]
      rfl, ?_⟩
    unfold allGs
    refine List.rel_append ?_ g2
    refine gadgetEntries_ok hg hi hp.word k (mul_lt g hp.hat.1 hp.inv.1).le ?_ fun j m' hj hne => ?_
    · rw [res_mul g hp.hat.1 hp.inv.1, res_of_export hm hp.hat.1 hp.hat.2, ← res_export g hp.inv.1]
      push_cast
      rfl
    · have hn : m.N ≠ m'.N := by
        intro he
        obtain ⟨hi1, hi2⟩ := List.getElem?_eq_some_iff.mp hi
        obtain ⟨hj1, hj2⟩ := List.getElem?_eq_some_iff.mp hj
        have := (List.Nodup.getElem_inj_iff hnd (i := j) (j := i) (hi := by simpa using hj1)
          (hj := by simpa using hi1)).mp (by simp [hi2, hj2, he])
        exact hne this
      refine Dvd.dvd.mul_right ?_ _
      exact_mod_cast dvd_hat' hg (List.mem_of_getElem? hi) (List.mem_of_getElem? hj) hn

theorem pairwise_of_nodup {ms : List Modulus} (h : ∀ m ∈ ms, m.N.Prime) (hnd : (ms.map (·.N)).Nodup) :
    (ms.map (·.N)).Pairwise Nat.Coprime := by
  refine List.Pairwise.imp_of_mem (fun {a b} ha hb hab => ?_) hnd
  simp only [List.mem_map] at ha hb
  obtain ⟨x, hx, rfl⟩ := ha
  obtain ⟨y, hy, rfl⟩ := hb
  exact (Nat.coprime_primes (h x hx) (h y hy)).mpr hab

theorem gadgetFor_of_rows (hg : ∀ m ∈ ms, GoodModulus w l m) (hnd : (ms.map (·.N)).Nodup) (hl : 0 < l)
    (hne : ms ≠ []) {bs ks hs vs : List ℕ} (hr : Rows (RowOk w (modulusProd ms)) ms bs ks hs vs)
    (hhs : hs.length = ms.length) (hvs : vs.length = ms.length) :
    ∃ g, RGadget.create l bs hs vs ms = .ok g ∧ g.logBs = bs ∧ g.dims = ks ∧
      GadgetFor l ms g (allGs (modulusProd ms) ms bs ks vs) (digitLogs bs ks) := by
  obtain ⟨l1, l2⟩ := hr.length
  obtain ⟨gs, g1, g2⟩ := gadgetRows_ok hg hnd hr (i := 0) rfl
  have hdims : (List.zipWith (fun b k => ((2 ^ b : ℕ), k)) bs ks).map (·.2) = ks := by
    have : ∀ {bs ks : List ℕ}, bs.length = ks.length →
        (List.zipWith (fun b k => ((2 ^ b : ℕ), k)) bs ks).map (·.2) = ks := by
      intro bs
      induction bs with
      | nil => intro ks h; cases ks <;> simp_all
      | cons b bs ih => intro ks h; cases ks <;> simp_all
    exact this (by omega)
  have hF : (allDs (l := l) (fun _ => 0) ms bs ks).length = ks.sum := by
    have : ∀ {ms : List Modulus} {bs ks : List ℕ}, bs.length = ms.length → ks.length = ms.length →
        (allDs (l := l) (fun _ => 0) ms bs ks).length = ks.sum := by
      intro ms
      induction ms with
      | nil => intro bs ks h1 h2; cases bs <;> cases ks <;> simp_all [allDs]
      | cons m ms ih => intro bs ks h1 h2; cases bs <;> cases ks <;> simp_all [allDs]
    exact this l1 l2
  refine ⟨⟨bs, ks, gs⟩, ?_, rfl, rfl, ⟨?_, g2, fun a F ha hF => ?_⟩⟩
  · unfold RGadget.create
    rw [if_neg (by omega), if_neg (by simpa using hne), if_neg (by omega), if_neg (by omega),
      if_neg (by omega), gadgetBases_ok hg hr, Outcome.bind_ok]
    dsimp only
    rw [g1, Outcome.bind_ok, hdims]
    rfl
  · show gs.length = ks.sum
    rw [g2.length_eq, allGs_length (F := fun _ : Fin (2 ^ l) => 0) hr, hF]
  · obtain ⟨r1, r2⟩ := hF
    rw [ha] at r2
    obtain ⟨xs, x1, x2⟩ := decomposeLoop_ok hg hr (i := 0) rfl r2
    refine ⟨xs, allDs F ms bs ks, ?_, x2, allDs_bound hg l1 l2, (allGs_length hr).symm, fun c => ?_⟩
    · unfold RGadget.decompose
      rw [ha, if_neg (by simp), if_neg (by rw [← r2.length_eq]; simp)]
      exact x1
    · refine prod_dvd_of_coprime (pairwise_of_nodup (fun m hm => (hg m hm).prime) hnd) fun n hn => ?_
      have h0 : ∀ m ∈ ms, m.N ≠ n → n ∣ modulusProd ms / m.N := by
        intro m hm hmn
        simp only [List.mem_map] at hn
        obtain ⟨m', hm', rfl⟩ := hn
        exact dvd_hat' hg hm hm' hmn
      have := combine_mod (F := F) hg hr hnd h0 c
      rwa [if_pos hn] at this

end Shell.Rns
