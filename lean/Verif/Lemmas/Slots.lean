import Verif.Spec.Slots
import Verif.Lemmas.RnsEncoder
import Verif.Lemmas.Five
/-! Slots of the finite field encoder. -/

namespace Shell.Rns
open Spec Poly Ntt NttRing

variable {w l : ℕ}

/-! ### The exponents of the slots -/

theorem five_mod_four (b N : ℕ) : (5 ^ b % 2 ^ (N + 2)) % 4 = 1 := by
  have h : 4 ∣ 2 ^ (N + 2) := ⟨2 ^ N, by ring⟩
  rw [Nat.mod_mod_of_dvd _ h, Nat.pow_mod]
  simp

theorem five_inj (N : ℕ) {i j : ℕ} (hi : i < 2 ^ N) (hj : j < 2 ^ N)
    (h : 5 ^ i % 2 ^ (N + 2) = 5 ^ j % 2 ^ (N + 2)) : i = j := by
  have key : Set.InjOn (fun b => 5 ^ b % 2 ^ (N + 2)) (Finset.range (2 ^ N) : Set ℕ) := by
    refine Finset.injOn_of_surjOn_of_card_le (t := (Finset.range (2 ^ N)).image fun b => 4 * b + 1)
      _ ?_ ?_ ?_
    · intro b _
      have h4 := five_mod_four b N
      have hlt : 5 ^ b % 2 ^ (N + 2) < 2 ^ (N + 2) := Nat.mod_lt _ (by positivity)
      rw [Finset.mem_coe, Finset.mem_image]
      have h2 : 2 ^ (N + 2) = 4 * 2 ^ N := by ring
      exact ⟨5 ^ b % 2 ^ (N + 2) / 4, Finset.mem_range.mpr (by omega), by dsimp only; omega⟩
    · intro x hx
      rw [Finset.mem_coe, Finset.mem_image] at hx
      obtain ⟨b, hb, rfl⟩ := hx
      have hb := Finset.mem_range.mp hb
      have h2 : 2 ^ (N + 2) = 4 * 2 ^ N := by ring
      obtain ⟨c, hc, e⟩ := Expand.five_gen N (4 * b + 1) (by omega)
      refine ⟨c, by simpa using hc, ?_⟩
      show 5 ^ c % 2 ^ (N + 2) = _
      rw [e, Nat.mod_eq_of_lt (by omega)]
    · rw [Finset.card_image_of_injective _ (fun a b h => by have h : 4 * a + 1 = 4 * b + 1 := h; omega)]
  exact key (by simpa using hi) (by simpa using hj) h

theorem slotPower_lt (hl : 1 ≤ l) (i : ℕ) :
    slotPower l i % (2 * 2 ^ l) % 4 = if i < 2 ^ (l - 1) then 1 else 3 := by
  obtain ⟨N, rfl⟩ := Nat.exists_eq_add_of_le' hl
  have e : 2 * 2 ^ (N + 1) = 4 * 2 ^ N := by ring
  have hd : 4 ∣ 2 * 2 ^ (N + 1) := ⟨2 ^ N, e⟩
  rw [Nat.mod_mod_of_dvd _ hd]
  unfold slotPower
  split
  · rw [Nat.pow_mod]; simp
  · rw [Nat.mul_mod, Nat.pow_mod]
    have hp : 0 < 2 ^ N := by positivity
    have : (2 * 2 ^ (N + 1) - 1) % 4 = 3 := by omega
    rw [this]; simp

theorem slotPower_inj (hl : 1 ≤ l) {i j : ℕ} (hi : i < 2 ^ l) (hj : j < 2 ^ l)
    (h : slotPower l i % (2 * 2 ^ l) = slotPower l j % (2 * 2 ^ l)) : i = j := by
  have h1 := slotPower_lt hl i
  have h2 := slotPower_lt hl j
  rw [h, h2] at h1
  obtain ⟨N, rfl⟩ := Nat.exists_eq_add_of_le' hl
  have e : 2 * 2 ^ (N + 1) = 2 ^ (N + 2) := by ring
  have e2 : 2 ^ (N + 1) = 2 * 2 ^ N := by ring
  have e3 : N + 1 - 1 = N := rfl
  unfold slotPower at h
  rw [e3] at h h1
  rw [e] at h
  by_cases hi' : i < 2 ^ N
  · rw [if_pos hi'] at h h1
    by_cases hj' : j < 2 ^ N
    · rw [if_pos hj'] at h
      exact five_inj N hi' hj' h
    · rw [if_neg hj'] at h1; omega
  · rw [if_neg hi'] at h h1
    by_cases hj' : j < 2 ^ N
    · rw [if_pos hj'] at h1; omega
    · rw [if_neg hj'] at h
      have h3 : 5 ^ (i - 2 ^ N) % 2 ^ (N + 2) = 5 ^ (j - 2 ^ N) % 2 ^ (N + 2) := by
        have hc : Nat.Coprime (2 ^ (N + 2) - 1) (2 ^ (N + 2)) := by
          have hp : 1 ≤ 2 ^ (N + 2) := Nat.one_le_two_pow
          exact (Nat.coprime_self_sub_right (m := 1) (n := 2 ^ (N + 2)) hp).mpr (Nat.coprime_one_right _) |>.symm
        exact Nat.ModEq.cancel_left_of_coprime hc.symm h
      have := five_inj N (by omega) (by omega) h3
      omega

/-- The position of slot `i` in the transform. -/
def slotIndex (l i : ℕ) : ℕ := bitrev ((slotPower l i % (2 * 2 ^ l) - 1) / 2) l

theorem slot_odd (hl : 1 ≤ l) (i : ℕ) : slotPower l i % (2 * 2 ^ l) % 2 = 1 := by
  have := slotPower_lt hl i
  split at this <;> omega

theorem slot_half (hl : 1 ≤ l) (i : ℕ) : (slotPower l i % (2 * 2 ^ l) - 1) / 2 < 2 ^ l := by
  have h : slotPower l i % (2 * 2 ^ l) < 2 * 2 ^ l := Nat.mod_lt _ (by positivity)
  omega

theorem slotIndex_lt (hl : l ≤ 32) (i : ℕ) : slotIndex l i < 2 ^ l := bitrev_lt l _ hl

theorem slotIndex_inj (h1 : 1 ≤ l) (hl : l ≤ 32) {i j : ℕ} (hi : i < 2 ^ l) (hj : j < 2 ^ l)
    (h : slotIndex l i = slotIndex l j) : i = j := by
  unfold slotIndex at h
  have h2 : bitrev (bitrev _ l) l = bitrev (bitrev _ l) l := congrArg (fun x => bitrev x l) h
  rw [bitrev_invol l _ hl (slot_half h1 i), bitrev_invol l _ hl (slot_half h1 j)] at h2
  have a := slot_odd h1 i
  have b := slot_odd h1 j
  exact slotPower_inj h1 hi hj (by omega)

/-- The transform at the position of slot `i` is the value of slot `i`. -/
theorem ntt_slot {N : ℕ} {psi : ZMod N} (h : psi ^ 2 ^ l = -1) (h1 : 1 ≤ l) (hl : l ≤ 32)
    (F : Fin (2 ^ l) → ZMod N) (i : ℕ) :
    ntt psi l F ⟨slotIndex l i, slotIndex_lt hl i⟩ = slotValue psi l F i := by
  show ev F (psi ^ (1 + 2 * bitrev (slotIndex l i) l)) = ev F (psi ^ slotPower l i)
  unfold slotIndex
  rw [bitrev_invol l _ hl (slot_half h1 i), ← pow_mod_two_n h (slotPower l i)]
  have a := slot_odd h1 i
  congr 2
  omega

/-! ### The table of slots -/

/-- The state after `k` iterations of the loop that fills the table. -/
def SlotInv (l k : ℕ) (s : ℕ × List ℕ) : Prop :=
  s.1 = 5 ^ k % (2 * 2 ^ l) ∧ s.2.length = 2 ^ l ∧
    ∀ i < k, s.2.getD i 0 = slotIndex l i ∧ s.2.getD (i + 2 ^ (l - 1)) 0 = slotIndex l (i + 2 ^ (l - 1))

theorem half_pow (h1 : 1 ≤ l) : 2 ^ l = 2 * 2 ^ (l - 1) := by
  rw [← pow_succ']; congr 1; omega

theorem rd_bitrev {j : ℕ} (hj : j < 2 ^ l) : rd (bitrevArray l) j = .ok (bitrev j l) := by
  unfold bitrevArray
  rw [rd_some]
  rw [List.getElem?_map, List.getElem?_range hj]
  rfl

theorem slotInv_zero (h1 : 1 ≤ l) : SlotInv l 0 (1, List.replicate (2 ^ l) 0) := by
  refine ⟨?_, by simp, fun i hi => absurd hi (by omega)⟩
  have : 1 ≤ 2 ^ l := Nat.one_le_two_pow
  rw [pow_zero, Nat.mod_eq_of_lt (by omega)]

theorem slotInv_step (h1 : 1 ≤ l) (hl : l ≤ 15) {j : ℕ} {s : ℕ × List ℕ} (hj : j < 2 ^ (l - 1))
    (hs : 5 ^ j % (2 * 2 ^ l) * (2 * 2 ^ l - 1) < 2 ^ 31) (h : SlotInv l j s) :
    ∃ s', slotStep (2 ^ l) (bitrevArray l) j s = .ok s' ∧ SlotInv l (j + 1) s' := by
  have hn := half_pow h1
  have hp : 0 < 2 ^ (l - 1) := by positivity
  have h15 : 2 ^ l ≤ 2 ^ 15 := Nat.pow_le_pow_right (by norm_num) hl
  obtain ⟨p, out⟩ := s
  obtain ⟨e1, e2, e3⟩ := h
  dsimp only at e1 e2 e3
  have hpl : p < 2 * 2 ^ l := by rw [e1]; exact Nat.mod_lt _ (by omega)
  rw [← e1] at hs
  have hhalf : 2 ^ l / 2 = 2 ^ (l - 1) := by omega
  have sp1 : slotPower l j % (2 * 2 ^ l) = p := by unfold slotPower; rw [if_pos hj, e1]
  have sp2 : slotPower l (j + 2 ^ (l - 1)) % (2 * 2 ^ l) = p * (2 * 2 ^ l - 1) % (2 * 2 ^ l) := by
    unfold slotPower
    rw [if_neg (by omega), Nat.add_sub_cancel, e1, Nat.mod_mul_mod, mul_comm]
  refine ⟨(5 ^ (j + 1) % (2 * 2 ^ l),
    (out.set j (slotIndex l j)).set (j + 2 ^ (l - 1)) (slotIndex l (j + 2 ^ (l - 1)))), ?_, rfl, ?_, ?_⟩
  · unfold slotStep mulInt32
    dsimp only
    rw [rd_bitrev (by omega), Outcome.bind_ok, wr_ok (by omega), Outcome.bind_ok, if_pos hs, Outcome.bind_ok,
      rd_bitrev (by rw [← sp2]; exact slot_half h1 _), Outcome.bind_ok, hhalf,
      wr_ok (by rw [List.length_set]; omega), Outcome.bind_ok, if_pos (by omega), Outcome.bind_ok]
    unfold slotIndex
    rw [sp1, sp2, e1, Nat.mod_mul_mod, ← pow_succ]
    rfl
  · simp [e2]
  · intro i hi
    dsimp only
    rw [getD_set _ _ _ _ _ (by rw [List.length_set]; omega), getD_set _ _ _ _ _ (by omega),
      getD_set _ _ _ _ _ (by rw [List.length_set]; omega), getD_set _ _ _ _ _ (by omega)]
    by_cases hij : i = j
    · subst hij
      refine ⟨?_, by rw [if_pos rfl]⟩
      rw [if_neg (by omega), if_pos rfl]
    · obtain ⟨a, b⟩ := e3 i (by omega)
      rw [if_neg (by omega), if_neg (by omega), if_neg (by omega), if_neg (by omega)]
      exact ⟨a, b⟩

theorem slotIndices_ok (h1 : 1 ≤ l) (hl : l ≤ 14) :
    ∃ s, slotIndices l (bitrevArray l) = .ok s ∧ s.length = 2 ^ l ∧
      ∀ i < 2 ^ l, s.getD i 0 = slotIndex l i := by
  have hn : 2 ^ l = 2 * 2 ^ (l - 1) := by
    rw [← pow_succ']; congr 1; omega
  have h14 : 2 ^ l ≤ 2 ^ 14 := Nat.pow_le_pow_right (by norm_num) hl
  obtain ⟨s, s1, s2, s3, s4⟩ := loop_ok (f := slotStep (2 ^ l) (bitrevArray l)) (n := 2 ^ (l - 1)) (SlotInv l)
    (slotInv_zero h1) (fun i s hi h => by
    refine slotInv_step h1 (by omega) hi ?_ h
    have h2 : 5 ^ i % (2 * 2 ^ l) < 2 * 2 ^ l := Nat.mod_lt _ (by positivity)
    calc 5 ^ i % (2 * 2 ^ l) * (2 * 2 ^ l - 1) ≤ 2 ^ 15 * 2 ^ 15 := Nat.mul_le_mul (by omega) (by omega)
      _ < 2 ^ 31 := by norm_num)
  refine ⟨s.2, ?_, s3, fun i hi => ?_⟩
  · unfold slotIndices shl1
    rw [if_pos (by omega), Outcome.bind_ok]
    have : 2 ^ l / 2 = 2 ^ (l - 1) := by omega
    rw [this, s1]
    rfl
  · by_cases h : i < 2 ^ (l - 1)
    · exact (s4 i h).1
    · have := (s4 (i - 2 ^ (l - 1)) (by omega)).2
      rwa [Nat.sub_add_cancel (by omega)] at this

theorem slotIndices_overflow : slotIndices 15 (bitrevArray 15) = .ub .signedOverflow := by
  unfold slotIndices shl1
  rw [if_pos (by omega), Outcome.bind_ok]
  have : loop (2 ^ 15 / 2) (slotStep (2 ^ 15) (bitrevArray 15)) (1, List.replicate (2 ^ 15) 0) =
      .ub .signedOverflow := by
    refine loop_ub (SlotInv 15) 8 (by norm_num) _ (slotInv_zero (by norm_num)) (fun j s hj h => ?_)
      (fun s h => ?_)
    · refine slotInv_step (by norm_num) le_rfl (by norm_num; omega) ?_ h
      interval_cases j <;> norm_num
    · obtain ⟨p, out⟩ := s
      obtain ⟨e1, e2, _⟩ := h
      dsimp only at e1 e2
      have e3 : p = 62945 := by rw [e1]; norm_num
      subst e3
      unfold slotStep mulInt32
      dsimp only
      rw [rd_bitrev (by norm_num), Outcome.bind_ok, wr_ok (by rw [e2]; norm_num), Outcome.bind_ok,
        if_neg (by norm_num)]
      rfl
  rw [this]
  rfl

/-! ### Moving messages to slots and back -/

theorem toSlots_ok {e : FFEncoder} {psi : ZMod e.mt.N} (hm : GoodModulus w l e.mt)
    (t : Tables e.mt.p w e.mt.N l psi e.mt.q) (hlen : e.slots.length = 2 ^ l)
    (hsl : ∀ i < 2 ^ l, e.slots.getD i 0 = slotIndex l i) {msgs : List ℕ} (hw : ∀ a ∈ msgs, a < 2 ^ w)
    (hn : msgs.length ≤ 2 ^ l) :
    ∃ r Y, toSlots e (2 ^ l) msgs = .ok r ∧ Rep e.mt.p e.mt.N (2 ^ l) r Y ∧
      ∀ i < 2 ^ l, slotValue psi l Y i = ((msgs.getD i 0 : ℕ) : ZMod e.mt.N) := by
  have g := hm.good
  have h1 := t.l1
  have hl : l ≤ 32 := by have := t.l15; omega
  obtain ⟨v, v1, v2, v3, v4⟩ := loop_ok (n := msgs.length) (f := fun i out => (do
      let k ← rd e.slots i
      let x ← rd msgs i
      wr out k (Mont.importInt e.mt.p x) : Outcome (List ℕ)))
    (s := List.replicate (2 ^ l) (Mont.importZero e.mt.p))
    (fun k v => v.length = 2 ^ l ∧ (∀ a ∈ v, a ≤ e.mt.N) ∧
      ∀ i < 2 ^ l, res e.mt.p e.mt.N (v.getD (slotIndex l i) 0) =
        if i < k then ((msgs.getD i 0 : ℕ) : ZMod e.mt.N) else 0)
    ⟨by simp, fun a ha => by rw [(List.mem_replicate.mp ha).2]; exact Nat.zero_le _, fun i hi => by
      rw [if_neg (by omega)]
      have : (List.replicate (2 ^ l) (Mont.importZero e.mt.p)).getD (slotIndex l i) 0 = 0 := by
        rw [List.getD_eq_getElem?_getD, List.getElem?_replicate]
        split <;> rfl
      rw [this]
      unfold res
      simp⟩
    (fun j v hj ⟨a1, a2, a3⟩ => by
      have hjm : j < msgs.length := hj
      have hb := import_spec g (hw _ (List.getElem_mem hjm))
      have hlt := slotIndex_lt hl j
      refine ⟨v.set (slotIndex l j) (Mont.importInt e.mt.p msgs[j]), ?_, by simp [a1], ?_, ?_⟩
      · rw [rd_getD 0 (show j < e.slots.length by omega), Outcome.bind_ok, hsl j (by omega), rd_ok hjm,
          Outcome.bind_ok, wr_ok (by omega)]
      · intro a ha
        rcases List.mem_or_eq_of_mem_set ha with h | h
        · exact a2 a h
        · rw [h]; exact hb.1
      · intro i hi
        rw [getD_set _ _ _ _ _ (by omega)]
        by_cases hij : i = j
        · subst hij
          rw [if_pos rfl, if_pos (by omega), List.getD_eq_getElem _ _ hjm]
          exact hb.2
        · rw [if_neg (fun h => hij (slotIndex_inj h1 hl (by omega) hi h).symm), a3 i hi]
          by_cases hk : i < j
          · rw [if_pos hk, if_pos (by omega)]
          · rw [if_neg hk, if_neg (by omega)])
  have hv := (show ValidPoly e.mt.N (2 ^ l) v from ⟨v2, v3⟩).rep (p := e.mt.p)
  obtain ⟨r, r1, r2⟩ := inverse_rep hm t hv
  refine ⟨r, _, ?_, r2, fun i hi => ?_⟩
  · unfold toSlots
    rw [v1, Outcome.bind_ok, r1]
  · rw [← ntt_slot t.root h1 hl, ntt_intt hm.prime g.odd t.root hl]
    dsimp only
    rw [v4 i hi]
    by_cases h : i < msgs.length
    · rw [if_pos h]
    · rw [if_neg h, List.getD_eq_default _ _ (by omega), Nat.cast_zero]

theorem fromSlots_ok {e : FFEncoder} {psi : ZMod e.mt.N} (hm : GoodModulus w l e.mt)
    (t : Tables e.mt.p w e.mt.N l psi e.mt.q) (hlen : e.slots.length = 2 ^ l)
    (hsl : ∀ i < 2 ^ l, e.slots.getD i 0 = slotIndex l i) {coeffs : List ℕ} (hw : ∀ a ∈ coeffs, a < 2 ^ w)
    (hn : coeffs.length = 2 ^ l) :
    fromSlots e coeffs = .ok (List.ofFn fun i : Fin (2 ^ l) =>
      (slotValue psi l (fun j => ((coeffs.getD j 0 : ℕ) : ZMod e.mt.N)) i).val) := by
  have g := hm.good
  have h1 := t.l1
  have hl : l ≤ 32 := by have := t.l15; omega
  have hr := import_rep (n := 2 ^ l) g hw hn.le
  have er : resize (2 ^ l) (Mont.importZero e.mt.p) (coeffs.map (Mont.importInt e.mt.p)) =
      coeffs.map (Mont.importInt e.mt.p) := by
    unfold resize
    rw [List.length_map, hn, Nat.sub_self]; simp
  rw [er] at hr
  obtain ⟨v, v1, v2⟩ := forward_rep hm t hr
  unfold fromSlots
  rw [v1, Outcome.bind_ok, hn]
  obtain ⟨bs, b1, b2⟩ := mapM_range (f := fun i => (do
        let k ← rd e.slots i
        let a ← rd v k
        return Mont.exportInt e.mt.p a : Outcome ℕ))
      (P := fun i r => r = (slotValue psi l (fun j => ((coeffs.getD j 0 : ℕ) : ZMod e.mt.N)) i).val)
      (List.range (2 ^ l)) (fun i hi => by
        have hi' := List.mem_range.mp hi
        have hlt := slotIndex_lt hl i
        refine ⟨_, by
          rw [rd_getD 0 (show i < e.slots.length by omega), Outcome.bind_ok, hsl i hi',
            rd_getD 0 (show slotIndex l i < v.length by rw [v2.len]; exact hlt)]; rfl, ?_⟩
        have := v2.val ⟨slotIndex l i, hlt⟩
        rw [ntt_slot t.root h1 hl] at this
        rw [← this]
        exact export_eq_val g (v2.le _ hlt))
  rw [b1]
  congr 1
  apply List.ext_getElem
  · rw [← b2.length_eq]; simp
  · intro j h1 h2
    have hjn : j < 2 ^ l := by simpa using h2
    obtain ⟨y, y1, y2⟩ := forall₂_get b2 j j (by simp [hjn])
    rw [List.getElem_ofFn, List.getElem_eq_iff, y1, y2]

end Shell.Rns
