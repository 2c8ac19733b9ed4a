import Verif.Lemmas.Slots
import Verif.Props.RnsBfvEncoder
import Verif.Props.Crt
/-!
# C50: the finite field encoder

Messages are the values of the plaintext polynomial at the odd powers of a root of unity modulo `t`, so adding
and multiplying plaintexts adds and multiplies the messages slot by slot, and substituting a power of `5` for
the variable rotates the slots.
-/

namespace Shell
open Spec Rns Poly Ntt NttRing

section
variable {w l : ℕ} {e : FFEncoder}

theorem nttRoot_eq {m : Modulus} {psi : ZMod m.N} (hm : GoodModulus w l m) (t : Tables m.p w m.N l psi m.q) :
    nttRoot l m = psi := by
  have h1 := t.l1
  have h15 := t.l15
  have hlt : 2 ^ (l - 1) < 2 ^ l := Nat.pow_lt_pow_right (by norm_num) (by omega)
  have h2 := t.fwd (2 ^ (l - 1)) hlt
  unfold nttRoot
  have h3 : ((Mont.exportInt m.p (m.q.psisBitrev.getD (2 ^ (l - 1)) 0) : ℕ) : ZMod m.N) =
      res m.p m.N (m.q.psisBitrev.getD (2 ^ (l - 1)) 0) := res_export hm.good h2.1.le
  rw [h3, h2.2]
  have := bitrev_fwd_index (l - 1) l 0 (by omega) (by omega) (by positivity)
  rw [Nat.add_zero] at this
  rw [this]
  have h0 : bitrev 0 (l - 1) = 0 := by
    have := bitrev_shift (l - 1) 0 0 (by omega) (by norm_num)
    rwa [Nat.zero_add, bitrev_zero, Nat.mul_zero] at this
  rw [h0]
  simp

/-- **C50.** The tables hold a root of `X^n + 1` modulo the prime. -/
theorem c50_root {m : Modulus} (hm : GoodModulus w l m) : nttRoot l m ^ 2 ^ l = -1 := by
  obtain ⟨psi, t⟩ := hm.tables
  rw [nttRoot_eq hm t]
  exact t.root

/-- **C50.** Up to `log_n = 14` an encoder is created. -/
theorem c50_create {c : Rns.Ctx} {mt : Modulus} (hc : GoodCtx w l c) (hmt : c.modT = some mt)
    (hm : GoodModulus w l mt) (hN : mt.N = c.t) (hl : l ≤ 14) :
    ∃ e, ffCreate c = .ok e ∧ e.ctx = c ∧ e.mt = mt ∧ GoodEncoder w l e := by
  obtain ⟨psi, t⟩ := hm.tables
  obtain ⟨s, s1, s2, s3⟩ := slotIndices_ok t.l1 hl
  have h : ffCreate c = .ok ⟨c, mt, s⟩ := by
    unfold ffCreate
    rw [hmt]
    dsimp only
    rw [if_neg, t.bitrevs, hc.logN, Int.toNat_natCast, s1]
    · rfl
    · rw [t.bitrevs]
      have hp : 0 < 2 ^ l := by positivity
      have : bitrevArray l ≠ [] := by
        intro h
        have := congrArg List.length h
        unfold bitrevArray at this
        rw [List.length_map, List.length_range, List.length_nil] at this
        omega
      simpa using this
  exact ⟨⟨c, mt, s⟩, h, rfl, rfl, h, hc, hmt, hm, hN⟩

/-- **C50, where the code fails.** For `log_n = 15`, which the context accepts, a product of `int`s overflows
while the table of slots is computed, for every plaintext modulus. -/
theorem c50_create_overflow {c : Rns.Ctx} {mt : Modulus} (hc : GoodCtx w 15 c) (hmt : c.modT = some mt)
    (hm : GoodModulus w 15 mt) : ffCreate c = .ub .signedOverflow := by
  obtain ⟨psi, t⟩ := hm.tables
  unfold ffCreate
  rw [hmt]
  dsimp only
  rw [if_neg, t.bitrevs, hc.logN]
  · show (do let s ← slotIndices 15 (bitrevArray 15); return (⟨c, mt, s⟩ : FFEncoder)) = _
    rw [slotIndices_overflow]
    rfl
  · rw [t.bitrevs]
    have : bitrevArray 15 ≠ [] := by
      intro h
      have := congrArg List.length h
      unfold bitrevArray at this
      rw [List.length_map, List.length_range, List.length_nil] at this
      omega
    simpa using this

/-- **C50.** A context without parameters for a transform modulo `t` is rejected. -/
theorem c50_create_rejects (c : Rns.Ctx) (h : c.modT = none ∨ ∃ mt, c.modT = some mt ∧ mt.q.bitrevs = []) :
    ffCreate c = .err .invalidArgument := by
  unfold ffCreate
  rcases h with h | ⟨mt, h1, h2⟩
  · rw [h]
  · rw [h1]
    dsimp only
    rw [h2]
    rfl

theorem encoder_slots (he : GoodEncoder w l e) :
    e.slots.length = 2 ^ l ∧ ∀ i < 2 ^ l, e.slots.getD i 0 = slotIndex l i := by
  obtain ⟨psi, t⟩ := he.mt.tables
  have hl : l ≤ 14 := by
    by_contra h
    have h15 := t.l15
    have : l = 15 := by omega
    subst this
    have h2 := c50_create_overflow he.ctx he.modT he.mt
    rw [he.created] at h2
    cases h2
  obtain ⟨s, s1, s2, s3⟩ := slotIndices_ok t.l1 hl
  obtain ⟨e', h1, h2, h3, h4⟩ := c50_create he.ctx he.modT he.mt he.N hl
  have hcr := he.created
  unfold ffCreate at hcr
  rw [he.modT] at hcr
  dsimp only at hcr
  obtain ⟨_, hcr⟩ | ⟨_, hcr⟩ := ite_eq_iff.mp hcr
  · cases hcr
  rw [t.bitrevs, he.ctx.logN, Int.toNat_natCast, s1] at hcr
  have hs : e.slots = s := by
    have := Outcome.ok.inj hcr
    rw [← this]
  rw [hs]
  exact ⟨s2, s3⟩

/-! ### Operations on plaintexts act on the slots -/

theorem slot_pow {N : ℕ} {zeta : ZMod N} (h : zeta ^ 2 ^ l = -1) (h1 : 1 ≤ l) (i : ℕ) :
    (zeta ^ slotPower l i) ^ 2 ^ l = -1 := by
  have ho := slot_odd h1 i
  rw [← pow_mod_two_n h (slotPower l i)]
  generalize slotPower l i % (2 * 2 ^ l) = a at ho
  rw [← pow_mul, mul_comm, pow_mul, h]
  exact Odd.neg_one_pow (Nat.odd_iff.mpr ho)

theorem slots_subst {N : ℕ} {zeta : ZMod N} (h : zeta ^ 2 ^ l = -1) (h1 : 1 ≤ l) (F : Fin (2 ^ l) → ℤ)
    (a : ℕ) {i j : ℕ} (hij : slotPower l i * a ≡ slotPower l j [MOD 2 * 2 ^ l]) :
    slotsOf zeta l (substPow a F) i = slotsOf zeta l F j := by
  show ev (modq N (substPow a F)) _ = ev (modq N F) _
  rw [modq_substPow, ev_substPow _ _ _ (slot_pow h h1 i), ← pow_mul, ← pow_mod_two_n h, hij,
    pow_mod_two_n h]

theorem five_period (h1 : 1 ≤ l) (k : ℕ) : 5 ^ k ≡ 5 ^ (k % 2 ^ (l - 1)) [MOD 2 * 2 ^ l] := by
  obtain ⟨c, _, hc⟩ := Expand.five_pow (l - 1)
  have e : l - 1 + 2 = l + 1 := by omega
  have h5 : 5 ^ 2 ^ (l - 1) ≡ 1 [MOD 2 * 2 ^ l] := by
    rw [hc, e, pow_succ']
    exact (Nat.modEq_iff_dvd' (by omega)).mpr ⟨c, by omega⟩ |>.symm
  conv_lhs => rw [← Nat.div_add_mod k (2 ^ (l - 1)), pow_add, pow_mul]
  have := (h5.pow (k / 2 ^ (l - 1))).mul_right (5 ^ (k % 2 ^ (l - 1)))
  rwa [one_pow, one_mul] at this

/-- **C50.** Slots of sums, products modulo `X^n + 1`, and multiples. -/
theorem c50_ring {N : ℕ} {zeta : ZMod N} (h : zeta ^ 2 ^ l = -1) (h1 : 1 ≤ l) (F G : Fin (2 ^ l) → ℤ) (i : ℕ) :
    slotsOf zeta l (F + G) i = slotsOf zeta l F i + slotsOf zeta l G i ∧
    slotsOf zeta l (F - G) i = slotsOf zeta l F i - slotsOf zeta l G i ∧
    slotsOf zeta l (negMul F G) i = slotsOf zeta l F i * slotsOf zeta l G i := by
  refine ⟨?_, ?_, ?_⟩
  · show ev (modq N (F + G)) _ = ev (modq N F) _ + ev (modq N G) _
    rw [modq_add, ev_add]
  · show ev (modq N (F - G)) _ = ev (modq N F) _ - ev (modq N G) _
    rw [modq_sub, ev_sub]
  · show ev (modq N (negMul F G)) _ = ev (modq N F) _ * ev (modq N G) _
    rw [modq_negMul, ev_negMul _ _ _ (slot_pow h h1 i)]

/-- **C50.** Substituting `5^k` for the power of the variable rotates both halves of the slots by `k`. -/
theorem c50_rotate {N : ℕ} {zeta : ZMod N} (h : zeta ^ 2 ^ l = -1) (h1 : 1 ≤ l) (F : Fin (2 ^ l) → ℤ) (k : ℕ)
    {i : ℕ} (hi : i < 2 ^ l) :
    slotsOf zeta l (substPow (5 ^ k % (2 * 2 ^ l)) F) i = slotsOf zeta l F (rotateSlot l k i) := by
  have hp : 0 < 2 ^ (l - 1) := by positivity
  refine slots_subst h h1 F _ (((Nat.mod_modEq _ _).mul_left _).trans ?_)
  unfold slotPower rotateSlot
  by_cases hi' : i < 2 ^ (l - 1)
  · have := Nat.mod_lt (i + k) hp
    rw [if_pos hi', if_pos hi', if_pos this, ← pow_add]
    exact five_period h1 _
  · have := Nat.mod_lt (i - 2 ^ (l - 1) + k) hp
    rw [if_neg hi', if_neg hi', if_neg (by omega), mul_assoc, ← pow_add, Nat.add_sub_cancel_left]
    exact (five_period h1 _).mul_left _

/-- **C50.** Substituting `2n - 1` exchanges the halves. -/
theorem c50_swap {N : ℕ} {zeta : ZMod N} (h : zeta ^ 2 ^ l = -1) (h1 : 1 ≤ l) (F : Fin (2 ^ l) → ℤ)
    {i : ℕ} (hi : i < 2 ^ l) :
    slotsOf zeta l (substPow (2 * 2 ^ l - 1) F) i = slotsOf zeta l F (swapSlot l i) := by
  have hn := half_pow h1
  have hp : 0 < 2 ^ (l - 1) := by positivity
  refine slots_subst h h1 F _ ?_
  unfold slotPower swapSlot
  by_cases hi' : i < 2 ^ (l - 1)
  · rw [if_pos hi', if_pos hi', if_neg (by omega), Nat.add_sub_cancel, mul_comm (5 ^ i)]
  · rw [if_neg hi', if_neg hi', if_pos (by omega)]
    have h2 : (2 * 2 ^ l - 1) * (2 * 2 ^ l - 1) ≡ 1 [MOD 2 * 2 ^ l] := by
      obtain ⟨M, hM⟩ : ∃ M, 2 * 2 ^ l = M + 2 := ⟨2 * 2 ^ l - 2, by omega⟩
      rw [hM]
      have e : (M + 2 - 1) * (M + 2 - 1) = 1 + (M + 2) * M := by
        have : M + 2 - 1 = M + 1 := rfl
        rw [this]; ring
      rw [e]
      exact ((Nat.modEq_iff_dvd' (by omega)).mpr ⟨M, by omega⟩).symm
    have h3 := h2.mul_right (5 ^ (i - 2 ^ (l - 1)))
    rw [one_mul] at h3
    calc (2 * 2 ^ l - 1) * 5 ^ (i - 2 ^ (l - 1)) * (2 * 2 ^ l - 1) =
        (2 * 2 ^ l - 1) * (2 * 2 ^ l - 1) * 5 ^ (i - 2 ^ (l - 1)) := by ring
      _ ≡ _ [MOD 2 * 2 ^ l] := h3

/-- **C50.** The slots determine a polynomial modulo `t`. -/
theorem c50_unique {m : Modulus} (hm : GoodModulus w l m) {F G : Fin (2 ^ l) → ℤ}
    (h : ∀ i < 2 ^ l, slotsOf (nttRoot l m) l F i = slotsOf (nttRoot l m) l G i) (j : Fin (2 ^ l)) :
    F j % m.N = G j % m.N := by
  obtain ⟨psi, t⟩ := hm.tables
  have h1 := t.l1
  have hl : l ≤ 32 := by have := t.l15; omega
  rw [nttRoot_eq hm t] at h
  have hsurj : Function.Surjective (fun i : Fin (2 ^ l) => (⟨slotIndex l i, slotIndex_lt hl i⟩ : Fin (2 ^ l))) :=
    Finite.surjective_of_injective fun a b hab => Fin.ext (slotIndex_inj h1 hl a.2 b.2 (Fin.mk.inj hab))
  have key : ntt psi l (modq m.N F) = ntt psi l (modq m.N G) := by
    funext x
    obtain ⟨i, rfl⟩ := hsurj x
    rw [ntt_slot t.root h1 hl, ntt_slot t.root h1 hl]
    exact h i i.2
  have := congrFun (ntt_injective hm.prime hm.good.odd t.root hl key) j
  exact (ZMod.intCast_eq_intCast_iff' _ _ _).mp this

/-! ### Encoding and decoding -/

/-- **C50.** `EncodeBgv` returns a polynomial with coefficients at most `t / 2` in absolute value, whose slots are
the messages modulo `t`, followed by zeros. -/
theorem c50_encode_bgv (he : GoodEncoder w l e) {ms : List Modulus} (hne : ms ≠ [])
    (hms : ∀ m ∈ ms, m ∈ e.ctx.qs) {msgs : List ℕ} (hw : ∀ a ∈ msgs, a < 2 ^ w)
    (hn : msgs.length ≤ 2 ^ l) :
    ∃ x F, ffEncodeBgv e msgs ms = .ok x ∧ x.ntt = true ∧ Represents l ms x F ∧
      (∀ j, 2 * |F j| ≤ e.ctx.t) ∧
      ∀ i < 2 ^ l, slotsOf (nttRoot l e.mt) l F i = ((msgs.getD i 0 : ℕ) : ZMod e.mt.N) := by
  obtain ⟨psi, t⟩ := he.mt.tables
  have h15 := t.l15
  haveI : NeZero e.mt.N := ⟨he.mt.prime.ne_zero⟩
  obtain ⟨s2, s3⟩ := encoder_slots he
  rw [nttRoot_eq he.mt t]
  obtain ⟨r, Y, r1, r2, r3⟩ := toSlots_ok he.mt t s2 s3 hw hn
  obtain ⟨x, x1, x2, x3⟩ := repr_convertBalancedFrom he.mt.create (fun m hm => he.ctx.qs m (hms m hm)) hne r2
  refine ⟨x, _, ?_, x2, x3, fun j => ?_, fun i hi => ?_⟩
  · unfold ffEncodeBgv shl1
    rw [he.ctx.logN, Int.toNat_natCast, if_pos (by omega), Outcome.bind_ok, if_neg (by omega),
      if_neg (by simpa using hne), r1, Outcome.bind_ok, x1]
  · have := centered_bound e.mt.N (Y j)
    rw [← he.N]
    rcases le_or_gt 0 (centered e.mt.N (Y j)) with h | h
    · rw [abs_of_nonneg h]; omega
    · rw [abs_of_neg h]; omega
  · unfold slotsOf
    simp only [centered_cast]
    exact r3 i hi

theorem fromSlots_int (he : GoodEncoder w l e) (F : Fin (2 ^ l) → ℤ) :
    fromSlots e (List.ofFn fun i => (F i % e.mt.N).toNat) =
      .ok (List.ofFn fun i : Fin (2 ^ l) => (slotsOf (nttRoot l e.mt) l F i).val) := by
  obtain ⟨psi, t⟩ := he.mt.tables
  have hpos : (0 : ℤ) < e.mt.N := by exact_mod_cast he.mt.prime.pos
  obtain ⟨s2, s3⟩ := encoder_slots he
  rw [nttRoot_eq he.mt t, fromSlots_ok he.mt t s2 s3]
  · congr 2
    funext i
    unfold slotsOf
    congr 2
    funext j
    rw [List.getD_eq_getElem _ _ (by simp), List.getElem_ofFn]
    have h := Int.emod_nonneg (F j) hpos.ne'
    have e1 : (((F j % e.mt.N).toNat : ℕ) : ℤ) = F j % e.mt.N := by omega
    have e2 : (((F j % e.mt.N).toNat : ℕ) : ZMod e.mt.N) = ((((F j % e.mt.N).toNat : ℕ) : ℤ) : ZMod e.mt.N) :=
      (Int.cast_natCast _).symm
    rw [e2, e1, ZMod.intCast_mod]
  · intro a ha
    obtain ⟨i, rfl⟩ := List.mem_ofFn.mp ha
    have h1 := Int.emod_lt_of_pos (F i) hpos
    have h2 := lt_word he.mt.good
    omega
  · simp

/-- **C50.** `DecodeBgv` returns the slots of the represented polynomial, if its coefficients are small enough
for `CoefficientEncoder::DecodeBgv`. -/
theorem c50_decode_bgv (he : GoodEncoder w l e) {m0 : Modulus} {rest : List Modulus} {k : ℕ}
    (hms : e.ctx.qs.take k = m0 :: rest) (ht : e.ctx.t ≤ m0.N) {x : RPoly} {F : Fin (2 ^ l) → ℤ}
    (hx : Represents l (m0 :: rest) x F)
    (hF : ∀ i, 2 * lsbBound e.ctx.t (dropOrder (m0 :: rest)) |(F i : ℚ)| < m0.N) :
    ffDecodeBgv e x (m0 :: rest) =
      .ok (List.ofFn fun i : Fin (2 ^ l) => (slotsOf (nttRoot l e.mt) l F i).val) := by
  unfold ffDecodeBgv
  rw [c48_decode he.ctx hms ht hx hF, Outcome.bind_ok, ← he.N, fromSlots_int he]

/-- The list of messages modulo `t`, padded with zeros to `2^l`. -/
theorem ofFn_slots {N : ℕ} [NeZero N] {msgs : List ℕ} (hn : msgs.length ≤ 2 ^ l) {S : ℕ → ZMod N}
    (h : ∀ i < 2 ^ l, S i = ((msgs.getD i 0 : ℕ) : ZMod N)) :
    (List.ofFn fun i : Fin (2 ^ l) => (S i).val) =
      msgs.map (· % N) ++ List.replicate (2 ^ l - msgs.length) 0 := by
  apply List.ext_getElem
  · simp; omega
  · intro j h1 h2
    have hj : j < 2 ^ l := by simpa using h1
    rw [List.getElem_ofFn, h j hj, ZMod.val_natCast, List.getElem_append]
    split
    · rename_i h3
      rw [List.length_map] at h3
      rw [List.getElem_map, List.getD_eq_getElem _ _ h3]
    · rename_i h3
      rw [List.length_map] at h3
      rw [List.getElem_replicate, List.getD_eq_default _ _ (by omega), Nat.zero_mod]

/-- **C50.** Decoding an encoded plaintext returns the messages modulo `t`, padded with zeros. -/
theorem c50_roundtrip_bgv (he : GoodEncoder w l e) {m0 : Modulus} {rest : List Modulus} {k : ℕ}
    (hms : e.ctx.qs.take k = m0 :: rest) (ht : e.ctx.t ≤ m0.N) {msgs : List ℕ} (hw : ∀ a ∈ msgs, a < 2 ^ w)
    (hn : msgs.length ≤ 2 ^ l)
    (hb : 2 * lsbBound e.ctx.t (dropOrder (m0 :: rest)) (e.ctx.t / 2) < m0.N) :
    ∃ x, ffEncodeBgv e msgs (m0 :: rest) = .ok x ∧ ffDecodeBgv e x (m0 :: rest) =
      .ok (msgs.map (· % e.ctx.t) ++ List.replicate (2 ^ l - msgs.length) 0) := by
  haveI : NeZero e.mt.N := ⟨he.mt.prime.ne_zero⟩
  obtain ⟨x, F, x1, x2, x3, x4, x5⟩ := c50_encode_bgv he (ms := m0 :: rest) (by simp) (fun m hm => by
    rw [← hms] at hm; exact List.mem_of_mem_take hm) hw hn
  refine ⟨x, x1, ?_⟩
  rw [c50_decode_bgv he hms ht x3 fun i => lt_of_le_of_lt
    (mul_le_mul_of_nonneg_left (lsbBound_mono _ ?_) (by norm_num)) hb, ofFn_slots hn x5, he.N]
  have h' : 2 * |(F i : ℚ)| ≤ e.ctx.t := by exact_mod_cast x4 i
  linarith

/-- **C50.** Decoding a sum, a product and a substituted plaintext: if `x` and `y` hold `F` and `G`, small enough,
then the slots of `x + y` and `x y` are the sums and products of the slots, and those of `x(X^(5^k))` the
rotated slots. -/
theorem c50_homomorphic (he : GoodEncoder w l e) {m0 : Modulus} {rest : List Modulus} {k : ℕ}
    (hms : e.ctx.qs.take k = m0 :: rest) (ht : e.ctx.t ≤ m0.N) {x y : RPoly} {F G : Fin (2 ^ l) → ℤ}
    (hx : Represents l (m0 :: rest) x F) (hy : Represents l (m0 :: rest) y G) (hxn : x.ntt = true)
    (hyn : y.ntt = true) :
    let small : (Fin (2 ^ l) → ℤ) → Prop := fun H =>
      ∀ i, 2 * lsbBound e.ctx.t (dropOrder (m0 :: rest)) |(H i : ℚ)| < m0.N
    let S := slotsOf (nttRoot l e.mt) l
    (small (F + G) → ∃ z, Rns.add (m0 :: rest) x y = .ok z ∧ ffDecodeBgv e z (m0 :: rest) =
      .ok (List.ofFn fun i : Fin (2 ^ l) => (S F i + S G i).val)) ∧
    (small (negMul F G) → ∃ z, Rns.mul (m0 :: rest) x y = .ok z ∧ ffDecodeBgv e z (m0 :: rest) =
      .ok (List.ofFn fun i : Fin (2 ^ l) => (S F i * S G i).val)) ∧
    (∀ r, small (substPow (5 ^ r % (2 * 2 ^ l)) F) → ∃ z,
      Rns.substitute (m0 :: rest) x (5 ^ r % (2 * 2 ^ l) : ℕ) = .ok z ∧ ffDecodeBgv e z (m0 :: rest) =
      .ok (List.ofFn fun i : Fin (2 ^ l) => (S F (rotateSlot l r i)).val)) := by
  intro small S
  have hroot := c50_root he.mt
  obtain ⟨psi, t⟩ := he.mt.tables
  have h1 := t.l1
  have h15 := t.l15
  have hg : ∀ m ∈ m0 :: rest, GoodModulus w l m := fun m hm => by
    rw [← hms] at hm; exact he.ctx.qs m (List.mem_of_mem_take hm)
  refine ⟨fun hs => ?_, fun hs => ?_, fun r hs => ?_⟩
  · obtain ⟨z, z1, _, z2⟩ := repr_add hg hx hy (by rw [hxn, hyn])
    refine ⟨z, z1, ?_⟩
    rw [c50_decode_bgv he hms ht z2 hs]
    congr 2
    funext i
    rw [(c50_ring hroot h1 F G i).1]
  · obtain ⟨z, z1, _, z2⟩ := repr_mul hg hx hy hxn hyn
    refine ⟨z, z1, ?_⟩
    rw [c50_decode_bgv he hms ht z2 hs]
    congr 2
    funext i
    rw [(c50_ring hroot h1 F G i).2.2]
  · have hodd : 5 ^ r % (2 * 2 ^ l) % 2 = 1 := by
      rw [Nat.mod_mod_of_dvd _ ⟨2 ^ l, rfl⟩, Nat.pow_mod]; simp
    obtain ⟨z, z1, _, z2⟩ := repr_substitute (by omega) hg hx hxn hodd (Nat.mod_lt _ (by positivity))
    refine ⟨z, z1, ?_⟩
    rw [c50_decode_bgv he hms ht z2 hs]
    congr 2
    funext i
    rw [c50_rotate hroot h1 F r i.2]

/-- **C50.** `EncodeBfv` with scaling returns `Q M / t` rounded up, for the polynomial `M` with coefficients in
`[0, t)` whose slots are the messages. -/
theorem c50_encode_bfv (he : GoodEncoder w l e) (hb : BfvConstants e.ctx e.mt) (hne : e.ctx.qs ≠ [])
    {msgs : List ℕ} (hw : ∀ a ∈ msgs, a < 2 ^ w) (hn : msgs.length ≤ 2 ^ l) :
    ∃ x, ∃ M : Fin (2 ^ l) → ℕ, ffEncodeBfv e msgs e.ctx.qs true = .ok x ∧ x.ntt = true ∧
      Represents l e.ctx.qs x (fun j => ⌈(modulusProd e.ctx.qs * M j : ℚ) / e.ctx.t⌉) ∧
      (∀ j, M j < e.ctx.t) ∧
      ∀ i < 2 ^ l, slotsOf (nttRoot l e.mt) l (fun j => (M j : ℤ)) i =
        ((msgs.getD i 0 : ℕ) : ZMod e.mt.N) := by
  obtain ⟨psi, t⟩ := he.mt.tables
  have h15 := t.l15
  have g := he.mt.good
  haveI : NeZero e.mt.N := ⟨he.mt.prime.ne_zero⟩
  obtain ⟨s2, s3⟩ := encoder_slots he
  rw [nttRoot_eq he.mt t]
  obtain ⟨r, Y, r1, r2, r3⟩ := toSlots_ok he.mt t s2 s3 hw hn
  have hval : ∀ j : Fin (2 ^ l), (r.map (Mont.exportInt e.mt.p)).getD j 0 = (Y j).val := fun j => by
    have hj : (j : ℕ) < r.length := by rw [r2.len]; exact j.2
    have h2 := r2.le j j.2
    have h3 := r2.val j
    rw [List.getD_eq_getElem _ _ hj] at h2 h3
    rw [List.getD_eq_getElem _ _ (by simpa using hj), List.getElem_map, ← h3]
    exact export_eq_val g h2
  have hlt : ∀ j, (Y j).val < e.ctx.t := fun j => by rw [← he.N]; exact ZMod.val_lt _
  obtain ⟨x, x1, x2, x3⟩ := c49_encode_scaled he.ctx hb he.mt.create he.N
    (by rw [← he.N]; exact he.mt.prime.one_lt) hne (msgs := r.map (Mont.exportInt e.mt.p))
    (fun a ha => by
      obtain ⟨i, hi, rfl⟩ := List.getElem_of_mem ha
      have hi' : i < 2 ^ l := by rw [← r2.len]; simpa using hi
      have := hval ⟨i, hi'⟩
      rw [List.getD_eq_getElem _ _ hi] at this
      rw [this]
      exact lt_trans (hlt _) he.ctx.word)
    (by rw [List.length_map, r2.len])
  refine ⟨x, fun j => (Y j).val, ?_, x2, ?_, hlt, fun i hi => ?_⟩
  · unfold ffEncodeBfv shl1
    rw [he.ctx.logN, Int.toNat_natCast, if_pos (by omega), Outcome.bind_ok, if_neg (by omega),
      if_neg (by simpa using hne), r1, Outcome.bind_ok, x1]
  · have e1 : (fun j : Fin (2 ^ l) => ⌈(modulusProd e.ctx.qs *
        ((r.map (Mont.exportInt e.mt.p)).getD j 0 % e.ctx.t : ℕ) : ℚ) / e.ctx.t⌉) =
        fun j => ⌈(modulusProd e.ctx.qs * ((Y j).val : ℕ) : ℚ) / e.ctx.t⌉ := by
      funext j
      rw [hval j, Nat.mod_eq_of_lt (hlt j)]
    rw [e1] at x3
    exact x3
  · unfold slotsOf
    simp only [Int.cast_natCast, ZMod.natCast_zmod_val]
    exact r3 i hi

/-- **C50.** `DecodeBfv` returns the slots of `M`, if `t F / Q` is within `1/2 - ε` of `M`. -/
theorem c50_decode_bfv (he : GoodEncoder w l e) (hb : BfvConstants e.ctx e.mt) {ms : List Modulus} {k : ℕ}
    (hms : e.ctx.qs.take k = ms) (hne : ms ≠ []) {x : RPoly} {F M : Fin (2 ^ l) → ℤ}
    (hx : Represents l ms x F) {ε : ℚ} {est : Estimate} (hest : EstimateWithin ms.length ε est) (hε : ε < 1 / 2)
    (hw : ms.length < 2 ^ w)
    (hM : ∀ i, |(e.ctx.t : ℚ) * F i - modulusProd ms * M i| < (1 / 2 - ε) * modulusProd ms) :
    ffDecodeBfv est e x ms =
      .ok (List.ofFn fun i : Fin (2 ^ l) => (slotsOf (nttRoot l e.mt) l M i).val) := by
  unfold ffDecodeBfv
  rw [c49_decode he.ctx hb he.mt.create he.N hms hne hx hest hε hw hM, Outcome.bind_ok, ← he.N,
    fromSlots_int he]

/-- **C50.** A scaled plaintext to which noise `E` was added decodes to its messages modulo `t`. -/
theorem c50_roundtrip_bfv (he : GoodEncoder w l e) (hb : BfvConstants e.ctx e.mt) (hne : e.ctx.qs ≠ [])
    {msgs : List ℕ} (hw : ∀ a ∈ msgs, a < 2 ^ w) (hn : msgs.length ≤ 2 ^ l)
    {ε : ℚ} {est : Estimate} (hest : EstimateWithin e.ctx.qs.length ε est) (hε : ε < 1 / 2) (hlen : e.ctx.qs.length < 2 ^ w) :
    ∃ x, ffEncodeBfv e msgs e.ctx.qs true = .ok x ∧ ∀ n E, Represents l e.ctx.qs n E → n.ntt = true →
      (∀ j, (e.ctx.t : ℚ) * (|(E j : ℚ)| + 1) ≤ (1 / 2 - ε) * modulusProd e.ctx.qs) →
      ∃ y, Rns.add e.ctx.qs x n = .ok y ∧ ffDecodeBfv est e y e.ctx.qs =
        .ok (msgs.map (· % e.ctx.t) ++ List.replicate (2 ^ l - msgs.length) 0) := by
  haveI : NeZero e.mt.N := ⟨he.mt.prime.ne_zero⟩
  obtain ⟨x, M, x1, x2, x3, x4, x5⟩ := c50_encode_bfv he hb hne hw hn
  refine ⟨x, x1, fun n E hE hnt hbd => ?_⟩
  obtain ⟨y, y1, _, y2⟩ := repr_add he.ctx.qs x3 hE (by rw [x2, hnt])
  refine ⟨y, y1, ?_⟩
  have ht : (0 : ℚ) < e.ctx.t := by exact_mod_cast he.ctx.pos
  rw [c50_decode_bfv he hb (k := e.ctx.qs.length) List.take_length hne y2 (M := fun j => (M j : ℤ)) hest hε hlen,
    ofFn_slots hn x5, he.N]
  intro i
  obtain ⟨v, v1, _, v3⟩ := ceil_div (modulusProd e.ctx.qs) (M i) e.ctx.t he.ctx.pos
  refine lt_of_lt_of_le ?_ (hbd i)
  have v4 : (e.ctx.t : ℚ) * (⌈(modulusProd e.ctx.qs * (M i : ℕ) : ℚ) / e.ctx.t⌉ : ℤ) =
      modulusProd e.ctx.qs * (M i : ℕ) + v := by
    generalize ⌈(modulusProd e.ctx.qs * (M i : ℕ) : ℚ) / e.ctx.t⌉ = z at v3 ⊢
    have := congrArg (Int.cast : ℤ → ℚ) v3
    push_cast at this
    exact this
  rw [Pi.add_apply, Int.cast_add, mul_add, v4, Int.cast_natCast, add_sub_right_comm, add_sub_cancel_left,
    mul_add, mul_one]
  have v5 : (v : ℚ) < e.ctx.t := by exact_mod_cast v1
  have v6 := abs_add_le (v : ℚ) (e.ctx.t * E i)
  rw [abs_mul, abs_of_pos ht, Nat.abs_cast] at v6
  linarith

/-- **C50.** `DecodeBgvWithCrt`, with a big integer type that holds `Q` times any modulus, returns the slots of
`F` if its coefficients are below `Q / 2` in absolute value. -/
theorem c50_decode_crt {W : ℕ} (he : GoodEncoder w l e) {ms : List Modulus} {k : ℕ}
    (hms : e.ctx.qs.take k = ms) (hne : ms ≠ []) {x : RPoly} {F : Fin (2 ^ l) → ℤ}
    (hx : Represents l ms x F) (hW : ∀ m ∈ ms, modulusProd ms * m.N ≤ 2 ^ W) {hatInvs : List ℕ}
    (hi : HatInvs ms hatInvs) (ht : e.ctx.t ≤ modulusProd ms) (hF : ∀ i, 2 * |F i| < modulusProd ms) :
    ffDecodeBgvWithCrt W e x ms (modulusComplements W ms) hatInvs =
      .ok (List.ofFn fun i : Fin (2 ^ l) => (slotsOf (nttRoot l e.mt) l F i).val) := by
  have hg : ∀ m ∈ ms, GoodModulus w l m := fun m hm => by
    rw [← hms] at hm; exact he.ctx.qs m (List.mem_of_mem_take hm)
  have hcr := fun m hm => (hg m hm).create
  have hcop : (ms.map (·.N)).Pairwise Nat.Coprime := by
    refine pairwise_coprime ?_ hg
    rw [← hms, List.map_take]
    exact ((List.nodup_append.mp he.ctx.nodup).1).sublist (List.take_sublist _ _)
  have hQ : 0 < modulusProd ms := List.prod_pos fun q hq => by
    obtain ⟨m, hm, rfl⟩ := List.mem_map.mp hq
    exact (hg m hm).prime.pos
  obtain ⟨m0, hm0⟩ := List.exists_mem_of_ne_nil ms hne
  have hQW : modulusProd ms < 2 ^ W := by
    have h1 := hW m0 hm0
    have h2 := (hg m0 hm0).prime.two_le
    have h3 : modulusProd ms * 2 ≤ modulusProd ms * m0.N := Nat.mul_le_mul_left _ h2
    omega
  obtain ⟨y, y1, y2, y3⟩ := repr_ensureCoeff hg hx
  have hpos : (0 : ℤ) < modulusProd ms := by exact_mod_cast hQ
  have hb : ∀ j, 0 ≤ F j % modulusProd ms ∧ F j % modulusProd ms < modulusProd ms := fun j =>
    ⟨Int.emod_nonneg (F j) hpos.ne', Int.emod_lt_of_pos (F j) hpos⟩
  have key := c42_crt hcr (fun m hm => (hg m hm).prime.one_lt) hne hW hi hcop
    (fun j => (F j % modulusProd ms).toNat) (fun j => by have := hb j; omega) (vs := y.coeffs) (by
      refine (forall₂_and_left (P := fun m => m ∈ ms) (fun m hm => hm) y3.2).imp fun m v h3 => ?_
      obtain ⟨hm, h3⟩ := h3
      rw [y2] at h3
      obtain ⟨a1, a2, a3⟩ := h3
      refine ⟨a1, a2, fun i => ?_⟩
      show _ = (((F i % modulusProd ms).toNat : ℕ) : ℤ) % m.N
      rw [a3 i, Int.toNat_of_nonneg (hb i).1]
      refine (Int.emod_emod_of_dvd _ ?_).symm
      exact_mod_cast List.dvd_prod (List.mem_map_of_mem hm))
  have htp := he.ctx.pos
  have htw : e.ctx.t < 2 ^ W := lt_of_le_of_lt ht hQW
  have hp : e.mt.p.modulus = e.ctx.t := by rw [he.mt.good.hN, he.N]
  have hpw : e.mt.p.w = w := he.mt.good.hw
  unfold ffDecodeBgvWithCrt
  rw [if_neg, y1, Outcome.bind_ok, key, Outcome.bind_ok, compositeModulus_eq hQW, hp, Nat.mod_eq_of_lt htw,
    removeErrorOnMsb, if_neg (by omega), Outcome.bind_ok, hpw, List.map_ofFn, List.map_ofFn, ← fromSlots_int he]
  · congr 2
    funext i
    simp only [Function.comp_apply]
    rw [removeError_eq htp ht hQW (hF i), he.N]
    refine Nat.mod_eq_of_lt ?_
    have h1 := Int.emod_lt_of_pos (F i) (show (0 : ℤ) < e.ctx.t by exact_mod_cast htp)
    have h2 := he.ctx.word
    have h3 := Int.emod_nonneg (F i) (show (e.ctx.t : ℤ) ≠ 0 by exact_mod_cast htp.ne')
    omega
  · have h1 := hi.length_eq
    have h2 : (modulusComplements W ms).length = ms.length := by simp [modulusComplements]
    omega

/-- **C50.** Wrong sizes are rejected. -/
theorem c50_rejects (he : GoodEncoder w l e) {msgs : List ℕ} (ms : List Modulus) (b : Bool) :
    (2 ^ l < msgs.length → ffEncodeBgv e msgs ms = .err .invalidArgument ∧
      ffEncodeBfv e msgs ms b = .err .invalidArgument) ∧
    (ffEncodeBgv e [] [] = .err .invalidArgument ∧ ffEncodeBfv e [] [] b = .err .invalidArgument) ∧
    (∀ W x hats hatInvs, ¬ (hats.length = ms.length ∧ hatInvs.length = ms.length) →
      ffDecodeBgvWithCrt W e x ms hats hatInvs = .err .invalidArgument) := by
  obtain ⟨psi, t⟩ := he.mt.tables
  have h15 := t.l15
  refine ⟨fun h => ⟨?_, ?_⟩, ⟨?_, ?_⟩, fun W x hats hatInvs h => ?_⟩
  · unfold ffEncodeBgv shl1
    rw [he.ctx.logN, Int.toNat_natCast, if_pos (by omega), Outcome.bind_ok, if_pos (by omega)]
  · unfold ffEncodeBfv shl1
    rw [he.ctx.logN, Int.toNat_natCast, if_pos (by omega), Outcome.bind_ok, if_pos (by omega)]
  · unfold ffEncodeBgv shl1
    rw [he.ctx.logN, Int.toNat_natCast, if_pos (by omega), Outcome.bind_ok, if_neg (by simp), if_pos (by simp)]
  · unfold ffEncodeBfv shl1
    rw [he.ctx.logN, Int.toNat_natCast, if_pos (by omega), Outcome.bind_ok, if_neg (by simp), if_pos (by simp)]
  · unfold ffDecodeBgvWithCrt
    rw [if_pos (by omega)]

/-- The finite field encoder for `t = 17` and polynomials with four coefficients, over `97 * 193`. -/
theorem exampleEncoder : ∃ e, GoodEncoder 16 2 e ∧ e.ctx.qs.map (·.N) = [97, 193] ∧ e.ctx.t = 17 := by
  obtain ⟨c, mt, _, hc, hq, ht, hm, hN, hmt⟩ := exampleGoodCtxFF
  obtain ⟨e, _, e1, e2, e3⟩ := c50_create hc hmt hm (by rw [hN, ht]) (by norm_num)
  exact ⟨e, e3, by rw [e1, hq], by rw [e1, ht]⟩

/-- Any four field elements survive encoding, and products of slots are products of polynomials. -/
example : ∃ e, GoodEncoder 16 2 e ∧ e.ctx.t = 17 ∧ ∀ msgs : List ℕ, (∀ a ∈ msgs, a < 2 ^ 16) → msgs.length ≤ 4 →
    ∃ x, ffEncodeBgv e msgs e.ctx.qs = .ok x ∧
      ffDecodeBgv e x e.ctx.qs = .ok (msgs.map (· % 17) ++ List.replicate (4 - msgs.length) 0) := by
  obtain ⟨e, he, hq, ht⟩ := exampleEncoder
  obtain ⟨m0, ms, h1, h2, hq⟩ := List.map_eq_cons_iff.mp hq
  obtain ⟨m1, ms, rfl, h3, hq⟩ := List.map_eq_cons_iff.mp hq
  have := List.map_eq_nil_iff.mp hq
  subst this
  refine ⟨e, he, ht, fun msgs hw hn => ?_⟩
  have := c50_roundtrip_bgv he (m0 := m0) (rest := [m1]) (k := 2) (by rw [h1]; rfl)
    (by rw [ht, h2]; norm_num) hw hn (by simp [lsbBound, dropOrder, h2, h3, ht]; norm_num)
  rw [ht] at this
  rw [h1]
  exact this

/-- The same for BFV. -/
theorem exampleEncoderBfv : ∃ e, GoodEncoder 16 2 e ∧ BfvConstants e.ctx e.mt ∧
    e.ctx.qs.map (·.N) = [97, 193] ∧ e.ctx.t = 17 := by
  obtain ⟨c₀, _, h0, _⟩ := exampleGoodCtxFF
  obtain ⟨c, h⟩ := c54_createForBfvFF_total (l := 2) (by norm_num) (by norm_num) (by norm_num)
    (by norm_num) h0 (by decide) (by norm_num)
  obtain ⟨hc, hq, _, ht, mt, hm, hN, hb⟩ := c54_createForBfvFF (l := 2) (by norm_num) (by norm_num)
    (by norm_num) (by norm_num) h (by decide) (by norm_num)
  obtain ⟨e, _, e1, e2, e3⟩ := c50_create hc hb.modT hm (by rw [hN, ht]) (by norm_num)
  exact ⟨e, e3, by rw [e1, e2]; exact hb, by rw [e1, hq], by rw [e1, ht]⟩

/-- Any four field elements survive scaled encoding, noise of up to `500`, and decoding. -/
example : ∃ e, GoodEncoder 16 2 e ∧ e.ctx.t = 17 ∧ ∀ msgs : List ℕ, (∀ a ∈ msgs, a < 2 ^ 16) → msgs.length ≤ 4 →
    ∃ x, ffEncodeBfv e msgs e.ctx.qs true = .ok x ∧ ∀ n E, Represents 2 e.ctx.qs n E → n.ntt = true →
      (∀ j, |E j| ≤ 500) → ∃ y, Rns.add e.ctx.qs x n = .ok y ∧
      ffDecodeBfv exactEstimate e y e.ctx.qs = .ok (msgs.map (· % 17) ++ List.replicate (4 - msgs.length) 0) := by
  obtain ⟨e, he, hb, hq, ht⟩ := exampleEncoderBfv
  have hne : e.ctx.qs ≠ [] := by intro h0; rw [h0] at hq; cases hq
  have hlen : e.ctx.qs.length = 2 := by
    have := congrArg List.length hq
    simpa using this
  have hQ : modulusProd e.ctx.qs = 18721 := by unfold modulusProd; rw [hq]; norm_num
  refine ⟨e, he, ht, fun msgs hw hn => ?_⟩
  obtain ⟨x, x1, x2⟩ := c50_roundtrip_bfv he hb hne hw hn (exactEstimate_within _) (by norm_num)
    (by rw [hlen]; norm_num)
  rw [ht] at x2
  refine ⟨x, x1, fun n E h1 h2 h3 => x2 n E h1 h2 fun j => ?_⟩
  have h5 : |(E j : ℚ)| ≤ 500 := by exact_mod_cast h3 j
  rw [hQ]
  norm_num
  linarith

/-- `DecodeBgvWithCrt` with 32-bit big integers, applied to `X - 9`, whose slots are the odd powers of the
root minus `9`. -/
example : ∃ e hatInvs, GoodEncoder 16 2 e ∧ e.ctx.crtFactors (1 : ℕ) = .ok hatInvs ∧ ∀ x,
    Represents 2 e.ctx.qs x ![-9, 1, 0, 0] → ffDecodeBgvWithCrt 32 e x e.ctx.qs
      (modulusComplements 32 e.ctx.qs) hatInvs =
      .ok (List.ofFn fun i : Fin (2 ^ 2) => (slotsOf (nttRoot 2 e.mt) 2 ![-9, 1, 0, 0] i).val) := by
  obtain ⟨e, he, hq, ht⟩ := exampleEncoder
  have hne : e.ctx.qs ≠ [] := by intro h0; rw [h0] at hq; cases hq
  have hlen : e.ctx.qs.length = 2 := by
    have := congrArg List.length hq
    simpa using this
  have hQ : modulusProd e.ctx.qs = 18721 := by unfold modulusProd; rw [hq]; norm_num
  obtain ⟨f, f1, f2⟩ := he.ctx.inverses.crtFactors 1 (by omega)
  rw [List.take_of_length_le (by omega)] at f2
  refine ⟨e, f, he, f1, fun x hx => c50_decode_crt he (k := 2) (List.take_of_length_le (by omega)) hne hx
    (fun m hm => ?_) f2 (by rw [ht, hQ]; norm_num) fun i => ?_⟩
  · have : m.N ∈ [97, 193] := by rw [← hq]; exact List.mem_map_of_mem hm
    have : m.N ≤ 193 := by simp at this; omega
    rw [hQ]; omega
  · rw [hQ]
    fin_cases i <;> simp

end

end Shell
