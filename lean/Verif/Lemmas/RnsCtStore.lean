import Verif.Spec.RnsCtStore
import Verif.Props.RnsPolyLevelled
import Verif.Lemmas.InPlaceCalls
/-!
# Programs on RNS BGV ciphertexts: single calls
-/

namespace Shell
open Spec Rns Rns.Res RnsCtStore
variable {w l t : ℕ} {S : Fin (2 ^ l) → ℤ}

namespace BgvStore

theorem res_of_value {α : Type} {r : Res α} {y : α} (h : r.value = .ok y) : r = (y, .ok ()) := by
  obtain ⟨z, o⟩ := r
  cases o with
  | ok u => cases h; rfl
  | err e => cases h
  | ub e => cases h

theorem norm1_substPow_le (p : ℕ) (F : Fin (2 ^ l) → ℤ) : norm1 (substPow p F) ≤ norm1 F := by
  unfold norm1 substPow
  calc ∑ i : Fin (2 ^ l), |∑ j : Fin (2 ^ l), if (j * p) % (2 * 2 ^ l) = (i : ℕ) then F j
        else if (j * p) % (2 * 2 ^ l) = i + 2 ^ l then -F j else 0|
      ≤ ∑ i : Fin (2 ^ l), ∑ j : Fin (2 ^ l), |if (j * p) % (2 * 2 ^ l) = (i : ℕ) then F j
        else if (j * p) % (2 * 2 ^ l) = i + 2 ^ l then -F j else 0| :=
        Finset.sum_le_sum fun i _ => Finset.abs_sum_le_sum_abs _ _
    _ = ∑ j : Fin (2 ^ l), ∑ i : Fin (2 ^ l), |if (j * p) % (2 * 2 ^ l) = (i : ℕ) then F j
        else if (j * p) % (2 * 2 ^ l) = i + 2 ^ l then -F j else 0| := Finset.sum_comm
    _ ≤ ∑ j, |F j| := Finset.sum_le_sum fun j _ => by
        have hpos : 0 < 2 ^ l := by positivity
        have hlt : (j * p) % (2 ^ l) < 2 ^ l := Nat.mod_lt _ hpos
        rw [Finset.sum_eq_single (⟨(j * p) % (2 ^ l), hlt⟩ : Fin (2 ^ l))]
        · split_ifs <;> simp
        · intro i _ hi
          have hne : (i : ℕ) ≠ (j * p) % (2 ^ l) := fun h => hi (Fin.ext h)
          have hm : (j * p) % (2 * 2 ^ l) % 2 ^ l = (j * p) % (2 ^ l) := Nat.mod_mod_of_dvd _ ⟨2, by ring⟩
          rw [if_neg, if_neg, abs_zero]
          · intro h; rw [h, Nat.add_mod_right, Nat.mod_eq_of_lt i.2] at hm; exact hne hm
          · intro h; rw [h, Nat.mod_eq_of_lt i.2] at hm; exact hne hm
        · intro h; exact absurd (Finset.mem_univ _) h

/-- The plaintext object `p` is the encoding of the machine's plaintext. -/
structure PtOk (l : ℕ) (c : Rns.Ctx) (t : ℕ) (p : RPoly) (X : IdealBgvPt l t) : Prop where
  pos : 0 < X.level
  le : X.level ≤ c.qs.length
  ntt : p.ntt = true
  repr : ∃ F : Fin (2 ^ l) → ℤ, Represents l (c.qs.take X.level) p F ∧ (∀ j, |(F j : ℚ)| ≤ t / 2) ∧
    ∀ i, (F i : ZMod t) = X.value i

/-- The ciphertext object `r` is an encryption of the machine's ciphertext under the secret `S`. -/
structure CtOk (l : ℕ) (c : Rns.Ctx) (t : ℕ) (S : Fin (2 ^ l) → ℤ) (r : RCt) (X : IdealBgvCt l t) : Prop where
  ms : r.ms = c.qs.take X.level
  power : r.power = X.power
  comps : r.c.length = X.comps
  pos : 0 < X.level
  le : X.level ≤ c.qs.length
  two : 2 ≤ X.comps
  phase : ∃ Φ, Encrypts l S r Φ ∧ (∀ i, (Φ i : ZMod t) = X.value i) ∧ ∀ j, |(Φ j : ℚ)| ≤ X.noise

section
variable {c : Rns.Ctx} {r r' : RCt} {X Y : IdealBgvCt l t} {p : RPoly} {F : IdealBgvPt l t}

theorem CtOk.len (h : CtOk l c t S r X) : r.ms.length = X.level := by
  rw [h.ms, List.length_take]; have := h.le; omega

theorem CtOk.good (hc : GoodCtx w l c) (h : CtOk l c t S r X) : ∀ m ∈ r.ms, GoodModulus w l m := fun m hm =>
  hc.qs m (by rw [h.ms] at hm; exact List.mem_of_mem_take hm)

theorem CtOk.ne (h : CtOk l c t S r X) : r.ms ≠ [] := by
  intro hn
  have := h.len
  rw [hn] at this
  have := h.pos
  simp at *
  omega

theorem CtOk.cne (h : CtOk l c t S r X) : r.c ≠ [] := by
  intro hn
  have := h.comps
  rw [hn] at this
  have := h.two
  simp at *
  omega

theorem CtOk.l15 (hc : GoodCtx w l c) (h : CtOk l c t S r X) : l ≤ 15 := by
  obtain ⟨m, rest, hm⟩ := List.exists_cons_of_ne_nil h.ne
  exact (h.good hc m (by rw [hm]; exact List.mem_cons_self)).l15.2

theorem PtOk.len (h : PtOk l c t p F) : p.coeffs.length = F.level := by
  obtain ⟨_, h1, _⟩ := h.repr
  rw [← h1.len, List.length_take]; have := h.le; omega

/-- The first component. -/
theorem CtOk.first (h : CtOk l c t S r X) : ∃ a as, r.c = a :: as ∧ a.coeffs.length = r.ms.length ∧ a.logN = l := by
  obtain ⟨a, as, ha⟩ := List.exists_cons_of_ne_nil h.cne
  obtain ⟨Φ, ⟨_, Cs, h1, _⟩, _⟩ := h.phase
  unfold Components at h1
  rw [ha] at h1
  cases h1 with
  | cons h1 _ => exact ⟨a, as, ha, h1.2.len.symm, h1.2.1⟩

/-! ### Accepted calls -/

theorem ok_negate (hc : GoodCtx w l c) (h : CtOk l c t S r X) :
    ∃ z, r.negateIn = (z, .ok ()) ∧ CtOk l c t S z { X with value := fun i => -X.value i } := by
  obtain ⟨Φ, h7, h8, h9⟩ := h.phase
  obtain ⟨z, z1, z2, z3, z4⟩ := c53_negate (h.good hc) h7
  refine ⟨z, res_of_value ((RCt.value_negateIn r).trans z1), ⟨z2.1.trans h.ms, z2.2.trans h.power, z3.trans h.comps,
    h.pos, h.le, h.two, _, z4, fun i => ?_, fun j => ?_⟩⟩
  · dsimp only; rw [← h8 i]; simp
  · simpa using h9 j

theorem ok_add (hc : GoodCtx w l c) (h : CtOk l c t S r X) (h' : CtOk l c t S r' Y) (hs : SameKind X Y) :
    ∃ z, r.addIn r' = (z, .ok ()) ∧
      CtOk l c t S z { X with noise := X.noise + Y.noise, value := fun i => X.value i + Y.value i } := by
  obtain ⟨s1, s2, s3⟩ := hs
  obtain ⟨Φ, h7, h8, h9⟩ := h.phase
  obtain ⟨Ψ, k7, k8, k9⟩ := h'.phase
  obtain ⟨z, z1, z2, z3, z4⟩ := c53_add (h.good hc) (by rw [h'.ms, h.ms, s2]) (by rw [h'.power, h.power, s3])
    (by rw [h'.comps, h.comps, s1]) h7 k7
  refine ⟨z, res_of_value ((RCt.value_addIn r r').trans z1), ⟨z2.1.trans h.ms, z2.2.trans h.power, z3.trans h.comps,
    h.pos, h.le, h.two, _, z4, fun i => ?_, fun j => ?_⟩⟩
  · dsimp only; rw [← h8 i, ← k8 i]; simp
  · simp only [Pi.add_apply, Int.cast_add]
    exact (abs_add_le _ _).trans (add_le_add (h9 j) (k9 j))

theorem ok_sub (hc : GoodCtx w l c) (h : CtOk l c t S r X) (h' : CtOk l c t S r' Y) (hs : SameKind X Y) :
    ∃ z, r.subIn r' = (z, .ok ()) ∧
      CtOk l c t S z { X with noise := X.noise + Y.noise, value := fun i => X.value i - Y.value i } := by
  obtain ⟨s1, s2, s3⟩ := hs
  obtain ⟨Φ, h7, h8, h9⟩ := h.phase
  obtain ⟨Ψ, k7, k8, k9⟩ := h'.phase
  obtain ⟨z, z1, z2, z3, z4⟩ := c53_sub (h.good hc) (by rw [h'.ms, h.ms, s2]) (by rw [h'.power, h.power, s3])
    (by rw [h'.comps, h.comps, s1]) h7 k7
  refine ⟨z, res_of_value ((RCt.value_subIn r r').trans z1), ⟨z2.1.trans h.ms, z2.2.trans h.power, z3.trans h.comps,
    h.pos, h.le, h.two, _, z4, fun i => ?_, fun j => ?_⟩⟩
  · dsimp only; rw [← h8 i, ← k8 i]; simp
  · simp only [Pi.sub_apply, Int.cast_sub]
    exact (abs_sub _ _).trans (add_le_add (h9 j) (k9 j))

theorem PtOk.at (h : CtOk l c t S r X) (hp : PtOk l c t p F) (hl : X.level = F.level) :
    ∃ G : Fin (2 ^ l) → ℤ, Represents l r.ms p G ∧ (∀ j, |(G j : ℚ)| ≤ t / 2) ∧ ∀ i, (G i : ZMod t) = F.value i := by
  obtain ⟨G, g1, g2⟩ := hp.repr
  exact ⟨G, by rw [h.ms, hl]; exact g1, g2⟩

theorem ok_addPlain (hc : GoodCtx w l c) (h : CtOk l c t S r X) (hp : PtOk l c t p F) (hl : X.level = F.level) :
    ∃ z, r.addPlainIn p = (z, .ok ()) ∧
      CtOk l c t S z { X with noise := X.noise + t / 2, value := fun i => X.value i + F.value i } := by
  obtain ⟨Φ, h7, h8, h9⟩ := h.phase
  obtain ⟨G, p3, p4, p5⟩ := hp.at h hl
  obtain ⟨z, z1, z2, z3, z4⟩ := c53_addPlain (h.good hc) h.cne hp.ntt p3 h7
  refine ⟨z, res_of_value ((RCt.value_addPlainIn r p).trans z1), ⟨z2.1.trans h.ms, z2.2.trans h.power,
    z3.trans h.comps, h.pos, h.le, h.two, _, z4, fun i => ?_, fun j => ?_⟩⟩
  · dsimp only; rw [← h8 i, ← p5 i]; simp
  · simp only [Pi.add_apply, Int.cast_add]
    exact (abs_add_le _ _).trans (add_le_add (h9 j) (p4 j))

theorem ok_subPlain (hc : GoodCtx w l c) (h : CtOk l c t S r X) (hp : PtOk l c t p F) (hl : X.level = F.level) :
    ∃ z, r.subPlainIn p = (z, .ok ()) ∧
      CtOk l c t S z { X with noise := X.noise + t / 2, value := fun i => X.value i - F.value i } := by
  obtain ⟨Φ, h7, h8, h9⟩ := h.phase
  obtain ⟨G, p3, p4, p5⟩ := hp.at h hl
  obtain ⟨z, z1, z2, z3, z4⟩ := c53_subPlain (h.good hc) h.cne hp.ntt p3 h7
  refine ⟨z, res_of_value ((RCt.value_subPlainIn r p).trans z1), ⟨z2.1.trans h.ms, z2.2.trans h.power,
    z3.trans h.comps, h.pos, h.le, h.two, _, z4, fun i => ?_, fun j => ?_⟩⟩
  · dsimp only; rw [← h8 i, ← p5 i]; simp
  · simp only [Pi.sub_apply, Int.cast_sub]
    exact (abs_sub _ _).trans (add_le_add (h9 j) (p4 j))

theorem ok_absorb (hc : GoodCtx w l c) (h : CtOk l c t S r X) (hp : PtOk l c t p F) (hl : X.level = F.level) :
    ∃ z, r.absorbIn p = (z, .ok ()) ∧
      CtOk l c t S z { X with noise := 2 ^ l * X.noise * (t / 2), value := negMul X.value F.value } := by
  obtain ⟨Φ, h7, h8, h9⟩ := h.phase
  obtain ⟨G, p3, p4, p5⟩ := hp.at h hl
  obtain ⟨z, z1, -, z2, z3, z4⟩ := c53_absorb (h.good hc) hp.ntt p3 h7
  refine ⟨z, res_of_value ((RCt.value_absorbIn r p).trans z1), ⟨z2.1.trans h.ms, z2.2.trans h.power,
    z3.trans h.comps, h.pos, h.le, h.two, _, z4, fun i => ?_, negMul_leq h9 p4⟩⟩
  rw [cast_negMul, funext h8, funext p5]

theorem ok_scale (hc : GoodCtx w l c) (h : CtOk l c t S r X) {a : ℕ} (ha : a < 2 ^ w) :
    ∃ z, r.absorbIntIn a = (z, .ok ()) ∧
      CtOk l c t S z { X with noise := a * X.noise, value := fun i => a * X.value i } := by
  obtain ⟨Φ, h7, h8, h9⟩ := h.phase
  obtain ⟨z, z1, z2, z3, z4⟩ := (c53_absorb_scalar (h.good hc) h7).1 a ha
  refine ⟨z, res_of_value ((RCt.value_absorbIntIn r a).trans z1), ⟨z2.1.trans h.ms, z2.2.trans h.power,
    z3.trans h.comps, h.pos, h.le, h.two, _, z4, fun i => ?_, fun j => ?_⟩⟩
  · dsimp only; rw [← h8 i]; push_cast; rfl
  · rw [Int.cast_mul, Int.cast_natCast, abs_mul, Nat.abs_cast]
    exact mul_le_mul_of_nonneg_left (h9 j) (Nat.cast_nonneg _)

theorem ok_fused (hc : GoodCtx w l c) (h : CtOk l c t S r X) (h' : CtOk l c t S r' Y) (hp : PtOk l c t p F)
    (hs : SameKind X Y) (hl : X.level = F.level) :
    ∃ z, r.fusedAbsorbAddIn r' p = (z, .ok ()) ∧ CtOk l c t S z { X with
      noise := X.noise + 2 ^ l * Y.noise * (t / 2), value := fun i => X.value i + negMul Y.value F.value i } := by
  obtain ⟨s1, s2, s3⟩ := hs
  obtain ⟨Φ, h7, h8, h9⟩ := h.phase
  obtain ⟨Ψ, k7, k8, k9⟩ := h'.phase
  obtain ⟨G, p3, p4, p5⟩ := hp.at h hl
  obtain ⟨z, z1, z2, z3, z4⟩ := c53_fused (h.good hc) (by rw [h'.ms, h.ms, s2]) (by rw [h'.power, h.power, s3])
    (by rw [h'.comps, h.comps, s1]) hp.ntt p3 h7 k7
  refine ⟨z, res_of_value ((RCt.value_fusedAbsorbAddIn r r' p).trans z1), ⟨z2.1.trans h.ms, z2.2.trans h.power,
    z3.trans h.comps, h.pos, h.le, h.two, _, z4, fun i => ?_, fun j => ?_⟩⟩
  · dsimp only
    rw [Pi.add_apply, Int.cast_add, cast_negMul, h8 i, funext k8, funext p5]
  · simp only [Pi.add_apply, Int.cast_add]
    exact (abs_add_le _ _).trans (add_le_add (h9 j) (negMul_leq k9 p4 j))

theorem ok_reduce (hc : GoodCtx w l c) (ht : c.t = t) (h : CtOk l c t S r X) (hl : 1 < X.level) {b : ℚ}
    (hS : ((norm1 S : ℤ) : ℚ) ≤ b) {qs : List ℕ} (hqs : qs = c.qs.map (·.N)) :
    ∃ row z, rd c.primeQInvs (r.ms.length - 1) = .ok row ∧
      r.modReduceBgvIn c.t (row.take (r.ms.length - 1)) = (z, .ok ()) ∧
      CtOk l c t S z { X with
        level := X.level - 1
        noise := (qs.getD (X.level - 1) 1 % t : ℕ) * X.noise / qs.getD (X.level - 1) 1 +
          t / 2 * ∑ j ∈ Finset.range X.comps, b ^ j } := by
  obtain ⟨Φ, h7, h8, h9⟩ := h.phase
  rw [h.len]
  have hlt : X.level - 1 < c.qs.length := by have := h.le; omega
  have hm := List.getElem?_eq_getElem hlt
  obtain ⟨row, r1, r2⟩ := hc.inverses.primeQInvs _ _ hm
  generalize hmm : c.qs[X.level - 1] = m at hm r2
  have hmem : m ∈ c.qs := List.mem_of_getElem? hm
  have hms : r.ms = c.qs.take (X.level - 1) ++ [m] := by
    rw [h.ms]
    conv_lhs => rw [show X.level = X.level - 1 + 1 by omega, List.take_add_one, hm]
    rfl
  have hq : qs.getD (X.level - 1) 1 = m.N := by
    rw [hqs, List.getD_eq_getElem?_getD, List.getElem?_map, hm]; rfl
  have hne : c.qs.take (X.level - 1) ≠ [] := by
    intro hn
    have := congrArg List.length hn
    rw [List.length_take, List.length_nil] at this
    omega
  obtain ⟨z, Ψ, z1, z2, z3, z4, z5, z6, E, z7⟩ := c56_modReduce_bgv (fun a ha => hc.qs a (List.mem_of_mem_take ha))
    (hc.qs m hmem) hne hms r2 c.t hc.pos hc.word h7
  have z6 := z6 (hc.coprime m (List.mem_append_left _ hmem))
  refine ⟨row, z, by unfold rd; rw [r1], res_of_value ((RCt.value_modReduceBgvIn _ _ _).trans z1), ⟨z2,
    z3.trans h.power, z4.trans h.comps, by dsimp only; omega, by dsimp only; omega, h.two, Ψ, z5, fun i => ?_,
    fun j => ?_⟩⟩
  · dsimp only
    rw [← h8 i]
    have := (ZMod.intCast_zmod_eq_zero_iff_dvd _ _).mpr (z6 i)
    rw [ht] at this
    push_cast at this
    exact sub_eq_zero.mp this
  · obtain ⟨e1, e2⟩ := z7 j
    rw [h.comps] at e2
    rw [ht] at e1
    dsimp only
    rw [hq]
    have hN : (0 : ℚ) < m.N := Nat.cast_pos.mpr (hc.qs m hmem).prime.pos
    have ht0 : (0 : ℚ) ≤ t := Nat.cast_nonneg _
    have hS' : ((norm1 (substPow r.power.toNat S) : ℤ) : ℚ) ≤ b :=
      le_trans (by exact_mod_cast norm1_substPow_le r.power.toNat S) hS
    have hE : |(E j : ℚ)| ≤ m.N / 2 * ∑ i ∈ Finset.range X.comps, b ^ i := by
      have e3 : 2 * |(E j : ℚ)| ≤
          m.N * ∑ i ∈ Finset.range X.comps, ((norm1 (substPow r.power.toNat S) : ℤ) : ℚ) ^ i := by exact_mod_cast e2
      have e4 : ∑ i ∈ Finset.range X.comps, ((norm1 (substPow r.power.toNat S) : ℤ) : ℚ) ^ i ≤
          ∑ i ∈ Finset.range X.comps, b ^ i :=
        Finset.sum_le_sum fun i _ => pow_le_pow_left₀ (by exact_mod_cast norm1_nonneg _) hS' i
      have := mul_le_mul_of_nonneg_left e4 hN.le
      linarith
    have e5 : (m.N : ℚ) * Ψ j = (m.N % t : ℕ) * Φ j + t * E j := by
      have := congrArg (Int.cast (R := ℚ)) e1
      simpa only [Int.cast_mul, Int.cast_add, Int.cast_natCast] using this
    have e6 : (Ψ j : ℚ) = ((m.N % t : ℕ) * Φ j + t * E j) / m.N := by
      rw [← e5]; field_simp
    rw [e6, abs_div, abs_of_pos hN, div_le_iff₀ hN]
    refine (abs_add_le _ _).trans ?_
    rw [abs_mul, abs_mul, Nat.abs_cast, Nat.abs_cast]
    have e7 := mul_le_mul_of_nonneg_left (h9 j) (Nat.cast_nonneg (α := ℚ) (m.N % t))
    have e8 := mul_le_mul_of_nonneg_left hE ht0
    refine (add_le_add e7 e8).trans (le_of_eq ?_)
    field_simp

theorem ok_mul (hc : GoodCtx w l c) (h : CtOk l c t S r X) (h' : CtOk l c t S r' Y) (hl : X.level = Y.level)
    (hpw : X.power = Y.power) :
    ∃ z, r.mul r' = .ok z ∧ CtOk l c t S z
      ⟨X.level, X.comps + Y.comps - 1, X.power, 2 ^ l * X.noise * Y.noise, negMul X.value Y.value⟩ := by
  obtain ⟨Φ, h7, h8, h9⟩ := h.phase
  obtain ⟨Ψ, k7, k8, k9⟩ := h'.phase
  obtain ⟨z, z1, z2, z3, z4⟩ := c53_mul (h.good hc) h.ne (by rw [h'.ms, h.ms, hl]) (by rw [h'.power, h.power, hpw])
    h.cne h7 k7
  have := h.two
  have := h'.two
  refine ⟨z, z1, ⟨z2.1.trans h.ms, z2.2.trans h.power, by rw [z3, h.comps, h'.comps], h.pos, h.le,
    by dsimp only; omega, _, z4, fun i => ?_, negMul_leq h9 k9⟩⟩
  rw [cast_negMul, funext h8, funext k8]

theorem ok_substitute (hc : GoodCtx w l c) (h : CtOk l c t S r X) {k : ℕ} (hk : k % 2 = 1) (hk2 : k < 2 * 2 ^ l)
    (hov : (X.power : ℤ) * k < 2 ^ 31) :
    ∃ z, r.substitute k = .ok z ∧ CtOk l c t S z
      { X with power := X.power * k % (2 * 2 ^ l), value := substPow k X.value } := by
  obtain ⟨Φ, h7, h8, h9⟩ := h.phase
  obtain ⟨z, z1, z2, z3, z4, z5⟩ := c56_substitute_partial (h.l15 hc) (h.good hc) h.cne k hk hk2
    (by rw [h.power]; exact hov) h7
  refine ⟨z, z1, ⟨z2.trans h.ms, by rw [z3, h.power]; push_cast; rfl, z4.trans h.comps, h.pos, h.le, h.two, _, z5,
    fun i => ?_, fun j => ?_⟩⟩
  · rw [cast_substPow, funext h8]
  · rcases Expand.substPow_single l k hk Φ j with h0 | ⟨i, h0 | h0⟩
    · rw [h0, Int.cast_zero, abs_zero]; exact (abs_nonneg _).trans (h9 j)
    · rw [h0]; exact h9 i
    · rw [h0, Int.cast_neg, abs_neg]; exact h9 i

theorem ok_relin (hc : GoodCtx w l c) (h : CtOk l c t S r X) (hcm : X.comps ≤ 3) (hpw : X.power = 1) {b : ℚ}
    {key : RRelin} (hk : RelinOk l S t (c.qs.take X.level) b key) :
    ∃ z, key.applyTo r = .ok z ∧ CtOk l c t S z
      { X with comps := 2, noise := X.noise + (X.comps - 2 : ℕ) * b } := by
  obtain ⟨Φ, h7, h8, h9⟩ := h.phase
  obtain ⟨k1, B, Gs, logs, k2, k3, k4⟩ := hk
  have hd := k3.degree
  have h2 := h.two
  have h3 := h.comps
  obtain ⟨z, R, z1, z2, z3, z4, z5, z6⟩ := c52_relin_apply_partial (by rw [k1, ← h.ms]; exact h.good hc) k2 k3
    (h.ms.trans k1.symm) (by rw [h.power, hpw]; rfl) (by omega) (by omega) (Or.inl (by omega)) h7
  refine ⟨z, z1, ⟨z2.trans h.ms, by rw [z3, hpw]; rfl, z4, h.pos, h.le, le_rfl, _, z5, fun i => ?_,
    noise_add h9 (by rw [← h.comps]; exact z6) k4⟩⟩
  rw [← h8 i]; simp

theorem ok_galois (hc : GoodCtx w l c) (h : CtOk l c t S r X) (hcm : X.comps = 2) {p : ℕ} (hpw : X.power = p) {b : ℚ}
    {key : RGalois} (hk : GaloisOk l S t (c.qs.take X.level) b p key) :
    ∃ z, key.applyTo r = .ok z ∧ CtOk l c t S z { X with power := 1, noise := X.noise + b } := by
  obtain ⟨Φ, h7, h8, h9⟩ := h.phase
  obtain ⟨k1, k2, k3, k4, B, Gs, logs, k5, k6, k7⟩ := hk
  obtain ⟨z, R, z1, z2, z3, z4, z5, z6⟩ := c52_galois_apply (by rw [k1, ← h.ms]; exact h.good hc)
    (by rw [k1, ← h.ms]; exact h.ne) k5 k6 (h.ms.trans k1.symm) (by rw [h.power, hpw, k2]) (h.comps.trans hcm) h7
  refine ⟨z, z1, ⟨z2.trans h.ms, z3, z4.trans hcm.symm, h.pos, h.le, h.two, _, z5, fun i => ?_, ?_⟩⟩
  · rw [← h8 i]; simp
  · have := noise_add (F := Φ) (a := X.noise) (k := 1) (R := R) (t := t) h9 (by rw [Nat.cast_one, one_mul]; exact z6) k7
    simpa using this

theorem ok_encode (hc : GoodCtx w l c) (ht : c.t = t) {lev : ℕ} (h0 : 0 < lev) (hle : lev ≤ c.qs.length) {m : List ℕ}
    (hn : m.length ≤ 2 ^ l) :
    ∃ p, (do Rns.toNtt (c.qs.take lev) (← encodeBgv c m (c.qs.take lev)) : Outcome RPoly) = .ok p ∧
      PtOk l c t p ⟨lev, fun i => (m.getD i 0 : ℕ)⟩ := by
  subst ht
  have hne : c.qs.take lev ≠ [] := by
    intro hn
    have := congrArg List.length hn
    rw [List.length_take, List.length_nil] at this
    omega
  obtain ⟨p, p1, p2, p3⟩ := c48_encode hc hne (fun _ => List.mem_of_mem_take) hn
  obtain ⟨q, q1, q2, q3⟩ := repr_toNtt (fun m hm => hc.qs m (List.mem_of_mem_take hm)) p3 p2
  refine ⟨q, by rw [p1, Outcome.bind_ok, q1], ⟨h0, hle, q2, _, q3, fun j => ?_, fun i => ?_⟩⟩
  · have h1 := (balanced_mod hc.pos (m.getD j 0)).2
    have h1 : (2 * |((balanced c.t (m.getD j 0 % c.t) : ℤ) : ℚ)|) ≤ c.t := by exact_mod_cast h1
    linarith
  · have h1 := (balanced_mod hc.pos (m.getD i 0)).1
    have h2 : ((balanced c.t (m.getD i 0 % c.t) : ℤ) : ZMod c.t) =
        ((balanced c.t (m.getD i 0 % c.t) % c.t : ℤ) : ZMod c.t) := by simp
    rw [h2, h1]
    simp

/-! ### Rejected calls -/

theorem check_err (h : CtOk l c t S r X) (h' : CtOk l c t S r' Y) (hs : ¬ SameKind X Y) :
    RCt.check r r' = .err .invalidArgument := by
  unfold RCt.check
  rw [h.comps, h'.comps, h.len, h'.len, h.power, h'.power]
  split_ifs with h1 h2 h3
  · rfl
  · rfl
  · rfl
  · exact absurd ⟨not_not.mp h1, not_not.mp h2, by have := not_not.mp h3; exact_mod_cast this⟩ hs

theorem err_add (h : CtOk l c t S r X) (h' : CtOk l c t S r' Y) (hs : ¬ SameKind X Y) :
    r.addIn r' = (r, .err .invalidArgument) ∧ r.subIn r' = (r, .err .invalidArgument) ∧
      ∀ p, r.fusedAbsorbAddIn r' p = (r, .err .invalidArgument) := by
  unfold RCt.addIn RCt.subIn RCt.fusedAbsorbAddIn
  rw [check_err h h' hs]
  exact ⟨rfl, rfl, fun _ => rfl⟩

theorem err_plain_len (h : CtOk l c t S r X) (hne : r.ms.length ≠ p.coeffs.length) :
    r.addPlainIn p = (r, .err .invalidArgument) ∧ r.subPlainIn p = (r, .err .invalidArgument) ∧
      r.absorbIn p = (r, .err .invalidArgument) := by
  refine ⟨if_pos hne, if_pos hne, ?_⟩
  obtain ⟨a, as, ha, ha', -⟩ := h.first
  have hm : Rns.mulIn r.ms a p = (a, .err .invalidArgument) := if_pos (by omega)
  unfold RCt.absorbIn RCt.onComponents
  rw [ha]
  unfold Res.all
  rw [hm]
  dsimp only
  rw [← ha]

theorem err_plain (h : CtOk l c t S r X) (hp : PtOk l c t p F) (hl : X.level ≠ F.level) :
    r.addPlainIn p = (r, .err .invalidArgument) ∧ r.subPlainIn p = (r, .err .invalidArgument) ∧
      r.absorbIn p = (r, .err .invalidArgument) := err_plain_len h (by rw [h.len, hp.len]; exact hl)

theorem err_fused_len (h : CtOk l c t S r X) (h' : CtOk l c t S r' Y)
    (hs : ¬ (SameKind X Y ∧ r.ms.length = p.coeffs.length)) : r.fusedAbsorbAddIn r' p = (r, .err .invalidArgument) := by
  by_cases hk : SameKind X Y
  · have hne : r.ms.length ≠ p.coeffs.length := fun hl => hs ⟨hk, hl⟩
    obtain ⟨a, as, ha, ha', -⟩ := h.first
    obtain ⟨b, bs, hb, hb', -⟩ := h'.first
    have hlen := hk.2.1
    have hm : Rns.fusedMulAddIn r.ms a b p = (a, .err .invalidArgument) := by
      unfold Rns.fusedMulAddIn
      rw [if_neg (by rw [hb', ha', h.len, h'.len, hlen]; simp), if_pos (by omega)]
      rfl
    unfold RCt.fusedAbsorbAddIn
    rw [Shell.check_ok (by rw [h'.ms, h.ms, hk.2.1]) (by rw [h'.power, h.power, hk.2.2]) (by rw [h'.comps, h.comps, hk.1])]
    unfold withTemp RCt.onComponents
    dsimp only
    rw [ha, hb]
    unfold Res.each
    rw [hm]
    dsimp only
    rw [← ha]
  · exact (err_add h h' hk).2.2 p

theorem err_fused (h : CtOk l c t S r X) (h' : CtOk l c t S r' Y) (hp : PtOk l c t p F)
    (hs : ¬ (SameKind X Y ∧ X.level = F.level)) : r.fusedAbsorbAddIn r' p = (r, .err .invalidArgument) :=
  err_fused_len h h' (by rw [h.len, hp.len]; exact hs)

theorem err_reduce (h : CtOk l c t S r X) (hl : X.level ≤ 1) (t' : ℕ) (qlInv : List ℕ) :
    r.modReduceBgvIn t' qlInv = (r, .err .failedPrecondition) := if_pos (by rw [h.len]; exact hl)

theorem err_mul (h : CtOk l c t S r X) (h' : CtOk l c t S r' Y) (hs : ¬ (X.level = Y.level ∧ X.power = Y.power)) :
    r.mul r' = .err .invalidArgument := by
  unfold RCt.mul
  rw [h.len, h'.len, h.power, h'.power]
  split_ifs with h1 h2
  · rfl
  · rfl
  · exact absurd ⟨not_not.mp h1, by have := not_not.mp h2; exact_mod_cast this⟩ hs

theorem err_substitute (hc : GoodCtx w l c) (h : CtOk l c t S r X) {k : ℤ} (hk : ¬ (0 ≤ k ∧ k % 2 = 1 ∧ k < 2 * 2 ^ l)) :
    r.substitute k = .err .invalidArgument := by
  obtain ⟨a, as, ha, ha', ha2⟩ := h.first
  have hl := h.l15 hc
  have hlt : 2 ^ l ≤ 2 ^ 15 := Nat.pow_le_pow_right (by norm_num) hl
  have hm : Rns.substitute r.ms a k = .err .invalidArgument := by
    unfold Rns.substitute shl1
    rw [ha2, if_pos (by omega), Outcome.bind_ok]
    by_cases h1 : k < 0 ∨ k.tmod 2 = 0
    · rw [if_pos h1]
    · rw [if_neg h1, if_neg (by omega), if_pos]
      push_cast
      by_contra h2
      refine hk ⟨by omega, ?_, by omega⟩
      have h3 : k.tmod 2 = k % 2 := Int.tmod_eq_emod_of_nonneg (by omega)
      omega
  unfold RCt.substitute
  rw [ha, List.mapM_cons, hm]
  rfl

theorem err_relin (h : CtOk l c t S r X) {lev : ℕ} (hle : lev ≤ c.qs.length) {b : ℚ} {key : RRelin}
    (hk : RelinOk l S t (c.qs.take lev) b key) (hd : key.degree = 2)
    (hs : ¬ (X.comps ≤ 3 ∧ X.level = lev ∧ X.power = 1)) : key.applyTo r = .err .invalidArgument := by
  obtain ⟨k1, -⟩ := hk
  have hkl : key.ms.length = lev := by rw [k1, List.length_take]; omega
  refine c52_relin_rejects key r ?_
  rw [h.comps, h.len, h.power, hkl, hd]
  by_contra hcon
  push Not at hcon
  exact hs ⟨by omega, hcon.2.1, by exact_mod_cast hcon.2.2.1⟩

theorem err_galois (h : CtOk l c t S r X) {lev p : ℕ} (hle : lev ≤ c.qs.length) {b : ℚ} {key : RGalois}
    (hk : GaloisOk l S t (c.qs.take lev) b p key)
    (hs : ¬ (X.comps = 2 ∧ X.level = lev ∧ X.power = p)) : key.applyTo r = .err .invalidArgument := by
  obtain ⟨k1, k2, -⟩ := hk
  have hkl : key.ms.length = lev := by rw [k1, List.length_take]; omega
  refine c52_galois_rejects key r ?_
  rw [h.comps, h.len, h.power, hkl, k2]
  by_contra hcon
  push Not at hcon
  exact hs ⟨hcon.2.2, hcon.2.1, by exact_mod_cast hcon.1⟩

end
end BgvStore
end Shell
