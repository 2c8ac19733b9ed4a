import Verif.Spec.RnsBfvStore
import Verif.Lemmas.RnsCtStore
import Verif.Props.RnsBfvPolyLevelled
/-!
# Programs on RNS BFV ciphertexts: single calls
-/

namespace Shell
open Spec Rns Rns.Res RnsCtStore
variable {w l t : ℕ} {S : Fin (2 ^ l) → ℤ} {ε : ℚ} {est : Estimate}

namespace BfvStore
open BgvStore (res_of_value norm1_substPow_le)

/-- The plaintext object `p` is the encoding of the machine's plaintext. -/
structure PtOk (l : ℕ) (c : Rns.Ctx) (t : ℕ) (p : RPoly) (X : IdealBfvPt l t) : Prop where
  pos : 0 < X.level
  le : X.level ≤ c.qs.length
  ntt : p.ntt = true
  repr : ∃ F N : Fin (2 ^ l) → ℤ, Represents l (c.qs.take X.level) p F ∧
    BfvNear t (modulusProd (c.qs.take X.level)) F N X.noise ∧ (∀ i, (N i : ZMod t) = X.seen i) ∧
    (X.scaled = false → (∀ j, |(F j : ℚ)| ≤ t) ∧ ∀ i, (F i : ZMod t) = X.value i)

/-- The ciphertext object `r` is an encryption of the machine's ciphertext under the secret `S`. -/
structure CtOk (l : ℕ) (c : Rns.Ctx) (t : ℕ) (S : Fin (2 ^ l) → ℤ) (r : RCt) (X : IdealBgvCt l t) : Prop where
  ms : r.ms = c.qs.take X.level
  power : r.power = X.power
  comps : r.c.length = X.comps
  pos : 0 < X.level
  le : X.level ≤ c.qs.length
  two : 2 ≤ X.comps
  phase : ∃ M, BfvEncrypts l S t r M X.noise ∧ ∀ i, (M i : ZMod t) = X.value i

section
variable {c : Rns.Ctx} {r r' : RCt} {X Y : IdealBgvCt l t} {p : RPoly} {F : IdealBfvPt l t}

/-- Its form, level, components and power are those of a ciphertext of the other scheme. -/
theorem CtOk.form (h : CtOk l c t S r X) :
    ∃ b val, BgvStore.CtOk l c t S r { X with noise := b, value := val } := by
  obtain ⟨M, ⟨Φ, h7, -⟩, -⟩ := h.phase
  refine ⟨∑ j, |(Φ j : ℚ)|, fun i => (Φ i : ZMod t), ⟨h.ms, h.power, h.comps, h.pos, h.le, h.two, Φ, h7, fun _ => rfl,
    fun j => ?_⟩⟩
  exact Finset.single_le_sum (f := fun j => |(Φ j : ℚ)|) (fun i _ => abs_nonneg _) (Finset.mem_univ j)

theorem CtOk.len (h : CtOk l c t S r X) : r.ms.length = X.level := by
  obtain ⟨_, _, hf⟩ := h.form; exact hf.len

theorem CtOk.good (hc : GoodCtx w l c) (h : CtOk l c t S r X) : ∀ m ∈ r.ms, GoodModulus w l m := by
  obtain ⟨_, _, hf⟩ := h.form; exact hf.good hc

theorem CtOk.ne (h : CtOk l c t S r X) : r.ms ≠ [] := by
  obtain ⟨_, _, hf⟩ := h.form; exact hf.ne

theorem CtOk.cne (h : CtOk l c t S r X) : r.c ≠ [] := by
  obtain ⟨_, _, hf⟩ := h.form; exact hf.cne

theorem CtOk.l15 (hc : GoodCtx w l c) (h : CtOk l c t S r X) : l ≤ 15 := by
  obtain ⟨_, _, hf⟩ := h.form; exact hf.l15 hc

theorem CtOk.first (h : CtOk l c t S r X) : ∃ a as, r.c = a :: as ∧ a.coeffs.length = r.ms.length ∧ a.logN = l := by
  obtain ⟨_, _, hf⟩ := h.form; exact hf.first

theorem CtOk.noise (h : CtOk l c t S r X) : 0 ≤ X.noise := by
  obtain ⟨M, ⟨Φ, -, h7⟩, -⟩ := h.phase; exact h7.nonneg

theorem PtOk.len (h : PtOk l c t p F) : p.coeffs.length = F.level := by
  obtain ⟨_, _, h1, _⟩ := h.repr
  rw [← h1.len, List.length_take]; have := h.le; omega

theorem growth_le {P : VParams} (hS : ((norm1 S : ℤ) : ℚ) ≤ P.secret) (k d : ℕ) :
    keyGrowth (substPow k S) d ≤ P.growth d :=
  keyGrowth_le (le_trans (by exact_mod_cast norm1_substPow_le k S) hS)

/-! ### Accepted calls -/

theorem ok_negate (hc : GoodCtx w l c) (h : CtOk l c t S r X) :
    ∃ z, r.negateIn = (z, .ok ()) ∧ CtOk l c t S z { X with value := fun i => -X.value i } := by
  obtain ⟨M, ⟨Φ, h7, h9⟩, h8⟩ := h.phase
  obtain ⟨z, z1, z2, z3, z4⟩ := c53_negate (h.good hc) h7
  refine ⟨z, res_of_value ((RCt.value_negateIn r).trans z1), ⟨z2.1.trans h.ms, z2.2.trans h.power, z3.trans h.comps,
    h.pos, h.le, h.two, -M, ⟨_, z4, ?_⟩, fun i => ?_⟩⟩
  · rw [z2.1]; exact h9.neg
  · dsimp only; rw [← h8 i]; simp

theorem ok_add (hc : GoodCtx w l c) (h : CtOk l c t S r X) (h' : CtOk l c t S r' Y) (hs : SameKind X Y) :
    ∃ z, r.addIn r' = (z, .ok ()) ∧
      CtOk l c t S z { X with noise := X.noise + Y.noise, value := fun i => X.value i + Y.value i } := by
  obtain ⟨s1, s2, s3⟩ := hs
  obtain ⟨M, ⟨Φ, h7, h9⟩, h8⟩ := h.phase
  obtain ⟨N, ⟨Ψ, k7, k9⟩, k8⟩ := h'.phase
  have hms : r'.ms = r.ms := by rw [h'.ms, h.ms, s2]
  obtain ⟨z, z1, z2, z3, z4⟩ := c53_add (h.good hc) hms (by rw [h'.power, h.power, s3])
    (by rw [h'.comps, h.comps, s1]) h7 k7
  refine ⟨z, res_of_value ((RCt.value_addIn r r').trans z1), ⟨z2.1.trans h.ms, z2.2.trans h.power, z3.trans h.comps,
    h.pos, h.le, h.two, M + N, ⟨_, z4, ?_⟩, fun i => ?_⟩⟩
  · rw [z2.1]; rw [hms] at k9; exact h9.add k9
  · dsimp only; rw [← h8 i, ← k8 i]; simp

theorem ok_sub (hc : GoodCtx w l c) (h : CtOk l c t S r X) (h' : CtOk l c t S r' Y) (hs : SameKind X Y) :
    ∃ z, r.subIn r' = (z, .ok ()) ∧
      CtOk l c t S z { X with noise := X.noise + Y.noise, value := fun i => X.value i - Y.value i } := by
  obtain ⟨s1, s2, s3⟩ := hs
  obtain ⟨M, ⟨Φ, h7, h9⟩, h8⟩ := h.phase
  obtain ⟨N, ⟨Ψ, k7, k9⟩, k8⟩ := h'.phase
  have hms : r'.ms = r.ms := by rw [h'.ms, h.ms, s2]
  obtain ⟨z, z1, z2, z3, z4⟩ := c53_sub (h.good hc) hms (by rw [h'.power, h.power, s3])
    (by rw [h'.comps, h.comps, s1]) h7 k7
  refine ⟨z, res_of_value ((RCt.value_subIn r r').trans z1), ⟨z2.1.trans h.ms, z2.2.trans h.power, z3.trans h.comps,
    h.pos, h.le, h.two, M - N, ⟨_, z4, ?_⟩, fun i => ?_⟩⟩
  · rw [z2.1]; rw [hms] at k9; exact h9.sub k9
  · dsimp only; rw [← h8 i, ← k8 i]; simp

theorem PtOk.at (h : CtOk l c t S r X) (hp : PtOk l c t p F) (hl : X.level = F.level) :
    ∃ G N : Fin (2 ^ l) → ℤ, Represents l r.ms p G ∧ BfvNear t (modulusProd r.ms) G N F.noise ∧
      (∀ i, (N i : ZMod t) = F.seen i) ∧
      (F.scaled = false → (∀ j, |(G j : ℚ)| ≤ t) ∧ ∀ i, (G i : ZMod t) = F.value i) := by
  obtain ⟨G, N, g1, g2⟩ := hp.repr
  rw [← hl, ← h.ms] at g1 g2
  exact ⟨G, N, g1, g2⟩

theorem ok_addPlain (hc : GoodCtx w l c) (h : CtOk l c t S r X) (hp : PtOk l c t p F) (hl : X.level = F.level) :
    ∃ z, r.addPlainIn p = (z, .ok ()) ∧
      CtOk l c t S z { X with noise := X.noise + F.noise, value := fun i => X.value i + F.seen i } := by
  obtain ⟨M, ⟨Φ, h7, h9⟩, h8⟩ := h.phase
  obtain ⟨G, N, p3, p4, p5, -⟩ := hp.at h hl
  obtain ⟨z, z1, z2, z3, z4⟩ := c53_addPlain (h.good hc) h.cne hp.ntt p3 h7
  refine ⟨z, res_of_value ((RCt.value_addPlainIn r p).trans z1), ⟨z2.1.trans h.ms, z2.2.trans h.power,
    z3.trans h.comps, h.pos, h.le, h.two, M + N, ⟨_, z4, ?_⟩, fun i => ?_⟩⟩
  · rw [z2.1]; exact h9.add p4
  · dsimp only; rw [← h8 i, ← p5 i]; simp

theorem ok_subPlain (hc : GoodCtx w l c) (h : CtOk l c t S r X) (hp : PtOk l c t p F) (hl : X.level = F.level) :
    ∃ z, r.subPlainIn p = (z, .ok ()) ∧
      CtOk l c t S z { X with noise := X.noise + F.noise, value := fun i => X.value i - F.seen i } := by
  obtain ⟨M, ⟨Φ, h7, h9⟩, h8⟩ := h.phase
  obtain ⟨G, N, p3, p4, p5, -⟩ := hp.at h hl
  obtain ⟨z, z1, z2, z3, z4⟩ := c53_subPlain (h.good hc) h.cne hp.ntt p3 h7
  refine ⟨z, res_of_value ((RCt.value_subPlainIn r p).trans z1), ⟨z2.1.trans h.ms, z2.2.trans h.power,
    z3.trans h.comps, h.pos, h.le, h.two, M - N, ⟨_, z4, ?_⟩, fun i => ?_⟩⟩
  · rw [z2.1]; exact h9.sub p4
  · dsimp only; rw [← h8 i, ← p5 i]; simp

variable {P : VParams}

theorem ok_absorb (hc : GoodCtx w l c) (ht : c.t = t) (hpr : ProductOk w ε est c) (hPl : P.l = l) (hPt : P.t = t)
    (hPq : P.qs = c.qs.map (·.N)) (hPp : P.ps = c.ps.map (·.N)) (hPh : P.h = 1 / 2 + ε)
    (hS : ((norm1 S : ℤ) : ℚ) ≤ P.secret) (h : CtOk l c t S r X) (hp : PtOk l c t p F) (hlx : X.level = c.qs.length)
    (hl : X.level = F.level) :
    ∃ z, RCt.absorbBfvIn est c r p = (z, .ok ()) ∧ CtOk l c t S z { X with
      noise := P.product (P.growth X.comps) 1 (P.growth X.comps) X.noise F.noise
      value := negMul X.value F.seen } := by
  subst ht
  obtain ⟨M, h7, h8⟩ := h.phase
  obtain ⟨G, N, p3, p4, p5, -⟩ := hp.at h hl
  have hx : r.ms = c.qs := by rw [h.ms, hlx, List.take_length]
  rw [hx] at p3 p4
  obtain ⟨z, z1, z2, z3, Φ, z4, z5⟩ := c57_absorb hc (by rw [← hx]; exact h.ne) hpr.aux hpr.est hpr.half hpr.main_lt
    hpr.aux_lt hx hp.ntt p3 h7 p4
  refine ⟨z, res_of_value ((RCt.value_absorbBfvIn est c r p).trans z1), ⟨z2.1.trans h.ms, z2.2.trans h.power,
    z3.trans h.comps, h.pos, h.le, h.two, negMul M N, ⟨Φ, z4, z5.mono ?_⟩, fun i => ?_⟩⟩
  · dsimp only
    unfold VParams.product
    rw [h.comps, hPl, hPt, hPh, hPq, hPp]
    exact bfvMulNoise_mono (by have := hpr.nonneg; linarith) (growth_le hS _ _) le_rfl (growth_le hS _ _)
      keyGrowth_nonneg zero_le_one h.noise p4.nonneg
  · rw [cast_negMul, funext h8, funext p5]

theorem ok_absorbSimple (hc : GoodCtx w l c) (h : CtOk l c t S r X) (hp : PtOk l c t p F) (hf : F.scaled = false)
    (hl : X.level = F.level) :
    ∃ z, r.absorbSimpleIn p = (z, .ok ()) ∧
      CtOk l c t S z { X with noise := 2 ^ l * X.noise * t, value := negMul X.value F.value } := by
  obtain ⟨M, ⟨Φ, h7, h9⟩, h8⟩ := h.phase
  obtain ⟨G, N, p3, -, -, p6⟩ := hp.at h hl
  obtain ⟨p6, p7⟩ := p6 hf
  obtain ⟨z, -, z1, z2, z3, z4⟩ := c53_absorb (h.good hc) hp.ntt p3 h7
  refine ⟨z, res_of_value ((RCt.value_absorbSimpleIn r p).trans z1), ⟨z2.1.trans h.ms, z2.2.trans h.power,
    z3.trans h.comps, h.pos, h.le, h.two, negMul M G, ⟨_, z4, ?_⟩, fun i => ?_⟩⟩
  · rw [z2.1]; exact h9.mul p6
  · rw [cast_negMul, funext h8, funext p7]

theorem ok_scale (hc : GoodCtx w l c) (h : CtOk l c t S r X) {a : ℕ} (ha : a < 2 ^ w) :
    ∃ z, r.absorbIntIn a = (z, .ok ()) ∧
      CtOk l c t S z { X with noise := a * X.noise, value := fun i => a * X.value i } := by
  obtain ⟨M, ⟨Φ, h7, h9⟩, h8⟩ := h.phase
  obtain ⟨z, z1, z2, z3, z4⟩ := (c53_absorb_scalar (h.good hc) h7).1 a ha
  refine ⟨z, res_of_value ((RCt.value_absorbIntIn r a).trans z1), ⟨z2.1.trans h.ms, z2.2.trans h.power,
    z3.trans h.comps, h.pos, h.le, h.two, fun j => (a : ℤ) * M j, ⟨_, z4, fun j => ?_⟩, fun i => ?_⟩⟩
  · rw [z2.1]
    have e1 : (t : ℚ) * (((a : ℤ) * Φ j : ℤ) : ℚ) - (modulusProd r.ms : ℚ) * (((a : ℤ) * M j : ℤ) : ℚ) =
        a * ((t : ℚ) * Φ j - modulusProd r.ms * M j) := by push_cast; ring
    rw [e1, abs_mul, Nat.abs_cast]
    exact mul_le_mul_of_nonneg_left (h9 j) (Nat.cast_nonneg _)
  · dsimp only; rw [← h8 i]; push_cast; rfl

theorem ok_fused (hc : GoodCtx w l c) (h : CtOk l c t S r X) (h' : CtOk l c t S r' Y) (hp : PtOk l c t p F)
    (hf : F.scaled = false) (hs : SameKind X Y) (hl : X.level = F.level) :
    ∃ z, r.fusedAbsorbAddIn r' p = (z, .ok ()) ∧ CtOk l c t S z { X with
      noise := X.noise + 2 ^ l * Y.noise * t, value := fun i => X.value i + negMul Y.value F.value i } := by
  obtain ⟨s1, s2, s3⟩ := hs
  obtain ⟨M, ⟨Φ, h7, h9⟩, h8⟩ := h.phase
  obtain ⟨N, ⟨Ψ, k7, k9⟩, k8⟩ := h'.phase
  obtain ⟨G, -, p3, -, -, p6⟩ := hp.at h hl
  obtain ⟨p6, p7⟩ := p6 hf
  have hms : r'.ms = r.ms := by rw [h'.ms, h.ms, s2]
  obtain ⟨z, z1, z2, z3, z4⟩ := c53_fused (h.good hc) hms (by rw [h'.power, h.power, s3])
    (by rw [h'.comps, h.comps, s1]) hp.ntt p3 h7 k7
  refine ⟨z, res_of_value ((RCt.value_fusedAbsorbAddIn r r' p).trans z1), ⟨z2.1.trans h.ms, z2.2.trans h.power,
    z3.trans h.comps, h.pos, h.le, h.two, M + negMul N G, ⟨_, z4, ?_⟩, fun i => ?_⟩⟩
  · rw [z2.1]; rw [hms] at k9; exact h9.add (k9.mul p6)
  · dsimp only
    rw [Pi.add_apply, Int.cast_add, cast_negMul, h8 i, funext k8, funext p7]

theorem ok_reduce (hc : GoodCtx w l c) (ht : c.t = t) (hPq : P.qs = c.qs.map (·.N))
    (hS : ((norm1 S : ℤ) : ℚ) ≤ P.secret) (h : CtOk l c t S r X) (hl : 1 < X.level) :
    ∃ z, RCt.modReduceBfvIn c r = (z, .ok ()) ∧ CtOk l c t S z { X with
      level := X.level - 1, noise := X.noise / P.qs.getD (X.level - 1) 1 + t / 2 * P.growth X.comps } := by
  subst ht
  obtain ⟨M, ⟨Φ, h7, h9⟩, h8⟩ := h.phase
  have hlt : X.level - 1 < c.qs.length := by have := h.le; omega
  have hm := List.getElem?_eq_getElem hlt
  generalize hmm : c.qs[X.level - 1] = m at hm
  have hmem : m ∈ c.qs := List.mem_of_getElem? hm
  have hms : r.ms = c.qs.take (X.level - 1) ++ [m] := by
    rw [h.ms]
    conv_lhs => rw [show X.level = X.level - 1 + 1 by omega, List.take_add_one, hm]
    rfl
  have hq : P.qs.getD (X.level - 1) 1 = m.N := by
    rw [hPq, List.getD_eq_getElem?_getD, List.getElem?_map, hm]; rfl
  have hne : c.qs.take (X.level - 1) ≠ [] := by
    intro hn
    have := congrArg List.length hn
    rw [List.length_take, List.length_nil] at this
    omega
  obtain ⟨z, Ψ, z1, z2, z3, z4, z5, E, z7⟩ := c56_modReduce_bfv hc hne hms
    (by rw [← hms, h.ms]; exact List.take_prefix _ _) h7
  refine ⟨z, res_of_value ((RCt.value_modReduceBfvIn c r).trans z1), ⟨z2, z3.trans h.power, z4.trans h.comps,
    by dsimp only; omega, by dsimp only; omega, h.two, M, ⟨Ψ, z5, fun j => ?_⟩, h8⟩⟩
  obtain ⟨e1, e2⟩ := z7 j
  rw [h.comps] at e2
  dsimp only
  rw [hq, z2]
  have hN : (0 : ℚ) < m.N := Nat.cast_pos.mpr (hc.qs m hmem).prime.pos
  have ht : (0 : ℚ) ≤ c.t := Nat.cast_nonneg _
  have hS' : ((norm1 (substPow r.power.toNat S) : ℤ) : ℚ) ≤ P.secret :=
    le_trans (by exact_mod_cast norm1_substPow_le r.power.toNat S) hS
  have hE : |(E j : ℚ)| ≤ m.N / 2 * P.growth X.comps := by
    have e3 : 2 * |(E j : ℚ)| ≤
        m.N * ∑ i ∈ Finset.range X.comps, ((norm1 (substPow r.power.toNat S) : ℤ) : ℚ) ^ i := by exact_mod_cast e2
    have e4 : ∑ i ∈ Finset.range X.comps, ((norm1 (substPow r.power.toNat S) : ℤ) : ℚ) ^ i ≤ P.growth X.comps :=
      Finset.sum_le_sum fun i _ => pow_le_pow_left₀ (by exact_mod_cast norm1_nonneg _) hS' i
    have := mul_le_mul_of_nonneg_left e4 hN.le
    linarith
  have e5 : (m.N : ℚ) * Ψ j = Φ j - E j := by exact_mod_cast e1
  have hprod : (modulusProd r.ms : ℚ) = modulusProd (c.qs.take (X.level - 1)) * m.N := by
    rw [hms]
    unfold modulusProd
    simp
  have e6 : (m.N : ℚ) * ((c.t : ℚ) * Ψ j - modulusProd (c.qs.take (X.level - 1)) * M j) =
      ((c.t : ℚ) * Φ j - modulusProd r.ms * M j) - c.t * E j := by
    rw [hprod]
    linear_combination (c.t : ℚ) * e5
  have e7 : (m.N : ℚ) * |(c.t : ℚ) * Ψ j - modulusProd (c.qs.take (X.level - 1)) * M j| ≤
      X.noise + c.t * (m.N / 2 * P.growth X.comps) := by
    rw [← abs_of_pos hN, ← abs_mul, abs_of_pos hN, e6]
    refine (abs_sub _ _).trans (add_le_add (h9 j) ?_)
    rw [abs_mul, Nat.abs_cast]
    exact mul_le_mul_of_nonneg_left hE ht
  have e8 : X.noise / m.N + c.t / 2 * P.growth X.comps =
      (X.noise + c.t * (m.N / 2 * P.growth X.comps)) / m.N := by
    field_simp
  rw [e8, le_div_iff₀ hN, mul_comm]
  exact e7

theorem ok_mul (hc : GoodCtx w l c) (ht : c.t = t) (hpr : ProductOk w ε est c) (hPl : P.l = l) (hPt : P.t = t)
    (hPq : P.qs = c.qs.map (·.N)) (hPp : P.ps = c.ps.map (·.N)) (hPh : P.h = 1 / 2 + ε)
    (hS : ((norm1 S : ℤ) : ℚ) ≤ P.secret) (h : CtOk l c t S r X) (h' : CtOk l c t S r' Y) (hlx : X.level = c.qs.length)
    (hl : X.level = Y.level) (hpw : X.power = Y.power) :
    ∃ z, RCt.mulBfv est c r r' = .ok z ∧ CtOk l c t S z ⟨X.level, X.comps + Y.comps - 1, X.power,
      P.product (P.growth X.comps) (P.growth Y.comps) (P.growth (X.comps + Y.comps - 1)) X.noise Y.noise,
      negMul X.value Y.value⟩ := by
  subst ht
  obtain ⟨M, h7, h8⟩ := h.phase
  obtain ⟨N, k7, k8⟩ := h'.phase
  have hx : r.ms = c.qs := by rw [h.ms, hlx, List.take_length]
  have hy : r'.ms = c.qs := by rw [h'.ms, ← hl, hlx, List.take_length]
  obtain ⟨z, z1, z2, z3, Φ, z4, z5⟩ := c57_mul hc (by rw [← hx]; exact h.ne) hpr.aux hpr.est hpr.half hpr.main_lt
    hpr.aux_lt hx hy (by rw [h'.power, h.power, hpw]) h.cne h7 k7
  have := h.two
  have := h'.two
  refine ⟨z, z1, ⟨z2.1.trans h.ms, z2.2.trans h.power, by rw [z3, h.comps, h'.comps], h.pos, h.le,
    by dsimp only; omega, negMul M N, ⟨Φ, z4, z5.mono ?_⟩, fun i => ?_⟩⟩
  · dsimp only
    unfold VParams.product
    rw [h.comps, h'.comps, hPl, hPt, hPh, hPq, hPp]
    exact bfvMulNoise_mono (by have := hpr.nonneg; linarith) (growth_le hS _ _) (growth_le hS _ _) (growth_le hS _ _)
      keyGrowth_nonneg keyGrowth_nonneg h.noise h'.noise
  · rw [cast_negMul, funext h8, funext k8]

theorem near_substPow {Q : ℕ} {Φ M : Fin (2 ^ l) → ℤ} {b : ℚ} {k : ℕ} (hk : k % 2 = 1) (h : BfvNear t Q Φ M b) :
    BfvNear t Q (substPow k Φ) (substPow k M) b := by
  have e1 := substPow_lin l k (t : ℤ) (-(Q : ℤ)) Φ M
  intro j
  have e2 := congrFun e1 j
  have e3 : (t : ℚ) * (substPow k Φ j : ℤ) - Q * (substPow k M j : ℤ) =
      ((substPow k (fun i => (t : ℤ) * Φ i + -(Q : ℤ) * M i) j : ℤ) : ℚ) := by
    rw [e2]; push_cast; ring
  have h' : ∀ i, |(((t : ℤ) * Φ i + -(Q : ℤ) * M i : ℤ) : ℚ)| ≤ b := fun i => by
    have := h i
    push_cast
    convert this using 2
    ring
  rw [e3]
  rcases Expand.substPow_single l k hk (fun i => (t : ℤ) * Φ i + -(Q : ℤ) * M i) j with h0 | ⟨i, h0 | h0⟩
  · rw [h0, Int.cast_zero, abs_zero]; exact (abs_nonneg _).trans (h j)
  · rw [h0]; exact h' i
  · rw [h0, Int.cast_neg, abs_neg]; exact h' i

theorem ok_substitute (hc : GoodCtx w l c) (h : CtOk l c t S r X) {k : ℕ} (hk : k % 2 = 1) (hk2 : k < 2 * 2 ^ l)
    (hov : (X.power : ℤ) * k < 2 ^ 31) :
    ∃ z, r.substitute k = .ok z ∧ CtOk l c t S z
      { X with power := X.power * k % (2 * 2 ^ l), value := substPow k X.value } := by
  obtain ⟨M, ⟨Φ, h7, h9⟩, h8⟩ := h.phase
  obtain ⟨z, z1, z2, z3, z4, z5⟩ := c56_substitute_partial (h.l15 hc) (h.good hc) h.cne k hk hk2
    (by rw [h.power]; exact hov) h7
  refine ⟨z, z1, ⟨z2.trans h.ms, by rw [z3, h.power]; push_cast; rfl, z4.trans h.comps, h.pos, h.le, h.two,
    substPow k M, ⟨_, z5, ?_⟩, fun i => ?_⟩⟩
  · rw [z2]; exact near_substPow hk h9
  · rw [cast_substPow, funext h8]

theorem ok_relin (hc : GoodCtx w l c) (h : CtOk l c t S r X) (hcm : X.comps ≤ 3) (hpw : X.power = 1) {b : ℚ}
    {key : RRelin} (hk : RelinOk l S 1 (c.qs.take X.level) b key) :
    ∃ z, key.applyTo r = .ok z ∧ CtOk l c t S z
      { X with comps := 2, noise := X.noise + (X.comps - 2 : ℕ) * (t * b) } := by
  obtain ⟨M, ⟨Φ, h7, h9⟩, h8⟩ := h.phase
  obtain ⟨k1, B, Gs, logs, k2, k3, k4⟩ := hk
  have hd := k3.degree
  have h2 := h.two
  have h3 := h.comps
  obtain ⟨z, R, z1, z2, z3, z4, z5, z6⟩ := c52_relin_apply_partial (by rw [k1, ← h.ms]; exact h.good hc) k2 k3
    (h.ms.trans k1.symm) (by rw [h.power, hpw]; rfl) (by omega) (by omega) (Or.inl (by omega)) h7
  refine ⟨z, z1, ⟨z2.trans h.ms, by rw [z3, hpw]; rfl, z4, h.pos, h.le, le_rfl, M, ⟨_, z5, ?_⟩, h8⟩⟩
  rw [z2]
  rw [h3] at z6
  have := near_add h9 z6 (digitNoise_one (t := t) k4)
  simpa using this

theorem ok_galois (hc : GoodCtx w l c) (h : CtOk l c t S r X) (hcm : X.comps = 2) {p : ℕ} (hpw : X.power = p) {b : ℚ}
    {key : RGalois} (hk : GaloisOk l S 1 (c.qs.take X.level) b p key) :
    ∃ z, key.applyTo r = .ok z ∧ CtOk l c t S z { X with power := 1, noise := X.noise + t * b } := by
  obtain ⟨M, ⟨Φ, h7, h9⟩, h8⟩ := h.phase
  obtain ⟨k1, k2, k3, k4, B, Gs, logs, k5, k6, k7⟩ := hk
  obtain ⟨z, R, z1, z2, z3, z4, z5, z6⟩ := c52_galois_apply (by rw [k1, ← h.ms]; exact h.good hc)
    (by rw [k1, ← h.ms]; exact h.ne) k5 k6 (h.ms.trans k1.symm) (by rw [h.power, hpw, k2]) (h.comps.trans hcm) h7
  refine ⟨z, z1, ⟨z2.trans h.ms, z3, z4.trans hcm.symm, h.pos, h.le, h.two, M, ⟨_, z5, ?_⟩, h8⟩⟩
  rw [z2]
  have := near_add (k := 1) h9 (by rw [Nat.cast_one, one_mul]; exact z6) (digitNoise_one (t := t) k7)
  simpa using this

theorem ok_encode (hc : GoodCtx w l c) (ht : c.t = t) (hb : PlainOk w c) {lev : ℕ} (h0 : 0 < lev)
    (hle : lev ≤ c.qs.length) {m : List ℕ} (hw : ∀ a ∈ m, a < 2 ^ w) (hn : m.length ≤ 2 ^ l) {scaled : Bool}
    (hsc : scaled = true → lev = c.qs.length) :
    ∃ p, encodeBfv c m (c.qs.take lev) scaled = .ok p ∧
      PtOk l c t p ⟨lev, scaled, fun i => (m.getD i 0 : ℕ)⟩ := by
  subst ht
  obtain ⟨mt, b1, b2, b3, b4⟩ := hb
  have hne : c.qs.take lev ≠ [] := by
    intro hn
    have := congrArg List.length hn
    rw [List.length_take, List.length_nil] at this
    omega
  cases scaled with
  | true =>
    obtain rfl := hsc rfl
    rw [List.take_length] at hne ⊢
    obtain ⟨p, p1, p2, p3⟩ := c49_encode_scaled hc b4 b1 b2 b3 hne hw hn
    refine ⟨p, p1, ⟨h0, hle, p2, _, fun j => ((m.getD j 0 % c.t : ℕ) : ℤ), by rw [List.take_length]; exact p3, ?_,
      fun i => by simp [IdealBfvPt.seen], fun h => by cases h⟩⟩
    have := c57_encoding (l := l) (Q := modulusProd c.qs) hc.pos (fun j => ((m.getD j 0 % c.t : ℕ) : ℤ))
    dsimp only
    rw [List.take_length]
    simpa only [Int.cast_natCast, IdealBfvPt.noise, if_true] using this
  | false =>
    obtain ⟨p, p1, p2, p3⟩ := c49_encode_unscaled hc b4 b1 b2 hne (fun _ => List.mem_of_mem_take) hw hn
    have hlt : ∀ j : Fin (2 ^ l), ((m.getD j 0 % c.t : ℕ) : ℚ) ≤ c.t := fun j => by
      exact_mod_cast (Nat.mod_lt _ hc.pos).le
    refine ⟨p, p1, ⟨h0, hle, p2, _, fun _ => 0, p3, fun j => ?_, fun i => by simp [IdealBfvPt.seen], fun _ =>
      ⟨fun j => ?_, fun i => by simp⟩⟩⟩
    · simp only [IdealBfvPt.noise, Bool.false_eq_true, if_false, Int.cast_zero, mul_zero, sub_zero, Int.cast_natCast]
      rw [abs_mul, Nat.abs_cast, Nat.abs_cast]
      exact mul_le_mul_of_nonneg_left (hlt j) (Nat.cast_nonneg _)
    · rw [Int.cast_natCast, Nat.abs_cast]; exact hlt j

/-! ### Rejected calls -/

theorem err_add (h : CtOk l c t S r X) (h' : CtOk l c t S r' Y) (hs : ¬ SameKind X Y) :
    r.addIn r' = (r, .err .invalidArgument) ∧ r.subIn r' = (r, .err .invalidArgument) := by
  obtain ⟨b, u, f⟩ := h.form
  obtain ⟨b', u', f'⟩ := h'.form
  obtain ⟨h1, h2, -⟩ := BgvStore.err_add f f' hs
  exact ⟨h1, h2⟩

theorem err_plain (h : CtOk l c t S r X) (hp : PtOk l c t p F) (hl : X.level ≠ F.level) :
    r.addPlainIn p = (r, .err .invalidArgument) ∧ r.subPlainIn p = (r, .err .invalidArgument) ∧
      r.absorbSimpleIn p = (r, .err .invalidArgument) := by
  obtain ⟨b, u, f⟩ := h.form
  have hne : r.ms.length ≠ p.coeffs.length := by rw [h.len, hp.len]; exact hl
  obtain ⟨h1, h2, -⟩ := BgvStore.err_plain_len f hne
  exact ⟨h1, h2, if_pos hne⟩

theorem err_fused (h : CtOk l c t S r X) (h' : CtOk l c t S r' Y) (hp : PtOk l c t p F)
    (hs : ¬ (SameKind X Y ∧ X.level = F.level)) : r.fusedAbsorbAddIn r' p = (r, .err .invalidArgument) := by
  obtain ⟨b, u, f⟩ := h.form
  obtain ⟨b', u', f'⟩ := h'.form
  exact BgvStore.err_fused_len f f' (by rw [h.len, hp.len]; exact hs)

theorem err_reduce (h : CtOk l c t S r X) (hl : X.level ≤ 1) :
    RCt.modReduceBfvIn c r = (r, .err .failedPrecondition) := if_pos (by rw [h.len]; exact hl)

/-- The components of a ciphertext. -/
theorem CtOk.components (h : CtOk l c t S r X) : ∃ Cs, Components l r Cs := by
  obtain ⟨M, ⟨Φ, ⟨_, Cs, h1, _⟩, _⟩, _⟩ := h.phase
  exact ⟨Cs, h1⟩

/-- A plaintext for other moduli is rejected before anything changes. -/
theorem err_absorb (hc : GoodCtx w l c) (h : CtOk l c t S r X) (hp : PtOk l c t p F) (hl : X.level ≠ F.level) :
    RCt.absorbBfvIn est c r p = (r, .err .invalidArgument) := by
  obtain ⟨⟨hi, i1, i2⟩, ⟨hr, r1, r2⟩, ⟨qm, q1, q2⟩⟩ := level_consts hc h.pos h.le
  have hne : r.ms.length ≠ p.coeffs.length := by rw [h.len, hp.len]; exact hl
  have ht : Rns.toCoeff r.ms p = .err .invalidArgument := by
    unfold Rns.toCoeff
    rw [if_neg (by simp [hp.ntt]), if_pos hne]
  unfold RCt.absorbBfvIn
  rw [if_neg (by simp [hp.ntt]), h.len]
  dsimp only
  rw [i1, r1, q1]
  dsimp only [withTemp]
  rw [ht]

/-- A product with a plaintext of a reduced ciphertext fails. -/
theorem err_absorb_level (hc : GoodCtx w l c) (hpr : ProductOk w ε est c) (h : CtOk l c t S r X) (hp : PtOk l c t p F)
    (hl : X.level = F.level) (hlx : X.level ≠ c.qs.length) : RCt.absorbBfv est c r p = .err .invalidArgument := by
  obtain ⟨Cs, hC⟩ := h.components
  obtain ⟨G, N, p3, -⟩ := hp.repr
  have := h.le
  exact (c57_level hc h.pos (by omega) hpr.aux hpr.est hpr.half hpr.main_lt h.ms h.ms rfl h.cne hC hC hp.ntt
    (by rw [hl]; exact p3)).2

theorem err_mul (hc : GoodCtx w l c) (hpr : ProductOk w ε est c) (h : CtOk l c t S r X) (h' : CtOk l c t S r' Y)
    (hs : ¬ (X.level = c.qs.length ∧ X.level = Y.level ∧ X.power = Y.power)) :
    RCt.mulBfv est c r r' = .err .invalidArgument := by
  by_cases h1 : X.level = Y.level
  · by_cases h2 : X.power = Y.power
    · have h3 : X.level ≠ c.qs.length := fun h3 => hs ⟨h3, h1, h2⟩
      obtain ⟨Cs, hC⟩ := h.components
      obtain ⟨Ds, hD⟩ := h'.components
      have := h.le
      obtain ⟨a, as, ha, -, ha'⟩ := h.first
      obtain ⟨q, hq, hq'⟩ : ∃ p, p ∈ r.c ∧ p = a := ⟨a, by rw [ha]; exact List.mem_cons_self, rfl⟩
      obtain ⟨G, hG⟩ : ∃ G, Comp l r.ms a G := by
        unfold Components at hC
        rw [ha] at hC
        cases hC with
        | cons h1 _ => exact ⟨_, h1⟩
      exact (c57_level hc h.pos (by omega) hpr.aux hpr.est hpr.half hpr.main_lt h.ms (by rw [h'.ms, h1])
        (by rw [h'.power, h.power, h2]) h.cne hC hD hG.1 (by rw [← h.ms]; exact hG.2)).1
    · unfold RCt.mulBfv
      rw [h.len, h'.len, h.power, h'.power, if_neg (by simpa using h1), if_pos (by exact_mod_cast h2)]
  · unfold RCt.mulBfv
    rw [h.len, h'.len, if_pos h1]

theorem err_substitute (hc : GoodCtx w l c) (h : CtOk l c t S r X) {k : ℤ} (hk : ¬ (0 ≤ k ∧ k % 2 = 1 ∧ k < 2 * 2 ^ l)) :
    r.substitute k = .err .invalidArgument := by
  obtain ⟨b, u, f⟩ := h.form
  exact BgvStore.err_substitute hc f hk

theorem err_relin (h : CtOk l c t S r X) {lev : ℕ} (hle : lev ≤ c.qs.length) {b : ℚ} {key : RRelin}
    (hk : RelinOk l S 1 (c.qs.take lev) b key) (hd : key.degree = 2)
    (hs : ¬ (X.comps ≤ 3 ∧ X.level = lev ∧ X.power = 1)) : key.applyTo r = .err .invalidArgument := by
  obtain ⟨k1, -⟩ := hk
  have hkl : key.ms.length = lev := by rw [k1, List.length_take]; omega
  refine c52_relin_rejects key r ?_
  rw [h.comps, h.len, h.power, hkl, hd]
  by_contra hcon
  push Not at hcon
  exact hs ⟨by omega, hcon.2.1, by exact_mod_cast hcon.2.2.1⟩

theorem err_galois (h : CtOk l c t S r X) {lev p : ℕ} (hle : lev ≤ c.qs.length) {b : ℚ} {key : RGalois}
    (hk : GaloisOk l S 1 (c.qs.take lev) b p key)
    (hs : ¬ (X.comps = 2 ∧ X.level = lev ∧ X.power = p)) : key.applyTo r = .err .invalidArgument := by
  obtain ⟨k1, k2, -⟩ := hk
  have hkl : key.ms.length = lev := by rw [k1, List.length_take]; omega
  refine c52_galois_rejects key r ?_
  rw [h.comps, h.len, h.power, hkl, k2]
  by_contra hcon
  push Not at hcon
  exact hs ⟨hcon.2.2, hcon.2.1, by exact_mod_cast hcon.1⟩

theorem err_encode (hc : GoodCtx w l c) (hb : PlainOk w c) (hl : l ≤ 30) {lev : ℕ} (hle : lev ≤ c.qs.length) {m : List ℕ}
    (hw : ∀ a ∈ m, a < 2 ^ w) {scaled : Bool}
    (hs : ¬ (m.length ≤ 2 ^ l ∧ 0 < lev ∧ (scaled = true → lev = c.qs.length))) :
    encodeBfv c m (c.qs.take lev) scaled = .err .invalidArgument := by
  by_cases h1 : m.length ≤ 2 ^ l
  · by_cases h2 : 0 < lev
    · obtain ⟨mt, b1, b2, b3, b4⟩ := hb
      have h3 : ¬ (scaled = true → lev = c.qs.length) := fun h3 => hs ⟨h1, h2, h3⟩
      obtain ⟨rfl, h4⟩ := Classical.not_imp.mp h3
      refine c49_encode_level hc b4 b1 b2 b3 ?_ (fun _ => List.mem_of_mem_take) ?_ hw h1
      · intro hn
        have := congrArg List.length hn
        rw [List.length_take, List.length_nil] at this
        omega
      · rw [List.length_take]; omega
    · obtain rfl : lev = 0 := by omega
      exact c49_encode_rejects hc hl _ _ _ (Or.inr (Or.inl rfl))
  · exact c49_encode_rejects hc hl _ _ _ (Or.inl (by omega))

end
end BfvStore
end Shell
