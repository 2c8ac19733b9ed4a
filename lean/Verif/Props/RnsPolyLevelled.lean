import Verif.Props.RnsKeyCalls
import Verif.Props.RnsEncoder
/-!
# C78: levelled computations on encrypted polynomials with the RNS BGV scheme
-/

namespace Shell
open Spec Rns
variable {σ τ : Type} {w l : ℕ} {S Φ : Fin (2 ^ l) → ℤ}

theorem cast_negMul {t : ℕ} (F H : Fin (2 ^ l) → ℤ) (i : Fin (2 ^ l)) :
    ((negMul F H i : ℤ) : ZMod t) = negMul (fun i => (F i : ZMod t)) (fun i => (H i : ZMod t)) i :=
  congrFun (NR.map_negMul (Int.castRingHom (ZMod t)) F H) i

theorem cast_substPow {t : ℕ} (p : ℕ) (F : Fin (2 ^ l) → ℤ) (i : Fin (2 ^ l)) :
    ((substPow p F i : ℤ) : ZMod t) = substPow p (fun i => (F i : ZMod t)) i := by
  simp only [substPow, Int.cast_sum]
  refine Finset.sum_congr rfl fun j _ => ?_
  split_ifs <;> simp

/-- The ciphertext `r` is as the analysis says: at its level, under the secret `S`, with a noisy plaintext of bounded
size that is the polynomial `f` modulo `t`. -/
def PSound (l : ℕ) (c : Rns.Ctx) (S : Fin (2 ^ l) → ℤ) (r : RCt) (x : LInfo) (f : Fin (2 ^ l) → ZMod c.t) : Prop :=
  r.ms = c.qs.take x.level ∧ r.power = 1 ∧ r.c.length = x.comps ∧ 0 < x.level ∧ x.level ≤ c.qs.length ∧
    2 ≤ x.comps ∧ ∃ Φ, Encrypts l S r Φ ∧ (∀ i, (Φ i : ZMod c.t) = f i) ∧ ∀ j, |(Φ j : ℚ)| ≤ x.noise

section
variable {c : Rns.Ctx} {r r' : RCt} {x y : LInfo} {f g : Fin (2 ^ l) → ZMod c.t}

theorem PSound.good (hc : GoodCtx w l c) (h : PSound l c S r x f) :
    (∀ m ∈ r.ms, GoodModulus w l m) ∧ r.ms ≠ [] ∧ r.c ≠ [] ∧ (∀ m ∈ r.ms, m ∈ c.qs) ∧ r.ms.length = x.level := by
  obtain ⟨h1, h2, h3, h4, h5, h6, _⟩ := h
  have hlen : r.ms.length = x.level := by rw [h1, List.length_take]; omega
  refine ⟨fun m hm => hc.qs m ?_, ?_, ?_, ?_, hlen⟩
  · rw [h1] at hm; exact List.mem_of_mem_take hm
  · intro hn; rw [hn] at hlen; simp at hlen; omega
  · intro hn; rw [hn] at h3; simp at h3; omega
  · intro m hm; rw [h1] at hm; exact List.mem_of_mem_take hm

theorem PSound.l15 (hc : GoodCtx w l c) (h : PSound l c S r x f) : l ≤ 15 := by
  obtain ⟨g1, g2, -⟩ := h.good hc
  obtain ⟨m, rest, hm⟩ := List.exists_cons_of_ne_nil g2
  exact (g1 m (by rw [hm]; exact List.mem_cons_self)).l15.2

theorem psound_neg (hc : GoodCtx w l c) (h : PSound l c S r x f) :
    ∃ z, r.negate = .ok z ∧ PSound l c S z x (fun i => -f i) := by
  obtain ⟨g1, g2, g3, _, _⟩ := h.good hc
  obtain ⟨h1, h2, h3, h4, h5, h6, Φ, h7, h8, h9⟩ := h
  obtain ⟨z, z1, z2, z3, z4⟩ := c53_negate g1 h7
  refine ⟨z, z1, z2.1.trans h1, z2.2.trans h2, z3.trans h3, h4, h5, h6, _, z4, fun i => ?_, fun j => ?_⟩
  · show _ = -f i; rw [← h8 i]; simp
  · simpa using h9 j

theorem psound_add (hc : GoodCtx w l c) (h : PSound l c S r x f) (h' : PSound l c S r' y g)
    (hl : x.level = y.level) (hcm : x.comps = y.comps) :
    ∃ z, r.add r' = .ok z ∧ PSound l c S z ⟨x.level, x.comps, x.noise + y.noise⟩ (fun i => f i + g i) := by
  obtain ⟨g1, g2, g3, _, _⟩ := h.good hc
  obtain ⟨h1, h2, h3, h4, h5, h6, Φ, h7, h8, h9⟩ := h
  obtain ⟨k1, k2, k3, k4, k5, k6, Ψ, k7, k8, k9⟩ := h'
  obtain ⟨z, z1, z2, z3, z4⟩ := c53_add g1 (by rw [k1, h1, hl]) (k2.trans h2.symm) (by rw [k3, h3, hcm]) h7 k7
  refine ⟨z, z1, z2.1.trans h1, z2.2.trans h2, z3.trans h3, h4, h5, h6, _, z4, fun i => ?_, fun j => ?_⟩
  · dsimp only; rw [← h8 i, ← k8 i]; simp
  · simp only [Pi.add_apply, Int.cast_add]
    exact (abs_add_le _ _).trans (add_le_add (h9 j) (k9 j))

theorem psound_sub (hc : GoodCtx w l c) (h : PSound l c S r x f) (h' : PSound l c S r' y g)
    (hl : x.level = y.level) (hcm : x.comps = y.comps) :
    ∃ z, r.sub r' = .ok z ∧ PSound l c S z ⟨x.level, x.comps, x.noise + y.noise⟩ (fun i => f i - g i) := by
  obtain ⟨g1, g2, g3, _, _⟩ := h.good hc
  obtain ⟨h1, h2, h3, h4, h5, h6, Φ, h7, h8, h9⟩ := h
  obtain ⟨k1, k2, k3, k4, k5, k6, Ψ, k7, k8, k9⟩ := h'
  obtain ⟨z, z1, z2, z3, z4⟩ := c53_sub g1 (by rw [k1, h1, hl]) (k2.trans h2.symm) (by rw [k3, h3, hcm]) h7 k7
  refine ⟨z, z1, z2.1.trans h1, z2.2.trans h2, z3.trans h3, h4, h5, h6, _, z4, fun i => ?_, fun j => ?_⟩
  · dsimp only; rw [← h8 i, ← k8 i]; simp
  · simp only [Pi.sub_apply, Int.cast_sub]
    exact (abs_sub _ _).trans (add_le_add (h9 j) (k9 j))

theorem psound_mul (hc : GoodCtx w l c) (h : PSound l c S r x f) (h' : PSound l c S r' y g)
    (hl : x.level = y.level) :
    ∃ z, r.mul r' = .ok z ∧
      PSound l c S z ⟨x.level, x.comps + y.comps - 1, 2 ^ l * x.noise * y.noise⟩ (negMul f g) := by
  obtain ⟨g1, g2, g3, _, _⟩ := h.good hc
  obtain ⟨h1, h2, h3, h4, h5, h6, Φ, h7, h8, h9⟩ := h
  obtain ⟨k1, k2, k3, k4, k5, k6, Ψ, k7, k8, k9⟩ := h'
  obtain ⟨z, z1, z2, z3, z4⟩ := c53_mul g1 g2 (by rw [k1, h1, hl]) (k2.trans h2.symm) g3 h7 k7
  refine ⟨z, z1, z2.1.trans h1, z2.2.trans h2, by rw [z3, h3, k3], h4, h5, by dsimp only; omega, _, z4,
    fun i => ?_, negMul_leq h9 k9⟩
  rw [cast_negMul, funext h8, funext k8]

/-- The encoding of a polynomial for the moduli of a ciphertext. -/
theorem psound_encode (hc : GoodCtx w l c) (h : PSound l c S r x f) {m : List ℕ} (hn : m.length ≤ 2 ^ l) :
    ∃ p p', ∃ F : Fin (2 ^ l) → ℤ, encodeBgv c m r.ms = .ok p ∧ toNtt r.ms p = .ok p' ∧ p'.ntt = true ∧
      Represents l r.ms p' F ∧ (∀ j, |(F j : ℚ)| ≤ c.t / 2) ∧ ∀ i, (F i : ZMod c.t) = ((m.getD i 0 : ℕ) : ZMod c.t) := by
  obtain ⟨g1, g2, g3, g4, _⟩ := h.good hc
  obtain ⟨p, p1, p2, p3⟩ := c48_encode hc g2 g4 hn
  obtain ⟨q, q1, q2, q3⟩ := repr_toNtt g1 p3 p2
  refine ⟨p, q, _, p1, q1, q2, q3, fun j => ?_, fun i => ?_⟩
  · have h1 := (balanced_mod hc.pos (m.getD j 0)).2
    have h1 : (2 * |((balanced c.t (m.getD j 0 % c.t) : ℤ) : ℚ)|) ≤ c.t := by exact_mod_cast h1
    linarith
  · have h1 := (balanced_mod hc.pos (m.getD i 0)).1
    have h2 : ((balanced c.t (m.getD i 0 % c.t) : ℤ) : ZMod c.t) =
        ((balanced c.t (m.getD i 0 % c.t) % c.t : ℤ) : ZMod c.t) := by simp
    rw [h2, h1]
    simp

theorem psound_addPoly (hc : GoodCtx w l c) (h : PSound l c S r x f) {m : List ℕ} (hn : m.length ≤ 2 ^ l) :
    ∃ p p' z, encodeBgv c m r.ms = .ok p ∧ toNtt r.ms p = .ok p' ∧ r.addPlain p' = .ok z ∧
      PSound l c S z ⟨x.level, x.comps, x.noise + c.t / 2⟩ (fun i => f i + (m.getD i 0 : ℕ)) := by
  obtain ⟨g1, g2, g3, _, _⟩ := h.good hc
  obtain ⟨p, p', F, p0, p1, p2, p3, p4, p5⟩ := psound_encode hc h hn
  obtain ⟨h1, h2, h3, h4, h5, h6, Φ, h7, h8, h9⟩ := h
  obtain ⟨z, z1, z2, z3, z4⟩ := c53_addPlain g1 g3 p2 p3 h7
  refine ⟨p, p', z, p0, p1, z1, z2.1.trans h1, z2.2.trans h2, z3.trans h3, h4, h5, h6, _, z4, fun i => ?_, fun j => ?_⟩
  · dsimp only; rw [← h8 i, ← p5 i]; simp
  · simp only [Pi.add_apply, Int.cast_add]
    exact (abs_add_le _ _).trans (add_le_add (h9 j) (p4 j))

theorem psound_subPoly (hc : GoodCtx w l c) (h : PSound l c S r x f) {m : List ℕ} (hn : m.length ≤ 2 ^ l) :
    ∃ p p' z, encodeBgv c m r.ms = .ok p ∧ toNtt r.ms p = .ok p' ∧ r.subPlain p' = .ok z ∧
      PSound l c S z ⟨x.level, x.comps, x.noise + c.t / 2⟩ (fun i => f i - (m.getD i 0 : ℕ)) := by
  obtain ⟨g1, g2, g3, _, _⟩ := h.good hc
  obtain ⟨p, p', F, p0, p1, p2, p3, p4, p5⟩ := psound_encode hc h hn
  obtain ⟨h1, h2, h3, h4, h5, h6, Φ, h7, h8, h9⟩ := h
  obtain ⟨z, z1, z2, z3, z4⟩ := c53_subPlain g1 g3 p2 p3 h7
  refine ⟨p, p', z, p0, p1, z1, z2.1.trans h1, z2.2.trans h2, z3.trans h3, h4, h5, h6, _, z4, fun i => ?_, fun j => ?_⟩
  · dsimp only; rw [← h8 i, ← p5 i]; simp
  · simp only [Pi.sub_apply, Int.cast_sub]
    exact (abs_sub _ _).trans (add_le_add (h9 j) (p4 j))

theorem psound_mulPoly (hc : GoodCtx w l c) (h : PSound l c S r x f) {m : List ℕ} (hn : m.length ≤ 2 ^ l) :
    ∃ p p' z, encodeBgv c m r.ms = .ok p ∧ toNtt r.ms p = .ok p' ∧ r.absorb p' = .ok z ∧
      PSound l c S z ⟨x.level, x.comps, 2 ^ l * x.noise * (c.t / 2)⟩ (negMul f fun i => (m.getD i 0 : ℕ)) := by
  obtain ⟨g1, g2, g3, _, _⟩ := h.good hc
  obtain ⟨p, p', F, p0, p1, p2, p3, p4, p5⟩ := psound_encode hc h hn
  obtain ⟨h1, h2, h3, h4, h5, h6, Φ, h7, h8, h9⟩ := h
  obtain ⟨z, z1, -, z2, z3, z4⟩ := c53_absorb g1 p2 p3 h7
  refine ⟨p, p', z, p0, p1, z1, z2.1.trans h1, z2.2.trans h2, z3.trans h3, h4, h5, h6, _, z4, fun i => ?_,
    negMul_leq h9 p4⟩
  rw [cast_negMul, funext h8, funext p5]

theorem psound_scale (hc : GoodCtx w l c) (h : PSound l c S r x f) {a : ℕ} (ha : a < 2 ^ w) :
    ∃ z, r.absorbInt a = .ok z ∧ PSound l c S z ⟨x.level, x.comps, a * x.noise⟩ (fun i => a * f i) := by
  obtain ⟨g1, g2, g3, _, _⟩ := h.good hc
  obtain ⟨h1, h2, h3, h4, h5, h6, Φ, h7, h8, h9⟩ := h
  obtain ⟨z, z1, z2, z3, z4⟩ := (c53_absorb_scalar g1 h7).1 a ha
  refine ⟨z, z1, z2.1.trans h1, z2.2.trans h2, z3.trans h3, h4, h5, h6, _, z4, fun i => ?_, fun j => ?_⟩
  · dsimp only; rw [← h8 i]; push_cast; rfl
  · rw [Int.cast_mul, Int.cast_natCast, abs_mul, Nat.abs_cast]
    exact mul_le_mul_of_nonneg_left (h9 j) (Nat.cast_nonneg _)

theorem psound_relin (hc : GoodCtx w l c) (h : PSound l c S r x f) (hcm : x.comps ≤ 3) {b : ℚ} {key : RRelin}
    (hk : RelinOk l S c.t (c.qs.take x.level) b key) :
    ∃ z, key.applyTo r = .ok z ∧ PSound l c S z ⟨x.level, 2, x.noise + (x.comps - 2 : ℕ) * b⟩ f := by
  obtain ⟨g1, g2, g3, _, _⟩ := h.good hc
  obtain ⟨h1, h2, h3, h4, h5, h6, Φ, h7, h8, h9⟩ := h
  obtain ⟨k1, B, Gs, logs, k2, k3, k4⟩ := hk
  have hd := k3.degree
  obtain ⟨z, R, z1, z2, z3, z4, z5, z6⟩ := c52_relin_apply_partial (by rw [k1, ← h1]; exact g1) k2 k3 (h1.trans k1.symm)
    h2 (by omega) (by omega) (Or.inl (by omega)) h7
  refine ⟨z, z1, z2.trans h1, z3, z4, h4, h5, le_rfl, _, z5, fun i => ?_, noise_add h9 (by rw [← h3]; exact z6) k4⟩
  rw [← h8 i]; simp

theorem psound_galois (hc : GoodCtx w l c) (h : PSound l c S r x f) (hcm : x.comps = 2) {b : ℚ} {p : ℕ}
    {key : RGalois} (hk : GaloisOk l S c.t (c.qs.take x.level) b p key) :
    ∃ y z, r.substitute p = .ok y ∧ key.applyTo y = .ok z ∧
      PSound l c S z ⟨x.level, 2, x.noise + b⟩ (substPow p f) := by
  have hl15 := h.l15 hc
  obtain ⟨g1, g2, g3, _, _⟩ := h.good hc
  obtain ⟨h1, h2, h3, h4, h5, h6, Φ, h7, h8, h9⟩ := h
  obtain ⟨k1, k2, k3, k4, B, Gs, logs, k5, k6, k7⟩ := hk
  obtain ⟨y, z, R, y1, z1, z2, z3, z4, z5, z6⟩ := c52_rotate hl15 (by rw [k1, ← h1]; exact g1)
    (by rw [k1, ← h1]; exact g2) k5 k6 (h1.trans k1.symm) k2 k3 k4 h2 (h3.trans hcm) h7
  refine ⟨y, z, y1, z1, z2.trans h1, z3, z4, h4, h5, le_rfl, _, z5, fun i => ?_, ?_⟩
  · rw [← funext h8, ← cast_substPow]; simp
  · have := noise_add (F := substPow p Φ) (a := x.noise) (k := 1) (R := R) (t := c.t)
      (fun j => ?_) (by rw [Nat.cast_one, one_mul]; exact z6) k7
    · simpa using this
    · rcases Expand.substPow_single l p k3 Φ j with h0 | ⟨i, h0 | h0⟩
      · rw [h0, Int.cast_zero, abs_zero]; exact (abs_nonneg _).trans (h9 j)
      · rw [h0]; exact h9 i
      · rw [h0, Int.cast_neg, abs_neg]; exact h9 i

theorem psound_reduce (hc : GoodCtx w l c) (h : PSound l c S r x f) (hl : 1 < x.level) {b : ℚ}
    (hS : ((norm1 S : ℤ) : ℚ) ≤ b) {qs : List ℕ} (hqs : qs = c.qs.map (·.N)) :
    ∃ row z, rd c.primeQInvs (r.ms.length - 1) = .ok row ∧
      r.modReduceBgv c.t (row.take (r.ms.length - 1)) = .ok z ∧
      PSound l c S z ⟨x.level - 1, x.comps, (qs.getD (x.level - 1) 1 % c.t : ℕ) * x.noise / qs.getD (x.level - 1) 1 +
        c.t / 2 * ∑ j ∈ Finset.range x.comps, b ^ j⟩ f := by
  obtain ⟨g1, g2, g3, g4, g5⟩ := h.good hc
  obtain ⟨h1, h2, h3, h4, h5, h6, Φ, h7, h8, h9⟩ := h
  rw [g5]
  have hlt : x.level - 1 < c.qs.length := by omega
  have hm := List.getElem?_eq_getElem hlt
  obtain ⟨row, r1, r2⟩ := hc.inverses.primeQInvs _ _ hm
  generalize hmm : c.qs[x.level - 1] = m at hm r2
  have hmem : m ∈ c.qs := List.mem_of_getElem? hm
  have hms : r.ms = c.qs.take (x.level - 1) ++ [m] := by
    rw [h1]
    conv_lhs => rw [show x.level = x.level - 1 + 1 by omega, List.take_add_one, hm]
    rfl
  have hq : qs.getD (x.level - 1) 1 = m.N := by
    rw [hqs, List.getD_eq_getElem?_getD, List.getElem?_map, hm]; rfl
  have hne : c.qs.take (x.level - 1) ≠ [] := by
    intro hn
    have := congrArg List.length hn
    rw [List.length_take, List.length_nil] at this
    omega
  obtain ⟨z, Ψ, z1, z2, z3, z4, z5, z6, E, z7⟩ := c56_modReduce_bgv (fun a ha => hc.qs a (List.mem_of_mem_take ha))
    (hc.qs m hmem) hne hms r2 c.t hc.pos hc.word h7
  have z6 := z6 (hc.coprime m (List.mem_append_left _ hmem))
  refine ⟨row, z, by unfold rd; rw [r1], z1, z2, z3.trans h2, z4.trans h3, by dsimp only; omega, by dsimp only; omega, h6,
    Ψ, z5, fun i => ?_, fun j => ?_⟩
  · rw [← h8 i]
    have := (ZMod.intCast_zmod_eq_zero_iff_dvd _ _).mpr (z6 i)
    push_cast at this
    exact sub_eq_zero.mp this
  · obtain ⟨e1, e2⟩ := z7 j
    rw [h2] at e2
    rw [show ((1 : ℤ)).toNat = 1 from rfl, Expand.substPow_one, h3] at e2
    dsimp only
    rw [hq]
    have hN : (0 : ℚ) < m.N := Nat.cast_pos.mpr (hc.qs m hmem).prime.pos
    have ht : (0 : ℚ) ≤ c.t := Nat.cast_nonneg _
    have hE : |(E j : ℚ)| ≤ m.N / 2 * ∑ i ∈ Finset.range x.comps, b ^ i := by
      have e3 : 2 * |(E j : ℚ)| ≤ m.N * ∑ i ∈ Finset.range x.comps, ((norm1 S : ℤ) : ℚ) ^ i := by exact_mod_cast e2
      have e4 : ∑ i ∈ Finset.range x.comps, ((norm1 S : ℤ) : ℚ) ^ i ≤ ∑ i ∈ Finset.range x.comps, b ^ i :=
        Finset.sum_le_sum fun i _ => pow_le_pow_left₀ (by exact_mod_cast norm1_nonneg S) hS i
      have := mul_le_mul_of_nonneg_left e4 hN.le
      linarith
    have e5 : (m.N : ℚ) * Ψ j = (m.N % c.t : ℕ) * Φ j + c.t * E j := by
      have := congrArg (Int.cast (R := ℚ)) e1
      simpa only [Int.cast_mul, Int.cast_add, Int.cast_natCast] using this
    have e6 : (Ψ j : ℚ) = ((m.N % c.t : ℕ) * Φ j + c.t * E j) / m.N := by
      rw [← e5]; field_simp
    rw [e6, abs_div, abs_of_pos hN, div_le_iff₀ hN]
    refine (abs_add_le _ _).trans ?_
    rw [abs_mul, abs_mul, Nat.abs_cast, Nat.abs_cast]
    have e7 := mul_le_mul_of_nonneg_left (h9 j) (Nat.cast_nonneg (α := ℚ) (m.N % c.t))
    have e8 := mul_le_mul_of_nonneg_left hE ht
    refine (add_le_add e7 e8).trans (le_of_eq ?_)
    field_simp

/-- Every computation the analysis supports runs without error, and ends with a ciphertext as analysed. -/
theorem poly_levelled_sound {v : PEnv} {P : LParams} (hc : GoodCtx w l v.c) (hPl : P.l = l) (hPw : P.w = w)
    (hPt : P.t = v.c.t) (hPq : P.qs = v.c.qs.map (·.N)) (hS : ((norm1 S : ℤ) : ℚ) ≤ P.secret)
    {f g : ℕ → Fin (2 ^ l) → ZMod v.c.t} (hx : ∀ i, PSound l v.c S (v.x i) ⟨P.qs.length, 2, P.fresh⟩ (f i))
    (hy : ∀ i, PSound l v.c S (v.y i) ⟨P.qs.length, 2, P.sent⟩ (g i))
    (hr : ∀ lev ∈ P.relins, RelinOk l S v.c.t (v.c.qs.take lev) (P.switch lev) (v.relin lev))
    (hgal : ∀ a ∈ P.galois, GaloisOk l S v.c.t (v.c.qs.take a.1) (P.switch a.1) a.2 (v.galois a.1 a.2))
    (u : PCircuit) {info : LInfo} (hu : u.analyse P = some info) :
    ∃ r, u.run v = .ok r ∧ PSound l v.c S r info (u.eval f g) := by
  subst hPl hPw
  induction u generalizing info with
  | input i => exact ⟨_, rfl, by obtain rfl := Option.some.inj hu; exact hx i⟩
  | received i => exact ⟨_, rfl, by obtain rfl := Option.some.inj hu; exact hy i⟩
  | neg a iha =>
    obtain ⟨ra, ea, sa⟩ := iha hu
    obtain ⟨z, z1, z2⟩ := psound_neg hc sa
    exact ⟨z, by unfold PCircuit.run; rw [ea, Outcome.bind_ok, z1], z2⟩
  | add a b iha ihb =>
    unfold PCircuit.analyse at hu
    obtain ⟨x, hxa, hu⟩ := Option.bind_eq_some_iff.mp hu
    obtain ⟨y, hyb, hu⟩ := Option.bind_eq_some_iff.mp hu
    split_ifs at hu with hcc
    obtain rfl := Option.some.inj hu
    obtain ⟨ra, ea, sa⟩ := iha hxa
    obtain ⟨rb, eb, sb⟩ := ihb hyb
    obtain ⟨z, z1, z2⟩ := psound_add hc sa sb hcc.1 hcc.2
    exact ⟨z, by unfold PCircuit.run; rw [ea, Outcome.bind_ok, eb, Outcome.bind_ok, z1], z2⟩
  | sub a b iha ihb =>
    unfold PCircuit.analyse at hu
    obtain ⟨x, hxa, hu⟩ := Option.bind_eq_some_iff.mp hu
    obtain ⟨y, hyb, hu⟩ := Option.bind_eq_some_iff.mp hu
    split_ifs at hu with hcc
    obtain rfl := Option.some.inj hu
    obtain ⟨ra, ea, sa⟩ := iha hxa
    obtain ⟨rb, eb, sb⟩ := ihb hyb
    obtain ⟨z, z1, z2⟩ := psound_sub hc sa sb hcc.1 hcc.2
    exact ⟨z, by unfold PCircuit.run; rw [ea, Outcome.bind_ok, eb, Outcome.bind_ok, z1], z2⟩
  | mul a b iha ihb =>
    unfold PCircuit.analyse at hu
    obtain ⟨x, hxa, hu⟩ := Option.bind_eq_some_iff.mp hu
    obtain ⟨y, hyb, hu⟩ := Option.bind_eq_some_iff.mp hu
    split_ifs at hu with hcc
    obtain rfl := Option.some.inj hu
    obtain ⟨ra, ea, sa⟩ := iha hxa
    obtain ⟨rb, eb, sb⟩ := ihb hyb
    obtain ⟨z, z1, z2⟩ := psound_mul hc sa sb hcc
    exact ⟨z, by unfold PCircuit.run; rw [ea, Outcome.bind_ok, eb, Outcome.bind_ok, z1], z2⟩
  | addPoly a m iha =>
    unfold PCircuit.analyse at hu
    obtain ⟨x, hxa, hu⟩ := Option.bind_eq_some_iff.mp hu
    split_ifs at hu with hcc
    obtain rfl := Option.some.inj hu
    obtain ⟨ra, ea, sa⟩ := iha hxa
    obtain ⟨p, p', z, p1, p2, z1, z2⟩ := psound_addPoly hc sa hcc
    exact ⟨z, by unfold PCircuit.run; rw [ea, Outcome.bind_ok, p1, Outcome.bind_ok, p2, Outcome.bind_ok, z1],
      by rw [hPt]; exact z2⟩
  | subPoly a m iha =>
    unfold PCircuit.analyse at hu
    obtain ⟨x, hxa, hu⟩ := Option.bind_eq_some_iff.mp hu
    split_ifs at hu with hcc
    obtain rfl := Option.some.inj hu
    obtain ⟨ra, ea, sa⟩ := iha hxa
    obtain ⟨p, p', z, p1, p2, z1, z2⟩ := psound_subPoly hc sa hcc
    exact ⟨z, by unfold PCircuit.run; rw [ea, Outcome.bind_ok, p1, Outcome.bind_ok, p2, Outcome.bind_ok, z1],
      by rw [hPt]; exact z2⟩
  | mulPoly a m iha =>
    unfold PCircuit.analyse at hu
    obtain ⟨x, hxa, hu⟩ := Option.bind_eq_some_iff.mp hu
    split_ifs at hu with hcc
    obtain rfl := Option.some.inj hu
    obtain ⟨ra, ea, sa⟩ := iha hxa
    obtain ⟨p, p', z, p1, p2, z1, z2⟩ := psound_mulPoly hc sa hcc
    exact ⟨z, by unfold PCircuit.run; rw [ea, Outcome.bind_ok, p1, Outcome.bind_ok, p2, Outcome.bind_ok, z1],
      by rw [hPt]; exact z2⟩
  | scale a b iha =>
    unfold PCircuit.analyse at hu
    obtain ⟨x, hxa, hu⟩ := Option.bind_eq_some_iff.mp hu
    split_ifs at hu with hcc
    obtain rfl := Option.some.inj hu
    obtain ⟨ra, ea, sa⟩ := iha hxa
    obtain ⟨z, z1, z2⟩ := psound_scale hc sa hcc
    exact ⟨z, by unfold PCircuit.run; rw [ea, Outcome.bind_ok, z1], z2⟩
  | relin a iha =>
    unfold PCircuit.analyse at hu
    obtain ⟨x, hxa, hu⟩ := Option.bind_eq_some_iff.mp hu
    split_ifs at hu with hcc
    obtain rfl := Option.some.inj hu
    obtain ⟨ra, ea, sa⟩ := iha hxa
    obtain ⟨z, z1, z2⟩ := psound_relin hc sa hcc.1 (hr _ hcc.2)
    exact ⟨z, by unfold PCircuit.run; rw [ea, Outcome.bind_ok, (sa.good hc).2.2.2.2, z1], z2⟩
  | subst a p iha =>
    unfold PCircuit.analyse at hu
    obtain ⟨x, hxa, hu⟩ := Option.bind_eq_some_iff.mp hu
    unfold LParams.galoisInfo at hu
    split_ifs at hu with hcc
    obtain rfl := Option.some.inj hu
    obtain ⟨ra, ea, sa⟩ := iha hxa
    obtain ⟨y, z, y1, z1, z2⟩ := psound_galois hc sa hcc.1 (hgal _ hcc.2)
    exact ⟨z, by unfold PCircuit.run; rw [ea, Outcome.bind_ok, y1, Outcome.bind_ok, (sa.good hc).2.2.2.2, z1], z2⟩
  | reduce a iha =>
    unfold PCircuit.analyse at hu
    obtain ⟨x, hxa, hu⟩ := Option.bind_eq_some_iff.mp hu
    split_ifs at hu with hcc
    obtain rfl := Option.some.inj hu
    obtain ⟨ra, ea, sa⟩ := iha hxa
    obtain ⟨row, z, w1, z1, z2⟩ := psound_reduce hc sa hcc hS hPq
    exact ⟨z, by unfold PCircuit.run; rw [ea, Outcome.bind_ok, w1, Outcome.bind_ok, z1], by rw [hPt]; exact z2⟩

end

end Shell
