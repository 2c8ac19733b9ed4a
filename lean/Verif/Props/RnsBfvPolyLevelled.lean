import Verif.Spec.RnsBfvPolySession
import Verif.Props.RnsBfvLevelled
import Verif.Props.RnsPolyLevelled
/-!
# C79: levelled computations on encrypted polynomials with the RNS BFV scheme
-/

namespace Shell
open Spec Rns
variable {σ τ : Type} {w l : ℕ} {S : Fin (2 ^ l) → ℤ} {ε : ℚ} {est : Estimate}

/-- The ciphertext `r` is as the analysis says: at its level, under the secret `S`, with a message that is the polynomial
`f` modulo `t`, and bounded noise. -/
def BSound (l : ℕ) (c : Rns.Ctx) (S : Fin (2 ^ l) → ℤ) (r : RCt) (x : LInfo) (f : Fin (2 ^ l) → ZMod c.t) : Prop :=
  r.ms = c.qs.take x.level ∧ r.power = 1 ∧ r.c.length = x.comps ∧ 0 < x.level ∧ x.level ≤ c.qs.length ∧
    2 ≤ x.comps ∧ ∃ M, BfvEncrypts l S c.t r M x.noise ∧ ∀ i, (M i : ZMod c.t) = f i

/-- The context has parameters and constants for its plaintext modulus. -/
def PlainOk (w : ℕ) (c : Rns.Ctx) : Prop :=
  ∃ mt : Modulus, MParams.create w mt.N = .ok mt.p ∧ mt.N = c.t ∧ 1 < c.t ∧ BfvConstants c mt

section
variable {c : Rns.Ctx} {r r' : RCt} {x y : LInfo} {f g : Fin (2 ^ l) → ZMod c.t}

theorem BSound.good (hc : GoodCtx w l c) (h : BSound l c S r x f) :
    (∀ m ∈ r.ms, GoodModulus w l m) ∧ r.ms ≠ [] ∧ r.c ≠ [] ∧ (∀ m ∈ r.ms, m ∈ c.qs) ∧ r.ms.length = x.level := by
  obtain ⟨h1, h2, h3, h4, h5, h6, _⟩ := h
  have hlen : r.ms.length = x.level := by rw [h1, List.length_take]; omega
  refine ⟨fun m hm => hc.qs m ?_, ?_, ?_, ?_, hlen⟩
  · rw [h1] at hm; exact List.mem_of_mem_take hm
  · intro hn; rw [hn] at hlen; simp at hlen; omega
  · intro hn; rw [hn] at h3; simp at h3; omega
  · intro m hm; rw [h1] at hm; exact List.mem_of_mem_take hm

theorem BSound.l15 (hc : GoodCtx w l c) (h : BSound l c S r x f) : l ≤ 15 := by
  obtain ⟨g1, g2, -⟩ := h.good hc
  obtain ⟨m, rest, hm⟩ := List.exists_cons_of_ne_nil g2
  exact (g1 m (by rw [hm]; exact List.mem_cons_self)).l15.2

theorem bsound_neg (hc : GoodCtx w l c) (h : BSound l c S r x f) :
    ∃ z, r.negate = .ok z ∧ BSound l c S z x (fun i => -f i) := by
  obtain ⟨g1, g2, g3, _, _⟩ := h.good hc
  obtain ⟨h1, h2, h3, h4, h5, h6, M, ⟨Φ, h7, h9⟩, h8⟩ := h
  obtain ⟨z, z1, z2, z3, z4⟩ := c53_negate g1 h7
  refine ⟨z, z1, z2.1.trans h1, z2.2.trans h2, z3.trans h3, h4, h5, h6, -M, ⟨_, z4, ?_⟩, fun i => ?_⟩
  · rw [z2.1]; exact h9.neg
  · dsimp only; rw [← h8 i]; simp

theorem bsound_add (hc : GoodCtx w l c) (h : BSound l c S r x f) (h' : BSound l c S r' y g)
    (hl : x.level = y.level) (hcm : x.comps = y.comps) :
    ∃ z, r.add r' = .ok z ∧ BSound l c S z ⟨x.level, x.comps, x.noise + y.noise⟩ (fun i => f i + g i) := by
  obtain ⟨g1, g2, g3, _, _⟩ := h.good hc
  obtain ⟨h1, h2, h3, h4, h5, h6, M, ⟨Φ, h7, h9⟩, h8⟩ := h
  obtain ⟨k1, k2, k3, k4, k5, k6, N, ⟨Ψ, k7, k9⟩, k8⟩ := h'
  have hms : r'.ms = r.ms := by rw [k1, h1, hl]
  obtain ⟨z, z1, z2, z3, z4⟩ := c53_add g1 hms (k2.trans h2.symm) (by rw [k3, h3, hcm]) h7 k7
  refine ⟨z, z1, z2.1.trans h1, z2.2.trans h2, z3.trans h3, h4, h5, h6, M + N, ⟨_, z4, ?_⟩, fun i => ?_⟩
  · rw [z2.1]; rw [hms] at k9; exact h9.add k9
  · dsimp only; rw [← h8 i, ← k8 i]; simp

theorem bsound_sub (hc : GoodCtx w l c) (h : BSound l c S r x f) (h' : BSound l c S r' y g)
    (hl : x.level = y.level) (hcm : x.comps = y.comps) :
    ∃ z, r.sub r' = .ok z ∧ BSound l c S z ⟨x.level, x.comps, x.noise + y.noise⟩ (fun i => f i - g i) := by
  obtain ⟨g1, g2, g3, _, _⟩ := h.good hc
  obtain ⟨h1, h2, h3, h4, h5, h6, M, ⟨Φ, h7, h9⟩, h8⟩ := h
  obtain ⟨k1, k2, k3, k4, k5, k6, N, ⟨Ψ, k7, k9⟩, k8⟩ := h'
  have hms : r'.ms = r.ms := by rw [k1, h1, hl]
  obtain ⟨z, z1, z2, z3, z4⟩ := c53_sub g1 hms (k2.trans h2.symm) (by rw [k3, h3, hcm]) h7 k7
  refine ⟨z, z1, z2.1.trans h1, z2.2.trans h2, z3.trans h3, h4, h5, h6, M - N, ⟨_, z4, ?_⟩, fun i => ?_⟩
  · rw [z2.1]; rw [hms] at k9; exact h9.sub k9
  · dsimp only; rw [← h8 i, ← k8 i]; simp

variable {P : VParams}

theorem bsound_mul (hc : GoodCtx w l c) (hp : ProductOk w ε est c) (hPl : P.l = l) (hPt : P.t = c.t)
    (hPq : P.qs = c.qs.map (·.N)) (hPp : P.ps = c.ps.map (·.N)) (hPh : P.h = 1 / 2 + ε)
    (hS : ((norm1 S : ℤ) : ℚ) ≤ P.secret) (h : BSound l c S r x f) (h' : BSound l c S r' y g)
    (hlx : x.level = c.qs.length) (hly : y.level = c.qs.length) :
    ∃ z, RCt.mulBfv est c r r' = .ok z ∧ BSound l c S z ⟨x.level, x.comps + y.comps - 1,
      P.product (P.growth x.comps) (P.growth y.comps) (P.growth (x.comps + y.comps - 1)) x.noise y.noise⟩
      (negMul f g) := by
  obtain ⟨g1, g2, g3, _, _⟩ := h.good hc
  obtain ⟨h1, h2, h3, h4, h5, h6, M, h7, h8⟩ := h
  obtain ⟨k1, k2, k3, k4, k5, k6, N, k7, k8⟩ := h'
  have hx : r.ms = c.qs := by rw [h1, hlx, List.take_length]
  have hy : r'.ms = c.qs := by rw [k1, hly, List.take_length]
  obtain ⟨z, z1, z2, z3, Φ, z4, z5⟩ := c57_mul hc (by rw [← hx]; exact g2) hp.aux hp.est hp.half hp.main_lt
    hp.aux_lt hx hy (k2.trans h2.symm) g3 h7 k7
  refine ⟨z, z1, z2.1.trans h1, z2.2.trans h2, by rw [z3, h3, k3], h4, h5, by dsimp only; omega, negMul M N, ⟨Φ, z4, ?_⟩,
    fun i => ?_⟩
  · refine z5.mono ?_
    dsimp only
    unfold VParams.product VParams.growth
    rw [h2, show ((1 : ℤ)).toNat = 1 from rfl, Expand.substPow_one, h3, k3, hPl, hPt, hPh, hPq, hPp]
    have v1 : 0 ≤ x.noise := by obtain ⟨_, _, h⟩ := h7; exact h.nonneg
    have v2 : 0 ≤ y.noise := by obtain ⟨_, _, h⟩ := k7; exact h.nonneg
    exact bfvMulNoise_mono (by have := hp.nonneg; linarith) (keyGrowth_le hS) (keyGrowth_le hS) (keyGrowth_le hS)
      keyGrowth_nonneg keyGrowth_nonneg v1 v2
  · rw [cast_negMul, funext h8, funext k8]

/-- The scaled encoding of messages for all moduli. -/
theorem bsound_encode (hc : GoodCtx w l c) (hb : PlainOk w c) (h : BSound l c S r x f)
    (hlx : x.level = c.qs.length) {m : List ℕ} (hw : ∀ a ∈ m, a < 2 ^ w) (hn : m.length ≤ 2 ^ l) :
    ∃ p F N, encodeBfv c m r.ms true = .ok p ∧ p.ntt = true ∧ Represents l r.ms p F ∧
      BfvNear c.t (modulusProd r.ms) F N c.t ∧
      ∀ i, (N i : ZMod c.t) = ((m.getD i 0 : ℕ) : ZMod c.t) := by
  obtain ⟨g1, g2, g3, g4, _⟩ := h.good hc
  have hx : r.ms = c.qs := by rw [h.1, hlx, List.take_length]
  obtain ⟨mt, b1, b2, b3, b4⟩ := hb
  obtain ⟨p, p1, p2, p3⟩ := c49_encode_scaled hc b4 b1 b2 b3 (by rw [← hx]; exact g2) hw hn
  rw [hx]
  refine ⟨p, _, fun j => ((m.getD j 0 % c.t : ℕ) : ℤ), p1, p2, p3, ?_, fun i => by simp⟩
  have := c57_encoding (l := l) (Q := modulusProd c.qs) hc.pos (fun j => ((m.getD j 0 % c.t : ℕ) : ℤ))
  simpa only [Int.cast_natCast] using this

theorem bsound_addPoly (hc : GoodCtx w l c) (hb : PlainOk w c) (h : BSound l c S r x f)
    (hlx : x.level = c.qs.length) {m : List ℕ} (hw : ∀ a ∈ m, a < 2 ^ w) (hn : m.length ≤ 2 ^ l) :
    ∃ p z, encodeBfv c m r.ms true = .ok p ∧ r.addPlain p = .ok z ∧
      BSound l c S z ⟨x.level, x.comps, x.noise + c.t⟩ (fun i => f i + (m.getD i 0 : ℕ)) := by
  obtain ⟨g1, g2, g3, _, _⟩ := h.good hc
  obtain ⟨p, F, N, p1, p2, p3, p4, p5⟩ := bsound_encode hc hb h hlx hw hn
  obtain ⟨h1, h2, h3, h4, h5, h6, M, ⟨Φ, h7, h9⟩, h8⟩ := h
  obtain ⟨z, z1, z2, z3, z4⟩ := c53_addPlain g1 g3 p2 p3 h7
  refine ⟨p, z, p1, z1, z2.1.trans h1, z2.2.trans h2, z3.trans h3, h4, h5, h6, M + N, ⟨_, z4, ?_⟩, fun i => ?_⟩
  · rw [z2.1]; exact h9.add p4
  · dsimp only; rw [← h8 i, ← p5 i]; simp

theorem bsound_subPoly (hc : GoodCtx w l c) (hb : PlainOk w c) (h : BSound l c S r x f)
    (hlx : x.level = c.qs.length) {m : List ℕ} (hw : ∀ a ∈ m, a < 2 ^ w) (hn : m.length ≤ 2 ^ l) :
    ∃ p z, encodeBfv c m r.ms true = .ok p ∧ r.subPlain p = .ok z ∧
      BSound l c S z ⟨x.level, x.comps, x.noise + c.t⟩ (fun i => f i - (m.getD i 0 : ℕ)) := by
  obtain ⟨g1, g2, g3, _, _⟩ := h.good hc
  obtain ⟨p, F, N, p1, p2, p3, p4, p5⟩ := bsound_encode hc hb h hlx hw hn
  obtain ⟨h1, h2, h3, h4, h5, h6, M, ⟨Φ, h7, h9⟩, h8⟩ := h
  obtain ⟨z, z1, z2, z3, z4⟩ := c53_subPlain g1 g3 p2 p3 h7
  refine ⟨p, z, p1, z1, z2.1.trans h1, z2.2.trans h2, z3.trans h3, h4, h5, h6, M - N, ⟨_, z4, ?_⟩, fun i => ?_⟩
  · rw [z2.1]; exact h9.sub p4
  · dsimp only; rw [← h8 i, ← p5 i]; simp

theorem bsound_mulPoly (hc : GoodCtx w l c) (hb : PlainOk w c) (hp : ProductOk w ε est c)
    (hPl : P.l = l) (hPt : P.t = c.t) (hPq : P.qs = c.qs.map (·.N)) (hPp : P.ps = c.ps.map (·.N))
    (hPh : P.h = 1 / 2 + ε) (hS : ((norm1 S : ℤ) : ℚ) ≤ P.secret) (h : BSound l c S r x f)
    (hlx : x.level = c.qs.length) {m : List ℕ} (hw : ∀ a ∈ m, a < 2 ^ w) (hn : m.length ≤ 2 ^ l) :
    ∃ p z, encodeBfv c m r.ms true = .ok p ∧ RCt.absorbBfv est c r p = .ok z ∧
      BSound l c S z ⟨x.level, x.comps, P.product (P.growth x.comps) 1 (P.growth x.comps) x.noise P.t⟩
        (negMul f fun i => (m.getD i 0 : ℕ)) := by
  obtain ⟨g1, g2, g3, _, _⟩ := h.good hc
  obtain ⟨p, F, N, p1, p2, p3, p4, p5⟩ := bsound_encode hc hb h hlx hw hn
  obtain ⟨h1, h2, h3, h4, h5, h6, M, h7, h8⟩ := h
  have hx : r.ms = c.qs := by rw [h1, hlx, List.take_length]
  obtain ⟨z, z1, z2, z3, Φ, z4, z5⟩ := c57_absorb hc (by rw [← hx]; exact g2) hp.aux hp.est hp.half hp.main_lt
    hp.aux_lt hx p2 (by rw [← hx]; exact p3) h7 (by rw [← hx]; exact p4)
  refine ⟨p, z, p1, z1, z2.1.trans h1, z2.2.trans h2, by rw [z3, h3], h4, h5, h6, negMul M N, ⟨Φ, z4, ?_⟩, fun i => ?_⟩
  · refine z5.mono ?_
    dsimp only
    unfold VParams.product VParams.growth
    rw [h2, show ((1 : ℤ)).toNat = 1 from rfl, Expand.substPow_one, h3, hPl, hPt, hPh, hPq, hPp]
    have v1 : 0 ≤ x.noise := by obtain ⟨_, _, h⟩ := h7; exact h.nonneg
    exact bfvMulNoise_mono (by have := hp.nonneg; linarith) (keyGrowth_le hS) le_rfl (keyGrowth_le hS)
      keyGrowth_nonneg zero_le_one v1 p4.nonneg
  · rw [cast_negMul, funext h8, funext p5]

theorem bsound_mulSimple (hc : GoodCtx w l c) (hb : PlainOk w c) (h : BSound l c S r x f) {m : List ℕ}
    (hw : ∀ a ∈ m, a < 2 ^ w) (hn : m.length ≤ 2 ^ l) :
    ∃ p z, encodeBfv c m r.ms false = .ok p ∧ r.absorbSimple p = .ok z ∧
      BSound l c S z ⟨x.level, x.comps, 2 ^ l * x.noise * c.t⟩ (negMul f fun i => (m.getD i 0 : ℕ)) := by
  obtain ⟨g1, g2, g3, g4, _⟩ := h.good hc
  obtain ⟨mt, b1, b2, b3, b4⟩ := hb
  obtain ⟨p, p1, p2, p3⟩ := c49_encode_unscaled hc b4 b1 b2 g2 g4 hw hn
  obtain ⟨h1, h2, h3, h4, h5, h6, M, ⟨Φ, h7, h9⟩, h8⟩ := h
  obtain ⟨z, -, z1, z2, z3, z4⟩ := c53_absorb g1 p2 p3 h7
  refine ⟨p, z, p1, z1, z2.1.trans h1, z2.2.trans h2, z3.trans h3, h4, h5, h6,
    negMul M fun j => ((m.getD j 0 % c.t : ℕ) : ℤ), ⟨_, z4, ?_⟩, fun i => ?_⟩
  · rw [z2.1]
    refine h9.mul fun j => ?_
    rw [Int.cast_natCast, Nat.abs_cast]
    exact_mod_cast (Nat.mod_lt _ hc.pos).le
  · rw [cast_negMul, funext h8]
    simp

theorem bsound_scale (hc : GoodCtx w l c) (h : BSound l c S r x f) {a : ℕ} (ha : a < 2 ^ w) :
    ∃ z, r.absorbInt a = .ok z ∧ BSound l c S z ⟨x.level, x.comps, a * x.noise⟩ (fun i => a * f i) := by
  obtain ⟨g1, g2, g3, _, _⟩ := h.good hc
  obtain ⟨h1, h2, h3, h4, h5, h6, M, ⟨Φ, h7, h9⟩, h8⟩ := h
  obtain ⟨z, z1, z2, z3, z4⟩ := (c53_absorb_scalar g1 h7).1 a ha
  refine ⟨z, z1, z2.1.trans h1, z2.2.trans h2, z3.trans h3, h4, h5, h6, fun j => (a : ℤ) * M j, ⟨_, z4, fun j => ?_⟩,
    fun i => ?_⟩
  · rw [z2.1]
    have e1 : (c.t : ℚ) * (((a : ℤ) * Φ j : ℤ) : ℚ) - (modulusProd r.ms : ℚ) * (((a : ℤ) * M j : ℤ) : ℚ) =
        a * ((c.t : ℚ) * Φ j - modulusProd r.ms * M j) := by push_cast; ring
    rw [e1, abs_mul, Nat.abs_cast]
    exact mul_le_mul_of_nonneg_left (h9 j) (Nat.cast_nonneg _)
  · dsimp only; rw [← h8 i]; push_cast; rfl

theorem bsound_relin (hc : GoodCtx w l c) (h : BSound l c S r x f) (hcm : x.comps ≤ 3) {b : ℚ} {key : RRelin}
    (hk : RelinOk l S 1 (c.qs.take x.level) b key) :
    ∃ z, key.applyTo r = .ok z ∧ BSound l c S z ⟨x.level, 2, x.noise + (x.comps - 2 : ℕ) * (c.t * b)⟩ f := by
  obtain ⟨g1, g2, g3, _, _⟩ := h.good hc
  obtain ⟨h1, h2, h3, h4, h5, h6, M, ⟨Φ, h7, h9⟩, h8⟩ := h
  obtain ⟨k1, B, Gs, logs, k2, k3, k4⟩ := hk
  have hd := k3.degree
  obtain ⟨z, R, z1, z2, z3, z4, z5, z6⟩ := c52_relin_apply_partial (by rw [k1, ← h1]; exact g1) k2 k3 (h1.trans k1.symm)
    h2 (by omega) (by omega) (Or.inl (by omega)) h7
  refine ⟨z, z1, z2.trans h1, z3, z4, h4, h5, le_rfl, M, ⟨_, z5, ?_⟩, h8⟩
  rw [z2]
  rw [h3] at z6
  have := near_add h9 z6 (digitNoise_one (t := c.t) k4)
  simpa using this

theorem bsound_galois (hc : GoodCtx w l c) (h : BSound l c S r x f) (hcm : x.comps = 2) {b : ℚ} {p : ℕ}
    {key : RGalois} (hk : GaloisOk l S 1 (c.qs.take x.level) b p key) :
    ∃ y z, r.substitute p = .ok y ∧ key.applyTo y = .ok z ∧
      BSound l c S z ⟨x.level, 2, x.noise + c.t * b⟩ (substPow p f) := by
  have hl15 := h.l15 hc
  obtain ⟨g1, g2, g3, _, _⟩ := h.good hc
  obtain ⟨h1, h2, h3, h4, h5, h6, M, ⟨Φ, h7, h9⟩, h8⟩ := h
  obtain ⟨k1, k2, k3, k4, B, Gs, logs, k5, k6, k7⟩ := hk
  obtain ⟨y, z, R, y1, z1, z2, z3, z4, z5, z6⟩ := c52_rotate hl15 (by rw [k1, ← h1]; exact g1)
    (by rw [k1, ← h1]; exact g2) k5 k6 (h1.trans k1.symm) k2 k3 k4 h2 (h3.trans hcm) h7
  refine ⟨y, z, y1, z1, z2.trans h1, z3, z4, h4, h5, le_rfl, substPow p M, ⟨_, z5, ?_⟩, fun i => ?_⟩
  · have hn : BfvNear c.t (modulusProd r.ms) (substPow p Φ) (substPow p M) x.noise := by
      have e1 := substPow_lin l p (c.t : ℤ) (-(modulusProd r.ms : ℤ)) Φ M
      intro j
      have e2 := congrFun e1 j
      have e3 : (c.t : ℚ) * (substPow p Φ j : ℤ) - modulusProd r.ms * (substPow p M j : ℤ) =
          ((substPow p (fun i => (c.t : ℤ) * Φ i + -(modulusProd r.ms : ℤ) * M i) j : ℤ) : ℚ) := by
        rw [e2]; push_cast; ring
      have h9' : ∀ i, |(((c.t : ℤ) * Φ i + -(modulusProd r.ms : ℤ) * M i : ℤ) : ℚ)| ≤ x.noise := fun i => by
        have := h9 i
        push_cast
        convert this using 2
        ring
      rw [e3]
      rcases Expand.substPow_single l p k3 (fun i => (c.t : ℤ) * Φ i + -(modulusProd r.ms : ℤ) * M i) j with
        h0 | ⟨i, h0 | h0⟩
      · rw [h0, Int.cast_zero, abs_zero]; exact (abs_nonneg _).trans (h9 j)
      · rw [h0]; exact h9' i
      · rw [h0, Int.cast_neg, abs_neg]; exact h9' i
    rw [z2]
    have := near_add (k := 1) hn (by rw [Nat.cast_one, one_mul]; exact z6) (digitNoise_one (t := c.t) k7)
    simpa using this
  · rw [cast_substPow, funext h8]

theorem bsound_reduce (hc : GoodCtx w l c) (hPt : P.t = c.t) (hPq : P.qs = c.qs.map (·.N))
    (hS : ((norm1 S : ℤ) : ℚ) ≤ P.secret) (h : BSound l c S r x f) (hl : 1 < x.level) :
    ∃ z, r.modReduceBfv c = .ok z ∧ BSound l c S z
      ⟨x.level - 1, x.comps, x.noise / P.qs.getD (x.level - 1) 1 + P.t / 2 * P.growth x.comps⟩ f := by
  obtain ⟨g1, g2, g3, g4, g5⟩ := h.good hc
  obtain ⟨h1, h2, h3, h4, h5, h6, M, ⟨Φ, h7, h9⟩, h8⟩ := h
  have hlt : x.level - 1 < c.qs.length := by omega
  have hm := List.getElem?_eq_getElem hlt
  generalize hmm : c.qs[x.level - 1] = m at hm
  have hmem : m ∈ c.qs := List.mem_of_getElem? hm
  have hms : r.ms = c.qs.take (x.level - 1) ++ [m] := by
    rw [h1]
    conv_lhs => rw [show x.level = x.level - 1 + 1 by omega, List.take_add_one, hm]
    rfl
  have hq : P.qs.getD (x.level - 1) 1 = m.N := by
    rw [hPq, List.getD_eq_getElem?_getD, List.getElem?_map, hm]; rfl
  have hne : c.qs.take (x.level - 1) ≠ [] := by
    intro hn
    have := congrArg List.length hn
    rw [List.length_take, List.length_nil] at this
    omega
  obtain ⟨z, Ψ, z1, z2, z3, z4, z5, E, z7⟩ := c56_modReduce_bfv hc hne hms
    (by rw [← hms, h1]; exact List.take_prefix _ _) h7
  refine ⟨z, z1, z2, z3.trans h2, z4.trans h3, by dsimp only; omega, by dsimp only; omega, h6, M, ⟨Ψ, z5, fun j => ?_⟩,
    h8⟩
  obtain ⟨e1, e2⟩ := z7 j
  rw [h2] at e2
  rw [show ((1 : ℤ)).toNat = 1 from rfl, Expand.substPow_one, h3] at e2
  dsimp only
  rw [hq, z2, hPt]
  have hN : (0 : ℚ) < m.N := Nat.cast_pos.mpr (hc.qs m hmem).prime.pos
  have ht : (0 : ℚ) ≤ c.t := Nat.cast_nonneg _
  have hE : |(E j : ℚ)| ≤ m.N / 2 * P.growth x.comps := by
    have e3 : 2 * |(E j : ℚ)| ≤ m.N * ∑ i ∈ Finset.range x.comps, ((norm1 S : ℤ) : ℚ) ^ i := by exact_mod_cast e2
    have e4 : ∑ i ∈ Finset.range x.comps, ((norm1 S : ℤ) : ℚ) ^ i ≤ P.growth x.comps :=
      Finset.sum_le_sum fun i _ => pow_le_pow_left₀ (by exact_mod_cast norm1_nonneg S) hS i
    have := mul_le_mul_of_nonneg_left e4 hN.le
    linarith
  have e5 : (m.N : ℚ) * Ψ j = Φ j - E j := by exact_mod_cast e1
  have hprod : (modulusProd r.ms : ℚ) = modulusProd (c.qs.take (x.level - 1)) * m.N := by
    rw [hms]
    unfold modulusProd
    simp
  have e6 : (m.N : ℚ) * ((c.t : ℚ) * Ψ j - modulusProd (c.qs.take (x.level - 1)) * M j) =
      ((c.t : ℚ) * Φ j - modulusProd r.ms * M j) - c.t * E j := by
    rw [hprod]
    linear_combination (c.t : ℚ) * e5
  have e7 : (m.N : ℚ) * |(c.t : ℚ) * Ψ j - modulusProd (c.qs.take (x.level - 1)) * M j| ≤
      x.noise + c.t * (m.N / 2 * P.growth x.comps) := by
    rw [← abs_of_pos hN, ← abs_mul, abs_of_pos hN, e6]
    refine (abs_sub _ _).trans (add_le_add (h9 j) ?_)
    rw [abs_mul, Nat.abs_cast]
    exact mul_le_mul_of_nonneg_left hE ht
  have e8 : x.noise / m.N + c.t / 2 * P.growth x.comps =
      (x.noise + c.t * (m.N / 2 * P.growth x.comps)) / m.N := by
    field_simp
  rw [e8, le_div_iff₀ hN, mul_comm]
  exact e7


/-- Every computation the analysis supports runs without error, and ends with a ciphertext as analysed. -/
theorem bfv_poly_levelled_sound {v : PEnv} (hv : v.c = c) (hc : GoodCtx w l c) (hb : PlainOk w c)
    (hp : ProductOk w ε est c) (hPl : P.l = l) (hPw : P.w = w) (hPt : P.t = c.t)
    (hPq : P.qs = c.qs.map (·.N)) (hPp : P.ps = c.ps.map (·.N)) (hPh : P.h = 1 / 2 + ε)
    (hS : ((norm1 S : ℤ) : ℚ) ≤ P.secret) {f g : ℕ → Fin (2 ^ l) → ZMod c.t}
    (hx : ∀ i, BSound l c S (v.x i) ⟨P.qs.length, 2, P.fresh⟩ (f i))
    (hy : ∀ i, BSound l c S (v.y i) ⟨P.qs.length, 2, P.sent⟩ (g i))
    (hr : ∀ lev ∈ P.relins, ∃ b, c.t * b = P.switch lev ∧ RelinOk l S 1 (c.qs.take lev) b (v.relin lev))
    (hgal : ∀ a ∈ P.galois, ∃ b, c.t * b = P.switch a.1 ∧
      GaloisOk l S 1 (c.qs.take a.1) b a.2 (v.galois a.1 a.2))
    (u : QCircuit) {info : LInfo} (hu : u.analyse P = some info) :
    ∃ r, u.run est v = .ok r ∧ BSound l c S r info (u.eval f g) := by
  subst hv hPl hPw
  have hlen : P.qs.length = v.c.qs.length := by rw [hPq, List.length_map]
  have vec : ∀ {m : List ℕ}, P.vecOk m = true → (∀ a ∈ m, a < 2 ^ P.w) ∧ m.length ≤ 2 ^ P.l := by
    intro m hm
    unfold LParams.vecOk at hm
    simpa using hm
  induction u generalizing info with
  | input i => exact ⟨_, rfl, by obtain rfl := Option.some.inj hu; exact hx i⟩
  | received i => exact ⟨_, rfl, by obtain rfl := Option.some.inj hu; exact hy i⟩
  | neg a iha =>
    obtain ⟨ra, ea, sa⟩ := iha hu
    obtain ⟨z, z1, z2⟩ := bsound_neg hc sa
    exact ⟨z, by unfold QCircuit.run; rw [ea, Outcome.bind_ok, z1], z2⟩
  | add a b iha ihb =>
    unfold QCircuit.analyse at hu
    obtain ⟨x, hxa, hu⟩ := Option.bind_eq_some_iff.mp hu
    obtain ⟨y, hyb, hu⟩ := Option.bind_eq_some_iff.mp hu
    split_ifs at hu with hcm
    obtain rfl := Option.some.inj hu
    obtain ⟨ra, ea, sa⟩ := iha hxa
    obtain ⟨rb, eb, sb⟩ := ihb hyb
    obtain ⟨z, z1, z2⟩ := bsound_add hc sa sb hcm.1 hcm.2
    exact ⟨z, by unfold QCircuit.run; rw [ea, Outcome.bind_ok, eb, Outcome.bind_ok, z1], z2⟩
  | sub a b iha ihb =>
    unfold QCircuit.analyse at hu
    obtain ⟨x, hxa, hu⟩ := Option.bind_eq_some_iff.mp hu
    obtain ⟨y, hyb, hu⟩ := Option.bind_eq_some_iff.mp hu
    split_ifs at hu with hcm
    obtain rfl := Option.some.inj hu
    obtain ⟨ra, ea, sa⟩ := iha hxa
    obtain ⟨rb, eb, sb⟩ := ihb hyb
    obtain ⟨z, z1, z2⟩ := bsound_sub hc sa sb hcm.1 hcm.2
    exact ⟨z, by unfold QCircuit.run; rw [ea, Outcome.bind_ok, eb, Outcome.bind_ok, z1], z2⟩
  | mul a b iha ihb =>
    unfold QCircuit.analyse at hu
    obtain ⟨x, hxa, hu⟩ := Option.bind_eq_some_iff.mp hu
    obtain ⟨y, hyb, hu⟩ := Option.bind_eq_some_iff.mp hu
    split_ifs at hu with hcm
    obtain rfl := Option.some.inj hu
    obtain ⟨ra, ea, sa⟩ := iha hxa
    obtain ⟨rb, eb, sb⟩ := ihb hyb
    obtain ⟨z, z1, z2⟩ := bsound_mul hc hp rfl hPt hPq hPp hPh hS sa sb (hcm.1.trans hlen) (hcm.2.trans hlen)
    exact ⟨z, by unfold QCircuit.run; rw [ea, Outcome.bind_ok, eb, Outcome.bind_ok, z1], z2⟩
  | addPoly a m iha =>
    unfold QCircuit.analyse at hu
    obtain ⟨x, hxa, hu⟩ := Option.bind_eq_some_iff.mp hu
    split_ifs at hu with hcm
    obtain rfl := Option.some.inj hu
    obtain ⟨ra, ea, sa⟩ := iha hxa
    obtain ⟨p, z, p1, z1, z2⟩ := bsound_addPoly hc hb sa (hcm.2.trans hlen) (vec hcm.1).1 (vec hcm.1).2
    exact ⟨z, by unfold QCircuit.run; rw [ea, Outcome.bind_ok, p1, Outcome.bind_ok, z1], by rw [hPt]; exact z2⟩
  | subPoly a m iha =>
    unfold QCircuit.analyse at hu
    obtain ⟨x, hxa, hu⟩ := Option.bind_eq_some_iff.mp hu
    split_ifs at hu with hcm
    obtain rfl := Option.some.inj hu
    obtain ⟨ra, ea, sa⟩ := iha hxa
    obtain ⟨p, z, p1, z1, z2⟩ := bsound_subPoly hc hb sa (hcm.2.trans hlen) (vec hcm.1).1 (vec hcm.1).2
    exact ⟨z, by unfold QCircuit.run; rw [ea, Outcome.bind_ok, p1, Outcome.bind_ok, z1], by rw [hPt]; exact z2⟩
  | mulPoly a m iha =>
    unfold QCircuit.analyse at hu
    obtain ⟨x, hxa, hu⟩ := Option.bind_eq_some_iff.mp hu
    split_ifs at hu with hcm
    obtain rfl := Option.some.inj hu
    obtain ⟨ra, ea, sa⟩ := iha hxa
    obtain ⟨p, z, p1, z1, z2⟩ := bsound_mulPoly hc hb hp rfl hPt hPq hPp hPh hS sa (hcm.2.trans hlen)
      (vec hcm.1).1 (vec hcm.1).2
    exact ⟨z, by unfold QCircuit.run; rw [ea, Outcome.bind_ok, p1, Outcome.bind_ok, z1], z2⟩
  | mulSimple a m iha =>
    unfold QCircuit.analyse at hu
    obtain ⟨x, hxa, hu⟩ := Option.bind_eq_some_iff.mp hu
    split_ifs at hu with hcm
    obtain rfl := Option.some.inj hu
    obtain ⟨ra, ea, sa⟩ := iha hxa
    obtain ⟨p, z, p1, z1, z2⟩ := bsound_mulSimple hc hb sa (vec hcm).1 (vec hcm).2
    exact ⟨z, by unfold QCircuit.run; rw [ea, Outcome.bind_ok, p1, Outcome.bind_ok, z1], by rw [hPt]; exact z2⟩
  | scale a c iha =>
    unfold QCircuit.analyse at hu
    obtain ⟨x, hxa, hu⟩ := Option.bind_eq_some_iff.mp hu
    split_ifs at hu with hcm
    obtain rfl := Option.some.inj hu
    obtain ⟨ra, ea, sa⟩ := iha hxa
    obtain ⟨z, z1, z2⟩ := bsound_scale hc sa hcm
    exact ⟨z, by unfold QCircuit.run; rw [ea, Outcome.bind_ok, z1], z2⟩
  | relin a iha =>
    unfold QCircuit.analyse at hu
    obtain ⟨x, hxa, hu⟩ := Option.bind_eq_some_iff.mp hu
    split_ifs at hu with hcm
    obtain rfl := Option.some.inj hu
    obtain ⟨ra, ea, sa⟩ := iha hxa
    obtain ⟨b, hbs, hkey⟩ := hr _ hcm.2
    obtain ⟨z, z1, z2⟩ := bsound_relin hc sa hcm.1 hkey
    exact ⟨z, by unfold QCircuit.run; rw [ea, Outcome.bind_ok, (sa.good hc).2.2.2.2, z1], by rw [← hbs]; exact z2⟩
  | subst a p iha =>
    unfold QCircuit.analyse at hu
    obtain ⟨x, hxa, hu⟩ := Option.bind_eq_some_iff.mp hu
    unfold LParams.galoisInfo at hu
    split_ifs at hu with hcm
    obtain rfl := Option.some.inj hu
    obtain ⟨ra, ea, sa⟩ := iha hxa
    obtain ⟨b, hbs, hkey⟩ := hgal _ hcm.2
    obtain ⟨y, z, y1, z1, z2⟩ := bsound_galois hc sa hcm.1 hkey
    exact ⟨z, by unfold QCircuit.run; rw [ea, Outcome.bind_ok, y1, Outcome.bind_ok, (sa.good hc).2.2.2.2, z1],
      by rw [← hbs]; exact z2⟩
  | reduce a iha =>
    unfold QCircuit.analyse at hu
    obtain ⟨x, hxa, hu⟩ := Option.bind_eq_some_iff.mp hu
    split_ifs at hu with hcm
    obtain rfl := Option.some.inj hu
    obtain ⟨ra, ea, sa⟩ := iha hxa
    obtain ⟨z, z1, z2⟩ := bsound_reduce hc hPt hPq hS sa hcm
    exact ⟨z, by unfold QCircuit.run; rw [ea, Outcome.bind_ok, z1], z2⟩

end

end Shell
