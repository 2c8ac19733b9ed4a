import Verif.Spec.RnsBfvLevelled
import Verif.Props.RnsLevelled
import Verif.Props.RnsBfvMul
/-!
# C76: levelled computations with the RNS BFV scheme
-/

namespace Shell
open Spec Rns
variable {σ τ : Type} {w l : ℕ} {S : Fin (2 ^ l) → ℤ} {ε : ℚ} {est : Estimate}

/-- The ciphertext `r` is as the analysis says: at its level, under the secret `S`, with a message whose slots are `f` and
bounded noise. -/
def VSound (l : ℕ) (e : FFEncoder) (S : Fin (2 ^ l) → ℤ) (r : RCt) (x : LInfo) (f : ℕ → ZMod e.mt.N) : Prop :=
  r.ms = e.ctx.qs.take x.level ∧ r.power = 1 ∧ r.c.length = x.comps ∧ 0 < x.level ∧ x.level ≤ e.ctx.qs.length ∧
    2 ≤ x.comps ∧ ∃ M, BfvEncrypts l S e.ctx.t r M x.noise ∧ ∀ i < 2 ^ l, slotsOf (nttRoot l e.mt) l M i = f i

theorem Spec.BfvNear.mono {t Q : ℕ} {F M : Fin (2 ^ l) → ℤ} {a b : ℚ} (h : BfvNear t Q F M a) (hab : a ≤ b) :
    BfvNear t Q F M b := fun i => (h i).trans hab

theorem Spec.BfvNear.nonneg {t Q : ℕ} {F M : Fin (2 ^ l) → ℤ} {a : ℚ} (h : BfvNear t Q F M a) : 0 ≤ a :=
  (abs_nonneg _).trans (h ⟨0, by positivity⟩)

theorem keyGrowth_le {d : ℕ} {b : ℚ} (hS : ((norm1 S : ℤ) : ℚ) ≤ b) :
    keyGrowth S d ≤ ∑ j ∈ Finset.range d, b ^ j := by
  unfold keyGrowth
  have h : ∑ i, |(S i : ℚ)| = ((norm1 S : ℤ) : ℚ) := by unfold norm1; push_cast; rfl
  rw [h]
  exact Finset.sum_le_sum fun j _ => pow_le_pow_left₀ (by exact_mod_cast norm1_nonneg S) hS j

theorem keyGrowth_nonneg {d : ℕ} : 0 ≤ keyGrowth S d := by
  unfold keyGrowth
  positivity

theorem bfvMulNoise_mono {n t Q P : ℕ} {h gx gy gr gx' gy' gr' vx vy : ℚ} (hh : 0 ≤ h) (h1 : gx ≤ gx') (h2 : gy ≤ gy')
    (h3 : gr ≤ gr') (g1 : 0 ≤ gx) (g2 : 0 ≤ gy) (hx : 0 ≤ vx) (hy : 0 ≤ vy) :
    bfvMulNoise n t Q P h gx gy gr vx vy ≤ bfvMulNoise n t Q P h gx' gy' gr' vx vy := by
  unfold bfvMulNoise
  have := g1.trans h1
  have := g2.trans h2
  gcongr

theorem substPow_lin (l p : ℕ) (a b : ℤ) (F G : Fin (2 ^ l) → ℤ) :
    substPow p (fun i => a * F i + b * G i) = fun j => a * substPow p F j + b * substPow p G j := by
  funext k
  simp only [Expand.substPow_eq, mul_add, Finset.sum_add_distrib, Finset.mul_sum]
  congr 1 <;> exact Finset.sum_congr rfl fun _ _ => by ring

section
variable {e : FFEncoder} {r r' : RCt} {x y : LInfo} {f g : ℕ → ZMod e.mt.N}

theorem VSound.good (he : GoodEncoder w l e) (h : VSound l e S r x f) :
    (∀ m ∈ r.ms, GoodModulus w l m) ∧ r.ms ≠ [] ∧ r.c ≠ [] ∧ (∀ m ∈ r.ms, m ∈ e.ctx.qs) ∧ r.ms.length = x.level := by
  obtain ⟨h1, h2, h3, h4, h5, h6, _⟩ := h
  have hlen : r.ms.length = x.level := by rw [h1, List.length_take]; omega
  refine ⟨fun m hm => he.ctx.qs m ?_, ?_, ?_, ?_, hlen⟩
  · rw [h1] at hm; exact List.mem_of_mem_take hm
  · intro hn; rw [hn] at hlen; simp at hlen; omega
  · intro hn; rw [hn] at h3; simp at h3; omega
  · intro m hm; rw [h1] at hm; exact List.mem_of_mem_take hm

theorem vsound_neg (he : GoodEncoder w l e) (h : VSound l e S r x f) :
    ∃ z, r.negate = .ok z ∧ VSound l e S z x (fun i => -f i) := by
  obtain ⟨g1, g2, g3, _, _⟩ := h.good he
  obtain ⟨h1, h2, h3, h4, h5, h6, M, ⟨Φ, h7, h9⟩, h8⟩ := h
  obtain ⟨z, z1, z2, z3, z4⟩ := c53_negate g1 h7
  refine ⟨z, z1, z2.1.trans h1, z2.2.trans h2, z3.trans h3, h4, h5, h6, -M, ⟨_, z4, ?_⟩, fun i hi => ?_⟩
  · rw [z2.1]; exact h9.neg
  · rw [slots_neg, h8 i hi]

theorem vsound_add (he : GoodEncoder w l e) (h : VSound l e S r x f) (h' : VSound l e S r' y g)
    (hl : x.level = y.level) (hc : x.comps = y.comps) :
    ∃ z, r.add r' = .ok z ∧ VSound l e S z ⟨x.level, x.comps, x.noise + y.noise⟩ (fun i => f i + g i) := by
  obtain ⟨g1, g2, g3, _, _⟩ := h.good he
  obtain ⟨h1, h2, h3, h4, h5, h6, M, ⟨Φ, h7, h9⟩, h8⟩ := h
  obtain ⟨k1, k2, k3, k4, k5, k6, N, ⟨Ψ, k7, k9⟩, k8⟩ := h'
  have hms : r'.ms = r.ms := by rw [k1, h1, hl]
  obtain ⟨z, z1, z2, z3, z4⟩ := c53_add g1 hms (k2.trans h2.symm) (by rw [k3, h3, hc]) h7 k7
  refine ⟨z, z1, z2.1.trans h1, z2.2.trans h2, z3.trans h3, h4, h5, h6, M + N, ⟨_, z4, ?_⟩, fun i hi => ?_⟩
  · rw [z2.1]; rw [hms] at k9; exact h9.add k9
  · rw [(c50_ring (root_of he).1 (root_of he).2.1 _ _ i).1, h8 i hi, k8 i hi]

theorem vsound_sub (he : GoodEncoder w l e) (h : VSound l e S r x f) (h' : VSound l e S r' y g)
    (hl : x.level = y.level) (hc : x.comps = y.comps) :
    ∃ z, r.sub r' = .ok z ∧ VSound l e S z ⟨x.level, x.comps, x.noise + y.noise⟩ (fun i => f i - g i) := by
  obtain ⟨g1, g2, g3, _, _⟩ := h.good he
  obtain ⟨h1, h2, h3, h4, h5, h6, M, ⟨Φ, h7, h9⟩, h8⟩ := h
  obtain ⟨k1, k2, k3, k4, k5, k6, N, ⟨Ψ, k7, k9⟩, k8⟩ := h'
  have hms : r'.ms = r.ms := by rw [k1, h1, hl]
  obtain ⟨z, z1, z2, z3, z4⟩ := c53_sub g1 hms (k2.trans h2.symm) (by rw [k3, h3, hc]) h7 k7
  refine ⟨z, z1, z2.1.trans h1, z2.2.trans h2, z3.trans h3, h4, h5, h6, M - N, ⟨_, z4, ?_⟩, fun i hi => ?_⟩
  · rw [z2.1]; rw [hms] at k9; exact h9.sub k9
  · rw [(c50_ring (root_of he).1 (root_of he).2.1 _ _ i).2.1, h8 i hi, k8 i hi]

/-- What products need: auxiliary moduli, few moduli, and good estimates. -/
structure ProductOk (w : ℕ) (ε : ℚ) (est : Estimate) (c : Rns.Ctx) : Prop where
  aux : c.ps ≠ []
  main_lt : c.qs.length < 2 ^ w
  aux_lt : c.ps.length < 2 ^ w
  est : EstimateWithin (max c.qs.length c.ps.length) ε est
  half : ε < 1 / 2
  nonneg : 0 ≤ ε

variable {P : VParams}

theorem vsound_mul (he : GoodEncoder w l e) (hp : ProductOk w ε est e.ctx) (hPl : P.l = l) (hPt : P.t = e.ctx.t)
    (hPq : P.qs = e.ctx.qs.map (·.N)) (hPp : P.ps = e.ctx.ps.map (·.N)) (hPh : P.h = 1 / 2 + ε)
    (hS : ((norm1 S : ℤ) : ℚ) ≤ P.secret) (h : VSound l e S r x f) (h' : VSound l e S r' y g)
    (hlx : x.level = e.ctx.qs.length) (hly : y.level = e.ctx.qs.length) :
    ∃ z, RCt.mulBfv est e.ctx r r' = .ok z ∧ VSound l e S z ⟨x.level, x.comps + y.comps - 1,
      P.product (P.growth x.comps) (P.growth y.comps) (P.growth (x.comps + y.comps - 1)) x.noise y.noise⟩
      (fun i => f i * g i) := by
  obtain ⟨g1, g2, g3, _, _⟩ := h.good he
  obtain ⟨h1, h2, h3, h4, h5, h6, M, h7, h8⟩ := h
  obtain ⟨k1, k2, k3, k4, k5, k6, N, k7, k8⟩ := h'
  have hx : r.ms = e.ctx.qs := by rw [h1, hlx, List.take_length]
  have hy : r'.ms = e.ctx.qs := by rw [k1, hly, List.take_length]
  obtain ⟨z, z1, z2, z3, Φ, z4, z5⟩ := c57_mul he.ctx (by rw [← hx]; exact g2) hp.aux hp.est hp.half hp.main_lt
    hp.aux_lt hx hy (k2.trans h2.symm) g3 h7 k7
  refine ⟨z, z1, z2.1.trans h1, z2.2.trans h2, by rw [z3, h3, k3], h4, h5, by dsimp only; omega, negMul M N, ⟨Φ, z4, ?_⟩,
    fun i hi => ?_⟩
  · refine z5.mono ?_
    dsimp only
    unfold VParams.product VParams.growth
    rw [h2, show ((1 : ℤ)).toNat = 1 from rfl, Expand.substPow_one, h3, k3, hPl, hPt, hPh, hPq, hPp]
    have v1 : 0 ≤ x.noise := by obtain ⟨_, _, h⟩ := h7; exact h.nonneg
    have v2 : 0 ≤ y.noise := by obtain ⟨_, _, h⟩ := k7; exact h.nonneg
    exact bfvMulNoise_mono (by have := hp.nonneg; linarith) (keyGrowth_le hS) (keyGrowth_le hS) (keyGrowth_le hS)
      keyGrowth_nonneg keyGrowth_nonneg v1 v2
  · rw [(c50_ring (root_of he).1 (root_of he).2.1 _ _ i).2.2, h8 i hi, k8 i hi]

/-- The scaled encoding of messages for all moduli. -/
theorem vsound_encode (he : GoodEncoder w l e) (hb : BfvConstants e.ctx e.mt) (h : VSound l e S r x f)
    (hlx : x.level = e.ctx.qs.length) {m : List ℕ} (hw : ∀ a ∈ m, a < 2 ^ w) (hn : m.length ≤ 2 ^ l) :
    ∃ p F N, ffEncodeBfv e m r.ms true = .ok p ∧ p.ntt = true ∧ Represents l r.ms p F ∧
      BfvNear e.ctx.t (modulusProd r.ms) F N e.ctx.t ∧
      ∀ i < 2 ^ l, slotsOf (nttRoot l e.mt) l N i = ((m.getD i 0 : ℕ) : ZMod e.mt.N) := by
  obtain ⟨g1, g2, g3, g4, _⟩ := h.good he
  have hx : r.ms = e.ctx.qs := by rw [h.1, hlx, List.take_length]
  obtain ⟨p, M, p1, p2, p3, p4, p5⟩ := c50_encode_bfv he hb (by rw [← hx]; exact g2) hw hn
  rw [hx]
  refine ⟨p, _, fun j => (M j : ℤ), p1, p2, p3, ?_, p5⟩
  have := c57_encoding (l := l) (Q := modulusProd e.ctx.qs) he.ctx.pos (fun j => (M j : ℤ))
  simpa using this

theorem vsound_addVec (he : GoodEncoder w l e) (hb : BfvConstants e.ctx e.mt) (h : VSound l e S r x f)
    (hlx : x.level = e.ctx.qs.length) {m : List ℕ} (hw : ∀ a ∈ m, a < 2 ^ w) (hn : m.length ≤ 2 ^ l) :
    ∃ p z, ffEncodeBfv e m r.ms true = .ok p ∧ r.addPlain p = .ok z ∧
      VSound l e S z ⟨x.level, x.comps, x.noise + e.ctx.t⟩ (fun i => f i + (m.getD i 0 : ℕ)) := by
  obtain ⟨g1, g2, g3, _, _⟩ := h.good he
  obtain ⟨p, F, N, p1, p2, p3, p4, p5⟩ := vsound_encode he hb h hlx hw hn
  obtain ⟨h1, h2, h3, h4, h5, h6, M, ⟨Φ, h7, h9⟩, h8⟩ := h
  obtain ⟨z, z1, z2, z3, z4⟩ := c53_addPlain g1 g3 p2 p3 h7
  refine ⟨p, z, p1, z1, z2.1.trans h1, z2.2.trans h2, z3.trans h3, h4, h5, h6, M + N, ⟨_, z4, ?_⟩, fun i hi => ?_⟩
  · rw [z2.1]; exact h9.add p4
  · rw [(c50_ring (root_of he).1 (root_of he).2.1 _ _ i).1, h8 i hi, p5 i hi]

theorem vsound_subVec (he : GoodEncoder w l e) (hb : BfvConstants e.ctx e.mt) (h : VSound l e S r x f)
    (hlx : x.level = e.ctx.qs.length) {m : List ℕ} (hw : ∀ a ∈ m, a < 2 ^ w) (hn : m.length ≤ 2 ^ l) :
    ∃ p z, ffEncodeBfv e m r.ms true = .ok p ∧ r.subPlain p = .ok z ∧
      VSound l e S z ⟨x.level, x.comps, x.noise + e.ctx.t⟩ (fun i => f i - (m.getD i 0 : ℕ)) := by
  obtain ⟨g1, g2, g3, _, _⟩ := h.good he
  obtain ⟨p, F, N, p1, p2, p3, p4, p5⟩ := vsound_encode he hb h hlx hw hn
  obtain ⟨h1, h2, h3, h4, h5, h6, M, ⟨Φ, h7, h9⟩, h8⟩ := h
  obtain ⟨z, z1, z2, z3, z4⟩ := c53_subPlain g1 g3 p2 p3 h7
  refine ⟨p, z, p1, z1, z2.1.trans h1, z2.2.trans h2, z3.trans h3, h4, h5, h6, M - N, ⟨_, z4, ?_⟩, fun i hi => ?_⟩
  · rw [z2.1]; exact h9.sub p4
  · rw [(c50_ring (root_of he).1 (root_of he).2.1 _ _ i).2.1, h8 i hi, p5 i hi]

theorem vsound_mulVec (he : GoodEncoder w l e) (hb : BfvConstants e.ctx e.mt) (hp : ProductOk w ε est e.ctx)
    (hPl : P.l = l) (hPt : P.t = e.ctx.t) (hPq : P.qs = e.ctx.qs.map (·.N)) (hPp : P.ps = e.ctx.ps.map (·.N))
    (hPh : P.h = 1 / 2 + ε) (hS : ((norm1 S : ℤ) : ℚ) ≤ P.secret) (h : VSound l e S r x f)
    (hlx : x.level = e.ctx.qs.length) {m : List ℕ} (hw : ∀ a ∈ m, a < 2 ^ w) (hn : m.length ≤ 2 ^ l) :
    ∃ p z, ffEncodeBfv e m r.ms true = .ok p ∧ RCt.absorbBfv est e.ctx r p = .ok z ∧
      VSound l e S z ⟨x.level, x.comps, P.product (P.growth x.comps) 1 (P.growth x.comps) x.noise P.t⟩
        (fun i => f i * (m.getD i 0 : ℕ)) := by
  obtain ⟨g1, g2, g3, _, _⟩ := h.good he
  obtain ⟨p, F, N, p1, p2, p3, p4, p5⟩ := vsound_encode he hb h hlx hw hn
  obtain ⟨h1, h2, h3, h4, h5, h6, M, h7, h8⟩ := h
  have hx : r.ms = e.ctx.qs := by rw [h1, hlx, List.take_length]
  obtain ⟨z, z1, z2, z3, Φ, z4, z5⟩ := c57_absorb he.ctx (by rw [← hx]; exact g2) hp.aux hp.est hp.half hp.main_lt
    hp.aux_lt hx p2 (by rw [← hx]; exact p3) h7 (by rw [← hx]; exact p4)
  refine ⟨p, z, p1, z1, z2.1.trans h1, z2.2.trans h2, by rw [z3, h3], h4, h5, h6, negMul M N, ⟨Φ, z4, ?_⟩, fun i hi => ?_⟩
  · refine z5.mono ?_
    dsimp only
    unfold VParams.product VParams.growth
    rw [h2, show ((1 : ℤ)).toNat = 1 from rfl, Expand.substPow_one, h3, hPl, hPt, hPh, hPq, hPp]
    have v1 : 0 ≤ x.noise := by obtain ⟨_, _, h⟩ := h7; exact h.nonneg
    exact bfvMulNoise_mono (by have := hp.nonneg; linarith) (keyGrowth_le hS) le_rfl (keyGrowth_le hS)
      keyGrowth_nonneg zero_le_one v1 p4.nonneg
  · rw [(c50_ring (root_of he).1 (root_of he).2.1 _ _ i).2.2, h8 i hi, p5 i hi]

/-- **C50.** The unscaled encoding, on any list of main moduli, of messages: a polynomial with coefficients below `t`
whose slots are the messages. -/
theorem c50_encode_unscaled (he : GoodEncoder w l e) (hb : BfvConstants e.ctx e.mt) {ms : List Modulus} (hne : ms ≠ [])
    (hms : ∀ m ∈ ms, m ∈ e.ctx.qs) {msgs : List ℕ} (hw : ∀ a ∈ msgs, a < 2 ^ w) (hn : msgs.length ≤ 2 ^ l) :
    ∃ x, ∃ M : Fin (2 ^ l) → ℕ, ffEncodeBfv e msgs ms false = .ok x ∧ x.ntt = true ∧
      Represents l ms x (fun j => (M j : ℤ)) ∧ (∀ j, M j < e.ctx.t) ∧
      ∀ i < 2 ^ l, slotsOf (nttRoot l e.mt) l (fun j => (M j : ℤ)) i = ((msgs.getD i 0 : ℕ) : ZMod e.mt.N) := by
  obtain ⟨psi, t⟩ := he.mt.tables
  have h15 := t.l15
  have g := he.mt.good
  haveI : NeZero e.mt.N := ⟨he.mt.prime.ne_zero⟩
  obtain ⟨s2, s3⟩ := encoder_slots he
  rw [nttRoot_eq he.mt t]
  obtain ⟨r, Y, r1, r2, r3⟩ := toSlots_ok he.mt t s2 s3 hw hn
  have hval : ∀ j : Fin (2 ^ l), (r.map (Mont.exportInt e.mt.p)).getD j 0 = (Y j).val := fun j => by
    have hj : (j : ℕ) < r.length := by rw [r2.len]; exact j.2
    have h2 := r2.le j j.2
    have h3 := r2.val j
    rw [List.getD_eq_getElem _ _ hj] at h2 h3
    rw [List.getD_eq_getElem _ _ (by simpa using hj), List.getElem_map, ← h3]
    exact export_eq_val g h2
  have hlt : ∀ j, (Y j).val < e.ctx.t := fun j => by rw [← he.N]; exact ZMod.val_lt _
  obtain ⟨x, x1, x2, x3⟩ := c49_encode_unscaled he.ctx hb he.mt.create he.N hne hms
    (msgs := r.map (Mont.exportInt e.mt.p))
    (fun a ha => by
      obtain ⟨i, hi, rfl⟩ := List.getElem_of_mem ha
      have hi' : i < 2 ^ l := by rw [← r2.len]; simpa using hi
      have := hval ⟨i, hi'⟩
      rw [List.getD_eq_getElem _ _ hi] at this
      rw [this]
      exact lt_trans (hlt _) he.ctx.word)
    (by rw [List.length_map, r2.len])
  refine ⟨x, fun j => (Y j).val, ?_, x2, ?_, hlt, fun i hi => ?_⟩
  · unfold ffEncodeBfv shl1
    rw [he.ctx.logN, Int.toNat_natCast, if_pos (by omega), Outcome.bind_ok, if_neg (by omega),
      if_neg (by simpa using hne), r1, Outcome.bind_ok, x1]
  · have e1 : (fun j : Fin (2 ^ l) => (((r.map (Mont.exportInt e.mt.p)).getD j 0 % e.ctx.t : ℕ) : ℤ)) =
        fun j => (((Y j).val : ℕ) : ℤ) := by
      funext j
      rw [hval j, Nat.mod_eq_of_lt (hlt j)]
    rw [e1] at x3
    exact x3
  · unfold slotsOf
    simp only [Int.cast_natCast, ZMod.natCast_zmod_val]
    exact r3 i hi

theorem vsound_mulSimple (he : GoodEncoder w l e) (hb : BfvConstants e.ctx e.mt) (h : VSound l e S r x f) {m : List ℕ}
    (hw : ∀ a ∈ m, a < 2 ^ w) (hn : m.length ≤ 2 ^ l) :
    ∃ p z, ffEncodeBfv e m r.ms false = .ok p ∧ r.absorbSimple p = .ok z ∧
      VSound l e S z ⟨x.level, x.comps, 2 ^ l * x.noise * e.ctx.t⟩ (fun i => f i * (m.getD i 0 : ℕ)) := by
  obtain ⟨g1, g2, g3, g4, _⟩ := h.good he
  obtain ⟨p, N, p1, p2, p3, p4, p5⟩ := c50_encode_unscaled he hb g2 g4 hw hn
  obtain ⟨h1, h2, h3, h4, h5, h6, M, ⟨Φ, h7, h9⟩, h8⟩ := h
  obtain ⟨z, -, z1, z2, z3, z4⟩ := c53_absorb g1 p2 p3 h7
  refine ⟨p, z, p1, z1, z2.1.trans h1, z2.2.trans h2, z3.trans h3, h4, h5, h6, negMul M fun j => (N j : ℤ), ⟨_, z4, ?_⟩, fun i hi => ?_⟩
  · rw [z2.1]
    refine h9.mul fun j => ?_
    rw [Int.cast_natCast, Nat.abs_cast]
    exact_mod_cast (p4 j).le
  · rw [(c50_ring (root_of he).1 (root_of he).2.1 _ _ i).2.2, h8 i hi, p5 i hi]

theorem vsound_scale (he : GoodEncoder w l e) (h : VSound l e S r x f) {c : ℕ} (hc : c < 2 ^ w) :
    ∃ z, r.absorbInt c = .ok z ∧ VSound l e S z ⟨x.level, x.comps, c * x.noise⟩ (fun i => c * f i) := by
  obtain ⟨g1, g2, g3, _, _⟩ := h.good he
  obtain ⟨h1, h2, h3, h4, h5, h6, M, ⟨Φ, h7, h9⟩, h8⟩ := h
  obtain ⟨z, z1, z2, z3, z4⟩ := (c53_absorb_scalar g1 h7).1 c hc
  refine ⟨z, z1, z2.1.trans h1, z2.2.trans h2, z3.trans h3, h4, h5, h6, fun j => (c : ℤ) * M j, ⟨_, z4, fun j => ?_⟩,
    fun i hi => ?_⟩
  · rw [z2.1]
    have e1 : (e.ctx.t : ℚ) * (((c : ℤ) * Φ j : ℤ) : ℚ) - (modulusProd r.ms : ℚ) * (((c : ℤ) * M j : ℤ) : ℚ) =
        c * ((e.ctx.t : ℚ) * Φ j - modulusProd r.ms * M j) := by push_cast; ring
    rw [e1, abs_mul, Nat.abs_cast]
    exact mul_le_mul_of_nonneg_left (h9 j) (Nat.cast_nonneg _)
  · rw [slots_smul, h8 i hi]

theorem near_add {F R M : Fin (2 ^ l) → ℤ} {t Q : ℕ} {a b : ℚ} {k : ℕ} {B : ℤ} {logs : List ℕ}
    (hF : BfvNear t Q F M a) (hR : ∀ j, |R j| ≤ k * (2 ^ l * B * (logs.map fun b => (2 : ℤ) ^ b).sum))
    (hb : digitNoise l t B logs ≤ b) : BfvNear t Q (fun j => F j + R j) M (a + k * b) := by
  intro j
  have h1 : |((0 + t * R j : ℤ) : ℚ)| ≤ 0 + k * b := noise_add (F := 0) (by simp) hR hb j
  have h2 := hF j
  push_cast at h1 ⊢
  rw [zero_add, zero_add] at h1
  calc |(t : ℚ) * (F j + R j) - Q * M j| = |((t : ℚ) * F j - Q * M j) + t * R j| := by congr 1; ring
    _ ≤ _ := (abs_add_le _ _).trans (add_le_add h2 h1)

/-- Key switching with errors that are not multiplied by `t` adds `t` times as much to the noise. -/
theorem digitNoise_one {t : ℕ} {B : ℤ} {logs : List ℕ} {b : ℚ} (h : digitNoise l 1 B logs ≤ b) :
    digitNoise l t B logs ≤ t * b := by
  have : digitNoise l t B logs = t * digitNoise l 1 B logs := by unfold digitNoise; push_cast; ring
  rw [this]
  exact mul_le_mul_of_nonneg_left h (Nat.cast_nonneg _)

theorem vsound_relin (he : GoodEncoder w l e) (h : VSound l e S r x f) (hc : x.comps ≤ 3) {b : ℚ} {key : RRelin}
    (hk : RelinOk l S 1 (e.ctx.qs.take x.level) b key) :
    ∃ z, key.applyTo r = .ok z ∧ VSound l e S z ⟨x.level, 2, x.noise + (x.comps - 2 : ℕ) * (e.ctx.t * b)⟩ f := by
  obtain ⟨g1, g2, g3, _, _⟩ := h.good he
  obtain ⟨h1, h2, h3, h4, h5, h6, M, ⟨Φ, h7, h9⟩, h8⟩ := h
  obtain ⟨k1, B, Gs, logs, k2, k3, k4⟩ := hk
  have hd := k3.degree
  obtain ⟨z, R, z1, z2, z3, z4, z5, z6⟩ := c52_relin_apply_partial (by rw [k1, ← h1]; exact g1) k2 k3 (h1.trans k1.symm)
    h2 (by omega) (by omega) (Or.inl (by omega)) h7
  refine ⟨z, z1, z2.trans h1, z3, z4, h4, h5, le_rfl, M, ⟨_, z5, ?_⟩, h8⟩
  rw [z2]
  rw [h3] at z6
  have := near_add h9 z6 (digitNoise_one (t := e.ctx.t) k4)
  simpa using this

theorem vsound_galois (he : GoodEncoder w l e) (h : VSound l e S r x f) (hc : x.comps = 2) {b : ℚ} {p : ℕ}
    {key : RGalois} (hk : GaloisOk l S 1 (e.ctx.qs.take x.level) b p key) {π : ℕ → ℕ}
    (hπ : ∀ i < 2 ^ l, π i < 2 ^ l ∧ ∀ F : Fin (2 ^ l) → ℤ,
      slotsOf (nttRoot l e.mt) l (substPow p F) i = slotsOf (nttRoot l e.mt) l F (π i)) :
    ∃ y z, r.substitute p = .ok y ∧ key.applyTo y = .ok z ∧
      VSound l e S z ⟨x.level, 2, x.noise + e.ctx.t * b⟩ (fun i => f (π i)) := by
  obtain ⟨g1, g2, g3, _, _⟩ := h.good he
  obtain ⟨h1, h2, h3, h4, h5, h6, M, ⟨Φ, h7, h9⟩, h8⟩ := h
  obtain ⟨k1, k2, k3, k4, B, Gs, logs, k5, k6, k7⟩ := hk
  obtain ⟨y, z, R, y1, z1, z2, z3, z4, z5, z6⟩ := c52_rotate (root_of he).2.2 (by rw [k1, ← h1]; exact g1)
    (by rw [k1, ← h1]; exact g2) k5 k6 (h1.trans k1.symm) k2 k3 k4 h2 (h3.trans hc) h7
  refine ⟨y, z, y1, z1, z2.trans h1, z3, z4, h4, h5, le_rfl, substPow p M, ⟨_, z5, ?_⟩, fun i hi => ?_⟩
  · have hn : BfvNear e.ctx.t (modulusProd r.ms) (substPow p Φ) (substPow p M) x.noise := by
      have e1 := substPow_lin l p (e.ctx.t : ℤ) (-(modulusProd r.ms : ℤ)) Φ M
      intro j
      have e2 := congrFun e1 j
      have e3 : (e.ctx.t : ℚ) * (substPow p Φ j : ℤ) - modulusProd r.ms * (substPow p M j : ℤ) =
          ((substPow p (fun i => (e.ctx.t : ℤ) * Φ i + -(modulusProd r.ms : ℤ) * M i) j : ℤ) : ℚ) := by
        rw [e2]; push_cast; ring
      have h9' : ∀ i, |(((e.ctx.t : ℤ) * Φ i + -(modulusProd r.ms : ℤ) * M i : ℤ) : ℚ)| ≤ x.noise := fun i => by
        have := h9 i
        push_cast
        convert this using 2
        ring
      rw [e3]
      rcases Expand.substPow_single l p k3 (fun i => (e.ctx.t : ℤ) * Φ i + -(modulusProd r.ms : ℤ) * M i) j with
        h0 | ⟨i, h0 | h0⟩
      · rw [h0, Int.cast_zero, abs_zero]; exact (abs_nonneg _).trans (h9 j)
      · rw [h0]; exact h9' i
      · rw [h0, Int.cast_neg, abs_neg]; exact h9' i
    rw [z2]
    have := near_add (k := 1) hn (by rw [Nat.cast_one, one_mul]; exact z6) (digitNoise_one (t := e.ctx.t) k7)
    simpa using this
  · rw [(hπ i hi).2, h8 _ (hπ i hi).1]

theorem vsound_reduce (he : GoodEncoder w l e) (hPt : P.t = e.ctx.t) (hPq : P.qs = e.ctx.qs.map (·.N))
    (hS : ((norm1 S : ℤ) : ℚ) ≤ P.secret) (h : VSound l e S r x f) (hl : 1 < x.level) :
    ∃ z, r.modReduceBfv e.ctx = .ok z ∧ VSound l e S z
      ⟨x.level - 1, x.comps, x.noise / P.qs.getD (x.level - 1) 1 + P.t / 2 * P.growth x.comps⟩ f := by
  obtain ⟨g1, g2, g3, g4, g5⟩ := h.good he
  obtain ⟨h1, h2, h3, h4, h5, h6, M, ⟨Φ, h7, h9⟩, h8⟩ := h
  have hlt : x.level - 1 < e.ctx.qs.length := by omega
  have hm := List.getElem?_eq_getElem hlt
  generalize hmm : e.ctx.qs[x.level - 1] = m at hm
  have hmem : m ∈ e.ctx.qs := List.mem_of_getElem? hm
  have hms : r.ms = e.ctx.qs.take (x.level - 1) ++ [m] := by
    rw [h1]
    conv_lhs => rw [show x.level = x.level - 1 + 1 by omega, List.take_add_one, hm]
    rfl
  have hq : P.qs.getD (x.level - 1) 1 = m.N := by
    rw [hPq, List.getD_eq_getElem?_getD, List.getElem?_map, hm]; rfl
  have hne : e.ctx.qs.take (x.level - 1) ≠ [] := by
    intro hn
    have := congrArg List.length hn
    rw [List.length_take, List.length_nil] at this
    omega
  obtain ⟨z, Ψ, z1, z2, z3, z4, z5, E, z7⟩ := c56_modReduce_bfv he.ctx hne hms
    (by rw [← hms, h1]; exact List.take_prefix _ _) h7
  refine ⟨z, z1, z2, z3.trans h2, z4.trans h3, by dsimp only; omega, by dsimp only; omega, h6, M, ⟨Ψ, z5, fun j => ?_⟩,
    h8⟩
  obtain ⟨e1, e2⟩ := z7 j
  rw [h2] at e2
  rw [show ((1 : ℤ)).toNat = 1 from rfl, Expand.substPow_one, h3] at e2
  dsimp only
  rw [hq, z2, hPt]
  have hN : (0 : ℚ) < m.N := Nat.cast_pos.mpr (he.ctx.qs m hmem).prime.pos
  have ht : (0 : ℚ) ≤ e.ctx.t := Nat.cast_nonneg _
  have hE : |(E j : ℚ)| ≤ m.N / 2 * P.growth x.comps := by
    have e3 : 2 * |(E j : ℚ)| ≤ m.N * ∑ i ∈ Finset.range x.comps, ((norm1 S : ℤ) : ℚ) ^ i := by exact_mod_cast e2
    have e4 : ∑ i ∈ Finset.range x.comps, ((norm1 S : ℤ) : ℚ) ^ i ≤ P.growth x.comps :=
      Finset.sum_le_sum fun i _ => pow_le_pow_left₀ (by exact_mod_cast norm1_nonneg S) hS i
    have := mul_le_mul_of_nonneg_left e4 hN.le
    linarith
  have e5 : (m.N : ℚ) * Ψ j = Φ j - E j := by exact_mod_cast e1
  have hprod : (modulusProd r.ms : ℚ) = modulusProd (e.ctx.qs.take (x.level - 1)) * m.N := by
    rw [hms]
    unfold modulusProd
    simp
  have e6 : (m.N : ℚ) * ((e.ctx.t : ℚ) * Ψ j - modulusProd (e.ctx.qs.take (x.level - 1)) * M j) =
      ((e.ctx.t : ℚ) * Φ j - modulusProd r.ms * M j) - e.ctx.t * E j := by
    rw [hprod]
    linear_combination (e.ctx.t : ℚ) * e5
  have e7 : (m.N : ℚ) * |(e.ctx.t : ℚ) * Ψ j - modulusProd (e.ctx.qs.take (x.level - 1)) * M j| ≤
      x.noise + e.ctx.t * (m.N / 2 * P.growth x.comps) := by
    rw [← abs_of_pos hN, ← abs_mul, abs_of_pos hN, e6]
    refine (abs_sub _ _).trans (add_le_add (h9 j) ?_)
    rw [abs_mul, Nat.abs_cast]
    exact mul_le_mul_of_nonneg_left hE ht
  have e8 : x.noise / m.N + e.ctx.t / 2 * P.growth x.comps =
      (x.noise + e.ctx.t * (m.N / 2 * P.growth x.comps)) / m.N := by
    field_simp
  rw [e8, le_div_iff₀ hN, mul_comm]
  exact e7


/-- Every computation the analysis supports runs without error, and ends with a ciphertext as analysed. -/
theorem bfv_levelled_sound {v : LEnv} (hv : v.e = e) (he : GoodEncoder w l e) (hb : BfvConstants e.ctx e.mt)
    (hp : ProductOk w ε est e.ctx) (hPl : P.l = l) (hPw : P.w = w) (hPt : P.t = e.ctx.t)
    (hPq : P.qs = e.ctx.qs.map (·.N)) (hPp : P.ps = e.ctx.ps.map (·.N)) (hPh : P.h = 1 / 2 + ε)
    (hS : ((norm1 S : ℤ) : ℚ) ≤ P.secret) {f g : ℕ → ℕ → ZMod e.mt.N}
    (hx : ∀ i, VSound l e S (v.x i) ⟨P.qs.length, 2, P.fresh⟩ (f i))
    (hy : ∀ i, VSound l e S (v.y i) ⟨P.qs.length, 2, P.sent⟩ (g i))
    (hr : ∀ lev ∈ P.relins, ∃ b, e.ctx.t * b = P.switch lev ∧ RelinOk l S 1 (e.ctx.qs.take lev) b (v.relin lev))
    (hgal : ∀ a ∈ P.galois, ∃ b, e.ctx.t * b = P.switch a.1 ∧
      GaloisOk l S 1 (e.ctx.qs.take a.1) b a.2 (v.galois a.1 a.2))
    (u : VCircuit) {info : LInfo} (hu : u.analyse P = some info) :
    ∃ r, u.run est l v = .ok r ∧ VSound l e S r info (u.eval l f g) := by
  subst hv hPl hPw
  obtain ⟨hroot, hl1, -⟩ := root_of he
  have hlen : P.qs.length = v.e.ctx.qs.length := by rw [hPq, List.length_map]
  have vec : ∀ {m : List ℕ}, P.vecOk m = true → (∀ a ∈ m, a < 2 ^ P.w) ∧ m.length ≤ 2 ^ P.l := by
    intro m hm
    unfold LParams.vecOk at hm
    simpa using hm
  have gal : ∀ {r : RCt} {x : LInfo} {F : ℕ → ZMod v.e.mt.N} {p : ℕ} {info : LInfo} {π : ℕ → ℕ},
      VSound P.l v.e S r x F → P.galoisInfo p x = some info →
      (∀ i < 2 ^ P.l, π i < 2 ^ P.l ∧ ∀ F : Fin (2 ^ P.l) → ℤ,
        slotsOf (nttRoot P.l v.e.mt) P.l (substPow p F) i = slotsOf (nttRoot P.l v.e.mt) P.l F (π i)) →
      ∃ z, (do (v.galois r.ms.length p).applyTo (← r.substitute p)) = .ok z ∧
        VSound P.l v.e S z info (fun i => F (π i)) := by
    intro r x F p info π h hi hπ
    unfold LParams.galoisInfo at hi
    split_ifs at hi with hc
    obtain rfl := Option.some.inj hi
    obtain ⟨b, hb, hkey⟩ := hgal _ hc.2
    obtain ⟨y, z, y1, z1, z2⟩ := vsound_galois he h hc.1 hkey hπ
    refine ⟨z, ?_, by rw [← hb]; exact z2⟩
    rw [y1, Outcome.bind_ok, (h.good he).2.2.2.2, z1]
  induction u generalizing info with
  | input i => exact ⟨_, rfl, by obtain rfl := Option.some.inj hu; exact hx i⟩
  | received i => exact ⟨_, rfl, by obtain rfl := Option.some.inj hu; exact hy i⟩
  | neg a iha =>
    obtain ⟨ra, ea, sa⟩ := iha hu
    obtain ⟨z, z1, z2⟩ := vsound_neg he sa
    exact ⟨z, by unfold VCircuit.run; rw [ea, Outcome.bind_ok, z1], z2⟩
  | add a b iha ihb =>
    unfold VCircuit.analyse at hu
    obtain ⟨x, hxa, hu⟩ := Option.bind_eq_some_iff.mp hu
    obtain ⟨y, hyb, hu⟩ := Option.bind_eq_some_iff.mp hu
    split_ifs at hu with hc
    obtain rfl := Option.some.inj hu
    obtain ⟨ra, ea, sa⟩ := iha hxa
    obtain ⟨rb, eb, sb⟩ := ihb hyb
    obtain ⟨z, z1, z2⟩ := vsound_add he sa sb hc.1 hc.2
    exact ⟨z, by unfold VCircuit.run; rw [ea, Outcome.bind_ok, eb, Outcome.bind_ok, z1], z2⟩
  | sub a b iha ihb =>
    unfold VCircuit.analyse at hu
    obtain ⟨x, hxa, hu⟩ := Option.bind_eq_some_iff.mp hu
    obtain ⟨y, hyb, hu⟩ := Option.bind_eq_some_iff.mp hu
    split_ifs at hu with hc
    obtain rfl := Option.some.inj hu
    obtain ⟨ra, ea, sa⟩ := iha hxa
    obtain ⟨rb, eb, sb⟩ := ihb hyb
    obtain ⟨z, z1, z2⟩ := vsound_sub he sa sb hc.1 hc.2
    exact ⟨z, by unfold VCircuit.run; rw [ea, Outcome.bind_ok, eb, Outcome.bind_ok, z1], z2⟩
  | mul a b iha ihb =>
    unfold VCircuit.analyse at hu
    obtain ⟨x, hxa, hu⟩ := Option.bind_eq_some_iff.mp hu
    obtain ⟨y, hyb, hu⟩ := Option.bind_eq_some_iff.mp hu
    split_ifs at hu with hc
    obtain rfl := Option.some.inj hu
    obtain ⟨ra, ea, sa⟩ := iha hxa
    obtain ⟨rb, eb, sb⟩ := ihb hyb
    obtain ⟨z, z1, z2⟩ := vsound_mul he hp rfl hPt hPq hPp hPh hS sa sb (hc.1.trans hlen) (hc.2.trans hlen)
    exact ⟨z, by unfold VCircuit.run; rw [ea, Outcome.bind_ok, eb, Outcome.bind_ok, z1], z2⟩
  | addVec a m iha =>
    unfold VCircuit.analyse at hu
    obtain ⟨x, hxa, hu⟩ := Option.bind_eq_some_iff.mp hu
    split_ifs at hu with hc
    obtain rfl := Option.some.inj hu
    obtain ⟨ra, ea, sa⟩ := iha hxa
    obtain ⟨p, z, p1, z1, z2⟩ := vsound_addVec he hb sa (hc.2.trans hlen) (vec hc.1).1 (vec hc.1).2
    exact ⟨z, by unfold VCircuit.run; rw [ea, Outcome.bind_ok, p1, Outcome.bind_ok, z1], by rw [hPt]; exact z2⟩
  | subVec a m iha =>
    unfold VCircuit.analyse at hu
    obtain ⟨x, hxa, hu⟩ := Option.bind_eq_some_iff.mp hu
    split_ifs at hu with hc
    obtain rfl := Option.some.inj hu
    obtain ⟨ra, ea, sa⟩ := iha hxa
    obtain ⟨p, z, p1, z1, z2⟩ := vsound_subVec he hb sa (hc.2.trans hlen) (vec hc.1).1 (vec hc.1).2
    exact ⟨z, by unfold VCircuit.run; rw [ea, Outcome.bind_ok, p1, Outcome.bind_ok, z1], by rw [hPt]; exact z2⟩
  | mulVec a m iha =>
    unfold VCircuit.analyse at hu
    obtain ⟨x, hxa, hu⟩ := Option.bind_eq_some_iff.mp hu
    split_ifs at hu with hc
    obtain rfl := Option.some.inj hu
    obtain ⟨ra, ea, sa⟩ := iha hxa
    obtain ⟨p, z, p1, z1, z2⟩ := vsound_mulVec he hb hp rfl hPt hPq hPp hPh hS sa (hc.2.trans hlen)
      (vec hc.1).1 (vec hc.1).2
    exact ⟨z, by unfold VCircuit.run; rw [ea, Outcome.bind_ok, p1, Outcome.bind_ok, z1], z2⟩
  | mulSimple a m iha =>
    unfold VCircuit.analyse at hu
    obtain ⟨x, hxa, hu⟩ := Option.bind_eq_some_iff.mp hu
    split_ifs at hu with hc
    obtain rfl := Option.some.inj hu
    obtain ⟨ra, ea, sa⟩ := iha hxa
    obtain ⟨p, z, p1, z1, z2⟩ := vsound_mulSimple he hb sa (vec hc).1 (vec hc).2
    exact ⟨z, by unfold VCircuit.run; rw [ea, Outcome.bind_ok, p1, Outcome.bind_ok, z1], by rw [hPt]; exact z2⟩
  | scale a c iha =>
    unfold VCircuit.analyse at hu
    obtain ⟨x, hxa, hu⟩ := Option.bind_eq_some_iff.mp hu
    split_ifs at hu with hc
    obtain rfl := Option.some.inj hu
    obtain ⟨ra, ea, sa⟩ := iha hxa
    obtain ⟨z, z1, z2⟩ := vsound_scale he sa hc
    exact ⟨z, by unfold VCircuit.run; rw [ea, Outcome.bind_ok, z1], z2⟩
  | relin a iha =>
    unfold VCircuit.analyse at hu
    obtain ⟨x, hxa, hu⟩ := Option.bind_eq_some_iff.mp hu
    split_ifs at hu with hc
    obtain rfl := Option.some.inj hu
    obtain ⟨ra, ea, sa⟩ := iha hxa
    obtain ⟨b, hbs, hkey⟩ := hr _ hc.2
    obtain ⟨z, z1, z2⟩ := vsound_relin he sa hc.1 hkey
    exact ⟨z, by unfold VCircuit.run; rw [ea, Outcome.bind_ok, (sa.good he).2.2.2.2, z1], by rw [← hbs]; exact z2⟩
  | rotate a k iha =>
    unfold VCircuit.analyse at hu
    obtain ⟨x, hxa, hu⟩ := Option.bind_eq_some_iff.mp hu
    obtain ⟨ra, ea, sa⟩ := iha hxa
    obtain ⟨z, z1, z2⟩ := gal sa hu (π := rotateSlot P.l k)
      (fun i hi => ⟨rotateSlot_lt hl1 hi, fun F => c50_rotate hroot hl1 F k hi⟩)
    exact ⟨z, by unfold VCircuit.run; rw [ea, Outcome.bind_ok]; exact z1, z2⟩
  | swap a iha =>
    unfold VCircuit.analyse at hu
    obtain ⟨x, hxa, hu⟩ := Option.bind_eq_some_iff.mp hu
    obtain ⟨ra, ea, sa⟩ := iha hxa
    obtain ⟨z, z1, z2⟩ := gal sa hu (π := swapSlot P.l)
      (fun i hi => ⟨swapSlot_lt hl1 hi, fun F => c50_swap hroot hl1 F hi⟩)
    exact ⟨z, by unfold VCircuit.run; rw [ea, Outcome.bind_ok]; exact z1, z2⟩
  | reduce a iha =>
    unfold VCircuit.analyse at hu
    obtain ⟨x, hxa, hu⟩ := Option.bind_eq_some_iff.mp hu
    split_ifs at hu with hc
    obtain rfl := Option.some.inj hu
    obtain ⟨ra, ea, sa⟩ := iha hxa
    obtain ⟨z, z1, z2⟩ := vsound_reduce he hPt hPq hS sa hc
    exact ⟨z, by unfold VCircuit.run; rw [ea, Outcome.bind_ok, z1], z2⟩

end

end Shell
