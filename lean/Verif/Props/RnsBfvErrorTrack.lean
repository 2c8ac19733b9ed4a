import Verif.Props.RnsErrorTrack
import Verif.Props.RnsBfvExample
import Verif.Props.RnsBfvLevelled
/-!
# Property C66: the error estimates of BFV ciphertexts

A BFV ciphertext that stands for `Φ` and holds the message `M` has the noise `Φ - Q M / t`. The estimate of the
ciphertext is meant to bound its size in the canonical embedding; `t` times the noise is an integer polynomial.
-/

namespace Shell.Spec
open Rns RnsErrorTrack

/-- The ciphertext holds the message `M`, and the size of its noise is at most the error estimate plus `s`. -/
def BfvEstimated (l : ℕ) (S : Fin (2 ^ l) → ℤ) (t : ℕ) (x : RTracked) (M : Fin (2 ^ l) → ℤ) (s : ℝ) : Prop :=
  ∃ Φ, Encrypts l S x.ct Φ ∧ SizeAtMost (fun i => t * Φ i - modulusProd x.ct.ms * M i) (t * (x.error + s))

end Shell.Spec

namespace Shell
open Spec Rns RnsErrorTrack
variable {ι : Type} {w l : ℕ} {S : Fin (2 ^ l) → ℤ}

/-- Running a computation on BFV ciphertexts with the library, error estimates included. -/
noncomputable def BCircuit.runTracked (P : RErrorParams) (est : Estimate) (c : Rns.Ctx) (x : ι → RTracked) :
    BCircuit ι → Outcome RTracked
  | input i => .ok (x i)
  | neg a => do (← runTracked P est c x a).negate
  | add a b => do (← runTracked P est c x a).add (← runTracked P est c x b)
  | sub a b => do (← runTracked P est c x a).sub (← runTracked P est c x b)
  | mul a b => do RTracked.mulBfv est c (← runTracked P est c x a) (← runTracked P est c x b)
  | addPlain a p => do (← runTracked P est c x a).addPlain p
  | subPlain a p => do (← runTracked P est c x a).subPlain p
  | absorb a p => do RTracked.absorbBfv P est c (← runTracked P est c x a) p
  | absorbSimple a p => do (← runTracked P est c x a).absorbSimple P p

/-- The error estimate of the result. -/
noncomputable def BCircuit.estimate (P : RErrorParams) (e : ι → ℝ) : BCircuit ι → ℝ
  | input i => e i
  | neg a | addPlain a _ | subPlain a _ => estimate P e a
  | add a b | sub a b => estimate P e a + estimate P e b
  | mul a b => estimate P e a * estimate P e b
  | absorb a _ | absorbSimple a _ => estimate P e a * P.bPlaintext

/-- What the estimate of the result lacks: the noise `ρ` of the encodings of the plaintexts that are added. -/
noncomputable def BCircuit.lacking (P : RErrorParams) (ρ : RPoly → ℝ) : BCircuit ι → ℝ
  | input _ => 0
  | neg a => lacking P ρ a
  | addPlain a p | subPlain a p => lacking P ρ a + ρ p
  | add a b | sub a b | mul a b => lacking P ρ a + lacking P ρ b
  | absorb a _ | absorbSimple a _ => lacking P ρ a * P.bPlaintext

/-- The computation has no products of ciphertexts and absorbs only plaintexts in the encoding without scaling, of size at
most `B_plaintext`; the plaintexts that are added hold the messages `N` in the scaled encoding, with noise `ρ`. -/
def BCircuit.Linear (P : RErrorParams) (l t : ℕ) (ms : List Modulus) (N : RPoly → Fin (2 ^ l) → ℤ) (ρ : RPoly → ℝ) :
    BCircuit ι → Prop
  | input _ => True
  | neg a => Linear P l t ms N ρ a
  | add a b | sub a b => Linear P l t ms N ρ a ∧ Linear P l t ms N ρ b
  | mul _ _ | absorb _ _ => False
  | addPlain a p | subPlain a p => Linear P l t ms N ρ a ∧ p.ntt = true ∧ ∃ G, Represents l ms p G ∧
      SizeAtMost (fun i => t * G i - modulusProd ms * N p i) (t * ρ p)
  | absorbSimple a p => Linear P l t ms N ρ a ∧ p.ntt = true ∧ Represents l ms p (N p) ∧ SizeAtMost (N p) P.bPlaintext

theorem brunTracked_eq (P : RErrorParams) (est : Estimate) (c : Rns.Ctx) (x : ι → RTracked) (u : BCircuit ι) :
    u.runTracked P est c x =
      (do return ⟨← u.run est c fun i => (x i).ct, u.estimate P fun i => (x i).error⟩) := by
  induction u with
  | input i => rfl
  | neg a ih =>
    simp only [BCircuit.runTracked, BCircuit.run, ih, RTracked.negate, BCircuit.estimate]
    cases a.run est c fun i => (x i).ct <;> rfl
  | addPlain a p ih =>
    simp only [BCircuit.runTracked, BCircuit.run, ih, RTracked.addPlain, BCircuit.estimate]
    cases a.run est c fun i => (x i).ct <;> rfl
  | subPlain a p ih =>
    simp only [BCircuit.runTracked, BCircuit.run, ih, RTracked.subPlain, BCircuit.estimate]
    cases a.run est c fun i => (x i).ct <;> rfl
  | absorb a p ih =>
    simp only [BCircuit.runTracked, BCircuit.run, ih, RTracked.absorbBfv, BCircuit.estimate]
    cases a.run est c fun i => (x i).ct <;> rfl
  | absorbSimple a p ih =>
    simp only [BCircuit.runTracked, BCircuit.run, ih, RTracked.absorbSimple, BCircuit.estimate]
    cases a.run est c fun i => (x i).ct <;> rfl
  | add a b ia ib =>
    simp only [BCircuit.runTracked, BCircuit.run, ia, ib, RTracked.add, BCircuit.estimate]
    cases a.run est c fun i => (x i).ct <;> cases b.run est c fun i => (x i).ct <;> rfl
  | sub a b ia ib =>
    simp only [BCircuit.runTracked, BCircuit.run, ia, ib, RTracked.sub, BCircuit.estimate]
    cases a.run est c fun i => (x i).ct <;> cases b.run est c fun i => (x i).ct <;> rfl
  | mul a b ia ib =>
    simp only [BCircuit.runTracked, BCircuit.run, ia, ib, RTracked.mulBfv, BCircuit.estimate]
    cases a.run est c fun i => (x i).ct <;> cases b.run est c fun i => (x i).ct <;> rfl

/-- C66 (partial: no products of ciphertexts or with scaled plaintexts, whose noise also depends on the secret key and on
the message, no scalars, see `c66_scalar_witness`; the encodings of plaintexts that are added count): every computation on
BFV ciphertexts within their estimates by negations, additions, subtractions, additions and subtractions of plaintexts and
absorptions of unscaled plaintexts of size at most `B_plaintext` succeeds. Its result holds the same computation on the
messages, with noise at most the result's error estimate plus the noise of the encodings. -/
theorem c66_bfv_computation_partial {ms : List Modulus} (hg : ∀ m ∈ ms, GoodModulus w l m) {pow : ℤ} {d : ℕ} (hd : 0 < d)
    (P : RErrorParams) (est : Estimate) (c : Rns.Ctx) {t : ℕ} {x : ι → RTracked} {M : ι → Fin (2 ^ l) → ℤ}
    {N : RPoly → Fin (2 ^ l) → ℤ} {ρ : RPoly → ℝ}
    (hx : ∀ i, (x i).ct.ms = ms ∧ (x i).ct.power = pow ∧ (x i).ct.c.length = d ∧ BfvEstimated l S t (x i) (M i) 0)
    (u : BCircuit ι) (hu : u.Linear P l t ms N ρ) :
    ∃ r, u.runTracked P est c x = .ok r ∧ r.error = u.estimate P (fun i => (x i).error) ∧
      r.ct.ms = ms ∧ r.ct.power = pow ∧ r.ct.c.length = d ∧
      BfvEstimated l S t r (u.evalPoly M N) (u.lacking P ρ) := by
  suffices h : ∃ r, u.run est c (fun i => (x i).ct) = .ok r ∧ r.ms = ms ∧ r.power = pow ∧ r.c.length = d ∧
      ∃ Φ, Encrypts l S r Φ ∧ SizeAtMost (fun i => t * Φ i - modulusProd ms * u.evalPoly M N i)
        (t * (u.estimate P (fun i => (x i).error) + u.lacking P ρ)) by
    obtain ⟨r, r1, r2, r3, r4, Φ, r5, r6⟩ := h
    refine ⟨⟨r, u.estimate P fun i => (x i).error⟩, ?_, rfl, r2, r3, r4, Φ, r5, ?_⟩
    · rw [brunTracked_eq, r1]; rfl
    · show SizeAtMost (fun i => t * Φ i - modulusProd r.ms * _) _
      rw [r2]; exact r6
  have hcne : ∀ {r : RCt}, r.c.length = d → r.c ≠ [] := fun h => List.length_pos_iff.mp (by omega)
  induction u with
  | input i =>
    obtain ⟨h1, h2, h3, Φ, h4, h5⟩ := hx i
    rw [h1] at h5
    exact ⟨(x i).ct, rfl, h1, h2, h3, Φ, h4, h5⟩
  | neg a ih =>
    obtain ⟨r, r1, r2, r3, r4, Φ, r6, r7⟩ := ih hu
    obtain ⟨r', s1, ⟨s2, s3⟩, s4, s5⟩ := c53_negate (by rw [r2]; exact hg) r6
    refine ⟨r', by simp only [BCircuit.run]; rw [r1, Outcome.bind_ok, s1], s2.trans r2, s3.trans r3, s4.trans r4,
      -Φ, s5, ?_⟩
    convert r7.neg using 1
    · funext i
      simp only [BCircuit.evalPoly, Pi.neg_apply]; ring
    · rfl
  | add a b' iha ihb =>
    obtain ⟨r, r1, r2, r3, r4, Φ, r6, r7⟩ := iha hu.1
    obtain ⟨p, p1, p2, p3, p4, Ψ, p6, p7⟩ := ihb hu.2
    obtain ⟨r', s1, ⟨s2, s3⟩, s4, s5⟩ := c53_add (by rw [r2]; exact hg) (p2.trans r2.symm) (p3.trans r3.symm)
      (p4.trans r4.symm) r6 p6
    refine ⟨r', by simp only [BCircuit.run]; rw [r1, Outcome.bind_ok, p1, Outcome.bind_ok, s1], s2.trans r2,
      s3.trans r3, s4.trans r4, Φ + Ψ, s5, ?_⟩
    convert r7.add p7 using 1
    · funext i
      simp only [BCircuit.evalPoly, Pi.add_apply]; ring
    · simp only [BCircuit.estimate, BCircuit.lacking]; ring
  | sub a b' iha ihb =>
    obtain ⟨r, r1, r2, r3, r4, Φ, r6, r7⟩ := iha hu.1
    obtain ⟨p, p1, p2, p3, p4, Ψ, p6, p7⟩ := ihb hu.2
    obtain ⟨r', s1, ⟨s2, s3⟩, s4, s5⟩ := c53_sub (by rw [r2]; exact hg) (p2.trans r2.symm) (p3.trans r3.symm)
      (p4.trans r4.symm) r6 p6
    refine ⟨r', by simp only [BCircuit.run]; rw [r1, Outcome.bind_ok, p1, Outcome.bind_ok, s1], s2.trans r2,
      s3.trans r3, s4.trans r4, Φ - Ψ, s5, ?_⟩
    convert r7.sub p7 using 1
    · funext i
      simp only [BCircuit.evalPoly, Pi.sub_apply]; ring
    · simp only [BCircuit.estimate, BCircuit.lacking]; ring
  | mul a b' => exact hu.elim
  | absorb a p => exact hu.elim
  | addPlain a p ih =>
    obtain ⟨r, r1, r2, r3, r4, Φ, r6, r7⟩ := ih hu.1
    obtain ⟨hn, G, g1, g2⟩ := hu.2
    obtain ⟨r', s1, ⟨s2, s3⟩, s4, s5⟩ := c53_addPlain (by rw [r2]; exact hg) (hcne r4) hn (by rw [r2]; exact g1) r6
    refine ⟨r', by simp only [BCircuit.run]; rw [r1, Outcome.bind_ok, s1], s2.trans r2, s3.trans r3, s4.trans r4,
      Φ + G, s5, ?_⟩
    convert r7.add g2 using 1
    · funext i
      simp only [BCircuit.evalPoly, Pi.add_apply]; ring
    · simp only [BCircuit.estimate, BCircuit.lacking]; ring
  | subPlain a p ih =>
    obtain ⟨r, r1, r2, r3, r4, Φ, r6, r7⟩ := ih hu.1
    obtain ⟨hn, G, g1, g2⟩ := hu.2
    obtain ⟨r', s1, ⟨s2, s3⟩, s4, s5⟩ := c53_subPlain (by rw [r2]; exact hg) (hcne r4) hn (by rw [r2]; exact g1) r6
    refine ⟨r', by simp only [BCircuit.run]; rw [r1, Outcome.bind_ok, s1], s2.trans r2, s3.trans r3, s4.trans r4,
      Φ - G, s5, ?_⟩
    convert r7.sub g2 using 1
    · funext i
      simp only [BCircuit.evalPoly, Pi.sub_apply]; ring
    · simp only [BCircuit.estimate, BCircuit.lacking]; ring
  | absorbSimple a p ih =>
    obtain ⟨r, r1, r2, r3, r4, Φ, r6, r7⟩ := ih hu.1
    obtain ⟨hn, g1, g2⟩ := hu.2
    obtain ⟨r', -, s1, ⟨s2, s3⟩, s4, s5⟩ := c53_absorb (by rw [r2]; exact hg) hn (by rw [r2]; exact g1) r6
    refine ⟨r', by simp only [BCircuit.run]; rw [r1, Outcome.bind_ok, s1], s2.trans r2, s3.trans r3, s4.trans r4,
      _, s5, ?_⟩
    convert r7.mul g2 using 1
    · funext i
      have e := congrFun (Rns.negMul_lin (t : ℤ) (-(modulusProd ms : ℤ)) Φ (a.evalPoly M N) (N p)) i
      rw [show (fun i => (t : ℤ) * Φ i - modulusProd ms * a.evalPoly M N i) =
        fun i => (t : ℤ) * Φ i + -(modulusProd ms : ℤ) * a.evalPoly M N i from funext fun i => by ring, e]
      simp only [BCircuit.evalPoly]; ring
    · simp only [BCircuit.estimate, BCircuit.lacking]; ring

/-- C66: a BFV ciphertext whose noise is within its error estimate plus `s`, with `t` times that below `(1/2 - ε) Q`,
decrypts to its message: the coefficients modulo `t`, and the slots. -/
theorem c66_bfv_decrypt {ε : ℚ} {est : Estimate} {k : RKey} (hest : EstimateWithin k.ms.length ε est) (hε : ε < 1 / 2)
    {c : Rns.Ctx} {mt : Modulus} (hc : GoodCtx w l c) (hb : BfvConstants c mt)
    (hcr : MParams.create w mt.N = .ok mt.p) (hN : mt.N = c.t) {lev : ℕ} (hkm : k.ms = c.qs.take lev) (hne : k.ms ≠ [])
    (hlen : k.ms.length < 2 ^ w) (hk : KeyIs l k S) {x : RTracked} (hms : x.ct.ms = k.ms) (h0 : x.ct.c ≠ [])
    (hp : x.ct.power = 1) {M : Fin (2 ^ l) → ℤ} {s : ℝ} (hx : BfvEstimated l S c.t x M s)
    (hv : c.t * (x.error + s) < (1 / 2 - ε) * modulusProd k.ms) :
    k.decryptBfv (coefficientEncoder est c) x.ct = .ok (List.ofFn fun i => (M i % c.t).toNat) ∧
    ∀ e, GoodEncoder w l e → e.ctx = c → e.mt = mt → k.decryptBfv (finiteFieldEncoder est e) x.ct =
      .ok (List.ofFn fun i : Fin (2 ^ l) => (slotsOf (nttRoot l mt) l M i).val) := by
  obtain ⟨Φ, h1, h2⟩ := hx
  refine c57_decrypt hest hε hc hb hcr hN hkm hne hlen hk hms h0 hp (v := (⌊c.t * (x.error + s)⌋ : ℤ))
    ⟨Φ, h1, fun i => ?_⟩ ?_
  · have h3 := coeff_le_size h2 i
    have h4 : |(c.t : ℤ) * Φ i - modulusProd x.ct.ms * M i| ≤ ⌊c.t * (x.error + s)⌋ := by
      rw [Int.le_floor]
      exact_mod_cast h3
    exact_mod_cast h4
  · have h5 : ((⌊c.t * (x.error + s)⌋ : ℤ) : ℝ) ≤ c.t * (x.error + s) := Int.floor_le _
    have h6 : (((⌊c.t * (x.error + s)⌋ : ℤ) : ℚ) : ℝ) < (((1 / 2 - ε) * modulusProd k.ms : ℚ) : ℝ) := by
      push_cast
      exact h5.trans_lt hv
    exact Rat.cast_lt.mp h6

/-- The noise of the coefficients, from the error estimate. -/
theorem bfv_near_of {t : ℕ} {x : RTracked} {M : Fin (2 ^ l) → ℤ} {v : ℚ} (hx : BfvEstimated l S t x M 0)
    (hv : t * x.error ≤ v) : BfvEncrypts l S t x.ct M v := by
  obtain ⟨Φ, h1, h2⟩ := hx
  refine ⟨Φ, h1, fun i => ?_⟩
  have h3 := coeff_le_size h2 i
  rw [add_zero] at h3
  have h4 := h3.trans hv
  have h5 : ((|(t : ℚ) * Φ i - modulusProd x.ct.ms * M i| : ℚ) : ℝ) ≤ (v : ℝ) := by
    push_cast at h4 ⊢
    exact h4
  exact Rat.cast_le.mp h5

theorem bfv_estimated_of {t : ℕ} {x : RTracked} {M : Fin (2 ^ l) → ℤ} {v : ℚ} (hx : BfvEncrypts l S t x.ct M v)
    (hv : (2 ^ l : ℕ) * (v : ℝ) ≤ t * x.error) : BfvEstimated l S t x M 0 := by
  haveI : NeZero (2 ^ l) := ⟨by positivity⟩
  obtain ⟨Φ, h1, h2⟩ := hx
  refine ⟨Φ, h1, (size_of_coeff (by positivity) fun i => ?_).mono (by rw [add_zero]; exact hv)⟩
  have h3 : ((|(t : ℚ) * Φ i - modulusProd x.ct.ms * M i| : ℚ) : ℝ) ≤ (v : ℝ) := Rat.cast_le.mpr (h2 i)
  push_cast at h3 ⊢
  exact h3

/-- C66 (partial: the noise of C57 must be at most the product of the estimates): products of BFV ciphertexts. -/
theorem c66_bfv_mul_partial {ε : ℚ} {est : Estimate} {c : Rns.Ctx} (hc : GoodCtx w l c) (hne : c.qs ≠ []) (hnp : c.ps ≠ [])
    (he : EstimateWithin (max c.qs.length c.ps.length) ε est)
    (hε : ε < 1 / 2) (hwq : c.qs.length < 2 ^ w) (hwp : c.ps.length < 2 ^ w) {x y : RTracked}
    (hx : x.ct.ms = c.qs) (hy : y.ct.ms = c.qs) (hp : y.ct.power = x.ct.power) (h0 : x.ct.c ≠ [])
    {M N : Fin (2 ^ l) → ℤ} (h1 : BfvEstimated l S c.t x M 0) (h2 : BfvEstimated l S c.t y N 0) {vx vy : ℚ}
    (hvx : c.t * x.error ≤ vx) (hvy : c.t * y.error ≤ vy)
    (hK : (2 ^ l : ℕ) * ((bfvMulNoise (2 ^ l) c.t (modulusProd c.qs) (modulusProd c.ps) (1 / 2 + ε)
        (keyGrowth (substPow x.ct.power.toNat S) x.ct.c.length) (keyGrowth (substPow x.ct.power.toNat S) y.ct.c.length)
        (keyGrowth (substPow x.ct.power.toNat S) (x.ct.c.length + y.ct.c.length - 1)) vx vy : ℚ) : ℝ) ≤
      c.t * (x.error * y.error)) :
    ∃ r, x.mulBfv est c y = .ok r ∧ r.ct.power = x.ct.power ∧ r.ct.c.length = x.ct.c.length + y.ct.c.length - 1 ∧
      r.error = x.error * y.error ∧ BfvEstimated l S c.t r (negMul M N) 0 := by
  obtain ⟨r, r1, r2, r3, r4⟩ := c57_mul hc hne hnp he hε hwq hwp hx hy hp h0 (bfv_near_of h1 hvx) (bfv_near_of h2 hvy)
  refine ⟨⟨r, x.error * y.error⟩, by unfold RTracked.mulBfv; rw [r1]; rfl, r2.2, r3, rfl, bfv_estimated_of r4 hK⟩

/-- C66 (partial, like `c66_bfv_mul_partial`): absorption of plaintexts in the scaled encoding. -/
theorem c66_bfv_absorb_partial (P : RErrorParams) {ε : ℚ} {est : Estimate} {c : Rns.Ctx} (hc : GoodCtx w l c)
    (hne : c.qs ≠ []) (hnp : c.ps ≠ []) (he : EstimateWithin (max c.qs.length c.ps.length) ε est)
    (hε : ε < 1 / 2) (hwq : c.qs.length < 2 ^ w) (hwp : c.ps.length < 2 ^ w) {x : RTracked} (hx : x.ct.ms = c.qs)
    {pt : RPoly} {G : Fin (2 ^ l) → ℤ} (hn : pt.ntt = true) (hpt : Represents l c.qs pt G)
    {M N : Fin (2 ^ l) → ℤ} (h1 : BfvEstimated l S c.t x M 0) {vx vy : ℚ} (hvx : c.t * x.error ≤ vx)
    (h2 : BfvNear c.t (modulusProd c.qs) G N vy)
    (hK : (2 ^ l : ℕ) * ((bfvMulNoise (2 ^ l) c.t (modulusProd c.qs) (modulusProd c.ps) (1 / 2 + ε)
        (keyGrowth (substPow x.ct.power.toNat S) x.ct.c.length) 1
        (keyGrowth (substPow x.ct.power.toNat S) x.ct.c.length) vx vy : ℚ) : ℝ) ≤ c.t * (x.error * P.bPlaintext)) :
    ∃ r, x.absorbBfv P est c pt = .ok r ∧ r.ct.power = x.ct.power ∧ r.ct.c.length = x.ct.c.length ∧
      r.error = x.error * P.bPlaintext ∧ BfvEstimated l S c.t r (negMul M N) 0 := by
  obtain ⟨r, r1, r2, r3, r4⟩ := c57_absorb hc hne hnp he hε hwq hwp hx hn hpt (bfv_near_of h1 hvx) h2
  exact ⟨⟨r, x.error * P.bPlaintext⟩, by unfold RTracked.absorbBfv; rw [r1]; rfl, r2.2, r3, rfl, bfv_estimated_of r4 hK⟩

/-- C66 (partial: the rounding must be at most what the division removes from the estimate): modulus reduction of BFV
ciphertexts, which leaves the estimate unchanged. -/
theorem c66_bfv_modReduce_partial {ctx : Rns.Ctx} {red : List Modulus} {m : Modulus} (hctx : GoodCtx w l ctx)
    (hne : red ≠ []) {x : RTracked} (hms : x.ct.ms = red ++ [m]) (hpre : red ++ [m] <+: ctx.qs) {t : ℕ}
    {M : Fin (2 ^ l) → ℤ} {s : ℝ} (hx : BfvEstimated l S t x M s)
    (hR : x.error + s + (2 ^ l : ℕ) *
      ((m.N * ∑ j ∈ Finset.range x.ct.c.length, norm1 (substPow x.ct.power.toNat S) ^ j : ℤ) / 2) ≤ m.N * (x.error + s)) :
    ∃ r, x.modReduceBfv ctx = .ok r ∧ r.ct.ms = red ∧ r.ct.power = x.ct.power ∧ r.ct.c.length = x.ct.c.length ∧
      r.error = x.error ∧ BfvEstimated l S t r M s := by
  obtain ⟨Φ, h1, h2⟩ := hx
  obtain ⟨r, Φ', r1, r2, r3, r4, r5, E, hE⟩ := c56_modReduce_bfv hctx hne hms hpre h1
  refine ⟨⟨r, x.error⟩, by unfold RTracked.modReduceBfv; rw [r1]; rfl, r2, r3, r4, rfl, Φ', r5, ?_⟩
  obtain ⟨rest, hrest⟩ := hpre
  have hm : GoodModulus w l m := hctx.qs m (by rw [← hrest]; simp)
  have hN : (0 : ℝ) < m.N := by exact_mod_cast hm.prime.pos
  have hEs : SizeAtMost E ((2 ^ l : ℕ) *
      ((m.N * ∑ j ∈ Finset.range x.ct.c.length, norm1 (substPow x.ct.power.toNat S) ^ j : ℤ) / 2)) := by
    refine size_of_coeff (by positivity) fun i => ?_
    have h : (2 * |E i| : ℤ) ≤ m.N * ∑ j ∈ Finset.range x.ct.c.length, norm1 (substPow x.ct.power.toNat S) ^ j := (hE i).2
    have h' : (2 * |(E i : ℝ)|) ≤ ((m.N * ∑ j ∈ Finset.range x.ct.c.length, norm1 (substPow x.ct.power.toNat S) ^ j : ℤ) : ℝ) := by
      exact_mod_cast h
    linarith
  have h3 := h2.sub (hEs.smul (t : ℤ))
  have hQ : (modulusProd x.ct.ms : ℤ) = modulusProd red * m.N := by
    rw [hms]; unfold modulusProd; simp
  have e1 : ((fun i => (t : ℤ) * Φ i - modulusProd x.ct.ms * M i) - fun i => (t : ℤ) * E i) =
      fun i => (m.N : ℤ) * ((t : ℤ) * Φ' i - modulusProd red * M i) := by
    funext i
    have := (hE i).1
    simp only [Pi.sub_apply]
    rw [hQ]
    linear_combination (-(t : ℤ)) * this
  rw [e1] at h3
  show SizeAtMost (fun i => (t : ℤ) * Φ' i - modulusProd r.ms * M i) _
  rw [r2]
  intro z hz
  have h4 := h3 z hz
  rw [valueAt_smul, norm_mul, Int.cast_natCast, Complex.norm_natCast, Int.cast_natCast, Nat.abs_cast, ← mul_add] at h4
  refine le_of_mul_le_mul_left (h4.trans ?_) hN
  rw [show (m.N : ℝ) * (t * (x.error + s)) = t * (m.N * (x.error + s)) by ring]
  exact mul_le_mul_of_nonneg_left hR (Nat.cast_nonneg _)

/-! ### Concrete cases -/

/-- The conditions of `c66_bfv_mul_partial`, for the parameters of `RnsBfvExample` and all ciphertexts with the estimate
`10^5`, and those of `c66_bfv_modReduce_partial`. -/
example : ∃ e k S, GoodEncoder 16 2 e ∧ GoodKey 16 2 k S ∧ ∀ (x y : RTracked) (M N : Fin (2 ^ 2) → ℤ),
    Fresh k x.ct → Fresh k y.ct → x.error = 10 ^ 5 → y.error = 10 ^ 5 → BfvEstimated 2 S e.ctx.t x M 0 →
    BfvEstimated 2 S e.ctx.t y N 0 →
    (∃ r, x.mulBfv exactEstimate e.ctx y = .ok r ∧ BfvEstimated 2 S e.ctx.t r (negMul M N) 0) ∧
    ∃ r, x.modReduceBfv e.ctx = .ok r ∧ r.error = x.error ∧ BfvEstimated 2 S e.ctx.t r M 0 := by
  obtain ⟨e, he, hb, hq, hp, ht⟩ := exBfvEncoder
  obtain ⟨k, S, _, hk, km, kv, hS⟩ := exKey3
  have hqs := exMs3_of he.ctx.qs hq
  have hkm : k.ms = e.ctx.qs := by rw [km, hqs]
  have hne : e.ctx.qs ≠ [] := by intro h0; rw [h0] at hq; cases hq
  have hnp : e.ctx.ps ≠ [] := by intro h0; rw [h0] at hp; cases hp
  have hlq : e.ctx.qs.length = 3 := by
    have := congrArg List.length hq
    simpa using this
  have hlp : e.ctx.ps.length = 3 := by
    have := congrArg List.length hp
    simpa using this
  have hQ : modulusProd e.ctx.qs = 4811297 := by unfold modulusProd; rw [hq]; norm_num
  have hP : modulusProd e.ctx.ps = 9177521 := by unfold modulusProd; rw [hp]; norm_num
  have hg : ∀ d, keyGrowth S d ≤ ∑ j ∈ Finset.range d, (8 : ℚ) ^ j := fun d => by
    refine Finset.sum_le_sum fun j _ => pow_le_pow_left₀ (Finset.sum_nonneg fun _ _ => abs_nonneg _) ?_ j
    have : ∀ i, |(S i : ℚ)| ≤ 2 := fun i => by exact_mod_cast hS i
    refine (Finset.sum_le_sum fun i _ => this i).trans ?_
    norm_num
  have hg0 : ∀ d, 0 ≤ keyGrowth S d := fun d =>
    Finset.sum_nonneg fun j _ => pow_nonneg (Finset.sum_nonneg fun _ _ => abs_nonneg _) j
  have g2 : keyGrowth S 2 ≤ 9 := (hg 2).trans (by norm_num [Finset.sum_range_succ])
  have g3 : keyGrowth S 3 ≤ 73 := (hg 3).trans (by norm_num [Finset.sum_range_succ])
  refine ⟨e, k, S, he, hk, fun x y M N hx hy ex ey hM hN => ⟨?_, ?_⟩⟩
  · have hb : bfvMulNoise (2 ^ 2) 17 4811297 9177521 (1 / 2 + 0) (keyGrowth S 2) (keyGrowth S 2) (keyGrowth S 3)
        (17 * 10 ^ 5) (17 * 10 ^ 5) ≤ 10 ^ 10 := by
      refine (bfvMulNoise_mono (by norm_num) g2 g2 g3 (hg0 2) (hg0 2) (by norm_num) (by norm_num)).trans ?_
      unfold bfvMulNoise
      norm_num
    obtain ⟨r, r1, -, -, -, r2⟩ := c66_bfv_mul_partial (w := 16) (vx := 17 * 10 ^ 5) (vy := 17 * 10 ^ 5) he.ctx hne hnp
      (exactEstimate_within _) (by norm_num)
      (by rw [hlq]; norm_num) (by rw [hlp]; norm_num) (hx.1.trans hkm) (hy.1.trans hkm) (hy.2.1.trans hx.2.1.symm)
      (List.length_pos_iff.mp (by have := hx.2.2; omega)) hM hN (by rw [ht, ex]; norm_num) (by rw [ht, ey]; norm_num) (by
        rw [hx.2.1, hx.2.2, hy.2.2, show ((1 : ℤ)).toNat = 1 from rfl, Expand.substPow_one, hQ, hP, ht, ex, ey]
        have : ((bfvMulNoise (2 ^ 2) 17 4811297 9177521 (1 / 2 + 0) (keyGrowth S 2) (keyGrowth S 2) (keyGrowth S 3)
          (17 * 10 ^ 5) (17 * 10 ^ 5) : ℚ) : ℝ) ≤ ((10 ^ 10 : ℚ) : ℝ) := Rat.cast_le.mpr hb
        push_cast at this ⊢
        norm_num at this ⊢
        linarith)
    exact ⟨r, r1, r2⟩
  · have h3 : x.ct.ms = [exampleModulus 16 2 97, exampleModulus 16 2 193] ++ [exampleModulus 16 2 257] := by
      rw [hx.1, km]; rfl
    obtain ⟨r, r1, -, -, -, r2, r3⟩ := c66_bfv_modReduce_partial he.ctx (by simp) h3 (by
      rw [hqs]; exact List.prefix_refl _) hM (by
        rw [hx.2.1, hx.2.2, show ((1 : ℤ)).toNat = 1 from rfl, Expand.substPow_one, ex,
          show (exampleModulus 16 2 257).N = 257 by decide +kernel]
        have h1 : norm1 S ≤ 8 := by
          unfold norm1
          refine (Finset.sum_le_sum fun i _ => hS i).trans ?_
          norm_num
        have h2 : ((∑ j ∈ Finset.range 2, norm1 S ^ j : ℤ) : ℝ) ≤ 9 := by
          have : ∑ j ∈ Finset.range 2, norm1 S ^ j ≤ 9 := by
            simp [Finset.sum_range_succ]
            omega
          exact_mod_cast this
        push_cast at h2 ⊢
        norm_num at h2 ⊢
        linarith)
    exact ⟨r, r1, r2, r3⟩

end Shell
