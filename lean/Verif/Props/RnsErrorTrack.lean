import Verif.Model.RnsErrorTrack
import Verif.Props.RnsSchemeExample
import Verif.Props.RnsRelin
import Verif.Props.LazyRns
import Verif.Props.ErrorTrack
/-!
# Property C66: the error estimates of RNS ciphertexts

The noise of a BGV ciphertext is the polynomial `Φ` that it stands for; its size is measured in the canonical
embedding (`Spec.SizeAtMost`), like the comments in rns_error_params.h do.
-/

namespace Shell
open Spec Rns RnsErrorTrack
variable {σ ι : Type} {w l : ℕ} {S Φ M : Fin (2 ^ l) → ℤ} {x y : RTracked}

/-- The ciphertext stands for `Φ`, whose size is at most the ciphertext's error estimate. -/
structure REstimated (l : ℕ) (S : Fin (2 ^ l) → ℤ) (x : RTracked) (Φ : Fin (2 ^ l) → ℤ) : Prop where
  encrypts : Encrypts l S x.ct Φ
  size : SizeAtMost Φ x.error

/-! ### Computations -/

/-- Running a computation with the library, error estimates included. -/
noncomputable def RCircuit.runTracked (P : RErrorParams) (x : ι → RTracked) : RCircuit ι → Outcome RTracked
  | input i => .ok (x i)
  | neg a => do (← runTracked P x a).negate
  | add a b => do (← runTracked P x a).add (← runTracked P x b)
  | sub a b => do (← runTracked P x a).sub (← runTracked P x b)
  | mul a b => do (← runTracked P x a).mul (← runTracked P x b)
  | addPlain a p => do (← runTracked P x a).addPlain p
  | subPlain a p => do (← runTracked P x a).subPlain p
  | absorb a p => do (← runTracked P x a).absorb P p
  | absorbInt a c => do (← runTracked P x a).absorbInt c
  | fused a b p => do (← runTracked P x a).fusedAbsorbAdd P (← runTracked P x b) p

/-- The error estimate of the result. -/
noncomputable def RCircuit.estimate (P : RErrorParams) (e : ι → ℝ) : RCircuit ι → ℝ
  | input i => e i
  | neg a | addPlain a _ | subPlain a _ => estimate P e a
  | add a b | sub a b => estimate P e a + estimate P e b
  | mul a b => estimate P e a * estimate P e b
  | absorb a _ => estimate P e a * P.bPlaintext
  | absorbInt a c => estimate P e a * (c / 2)
  | fused a b _ => estimate P e a + estimate P e b * P.bPlaintext

/-- The computation has no additions of plaintexts and no products with scalars, and the plaintexts that it
absorbs have size at most `B_plaintext`. -/
def RCircuit.Within (P : RErrorParams) (M : RPoly → Fin (2 ^ l) → ℤ) : RCircuit ι → Prop
  | input _ => True
  | neg a => Within P M a
  | add a b | sub a b | mul a b => Within P M a ∧ Within P M b
  | addPlain _ _ | subPlain _ _ | absorbInt _ _ => False
  | absorb a p => Within P M a ∧ SizeAtMost (M p) P.bPlaintext
  | fused a b p => Within P M a ∧ Within P M b ∧ SizeAtMost (M p) P.bPlaintext

theorem runTracked_eq (P : RErrorParams) (x : ι → RTracked) (u : RCircuit ι) :
    u.runTracked P x = (do return ⟨← u.run fun i => (x i).ct, u.estimate P fun i => (x i).error⟩) := by
  induction u with
  | input i => rfl
  | neg a ih =>
    simp only [RCircuit.runTracked, RCircuit.run, ih, RTracked.negate, RCircuit.estimate]
    cases a.run fun i => (x i).ct <;> rfl
  | addPlain a p ih =>
    simp only [RCircuit.runTracked, RCircuit.run, ih, RTracked.addPlain, RCircuit.estimate]
    cases a.run fun i => (x i).ct <;> rfl
  | subPlain a p ih =>
    simp only [RCircuit.runTracked, RCircuit.run, ih, RTracked.subPlain, RCircuit.estimate]
    cases a.run fun i => (x i).ct <;> rfl
  | absorb a p ih =>
    simp only [RCircuit.runTracked, RCircuit.run, ih, RTracked.absorb, RCircuit.estimate]
    cases a.run fun i => (x i).ct <;> rfl
  | absorbInt a p ih =>
    simp only [RCircuit.runTracked, RCircuit.run, ih, RTracked.absorbInt, RCircuit.estimate]
    cases a.run fun i => (x i).ct <;> rfl
  | add a b ia ib =>
    simp only [RCircuit.runTracked, RCircuit.run, ia, ib, RTracked.add, RCircuit.estimate]
    cases a.run fun i => (x i).ct <;> cases b.run fun i => (x i).ct <;> rfl
  | sub a b ia ib =>
    simp only [RCircuit.runTracked, RCircuit.run, ia, ib, RTracked.sub, RCircuit.estimate]
    cases a.run fun i => (x i).ct <;> cases b.run fun i => (x i).ct <;> rfl
  | mul a b ia ib =>
    simp only [RCircuit.runTracked, RCircuit.run, ia, ib, RTracked.mul, RCircuit.estimate]
    cases a.run fun i => (x i).ct <;> cases b.run fun i => (x i).ct <;> rfl
  | fused a b p ia ib =>
    simp only [RCircuit.runTracked, RCircuit.run, ia, ib, RTracked.fusedAbsorbAdd, RCircuit.estimate]
    cases a.run fun i => (x i).ct <;> cases b.run fun i => (x i).ct <;> rfl

theorem estimate_size (P : RErrorParams) {F : ι → Fin (2 ^ l) → ℤ} {M : RPoly → Fin (2 ^ l) → ℤ} {e : ι → ℝ}
    (hF : ∀ i, SizeAtMost (F i) (e i)) (u : RCircuit ι) (hu : u.Within P M) :
    SizeAtMost (u.evalPoly F M) (u.estimate P e) := by
  induction u with
  | input i => exact hF i
  | neg a ih => exact (ih hu).neg
  | addPlain a p => exact hu.elim
  | subPlain a p => exact hu.elim
  | absorbInt a c => exact hu.elim
  | add a b ia ib => exact (ia hu.1).add (ib hu.2)
  | sub a b ia ib => exact (ia hu.1).sub (ib hu.2)
  | mul a b ia ib => exact (ia hu.1).mul (ib hu.2)
  | absorb a p ih => exact (ih hu.1).mul hu.2
  | fused a b p ia ib => exact (ia hu.1).add ((ib hu.2.1).mul hu.2.2)

/-- C66 (partial: no additions of plaintexts, see `c66_plain_witness`, and no scalars, see `c66_scalar_witness`):
in every computation from ciphertexts within their estimates by negations, additions, subtractions, products and
absorptions of plaintexts of size at most `B_plaintext`, the result stands for the same computation on the
polynomials of the inputs, and its size is at most the result's error estimate. -/
theorem c66_computation_partial {ms : List Modulus} (hg : ∀ m ∈ ms, GoodModulus w l m) (hne : ms ≠ []) {pow : ℤ}
    (P : RErrorParams) {x : ι → RTracked} {F : ι → Fin (2 ^ l) → ℤ} {M : RPoly → Fin (2 ^ l) → ℤ}
    (hx : ∀ i, (x i).ct.ms = ms ∧ (x i).ct.power = pow ∧ (x i).ct.c ≠ [] ∧ REstimated l S (x i) (F i))
    (u : RCircuit ι) (hu : u.PlainsOk w l ms M) (hw : u.Within P M) {r : RTracked}
    (hr : u.runTracked P x = .ok r) :
    r.ct.ms = ms ∧ r.ct.power = pow ∧ r.ct.c ≠ [] ∧ REstimated l S r (u.evalPoly F M) := by
  have h := c53_circuit hg hne (fun i => ⟨(hx i).1, (hx i).2.1, (hx i).2.2.1, (hx i).2.2.2.encrypts⟩) u hu
  rw [runTracked_eq] at hr
  cases hd : u.comps (fun i => (x i).ct.c.length) with
  | none => rw [hd] at h; dsimp only at h; rw [h] at hr; cases hr
  | some d =>
    rw [hd] at h
    obtain ⟨z, z1, z2, z3, z4, z5, z6⟩ := h
    rw [z1] at hr
    cases hr
    exact ⟨z2, z3, List.length_pos_iff.mp (z4.symm ▸ z5), z6, estimate_size P (fun i => (hx i).2.2.2.size) u hw⟩

/-- C66: substitution. -/
theorem c66_substitute (hl : l ≤ 15) (hg : ∀ m ∈ x.ct.ms, GoodModulus w l m) (h0 : x.ct.c ≠ []) (k : ℕ)
    (hk : k % 2 = 1) (hk2 : k < 2 * 2 ^ l) (hov : x.ct.power * k < 2 ^ 31) (hx : REstimated l S x Φ) :
    ∃ r, x.substitute k = .ok r ∧ r.ct.power = (x.ct.power * k) % (2 * 2 ^ l) ∧ REstimated l S r (substPow k Φ) := by
  obtain ⟨r, r1, r2, r3, r4, r5⟩ := c56_substitute_partial hl hg h0 k hk hk2 hov hx.encrypts
  exact ⟨⟨r, x.error⟩, by unfold RTracked.substitute; rw [r1]; rfl, r3, r5, hx.size.subst hk⟩

/-- C66: absorption of a monomial. -/
theorem c66_monomial (hg : ∀ m ∈ x.ct.ms, GoodModulus w l m) {pt : RPoly} (hn : pt.ntt = true)
    {k : ℕ} (hk : k < 2 ^ l) {s : ℤ} (hs : s = 1 ∨ s = -1)
    (hpt : Represents l x.ct.ms pt (fun i => if (i : ℕ) = k then s else 0)) (hx : REstimated l S x Φ) :
    ∃ r, x.absorbMonomial pt = .ok r ∧
      REstimated l S r (negMul Φ fun i => if (i : ℕ) = k then s else 0) := by
  obtain ⟨r, r1, _, r3, _, r4⟩ := c53_absorb hg hn hpt hx.encrypts
  refine ⟨⟨r, x.error⟩, by unfold RTracked.absorbMonomial; rw [r1]; rfl, r4, ?_⟩
  have h1 : SizeAtMost (fun i : Fin (2 ^ l) => if (i : ℕ) = k then s else 0) 1 := by
    intro z hz
    unfold evalAt
    rw [Finset.sum_eq_single (⟨k, hk⟩ : Fin (2 ^ l)) (fun i _ hi => by
      have : ¬ (i : ℕ) = k := fun h => hi (Fin.ext h)
      simp [this]) (by simp)]
    simp only [if_true]
    rw [norm_mul, norm_pow, norm_root (by positivity) hz, one_pow, mul_one, Complex.norm_intCast]
    rcases hs with rfl | rfl <;> norm_num
  have := hx.size.mul h1
  rwa [mul_one] at this

/-- C66: absorption of a scalar in RNS form, of absolute value at most `B_plaintext`. -/
theorem c66_absorb_rns (P : RErrorParams) (hg : ∀ m ∈ x.ct.ms, GoodModulus w l m) {z : ℤ} {zs : List ℕ}
    (hz : RnsIntIs x.ct.ms zs z) (hB : |(z : ℝ)| ≤ P.bPlaintext) (hx : REstimated l S x Φ) :
    ∃ r, x.absorbRns P zs = .ok r ∧ REstimated l S r (fun i => z * Φ i) := by
  obtain ⟨r, r1, r2, r3, r4⟩ := (c53_absorb_scalar hg hx.encrypts).2 zs z hz
  refine ⟨⟨r, x.error * P.bPlaintext⟩, by unfold RTracked.absorbRns; rw [r1]; rfl, r4, ?_⟩
  haveI : NeZero (2 ^ l) := ⟨by positivity⟩
  have h0 : 0 ≤ x.error := (abs_nonneg _).trans (coeff_le_size hx.size 0)
  refine (hx.size.smul z).mono ?_
  rw [mul_comm]
  exact mul_le_mul_of_nonneg_left hB h0

/-! ### Decryption -/

/-- C66: a ciphertext whose error estimate is below half of the product of the moduli decrypts, with CRT
interpolation, to the polynomial that it stands for modulo `t`. -/
theorem c66_decrypt_crt {W : ℕ} {e : FFEncoder} (he : GoodEncoder w l e) {lev : ℕ} {k : RKey}
    (hms : e.ctx.qs.take lev = k.ms) (hne : k.ms ≠ []) (hk : KeyIs l k S) (hxm : x.ct.ms = k.ms)
    (hp : x.ct.power = 1) (h0 : x.ct.c ≠ []) (hx : REstimated l S x Φ)
    (hW : ∀ m ∈ k.ms, modulusProd k.ms * m.N ≤ 2 ^ W) {hatInvs : List ℕ} (hi : HatInvs k.ms hatInvs)
    (ht : e.ctx.t ≤ modulusProd k.ms) (hB : 2 * x.error < modulusProd k.ms) :
    k.decryptBgvWithCrt W e x.ct (modulusComplements W k.ms) hatInvs =
      .ok (List.ofFn fun i : Fin (2 ^ l) => (slotsOf (nttRoot l e.mt) l Φ i).val) := by
  haveI : NeZero (2 ^ l) := ⟨by positivity⟩
  refine c53_bgv_crt (M := Φ) (R := 0) he hms hne hk hxm hp h0 (by simpa using hx.encrypts) hW hi ht (fun i => ?_)
  have h1 := coeff_le_size hx.size i
  have h2 : (2 * |(Φ i : ℝ)|) < modulusProd k.ms := by linarith
  have h3 : 2 * |Φ i| < (modulusProd k.ms : ℤ) := by exact_mod_cast h2
  simpa using h3

/-- C66: the same with coefficient encoding, if the estimate leaves room for the reduction to the first modulus. -/
theorem c66_decrypt (est : Estimate) {c : Rns.Ctx} (hc : GoodCtx w l c) {m0 : Modulus} {rest : List Modulus}
    {lev : ℕ} (hms : c.qs.take lev = m0 :: rest) (ht : c.t ≤ m0.N) {k : RKey} (hkm : k.ms = m0 :: rest)
    (hk : KeyIs l k S) (hxm : x.ct.ms = k.ms) (hp : x.ct.power = 1) (h0 : x.ct.c ≠ []) (hx : REstimated l S x Φ)
    {b : ℚ} (hb : x.error ≤ b) (hB : 2 * lsbBound c.t (dropOrder (m0 :: rest)) b < m0.N) :
    k.decryptBgv (coefficientEncoder est c) x.ct = .ok (List.ofFn fun i => (Φ i % c.t).toNat) := by
  haveI : NeZero (2 ^ l) := ⟨by positivity⟩
  have hg : ∀ q ∈ m0 :: rest, GoodModulus w l q := fun q hq => by
    rw [← hms] at hq; exact hc.qs q (List.mem_of_mem_take hq)
  obtain ⟨z, z1, z2, z3, -⟩ := c55_decrypt (k := k) (by rw [hkm]; exact hg) (by simp [hkm]) hk hxm hp h0 hx.encrypts
  rw [z3]
  show decodeBgv c z k.ms = _
  rw [hkm] at z2 ⊢
  rw [c48_decode hc hms ht z2 (fun i => ?_)]
  refine lt_of_le_of_lt (mul_le_mul_of_nonneg_left (lsbBound_mono _ ?_) (by norm_num)) hB
  have h1 := (coeff_le_size hx.size i).trans hb
  exact_mod_cast h1

/-! ### Fresh ciphertexts -/

theorem bSecretKey_eq (P : RErrorParams) : P.bSecretKey = P.bPlaintext + P.exportT * (6 * P.sigma * √P.dim) := by
  unfold RErrorParams.bSecretKey RErrorParams.bPlaintext
  rw [Real.sqrt_mul (by norm_num)]
  ring

theorem bPublicKey_eq (P : RErrorParams) : P.bPublicKey = P.bPlaintext +
    P.exportT * (6 * P.sigma * √P.dim + 72 * P.dim * P.sigma ^ 2) := by
  unfold RErrorParams.bPublicKey RErrorParams.bPlaintext
  rw [Real.sqrt_mul (by norm_num)]
  ring

theorem fresh_size {P : RErrorParams} {R : Fin (2 ^ l) → ℤ} {t : ℕ} {B : ℝ} (ht : (t : ℝ) ≤ P.exportT)
    (hM : SizeAtMost M P.bPlaintext) (hR : SizeAtMost R B) :
    SizeAtMost (fun i => M i + t * R i) (P.bPlaintext + P.exportT * B) := by
  haveI : NeZero (2 ^ l) := ⟨by positivity⟩
  have h0 : 0 ≤ B := (abs_nonneg _).trans (coeff_le_size hR 0)
  refine (hM.add (hR.smul t)).mono (add_le_add_right ?_ _)
  rw [Int.cast_natCast, Nat.abs_cast]
  exact mul_le_mul_of_nonneg_right ht h0

/-- C66 (partial: `t` must be at most the square of its logarithm, see `c66_export_t`, and the plaintext and the
sampled error must have the size the estimate assumes): a fresh encryption with the secret key. -/
theorem c66_encrypt_partial (P : RErrorParams) (G : Gen σ) (hG : Words G) {fuel : ℕ} {k : RKey} (hk : GoodKey w l k S)
    {E : Encoder} {msgs : List ℕ} {pt : RPoly} (hE : E.encodeBgv msgs k.ms = .ok pt)
    (hpt : Represents l k.ms pt M) (ht : E.t < 2 ^ w) {s s1 s2 : σ} {a e : RPoly}
    (ha : sampleUniform G fuel k.key.logN k.ms s = .ok (a, s1))
    (he : sampleErr G k.key.logN k.variance k.ms s1 = .ok (e, s2)) :
    ∃ (x : RTracked) (R : Fin (2 ^ l) → ℤ), encryptBgv P G fuel k E msgs s = .ok (x, s2) ∧
      (∀ i, |R i| ≤ 2 * k.variance) ∧ Encrypts l S x.ct (fun i => M i + E.t * R i) ∧ (E.t ≤ P.exportT →
      SizeAtMost M P.bPlaintext → SizeAtMost R (6 * P.sigma * √P.dim) → REstimated l S x fun i => M i + E.t * R i) := by
  obtain ⟨x, R, x1, x2, x3, x4⟩ := c55_encrypt_bgv G hG hk hE hpt ht ha he
  refine ⟨⟨x, P.bSecretKey⟩, R, by unfold encryptBgv; rw [x1]; rfl, x4, x3, fun h1 h2 h3 => ⟨x3, ?_⟩⟩
  rw [show (⟨x, P.bSecretKey⟩ : RTracked).error = _ from bSecretKey_eq P]
  exact fresh_size h1 h2 h3

/-- C66 (partial, like `c66_encrypt_partial`): a fresh encryption with the public key. -/
theorem c66_encrypt_public_partial (P : RErrorParams) (G : Gen σ) (hG : Words G) {k : RPub}
    (hg : ∀ m ∈ k.ms, GoodModulus w l m) (hv : ∀ m ∈ k.ms.head?, 2 * k.variance ≤ m.N) (hv0 : 0 ≤ k.variance)
    {E : Encoder} (hk : PublicKeyOf l k S E.t) {msgs : List ℕ} {pt : RPoly} (hE : E.encodeBgv msgs k.ms = .ok pt)
    (hpt : Represents l k.ms pt M) (ht : E.t < 2 ^ w) {s s1 s2 s3 : σ} {r e0 e1 : RPoly}
    (hr : sampleErr G k.a.logN k.variance k.ms s = .ok (r, s1))
    (h0 : sampleErr G k.a.logN k.variance k.ms s1 = .ok (e0, s2))
    (h1 : sampleErr G k.a.logN k.variance k.ms s2 = .ok (e1, s3)) :
    ∃ (x : RTracked) (N : Fin (2 ^ l) → ℤ), encryptBgvPublic P G k E msgs s = .ok (x, s3) ∧
      (∀ i, |N i| ≤ 2 * k.variance * (2 ^ l * (2 * k.variance) + 1 + norm1 S)) ∧
      Encrypts l S x.ct (fun i => M i + E.t * N i) ∧ (E.t ≤ P.exportT → SizeAtMost M P.bPlaintext →
      SizeAtMost N (6 * P.sigma * √P.dim + 72 * P.dim * P.sigma ^ 2) → REstimated l S x fun i => M i + E.t * N i) := by
  obtain ⟨x, N, x1, _, _, _, x3, x4⟩ := c55_public_encrypt_bgv G hG hg hv hv0 hk hE hpt ht hr h0 h1
  refine ⟨⟨x, P.bPublicKey⟩, N, by unfold encryptBgvPublic; rw [x1]; rfl, x4, x3, fun h1 h2 h3 => ⟨x3, ?_⟩⟩
  rw [show (⟨x, P.bPublicKey⟩ : RTracked).error = _ from bPublicKey_eq P]
  exact fresh_size h1 h2 h3

/-! ### Key switching and modulus reduction -/

/-- C66 (partial: the noise bound of C52 must be at most the estimate of the key switch): Galois keys. -/
theorem c66_galois_partial (P : RErrorParams) {key : RGalois} {t B : ℤ} {Gs : List ℤ} {logs : List ℕ}
    (hg : ∀ m ∈ key.ms, GoodModulus w l m) (hne : key.ms ≠ []) (hB : 0 ≤ B)
    (hkey : GaloisFor l S t B key Gs logs) (hms : x.ct.ms = key.ms) (hp : x.ct.power = key.power)
    (h2 : x.ct.c.length = 2) (hx : REstimated l S x Φ) {b : ℕ} (hb : logGadgetBase key.gadget = .ok b) {e : ℝ}
    (he : P.boundOnKeySwitching 1 b key.gadget.dimension = .ok e)
    (hK : (2 ^ l : ℕ) * (|t| * (2 ^ l * B * (logs.map fun b => (2 : ℤ) ^ b).sum) : ℤ) ≤ e) :
    ∃ (r : RTracked) (R : Fin (2 ^ l) → ℤ), applyGalois P key x = .ok r ∧ r.ct.power = 1 ∧ r.ct.c.length = 2 ∧
      REstimated l S r (fun i => Φ i + t * R i) := by
  obtain ⟨r, R, r1, r2, r3, r4, r5, r6⟩ := c52_galois_apply hg hne hB hkey hms hp h2 hx.encrypts
  refine ⟨⟨r, x.error + e⟩, R, ?_, r3, r4, r5, ?_⟩
  · unfold applyGalois
    rw [r1, Outcome.bind_ok, hb, Outcome.bind_ok, he]; rfl
  · refine hx.size.add ((size_of_coeff (by positivity) (fun i => ?_)).mono hK)
    have : |t * R i| ≤ |t| * (2 ^ l * B * (logs.map fun b => (2 : ℤ) ^ b).sum) := by
      rw [abs_mul]; exact mul_le_mul_of_nonneg_left (r6 i) (abs_nonneg _)
    exact_mod_cast this

/-- C66 (partial, like `c66_galois_partial`, and for the degrees of `c52_relin_apply_partial`): relinearization
keys. -/
theorem c66_relin_partial (P : RErrorParams) {key : RRelin} {t B : ℤ} {Gs : List ℤ} {logs : List ℕ}
    (hg : ∀ m ∈ key.ms, GoodModulus w l m) (hB : 0 ≤ B)
    (hkey : RelinFor l S t B key Gs logs) (hms : x.ct.ms = key.ms) (hp : x.ct.power = 1) (h2 : 2 ≤ x.ct.c.length)
    (hdeg : (x.ct.c.length : ℤ) - 1 ≤ key.degree)
    (hd : x.ct.c.length - 1 ≤ 2 ∨ x.ct.c.length - 1 = key.gadget.dimension) (hx : REstimated l S x Φ)
    {b : ℕ} (hb : logGadgetBase key.gadget = .ok b) {e : ℝ}
    (he : P.boundOnKeySwitching (x.ct.c.length - 2) b key.gadget.dimension = .ok e)
    (hK : (2 ^ l : ℕ) * (|t| * ((x.ct.c.length - 2 : ℕ) * (2 ^ l * B * (logs.map fun b => (2 : ℤ) ^ b).sum)) : ℤ) ≤ e) :
    ∃ (r : RTracked) (R : Fin (2 ^ l) → ℤ), applyRelin P key x = .ok r ∧ r.ct.power = 1 ∧ r.ct.c.length = 2 ∧
      REstimated l S r (fun i => Φ i + t * R i) := by
  obtain ⟨r, R, r1, r2, r3, r4, r5, r6⟩ := c52_relin_apply_partial hg hB hkey hms hp h2 hdeg hd hx.encrypts
  refine ⟨⟨r, x.error + e⟩, R, ?_, r3, r4, r5, ?_⟩
  · unfold applyRelin
    rw [r1, Outcome.bind_ok, hb, Outcome.bind_ok, he]; rfl
  · refine hx.size.add ((size_of_coeff (by positivity) (fun i => ?_)).mono hK)
    have : |t * R i| ≤ |t| * ((x.ct.c.length - 2 : ℕ) * (2 ^ l * B * (logs.map fun b => (2 : ℤ) ^ b).sum)) := by
      rw [abs_mul]; exact mul_le_mul_of_nonneg_left (r6 i) (abs_nonneg _)
    exact_mod_cast this

/-- C66 (partial: the rounding must be at most what the division removes from the estimate): modulus reduction,
which leaves the estimate unchanged. -/
theorem c66_modReduce_partial {red : List Modulus} {m : Modulus} {qlInv : List ℕ}
    (hg : ∀ m ∈ red, GoodModulus w l m) (hm : GoodModulus w l m) (hne : red ≠ [])
    (hms : x.ct.ms = red ++ [m]) (hinv : InverseIs red qlInv m.N) (t : ℕ) (ht : 0 < t) (htw : t < 2 ^ w)
    (hcop : Nat.Coprime m.N t) (hx : REstimated l S x Φ)
    (hR : (m.N % t : ℕ) * x.error + t * ((2 ^ l : ℕ) *
      ((m.N * ∑ j ∈ Finset.range x.ct.c.length, norm1 (substPow x.ct.power.toNat S) ^ j : ℤ) / 2)) ≤ m.N * x.error) :
    ∃ r Φ', x.modReduce t qlInv = .ok r ∧ r.ct.ms = red ∧ r.ct.power = x.ct.power ∧ REstimated l S r Φ' ∧
      CongMod t Φ' Φ := by
  obtain ⟨r, Φ', r1, r2, r3, r4, r5, r6, E, hE⟩ := c56_modReduce_bgv hg hm hne hms hinv t ht htw hx.encrypts
  refine ⟨⟨r, x.error⟩, Φ', by unfold RTracked.modReduce; rw [r1]; rfl, r2, r3, ⟨r5, ?_⟩, r6 hcop⟩
  have hN : (0 : ℝ) < m.N := by exact_mod_cast hm.prime.pos
  have hEs : SizeAtMost E ((2 ^ l : ℕ) *
      ((m.N * ∑ j ∈ Finset.range x.ct.c.length, norm1 (substPow x.ct.power.toNat S) ^ j : ℤ) / 2)) := by
    refine size_of_coeff (by positivity) fun i => ?_
    have h : (2 * |E i| : ℤ) ≤ m.N * ∑ j ∈ Finset.range x.ct.c.length, norm1 (substPow x.ct.power.toNat S) ^ j := (hE i).2
    have h' : (2 * |(E i : ℝ)|) ≤ ((m.N * ∑ j ∈ Finset.range x.ct.c.length, norm1 (substPow x.ct.power.toNat S) ^ j : ℤ) : ℝ) := by
      exact_mod_cast h
    linarith
  have h1 := (hx.size.smul ((m.N % t : ℕ) : ℤ)).add (hEs.smul (t : ℤ))
  have e1 : ((fun i => ((m.N % t : ℕ) : ℤ) * Φ i) + fun i => (t : ℤ) * E i) = fun i => (m.N : ℤ) * Φ' i := by
    funext i
    exact ((hE i).1).symm
  rw [e1] at h1
  intro z hz
  have h2 := h1 z hz
  rw [valueAt_smul, norm_mul, Int.cast_natCast, Complex.norm_natCast, Int.cast_natCast, Int.cast_natCast, Nat.abs_cast,
    Nat.abs_cast] at h2
  exact le_of_mul_le_mul_left (h2.trans hR) hN

/-- C66: the base that the estimate of a key switch uses is the largest of the gadget's; without any base the end
of an empty vector is read. -/
theorem c66_gadget_base (g : RGadget) :
    (∀ b, logGadgetBase g = .ok b ↔ b ∈ g.logBs ∧ ∀ b' ∈ g.logBs, b' ≤ b) ∧
    (g.logBs = [] → logGadgetBase g = .ub .outOfBounds) := by
  unfold logGadgetBase
  constructor
  · intro b
    rw [← List.max?_eq_some_iff]
    cases g.logBs.max? with
    | none => simp
    | some b' => simp
  · intro h
    rw [h]; rfl

theorem digitLogs_sum_le {b : ℕ} : ∀ {bs ks : List ℕ}, (∀ b' ∈ bs, b' ≤ b) →
    ((digitLogs bs ks).map fun b => (2 : ℤ) ^ b).sum ≤ ks.sum * 2 ^ b
  | [], ks, _ => by show (0 : ℤ) ≤ _; positivity
  | _ :: _, [], _ => by simp [digitLogs]
  | b' :: bs, k :: ks, h => by
    have ih := digitLogs_sum_le (b := b) (bs := bs) (ks := ks) fun c hc => h c (List.mem_cons_of_mem _ hc)
    have h1 : (2 : ℤ) ^ b' ≤ 2 ^ b := pow_le_pow_right₀ (by norm_num) (h b' List.mem_cons_self)
    have h2 : (k : ℤ) * 2 ^ b' ≤ k * 2 ^ b := mul_le_mul_of_nonneg_left h1 (by positivity)
    simp only [digitLogs, List.map_append, List.sum_append, List.map_replicate, List.sum_replicate,
      List.sum_cons, Nat.cast_add, add_mul, nsmul_eq_mul] at ih ⊢
    linarith

/-- C66 (partial, like `c66_galois_partial`): with the gadget of `Create`, the estimate that is added for a Galois
key bounds the noise it adds as soon as it bounds the product of the number of digits, the largest base, and the
error of the key's columns. -/
theorem c66_galois_base_partial (P : RErrorParams) {key : RGalois} {t B : ℤ} {Gs : List ℤ}
    (hg : ∀ m ∈ key.ms, GoodModulus w l m) (hne : key.ms ≠ []) (hB : 0 ≤ B)
    (hkey : GaloisFor l S t B key Gs (digitLogs key.gadget.logBs key.gadget.dims)) (hms : x.ct.ms = key.ms)
    (hp : x.ct.power = key.power) (h2 : x.ct.c.length = 2) (hx : REstimated l S x Φ)
    {b : ℕ} (hb : b ∈ key.gadget.logBs) (hmax : ∀ b' ∈ key.gadget.logBs, b' ≤ b) {e : ℝ}
    (he : P.boundOnKeySwitching 1 b key.gadget.dimension = .ok e)
    (hK : (2 ^ l : ℕ) * (|t| * (2 ^ l * B * (key.gadget.dimension * 2 ^ b)) : ℤ) ≤ e) :
    ∃ (r : RTracked) (R : Fin (2 ^ l) → ℤ), applyGalois P key x = .ok r ∧ r.error = x.error + e ∧
      r.ct.power = 1 ∧ r.ct.c.length = 2 ∧ REstimated l S r (fun i => Φ i + t * R i) := by
  have hlog := ((c66_gadget_base key.gadget).1 b).mpr ⟨hb, hmax⟩
  have hK' : (2 ^ l : ℕ) * (|t| * (2 ^ l * B *
      ((digitLogs key.gadget.logBs key.gadget.dims).map fun b => (2 : ℤ) ^ b).sum) : ℤ) ≤ e := by
    refine le_trans ?_ hK
    have h1 : 2 ^ l * B * ((digitLogs key.gadget.logBs key.gadget.dims).map fun b => (2 : ℤ) ^ b).sum ≤
        2 ^ l * B * (key.gadget.dimension * 2 ^ b) := by
      refine mul_le_mul_of_nonneg_left ?_ (by positivity)
      have := digitLogs_sum_le (ks := key.gadget.dims) hmax
      exact_mod_cast this
    have h3 := mul_le_mul_of_nonneg_left h1 (abs_nonneg t)
    refine mul_le_mul_of_nonneg_left ?_ (by positivity)
    exact_mod_cast h3
  obtain ⟨r, R, r1, r2, r3, r4⟩ := c66_galois_partial P hg hne hB hkey hms hp h2 hx hlog he hK'
  refine ⟨r, R, r1, ?_, r2, r3, r4⟩
  unfold applyGalois at r1
  obtain ⟨c, _, r1⟩ := Outcome.bind_eq_ok.mp r1
  rw [hlog, Outcome.bind_ok, he, Outcome.bind_ok] at r1
  cases r1; rfl

/-- C66: fused absorption without the pad, followed by `SetPadComponent` with the pad of the fused operation. -/
theorem c66_without_pad (P : RErrorParams) (hg : ∀ m ∈ x.ct.ms, GoodModulus w l m) (hms : y.ct.ms = x.ct.ms)
    (hp : y.ct.power = x.ct.power) {X0 X1 Y0 Y1 Ψ : Fin (2 ^ l) → ℤ} (hX : Components l x.ct [X0, X1])
    (hY : Components l y.ct [Y0, Y1]) {pt : RPoly} (hn : pt.ntt = true) (hpt : Represents l x.ct.ms pt M)
    (hM : SizeAtMost M P.bPlaintext) (hpow : 0 ≤ x.ct.power)
    (hΦ : CongMod (modulusProd x.ct.ms) (innerProduct (substPow x.ct.power.toNat S) [X0, X1]) Φ)
    (hΨ : CongMod (modulusProd x.ct.ms) (innerProduct (substPow x.ct.power.toNat S) [Y0, Y1]) Ψ)
    (hx : SizeAtMost Φ x.error) (hy : SizeAtMost Ψ y.error) :
    ∃ r, x.fusedAbsorbAddWithoutPad P y pt = .ok r ∧
      ∀ a, a.ntt = true → Represents l x.ct.ms a (X1 + negMul Y1 M) →
        ∃ r', r.setPad a = .ok r' ∧ r'.ct.c.length = 2 ∧ REstimated l S r' (Φ + negMul Ψ M) := by
  obtain ⟨-, -, r, r1, -, -, r4⟩ := c53_without_pad hg hms hp hX hY hn hpt hpow hΦ hΨ
  refine ⟨⟨r, x.error + y.error * P.bPlaintext⟩, by unfold RTracked.fusedAbsorbAddWithoutPad; rw [r1]; rfl,
    fun a ha1 ha2 => ?_⟩
  obtain ⟨r', s1, -, s3, s4⟩ := r4 a ha1 ha2
  exact ⟨⟨r', _⟩, by unfold RTracked.setPad; rw [s1]; rfl, s3, s4, hx.add (hy.mul hM)⟩

/-! ### Where the estimates are wrong -/

/-- C66 is false: for plaintext moduli of 7 bits and more, `ExportDoubleT`, documented to be the plaintext modulus,
is less than it. -/
theorem c66_export_t (P : RErrorParams) (h7 : 7 ≤ P.logT) {t : ℕ} (ht : 2 ^ (P.logT - 1) < t) : P.exportT < t := by
  have h : ∀ k, (k + 7) ^ 2 < 2 ^ (k + 6) := by
    intro k
    induction k with
    | zero => norm_num
    | succ k ih =>
      have : 2 ^ (k + 1 + 6) = 2 * 2 ^ (k + 6) := by ring
      have e2 : (k + 1 + 7) ^ 2 = (k + 7) ^ 2 + 2 * (k + 7) + 1 := by ring
      have e3 : 2 * (k + 7) + 1 ≤ (k + 7) ^ 2 := by nlinarith
      omega
  have h1 := h (P.logT - 7)
  rw [show P.logT - 7 + 7 = P.logT by omega, show P.logT - 7 + 6 = P.logT - 1 by omega] at h1
  unfold RErrorParams.exportT
  exact_mod_cast h1.trans ht

/-- C66 is false for fresh ciphertexts: if the estimate is below half of the plaintext modulus, every error other
than zero takes the ciphertext beyond its estimate.  (Encoded plaintexts are balanced modulo `t`.) -/
theorem c66_fresh_witness (P : RErrorParams) {t : ℕ} (ht : 2 * P.bSecretKey < t) {R : Fin (2 ^ l) → ℤ}
    (hM : ∀ i, 2 * |M i| ≤ t) (hR : R ≠ 0) : ¬ SizeAtMost (fun i => M i + t * R i) P.bSecretKey := by
  intro h
  haveI : NeZero (2 ^ l) := ⟨by positivity⟩
  obtain ⟨i, hi⟩ := Function.ne_iff.mp hR
  have h1 := coeff_le_size h i
  have h2 : (t : ℤ) ≤ 2 * |M i + t * R i| := by
    have h3 := hM i
    have h4 : 1 ≤ |R i| := Int.one_le_abs hi
    have h5 : |(t : ℤ) * R i| ≤ |M i + t * R i| + |M i| := by
      have := abs_sub (M i + t * R i) (M i)
      rwa [add_sub_cancel_left] at this
    rw [abs_mul, Nat.abs_cast] at h5
    nlinarith
  have h3 : (t : ℝ) ≤ 2 * |((M i + t * R i : ℤ) : ℝ)| := by exact_mod_cast h2
  linarith

/-- The hypothesis of `c66_fresh_witness` for the parameters `n = 2^12`, standard deviation 3, and every 40-bit `t`. -/
example (t : ℕ) (ht : 2 ^ 39 < t) : ∃ P, RErrorParams.create 12 exMs 40 3 = .ok P ∧ 2 * P.bSecretKey < t := by
  refine ⟨⟨12, 40, 3⟩, ?_, ?_⟩
  · unfold RErrorParams.create
    rw [if_neg (by norm_num), if_neg (by simp [exMs]), if_neg (by norm_num), if_neg (by norm_num)]
    rfl
  · have h1 : √(((2 ^ 12 : ℕ)) : ℝ) = 64 := by
      rw [show (((2 ^ 12 : ℕ)) : ℝ) = 64 ^ 2 by norm_num]; exact Real.sqrt_sq (by norm_num)
    have h2 : √3 ≤ 2 := by rw [Real.sqrt_le_left (by norm_num)]; norm_num
    have h3 : ((2 ^ 39 : ℕ) : ℝ) < t := by exact_mod_cast ht
    unfold RErrorParams.bSecretKey RErrorParams.exportT RErrorParams.dim
    simp only [h1]
    norm_num at h3 ⊢
    have h4 : (549755813888 : ℝ) < t := by exact_mod_cast h3
    linarith

/-- Absorbing the scalar `1` a number of times. -/
noncomputable def absorbOnes : ℕ → RTracked → Outcome RTracked
  | 0, x => .ok x
  | k + 1, x => do absorbOnes k (← x.absorbInt 1)

theorem absorbOnes_ok (hw : 0 < w) (k : ℕ) : ∀ {x : RTracked}, (∀ m ∈ x.ct.ms, GoodModulus w l m) →
    Encrypts l S x.ct Φ → ∃ r, absorbOnes k x = .ok r ∧ Encrypts l S r.ct Φ ∧ r.error = x.error / 2 ^ k := by
  induction k with
  | zero => intro x _ hx; exact ⟨x, rfl, hx, by simp⟩
  | succ k ih =>
    intro x hg hx
    obtain ⟨r, r1, r2, r3, r4⟩ := (c53_absorb_scalar hg hx).1 1 (Nat.one_lt_two_pow (by omega))
    have e : x.absorbInt 1 = .ok ⟨r, x.error * ((1 : ℕ) / 2)⟩ := by unfold RTracked.absorbInt; rw [r1]; rfl
    obtain ⟨z, z1, z2, z3⟩ := ih (x := ⟨r, x.error * ((1 : ℕ) / 2)⟩) (by rw [r2.1]; exact hg)
      (by simpa using r4)
    refine ⟨z, ?_, z2, ?_⟩
    · show (do absorbOnes k (← x.absorbInt 1)) = _
      rw [e, Outcome.bind_ok, z1]
    · rw [z3, pow_succ]; push_cast; field_simp

/-- C66 is false for scalars: absorbing the scalar `1` leaves what the ciphertext stands for and halves its
estimate, so that every ciphertext that does not stand for zero can be taken beyond its estimate. -/
theorem c66_scalar_witness (hw : 0 < w) (hg : ∀ m ∈ x.ct.ms, GoodModulus w l m) (hx : REstimated l S x Φ)
    (h0 : Φ ≠ 0) : ∃ k r, absorbOnes k x = .ok r ∧ Encrypts l S r.ct Φ ∧ ¬ SizeAtMost Φ r.error := by
  haveI : NeZero (2 ^ l) := ⟨by positivity⟩
  obtain ⟨i, hi⟩ := Function.ne_iff.mp h0
  obtain ⟨k, hk⟩ := pow_unbounded_of_one_lt x.error (one_lt_two)
  obtain ⟨r, r1, r2, r3⟩ := absorbOnes_ok hw k hg hx.encrypts
  refine ⟨k, r, r1, r2, fun h => ?_⟩
  have h1 := coeff_le_size h i
  have h2 : (1 : ℝ) ≤ |(Φ i : ℝ)| := by
    have : 1 ≤ |Φ i| := Int.one_le_abs hi
    exact_mod_cast this
  have h3 : x.error / 2 ^ k < 1 := by rw [div_lt_one (by positivity)]; exact hk
  rw [r3] at h1
  linarith

/-- Adding the same plaintext a number of times. -/
noncomputable def addPlains (pt : RPoly) : ℕ → RTracked → Outcome RTracked
  | 0, x => .ok x
  | k + 1, x => do addPlains pt k (← x.addPlain pt)

/-- C66: the growth of the noise by the addition of a plaintext, which leaves the estimate unchanged. -/
theorem c66_plain_growth (hg : ∀ m ∈ x.ct.ms, GoodModulus w l m) (h0 : x.ct.c ≠ []) {pt : RPoly} (hn : pt.ntt = true)
    (hpt : Represents l x.ct.ms pt M) (hx : REstimated l S x Φ) {B : ℝ} (hM : SizeAtMost M B) :
    (∃ r, x.addPlain pt = .ok r ∧ Encrypts l S r.ct (Φ + M) ∧ r.error = x.error ∧ SizeAtMost (Φ + M) (r.error + B)) ∧
    (∃ r, x.subPlain pt = .ok r ∧ Encrypts l S r.ct (Φ - M) ∧ r.error = x.error ∧ SizeAtMost (Φ - M) (r.error + B)) := by
  constructor
  · obtain ⟨r, r1, r2, r3, r4⟩ := c53_addPlain hg h0 hn hpt hx.encrypts
    exact ⟨⟨r, x.error⟩, by unfold RTracked.addPlain; rw [r1]; rfl, r4, rfl, hx.size.add hM⟩
  · obtain ⟨r, r1, r2, r3, r4⟩ := c53_subPlain hg h0 hn hpt hx.encrypts
    exact ⟨⟨r, x.error⟩, by unfold RTracked.subPlain; rw [r1]; rfl, r4, rfl, hx.size.sub hM⟩

theorem addPlains_ok {pt : RPoly} (hn : pt.ntt = true) (k : ℕ) : ∀ {x : RTracked} {Φ : Fin (2 ^ l) → ℤ},
    (∀ m ∈ x.ct.ms, GoodModulus w l m) → x.ct.c ≠ [] → Represents l x.ct.ms pt M → Encrypts l S x.ct Φ →
    ∃ r, addPlains pt k x = .ok r ∧ Encrypts l S r.ct (fun i => Φ i + k * M i) ∧ r.error = x.error := by
  induction k with
  | zero => intro x Φ _ _ _ hx; exact ⟨x, rfl, by simpa using hx, rfl⟩
  | succ k ih =>
    intro x Φ hg h0 hpt hx
    obtain ⟨r, r1, r2, r3, r4⟩ := c53_addPlain hg h0 hn hpt hx
    have e : x.addPlain pt = .ok ⟨r, x.error⟩ := by unfold RTracked.addPlain; rw [r1]; rfl
    obtain ⟨z, z1, z2, z3⟩ := ih (x := ⟨r, x.error⟩) (by rw [r2.1]; exact hg)
      (List.length_pos_iff.mp (by rw [r3]; exact List.length_pos_iff.mpr h0)) (by rw [r2.1]; exact hpt) r4
    refine ⟨z, ?_, ?_, z3⟩
    · show (do addPlains pt k (← x.addPlain pt)) = _
      rw [e, Outcome.bind_ok, z1]
    · have : (fun i => (Φ + M) i + k * M i) = fun i => Φ i + ((k + 1 : ℕ) : ℤ) * M i := by
        funext i; simp only [Pi.add_apply]; push_cast; ring
      rwa [this] at z2

/-- C66 is false for additions of plaintexts: every ciphertext can be taken beyond its estimate by adding a
plaintext other than zero often enough. -/
theorem c66_plain_witness (hg : ∀ m ∈ x.ct.ms, GoodModulus w l m) (h0 : x.ct.c ≠ []) {pt : RPoly} (hn : pt.ntt = true)
    (hpt : Represents l x.ct.ms pt M) (hM : M ≠ 0) (hx : REstimated l S x Φ) :
    ∃ (k : ℕ) (r : RTracked), addPlains pt k x = .ok r ∧ Encrypts l S r.ct (fun i => Φ i + k * M i) ∧
      ¬ SizeAtMost (fun i => Φ i + k * M i) r.error := by
  haveI : NeZero (2 ^ l) := ⟨by positivity⟩
  obtain ⟨i, hi⟩ := Function.ne_iff.mp hM
  obtain ⟨k, hk⟩ := exists_nat_gt (2 * x.error)
  obtain ⟨r, r1, r2, r3⟩ := addPlains_ok hn k hg h0 hpt hx.encrypts
  refine ⟨k, r, r1, r2, fun h => ?_⟩
  have h1 := coeff_le_size h i
  have h2 := coeff_le_size hx.size i
  have h3 : (1 : ℝ) ≤ |(M i : ℝ)| := by
    have : 1 ≤ |M i| := Int.one_le_abs hi
    exact_mod_cast this
  rw [r3] at h1
  push_cast at h1
  have h4 : |(k : ℝ) * (M i : ℝ)| ≤ |(Φ i : ℝ) + k * M i| + |(Φ i : ℝ)| := by
    have := abs_sub (Φ i + k * M i : ℝ) (Φ i)
    rwa [add_sub_cancel_left] at this
  rw [abs_mul, Nat.abs_cast] at h4
  have h5 : (k : ℝ) ≤ k * |(M i : ℝ)| := le_mul_of_one_le_right (by positivity) h3
  linarith

/-! ### Lazy absorption -/

/-- The ciphertext, without pending products. -/
noncomputable def RnsErrorTrack.RTracked.lazily (x : RTracked) : LTracked := ⟨⟨x.ct, []⟩, x.error⟩

/-- `FusedAbsorbAddInPlaceWithoutPadLazily` with all pairs of a list. -/
noncomputable def absorbLazilyTracked (P : RErrorParams) (w : ℕ) (x : LTracked) (hist : List (RTracked × RPoly)) :
    Outcome LTracked :=
  hist.foldlM (fun x yp => x.fusedAbsorbLazily P w yp.1 yp.2) x

theorem fusedAbsorbLazily_lazy {w : ℕ} {x z : LCt} {y : RCt} {pt : RPoly} (h : x.fusedAbsorbLazily w y pt = .ok z) :
    z.lazy ≠ [] := by
  unfold LCt.fusedAbsorbLazily at h
  split_ifs at h
  obtain ⟨v, _, h⟩ := Outcome.bind_eq_ok.mp h
  cases hl : x.lazy with
  | nil =>
    rw [hl] at h
    obtain ⟨u, _, h⟩ := Outcome.bind_eq_ok.mp h
    cases h; simp
  | cons a as =>
    rw [hl] at h
    obtain ⟨u, _, h⟩ := Outcome.bind_eq_ok.mp h
    cases h; simp

theorem absorbLazilyTracked_more (P : RErrorParams) (w : ℕ) (hist : List (RTracked × RPoly)) :
    ∀ (x : LTracked) {X : LCt}, x.ct.lazy ≠ [] → absorbLazily w x.ct (hist.map fun yp => (yp.1.ct, yp.2)) = .ok X →
      absorbLazilyTracked P w x hist = .ok ⟨X, x.error + (hist.map fun yp => yp.1.error * P.bPlaintext).sum⟩ := by
  induction hist with
  | nil => intro x X _ h; cases h; simp [absorbLazilyTracked]
  | cons yp hist ih =>
    intro x X hx h
    unfold absorbLazily at h
    rw [List.map_cons, List.foldlM_cons] at h
    obtain ⟨z, z1, z2⟩ := Outcome.bind_eq_ok.mp h
    have e : x.fusedAbsorbLazily P w yp.1 yp.2 = .ok ⟨z, x.error + yp.1.error * P.bPlaintext⟩ := by
      unfold LTracked.fusedAbsorbLazily
      rw [z1, Outcome.bind_ok, if_neg (by simpa using hx)]; rfl
    unfold absorbLazilyTracked
    rw [List.foldlM_cons, e, Outcome.bind_ok]
    have := ih ⟨z, x.error + yp.1.error * P.bPlaintext⟩ (fusedAbsorbLazily_lazy z1) z2
    unfold absorbLazilyTracked at this
    rw [this, List.map_cons, List.sum_cons, add_assoc]

theorem sumPhases_size {P : RErrorParams} {hist : List (RTracked × RPoly)}
    {Ys : List ((Fin (2 ^ l) → ℤ) × (Fin (2 ^ l) → ℤ) × (Fin (2 ^ l) → ℤ))}
    (hsz : List.Forall₂ (fun yp Y => SizeAtMost (innerProduct S [Y.1, Y.2.1]) yp.1.error ∧
      SizeAtMost Y.2.2 P.bPlaintext) hist Ys) :
    SizeAtMost (sumPhases S Ys) (hist.map fun yp => yp.1.error * P.bPlaintext).sum := by
  induction hsz with
  | nil =>
    intro z _
    simp [sumPhases, evalAt]
  | cons h _ ih =>
    rw [List.map_cons, List.sum_cons]
    exact (h.1.mul h.2).add ih

/-- C66 (partial: the estimate misses the first product): absorbing a list of ciphertexts and plaintexts lazily into
the zero ciphertext, merging and setting the pad.  The size of the result is at most its estimate plus the estimate
of the first product. -/
theorem c66_lazy_partial {ms : List Modulus} (hg : ∀ m ∈ ms, GoodModulus w l m) (hne : ms ≠ []) (hw : w ≤ 128)
    (P : RErrorParams) {y : RTracked} {p : RPoly} {hist : List (RTracked × RPoly)}
    {Ys : List ((Fin (2 ^ l) → ℤ) × (Fin (2 ^ l) → ℤ) × (Fin (2 ^ l) → ℤ))}
    (h : AbsorbIs l (RCt.createZero ms) (((y, p) :: hist).map fun yp => (yp.1.ct, yp.2)) Ys)
    (hsz : List.Forall₂ (fun yp Y => SizeAtMost (innerProduct S [Y.1, Y.2.1]) yp.1.error ∧
      SizeAtMost Y.2.2 P.bPlaintext) ((y, p) :: hist) Ys) {a : RPoly} (ha : a.ntt = true)
    (hA : Represents l ms a (sumProd (Ys.map fun Y => (Y.2.1, Y.2.2)))) :
    ∃ X Z r, absorbLazilyTracked P w (RTracked.createZero ms).lazily ((y, p) :: hist) = .ok X ∧ X.merge = .ok Z ∧
      (⟨Z.ct.ct, Z.error⟩ : RTracked).setPad a = .ok r ∧ Encrypts l S r.ct (sumPhases S Ys) ∧
      r.error = (hist.map fun yp => yp.1.error * P.bPlaintext).sum ∧
      SizeAtMost (sumPhases S Ys) (r.error + y.error * P.bPlaintext) := by
  obtain ⟨X, r, r', x1, x2, x3, x4, x5, x6⟩ := c58_inner_product hg hne hw h (by simp) ha hA S
  have x1' := x1
  unfold absorbLazily at x1
  rw [List.map_cons, List.foldlM_cons] at x1
  obtain ⟨z, z1, z2⟩ := Outcome.bind_eq_ok.mp x1
  have e : (RTracked.createZero ms).lazily.fusedAbsorbLazily P w y p = .ok ⟨z, 0⟩ := by
    unfold LTracked.fusedAbsorbLazily
    show (do let c ← LCt.fusedAbsorbLazily w ⟨RCt.createZero ms, []⟩ y.ct p; _) = _
    rw [z1]; rfl
  have e2 := absorbLazilyTracked_more P w hist ⟨z, 0⟩ (fusedAbsorbLazily_lazy z1) z2
  rw [zero_add] at e2
  refine ⟨⟨X, (hist.map fun yp => yp.1.error * P.bPlaintext).sum⟩, ⟨⟨r, []⟩, (hist.map fun yp => yp.1.error * P.bPlaintext).sum⟩,
    ⟨r', (hist.map fun yp => yp.1.error * P.bPlaintext).sum⟩, ?_, ?_, ?_, x6, rfl, ?_⟩
  · unfold absorbLazilyTracked at e2 ⊢
    rw [List.foldlM_cons, e, Outcome.bind_ok, e2]
  · unfold LTracked.merge
    rw [x2]; rfl
  · unfold RTracked.setPad
    rw [x3]; rfl
  · have := sumPhases_size hsz
    rw [List.map_cons, List.sum_cons, add_comm] at this
    exact this

/-- C66 is false for lazy absorption: after one product the estimate is still zero. -/
theorem c66_lazy_witness {ms : List Modulus} (hg : ∀ m ∈ ms, GoodModulus w l m) (hne : ms ≠ []) (hw : w ≤ 128)
    (P : RErrorParams) {y : RTracked} {p : RPoly} {Y : (Fin (2 ^ l) → ℤ) × (Fin (2 ^ l) → ℤ) × (Fin (2 ^ l) → ℤ)}
    (h : AbsorbIs l (RCt.createZero ms) [(y.ct, p)] [Y]) {a : RPoly} (ha : a.ntt = true)
    (hA : Represents l ms a (negMul Y.2.1 Y.2.2)) (h0 : negMul (innerProduct S [Y.1, Y.2.1]) Y.2.2 ≠ 0) :
    ∃ X Z r, absorbLazilyTracked P w (RTracked.createZero ms).lazily [(y, p)] = .ok X ∧ X.merge = .ok Z ∧
      (⟨Z.ct.ct, Z.error⟩ : RTracked).setPad a = .ok r ∧
      Encrypts l S r.ct (negMul (innerProduct S [Y.1, Y.2.1]) Y.2.2) ∧
      ¬ SizeAtMost (negMul (innerProduct S [Y.1, Y.2.1]) Y.2.2) r.error := by
  haveI : NeZero (2 ^ l) := ⟨by positivity⟩
  obtain ⟨X, r, r', x1, x2, x3, x4, x5, x6⟩ := c58_inner_product hg hne hw h (by simp) ha
    (by simpa [sumProd] using hA) S
  rw [show sumPhases S [Y] = negMul (innerProduct S [Y.1, Y.2.1]) Y.2.2 by simp [sumPhases]] at x6
  refine ⟨⟨X, 0⟩, ⟨⟨r, []⟩, 0⟩, ⟨r', 0⟩, ?_, ?_, ?_, x6, fun hs => ?_⟩
  · unfold absorbLazily at x1
    rw [List.foldlM_cons] at x1
    obtain ⟨z, z1, z2⟩ := Outcome.bind_eq_ok.mp x1
    cases z2
    unfold absorbLazilyTracked
    rw [List.foldlM_cons]
    unfold LTracked.fusedAbsorbLazily
    show (do let c ← (do let c ← LCt.fusedAbsorbLazily w ⟨RCt.createZero ms, []⟩ y.ct p; _); _) = _
    rw [z1]; rfl
  · unfold LTracked.merge
    rw [x2]; rfl
  · unfold RTracked.setPad
    rw [x3]; rfl
  · obtain ⟨i, hi⟩ := Function.ne_iff.mp h0
    have h1 := coeff_le_size hs i
    have h2 : (1 : ℝ) ≤ |((negMul (innerProduct S [Y.1, Y.2.1]) Y.2.2 i : ℤ) : ℝ)| := by
      have := Int.one_le_abs hi
      exact_mod_cast this
    simp only at h1
    linarith

/-! ### Concrete cases -/

/-- Fresh encryptions of any messages with the parameters `n = 4`, `t = 17`, standard deviation 1 are within their
estimates, and so are their squares. -/
example (est : Estimate) : ∃ e k S s P, GoodEncoder 16 2 e ∧ GoodKey 16 2 k S ∧ RErrorParams.create 2 exMs 5 1 = .ok P ∧
    ∀ msgs : List ℕ, (∀ a ∈ msgs, a < 2 ^ 16) → msgs.length ≤ 4 → ∃ x s' Φ r,
      encryptBgv P listGen 100 k (finiteFieldEncoder est e) msgs s = .ok (x, s') ∧ REstimated 2 S x Φ ∧
      (RCircuit.mul (.input ()) (.input ())).runTracked P (fun _ => x) = .ok r ∧ REstimated 2 S r (negMul Φ Φ) := by
  obtain ⟨e, he, hq, ht⟩ := exampleEncoder
  obtain ⟨k, S, _, hk, km, kv, _⟩ := exKey
  obtain ⟨pa, s1, er, s2, ha, her⟩ := exSamples
  have hqs := exMs_of he.ctx.qs hq
  have hlog : k.key.logN = 2 := hk.key.2.1
  have hms : k.ms ≠ [] := by rw [km]; simp [exMs]
  have hmem : ∀ m ∈ k.ms, m ∈ e.ctx.qs := fun m hm => by rw [hqs, ← km]; exact hm
  refine ⟨e, k, S, [5, 70, 12, 9, 3, 1, 150, 66, 1, 0, 1, 1], ⟨2, 5, 1⟩, he, hk, ?_, fun msgs hw hn => ?_⟩
  · unfold RErrorParams.create
    rw [if_neg (by norm_num), if_neg (by simp [exMs]), if_neg (by norm_num), if_neg (by norm_num)]
    rfl
  obtain ⟨p, F, p1, p2, p3, p4, p5⟩ := c50_encode_bgv he hms hmem hw hn
  obtain ⟨x, R, x1, x2, x3, x4⟩ := c66_encrypt_partial ⟨2, 5, 1⟩ listGen listGen_words (fuel := 100) hk
    (E := finiteFieldEncoder est e) p1 p3 (by show e.ctx.t < _; rw [ht]; norm_num) (by rw [km, hlog]; exact ha)
    (by rw [km, hlog, kv]; exact her)
  have hdim : (⟨2, 5, 1⟩ : RErrorParams).dim = 4 := by unfold RErrorParams.dim; norm_num
  have h4 : √(4 : ℝ) = 2 := by rw [show (4 : ℝ) = 2 ^ 2 by norm_num]; exact Real.sqrt_sq (by norm_num)
  have h3 : 1 ≤ √(3 : ℝ) := by rw [Real.one_le_sqrt]; norm_num
  have hx := x4 (by
      show (e.ctx.t : ℝ) ≤ _
      rw [ht]; unfold RErrorParams.exportT; norm_num)
    ((size_of_coeff (B := 17 / 2) (by norm_num) (fun i => by
      have h := p4 i
      rw [ht] at h
      have h' : 2 * |(F i : ℝ)| ≤ 17 := by exact_mod_cast h
      linarith)).mono (by
        unfold RErrorParams.bPlaintext RErrorParams.exportT
        rw [hdim, Real.sqrt_mul (by norm_num), h4]
        norm_num
        linarith))
    ((size_of_coeff (B := 2) (by norm_num) (fun i => by
      have h := x2 i
      rw [kv] at h
      exact_mod_cast h)).mono (by rw [hdim, h4]; norm_num))
  have hfresh : x.ct.ms = exMs ∧ x.ct.power = 1 ∧ x.ct.c.length = 2 := by
    obtain ⟨y, _, y1, y2, _⟩ := c55_encrypt_bgv listGen listGen_words (fuel := 100) hk (E := finiteFieldEncoder est e)
      p1 p3 (by show e.ctx.t < _; rw [ht]; norm_num) (by rw [km, hlog]; exact ha) (by rw [km, hlog, kv]; exact her)
    unfold encryptBgv at x1
    rw [y1] at x1
    cases x1
    exact ⟨y2.1.trans km, y2.2.1, y2.2.2⟩
  have hne : x.ct.c ≠ [] := List.length_pos_iff.mp (by omega)
  have hin : ∀ _ : Unit, x.ct.ms = exMs ∧ x.ct.power = 1 ∧ x.ct.c ≠ [] ∧ REstimated 2 S x _ :=
    fun _ => ⟨hfresh.1, hfresh.2.1, hne, hx⟩
  have hrun := c53_circuit exMs_good (by simp [exMs]) (x := fun _ : Unit => x.ct) (M := fun _ => 0)
    (fun i => ⟨hfresh.1, hfresh.2.1, hne, hx.encrypts⟩) (RCircuit.mul (.input ()) (.input ())) ⟨trivial, trivial⟩
  obtain ⟨r, r1, -⟩ := hrun
  have hr : (RCircuit.mul (.input ()) (.input ())).runTracked ⟨2, 5, 1⟩ (fun _ : Unit => x) =
      .ok ⟨r, x.error * x.error⟩ := by
    rw [runTracked_eq, r1]; rfl
  have := c66_computation_partial exMs_good (by simp [exMs]) ⟨2, 5, 1⟩ hin (M := fun _ => 0)
    (RCircuit.mul (.input ()) (.input ())) ⟨trivial, trivial⟩ ⟨trivial, trivial⟩ hr
  exact ⟨x, s2, _, _, x1, hx, hr, this.2.2.2⟩

/-- The hypotheses of `c66_galois_partial` on the estimate, for `n = 4`, `t = 5`, variance 1 and every gadget with
`d` digits in one base `2^b`. -/
example (b d : ℕ) (hb : b < 31) : ∃ P e, RErrorParams.create 2 exMs 3 1 = .ok P ∧
    P.boundOnKeySwitching 1 b d = .ok e ∧
    ((2 ^ 2 : ℕ) * (|5| * (2 ^ 2 * 2 * ((List.replicate d b).map fun b => (2 : ℤ) ^ b).sum) : ℤ) : ℝ) ≤ e := by
  have hP : RErrorParams.create 2 exMs 3 1 = .ok ⟨2, 3, 1⟩ := by
    unfold RErrorParams.create
    rw [if_neg (by norm_num), if_neg (by simp [exMs]), if_neg (by norm_num), if_neg (by norm_num)]
    rfl
  have hB : ∃ e, (⟨2, 3, 1⟩ : RErrorParams).boundOnKeySwitching 1 b d = .ok e ∧ 288 / √3 * (d * 2 ^ b) ≤ e := by
    unfold RErrorParams.boundOnKeySwitching shl1
    rw [if_pos hb, Outcome.bind_ok, if_pos (by norm_num), Outcome.bind_ok]
    refine ⟨_, rfl, ?_⟩
    apply le_of_eq
    simp [RErrorParams.exportT]
    ring
  obtain ⟨e, e1, e2⟩ := hB
  refine ⟨_, e, hP, e1, le_trans ?_ e2⟩
  · have h3 : √(3 : ℝ) ≤ 1.7321 := by rw [Real.sqrt_le_left (by norm_num)]; norm_num
    have h0 : (0 : ℝ) < √3 := by positivity
    have h4 : (160 : ℝ) ≤ 288 / √3 := by rw [le_div_iff₀ h0]; linarith
    have h5 : (0 : ℝ) ≤ d * 2 ^ b := by positivity
    have e1 : (((2 ^ 2 : ℕ) * (|5| * (2 ^ 2 * 2 * ((List.replicate d b).map fun b => (2 : ℤ) ^ b).sum) : ℤ) : ℝ)) =
        160 * (d * 2 ^ b) := by
      simp; ring
    rw [e1]
    exact mul_le_mul_of_nonneg_right h4 h5

end Shell
