import Verif.Model.ErrorTrack
import Verif.Lemmas.Canonical
import Verif.Lemmas.Expand
import Verif.Props.Relin
import Verif.Props.PublicKey
import Mathlib.Analysis.SpecialFunctions.Complex.Circle
import Mathlib.Analysis.Real.Pi.Bounds
/-!
# Property C65: the error estimate of a ciphertext bounds its noise

The size of a noisy plaintext is the largest absolute value at the complex roots of `X^n + 1`
(`Spec.SizeAtMost`); this is what the comments of error_params.h call the size of the NTT coefficients.
-/

namespace Shell
open Spec NttRing Sym Relin Finset
variable {C D : Ctx}

/-- The ciphertext `x` with key power `p` encrypts the noisy plaintext `φ` under `s(X^p)`, and the size of `φ` is
at most `x`'s error estimate. -/
structure Estimated (s : C.Poly) (x : ErrorTrack.Tracked C) (φ : Fin C.n → ℤ) : Prop where
  nonempty : x.ct.c ≠ []
  odd : x.ct.power % 2 = 1
  pos : 0 < x.ct.power
  lt : x.ct.power < 2 * C.n
  noisy : Noisy (subst C.l x.ct.power.toNat s) x.ct φ
  size : SizeAtMost φ x.error

/-- A computation on tracked ciphertexts and plaintexts. -/
inductive Tracking (C : Ctx) where
  | input (x : ErrorTrack.Tracked C)
  | add (u v : Tracking C)
  | sub (u v : Tracking C)
  | mul (u v : Tracking C)
  | absorb (u : Tracking C) (g : Fin C.n → ℤ)
  | scalar (u : Tracking C) (a : ZMod C.q)
  | monomial (u : Tracking C) (j : ℕ)
  | fused (u v : Tracking C) (g : Fin C.n → ℤ)
  | substitute (u : Tracking C) (k : ℤ)

namespace Tracking

/-- Run the computation with the operations of the library. -/
noncomputable def run (P : ErrorTrack.ErrorParams) : Tracking C → Outcome (ErrorTrack.Tracked C)
  | .input x => .ok x
  | .add u v => do ErrorTrack.add (← u.run P) (← v.run P)
  | .sub u v => do ErrorTrack.sub (← u.run P) (← v.run P)
  | .mul u v => do ErrorTrack.mul (← u.run P) (← v.run P)
  | .absorb u g => do return ErrorTrack.absorb P (← u.run P) (C.toNtt (modq C.q g))
  | .scalar u a => do return ErrorTrack.absorbScalar (← u.run P) a
  | .monomial u j => do return ErrorTrack.absorbMonomial P (← u.run P) (C.toNtt (Expand.monomial C j))
  | .fused u v g => do ErrorTrack.fusedAbsorbAdd P (← u.run P) (← v.run P) (C.toNtt (modq C.q g))
  | .substitute u k => do ErrorTrack.substitute (← u.run P) k

/-- The same computation on noisy plaintexts; `f` gives those of the inputs. -/
noncomputable def eval (f : ErrorTrack.Tracked C → Fin C.n → ℤ) : Tracking C → Fin C.n → ℤ
  | .input x => f x
  | .add u v => u.eval f + v.eval f
  | .sub u v => u.eval f - v.eval f
  | .mul u v => negMul (u.eval f) (v.eval f)
  | .absorb u g => negMul (u.eval f) g
  | .scalar u a => fun i => (a.val : ℤ) * u.eval f i
  | .monomial u j => negMul (u.eval f) fun i => if (i : ℕ) = C.n - 2 ^ j then -1 else 0
  | .fused u v g => u.eval f + negMul (v.eval f) g
  | .substitute u k => substPow k.toNat (u.eval f)

/-- The inputs of a computation. -/
def inputs : Tracking C → List (ErrorTrack.Tracked C)
  | .input x => [x]
  | .add u v | .sub u v | .mul u v | .fused u v _ => u.inputs ++ v.inputs
  | .absorb u _ | .scalar u _ | .monomial u _ | .substitute u _ => u.inputs

/-- The plaintext polynomials absorbed by a computation. -/
def plaintexts : Tracking C → List (Fin C.n → ℤ)
  | .input _ => []
  | .add u v | .sub u v | .mul u v => u.plaintexts ++ v.plaintexts
  | .fused u v g => g :: (u.plaintexts ++ v.plaintexts)
  | .absorb u g => g :: u.plaintexts
  | .scalar u _ | .monomial u _ | .substitute u _ => u.plaintexts

end Tracking

/-- The size of a polynomial with one coefficient `-1`. -/
theorem size_monomial (C : Ctx) (j : ℕ) :
    SizeAtMost (fun i : Fin C.n => if (i : ℕ) = C.n - 2 ^ j then (-1 : ℤ) else 0) 1 := by
  intro z hz
  have hz1 : ‖z‖ = 1 := by
    have h : ‖z‖ ^ C.n = 1 := by rw [← norm_pow, hz, norm_neg, norm_one]
    exact (pow_eq_one_iff_of_nonneg (norm_nonneg _) (by unfold Ctx.n; positivity)).mp h
  unfold evalAt
  by_cases hj : C.n - 2 ^ j < C.n
  · rw [Finset.sum_eq_single (⟨C.n - 2 ^ j, hj⟩ : Fin C.n)]
    · simp [hz1]
    · intro b _ hb
      dsimp only
      rw [if_neg (fun h => hb (Fin.ext h))]
      simp
    · simp
  · rw [Finset.sum_eq_zero]
    · simp
    · intro b _
      dsimp only
      rw [if_neg (by have := b.2; omega)]
      simp

theorem substitute_inv {x y : Ct C} {k : ℤ} (hy : Sym.substitute x k = .ok y) (hx : x.c ≠ [])
    (hp : 0 ≤ x.power) : ∃ k' : ℕ, k = k' ∧ k' % 2 = 1 ∧ k' < 2 * C.n ∧
      y.c = x.c.map (subst C.l k') ∧ y.power = (x.power * k') % (2 * C.n : ℕ) := by
  by_cases hk : k < 0 ∨ k % 2 = 0 ∨ 2 * C.n ≤ k
  · rw [c25_bad_power x hx k hk] at hy
    cases hy
  · have hk0 : 0 ≤ k := by omega
    obtain ⟨k', rfl⟩ := Int.eq_ofNat_of_zero_le hk0
    have h1 : k' % 2 = 1 := by omega
    have h2 : k' < 2 * C.n := by
      have : ¬ (2 * (C.n : ℤ) ≤ k') := fun hc => hk (Or.inr (Or.inr (by exact_mod_cast hc)))
      omega
    refine ⟨k', rfl, h1, h2, ?_⟩
    unfold Sym.substitute at hy
    rw [mapM_ok _ (subst C.l k') _ (fun F _ => ctx_substitute F k' h1 h2), Outcome.bind_ok] at hy
    unfold Transcription.int32 at hy
    simp only [if_neg (show ¬ x.c.length = 0 by simpa using hx)] at hy
    by_cases ho : -2 ^ 31 ≤ x.power * (k' : ℤ) ∧ x.power * (k' : ℤ) < 2 ^ 31
    · rw [if_pos ho] at hy
      cases hy
      refine ⟨rfl, ?_⟩
      dsimp only
      rw [Int.tmod_eq_emod_of_nonneg (by positivity)]
      push_cast
      rfl
    · rw [if_neg ho] at hy
      cases hy

theorem Estimated.substitute (h : C.Ok) {s : C.Poly} {x : ErrorTrack.Tracked C} {φ : Fin C.n → ℤ}
    (hx : Estimated s x φ) {k : ℤ} {r : ErrorTrack.Tracked C} (hr : ErrorTrack.substitute x k = .ok r) :
    Estimated s r (substPow k.toNat φ) := by
  unfold ErrorTrack.substitute at hr
  cases hy : Sym.substitute x.ct k with
  | err e => rw [hy, Outcome.bind_err] at hr; cases hr
  | ub u => rw [hy, Outcome.bind_ub] at hr; cases hr
  | ok y =>
    rw [hy, Outcome.bind_ok] at hr
    cases hr
    obtain ⟨k', rfl, k1, k2, k3, k4⟩ := substitute_inv hy hx.nonempty hx.pos.le
    have hnp : 0 < C.n := by unfold Ctx.n; positivity
    obtain ⟨p, hp⟩ := Int.eq_ofNat_of_zero_le hx.pos.le
    have hp1 : p % 2 = 1 := by have := hx.odd; omega
    have hpk : (p * k') % 2 = 1 := by rw [Nat.mul_mod, hp1, k1]
    have hpow : y.power = ((p * k' % (2 * C.n) : ℕ) : ℤ) := by rw [k4, hp]; push_cast; rfl
    have hmod2 : (p * k' % (2 * C.n)) % 2 = 1 := by rw [Nat.mod_mul_right_mod, hpk]
    refine ⟨?_, ?_, ?_, ?_, ?_, ?_⟩
    · rw [k3]; simpa using hx.nonempty
    · rw [hpow]; omega
    · rw [hpow]; omega
    · rw [hpow]
      have := Nat.mod_lt (p * k') (show 0 < 2 * C.n by omega)
      omega
    · rw [hpow, Int.toNat_natCast, Int.toNat_natCast]
      have hn := hx.noisy
      rw [hp, Int.toNat_natCast] at hn
      unfold Noisy at *
      rw [modq_substPow, toNtt_substPow h k' k1, hn,
        ← subst_subst (by have := h.l15; omega) p k' hp1 k1, k3, phase_subst]
    · rw [Int.toNat_natCast]
      exact hx.size.subst k1

/-- C65: in every computation from estimated ciphertexts by additions, subtractions, products, absorptions of
plaintexts of size at most `B_plaintext`, of scalars and monomials, fused absorptions and substitutions,
the result is the computation on the noisy plaintexts, and its size is at most the result's error estimate. -/
theorem c65_computation (h : C.Ok) (s : C.Poly) (P : ErrorTrack.ErrorParams)
    (f : ErrorTrack.Tracked C → Fin C.n → ℤ) (u : Tracking C) (hin : ∀ x ∈ u.inputs, Estimated s x (f x))
    (hpl : ∀ g ∈ u.plaintexts, SizeAtMost g (P.bPlaintext C.n)) :
    ∀ r, u.run P = .ok r → Estimated s r (u.eval f) := by
  induction u with
  | input x =>
    intro r hr
    cases hr
    exact hin x (by simp [Tracking.inputs])
  | add u v ihu ihv =>
    intro r hr
    obtain ⟨a, a1, hr⟩ := Outcome.bind_eq_ok.mp hr
    obtain ⟨b, b1, hr⟩ := Outcome.bind_eq_ok.mp hr
    have ha := ihu (fun x hx => hin x (by simp [Tracking.inputs, hx])) (fun g hg => hpl g (by simp [Tracking.plaintexts, hg])) a a1
    have hb := ihv (fun x hx => hin x (by simp [Tracking.inputs, hx])) (fun g hg => hpl g (by simp [Tracking.plaintexts, hg])) b b1
    obtain ⟨c, c1, hr⟩ := Outcome.bind_eq_ok.mp hr
    cases hr
    by_cases hp : a.ct.power = b.ct.power
    · obtain ⟨c', e1, e2, e3, e4⟩ := (c20_add _ a.ct b.ct ha.noisy (by rw [hp]; exact hb.noisy)).2 hp
      rw [e1] at c1
      cases c1
      refine ⟨?_, e3 ▸ ha.odd, e3 ▸ ha.pos, e3 ▸ ha.lt, e3 ▸ e2, ha.size.add hb.size⟩
      have := List.length_pos_iff.mpr ha.nonempty
      exact List.length_pos_iff.mp (by rw [e4]; omega)
    · unfold addInPlace at c1
      rw [if_pos hp] at c1
      cases c1
  | sub u v ihu ihv =>
    intro r hr
    obtain ⟨a, a1, hr⟩ := Outcome.bind_eq_ok.mp hr
    obtain ⟨b, b1, hr⟩ := Outcome.bind_eq_ok.mp hr
    have ha := ihu (fun x hx => hin x (by simp [Tracking.inputs, hx])) (fun g hg => hpl g (by simp [Tracking.plaintexts, hg])) a a1
    have hb := ihv (fun x hx => hin x (by simp [Tracking.inputs, hx])) (fun g hg => hpl g (by simp [Tracking.plaintexts, hg])) b b1
    obtain ⟨c, c1, hr⟩ := Outcome.bind_eq_ok.mp hr
    cases hr
    by_cases hp : a.ct.power = b.ct.power
    · obtain ⟨c', e1, e2, e3, e4⟩ := (c20_sub _ a.ct b.ct ha.noisy (by rw [hp]; exact hb.noisy)).2 hp
      rw [e1] at c1
      cases c1
      refine ⟨?_, e3 ▸ ha.odd, e3 ▸ ha.pos, e3 ▸ ha.lt, e3 ▸ e2, ha.size.sub hb.size⟩
      have := List.length_pos_iff.mpr ha.nonempty
      exact List.length_pos_iff.mp (by rw [e4]; omega)
    · unfold subInPlace at c1
      rw [if_pos hp] at c1
      cases c1
  | mul u v ihu ihv =>
    intro r hr
    obtain ⟨a, a1, hr⟩ := Outcome.bind_eq_ok.mp hr
    obtain ⟨b, b1, hr⟩ := Outcome.bind_eq_ok.mp hr
    have ha := ihu (fun x hx => hin x (by simp [Tracking.inputs, hx])) (fun g hg => hpl g (by simp [Tracking.plaintexts, hg])) a a1
    have hb := ihv (fun x hx => hin x (by simp [Tracking.inputs, hx])) (fun g hg => hpl g (by simp [Tracking.plaintexts, hg])) b b1
    obtain ⟨c, c1, hr⟩ := Outcome.bind_eq_ok.mp hr
    cases hr
    by_cases hp : a.ct.power = b.ct.power
    · obtain ⟨c', e1, e2, e3, e4⟩ := (c21_mul h _ a.ct b.ct ha.noisy (by rw [hp]; exact hb.noisy)).2 hp
        ha.nonempty hb.nonempty
      rw [e1] at c1
      cases c1
      refine ⟨?_, e3 ▸ ha.odd, e3 ▸ ha.pos, e3 ▸ ha.lt, e3 ▸ e2, ha.size.mul hb.size⟩
      have := List.length_pos_iff.mpr ha.nonempty
      have := List.length_pos_iff.mpr hb.nonempty
      exact List.length_pos_iff.mp (by rw [e4]; omega)
    · unfold Sym.mul at c1
      rw [if_pos hp] at c1
      cases c1
  | absorb u g ih =>
    intro r hr
    obtain ⟨a, a1, hr⟩ := Outcome.bind_eq_ok.mp hr
    have ha := ih (fun x hx => hin x hx) (fun g hg => hpl g (by simp [Tracking.plaintexts, hg])) a a1
    cases hr
    obtain ⟨e1, e2⟩ := (c21_absorb h _ a.ct ha.noisy).1 g
    exact ⟨by simpa [ErrorTrack.absorb, Sym.absorb] using ha.nonempty, ha.odd, ha.pos, ha.lt, e1,
      ha.size.mul (hpl g (by simp [Tracking.plaintexts]))⟩
  | scalar u c ih =>
    intro r hr
    obtain ⟨a, a1, hr⟩ := Outcome.bind_eq_ok.mp hr
    have ha := ih (fun x hx => hin x hx) (fun g hg => hpl g hg) a a1
    cases hr
    haveI := h.neZero
    obtain ⟨e1, e2⟩ := (c21_absorb h _ a.ct ha.noisy).2 (c.val : ℤ)
    rw [Int.cast_natCast, ZMod.natCast_val, ZMod.cast_id', id] at e1
    refine ⟨by simpa [ErrorTrack.absorbScalar, Sym.absorbScalar] using ha.nonempty, ha.odd, ha.pos, ha.lt, e1, ?_⟩
    have := ha.size.smul (c.val : ℤ)
    rw [Int.cast_natCast, abs_of_nonneg (Nat.cast_nonneg _), mul_comm] at this
    exact this
  | monomial u j ih =>
    intro r hr
    obtain ⟨a, a1, hr⟩ := Outcome.bind_eq_ok.mp hr
    have ha := ih (fun x hx => hin x hx) (fun g hg => hpl g hg) a a1
    cases hr
    obtain ⟨e1, e2⟩ := (c21_absorb h _ a.ct ha.noisy).1 fun i => if (i : ℕ) = C.n - 2 ^ j then -1 else 0
    have hm : modq C.q (fun i : Fin C.n => if (i : ℕ) = C.n - 2 ^ j then (-1 : ℤ) else 0) = Expand.monomial C j := by
      funext i
      unfold modq Expand.monomial
      split_ifs <;> simp_all
    rw [hm] at e1
    refine ⟨by simpa [ErrorTrack.absorbMonomial, ErrorTrack.absorb, Sym.absorb] using ha.nonempty, ha.odd, ha.pos,
      ha.lt, e1, ?_⟩
    have := ha.size.mul (size_monomial C j)
    rw [mul_one] at this
    exact this
  | fused u v g ihu ihv =>
    intro r hr
    obtain ⟨a, a1, hr⟩ := Outcome.bind_eq_ok.mp hr
    obtain ⟨b, b1, hr⟩ := Outcome.bind_eq_ok.mp hr
    have ha := ihu (fun x hx => hin x (by simp [Tracking.inputs, hx])) (fun g hg => hpl g (by simp [Tracking.plaintexts, hg])) a a1
    have hb := ihv (fun x hx => hin x (by simp [Tracking.inputs, hx])) (fun g hg => hpl g (by simp [Tracking.plaintexts, hg])) b b1
    obtain ⟨c, c1, hr⟩ := Outcome.bind_eq_ok.mp hr
    cases hr
    by_cases hp : a.ct.power = b.ct.power
    · obtain ⟨c', e1, e2, e3, e4⟩ := (c21_fused h _ a.ct b.ct ha.noisy (by rw [hp]; exact hb.noisy) g).2 hp
      rw [e1] at c1
      cases c1
      refine ⟨?_, e3 ▸ ha.odd, e3 ▸ ha.pos, e3 ▸ ha.lt, e3 ▸ e2,
        ha.size.add (hb.size.mul (hpl g (by simp [Tracking.plaintexts])))⟩
      have := List.length_pos_iff.mpr ha.nonempty
      exact List.length_pos_iff.mp (by rw [e4]; omega)
    · unfold Sym.fusedAbsorbAdd at c1
      rw [if_pos hp] at c1
      cases c1
  | substitute u k ih =>
    intro r hr
    obtain ⟨a, a1, hr⟩ := Outcome.bind_eq_ok.mp hr
    exact (ih (fun x hx => hin x hx) (fun g hg => hpl g hg) a a1).substitute h hr

/-- C65: a ciphertext whose error estimate is below half the modulus decrypts to its noisy plaintext modulo `t`, and
`MeasureError` does not exceed the estimate. -/
theorem c65_decrypt (h : C.Ok) (k : Key C) (ht : 0 < k.tMod.val) (htq : k.tMod.val ≤ C.q)
    {x : ErrorTrack.Tracked C} {φ : Fin C.n → ℤ} (hx : Estimated k.key x φ) (hp : x.ct.power = 1)
    (hb : 2 * x.error < C.q) :
    decrypt k x.ct = .ok (fun i => (φ i % (k.tMod.val : ℤ)).toNat) ∧
      ∃ em, extract k x.ct = .ok em ∧ (measureError C.q (List.ofFn fun i => (em i).val) : ℝ) ≤ x.error := by
  haveI : NeZero C.n := ⟨by unfold Ctx.n; positivity⟩
  have hn := hx.noisy
  rw [hp, show (1 : ℤ).toNat = 1 from rfl, subst_id h.l32] at hn
  have hs := fun i => coeff_le_size hx.size i
  have hb' : ∀ i, 2 * |φ i| < C.q := fun i => by
    have h1 : (2 : ℝ) * |(φ i : ℝ)| < C.q := by linarith [hs i]
    exact_mod_cast h1
  refine ⟨c19_decrypt_small h k x.ct ht htq hn hb', ?_⟩
  obtain ⟨em, e1, e2, i, e3⟩ := c19_measureError h k x.ct hn hb'
  refine ⟨em, e1, ?_⟩
  have h1 : ((|φ i| : ℤ) : ℝ) ≤ x.error := by rw [Int.cast_abs]; exact hs i
  rw [e3] at h1
  exact_mod_cast h1

/-! ## Fresh encryptions -/

theorem sqrt_three_mul (n : ℕ) : √(3 * (n : ℝ)) = √3 * √n := Real.sqrt_mul (by norm_num) _

/-- C65 (partial: the sampled error must have the size the estimate assumes): a fresh encryption of a plaintext
of size at most `B_plaintext`, with an error of size at most `6 sigma sqrt n`. -/
theorem c65_encrypt_partial (h : C.Ok) (P : ErrorTrack.ErrorParams) (hP : P.t < 2 ^ 64) (k : Key C)
    (ht : k.tUnderQ = (P.t : ZMod C.q)) (m e : Fin C.n → ℤ) (a : C.Poly) (hm : SizeAtMost m (P.bPlaintext C.n))
    (he : SizeAtMost e (6 * P.sigma * √C.n)) :
    Estimated k.key (ErrorTrack.encrypt P k (C.toNtt (modq C.q m)) a (modq C.q e)) (fun i => m i + P.t * e i) := by
  have hn1 : 1 ≤ C.n := Nat.one_le_two_pow
  have hpw : (ErrorTrack.encrypt P k (C.toNtt (modq C.q m)) a (modq C.q e)).ct.power = 1 := rfl
  refine ⟨by simp [ErrorTrack.encrypt, Sym.encrypt], by rw [hpw]; rfl, by rw [hpw]; norm_num,
    by rw [hpw]; have : (1 : ℤ) ≤ (C.n : ℤ) := by exact_mod_cast hn1
       omega, ?_, ?_⟩
  · rw [hpw, show (1 : ℤ).toNat = 1 from rfl, subst_id h.l32]
    exact c19_encrypt_noisy k m e a (t := (P.t : ℤ)) (by rw [ht]; push_cast; rfl)
  · have h1 := hm.add (he.smul (P.t : ℤ))
    refine Spec.SizeAtMost.mono (f := fun i => m i + (P.t : ℤ) * e i) h1 (le_of_eq ?_)
    show P.bPlaintext C.n + |((P.t : ℤ) : ℝ)| * (6 * P.sigma * √C.n) = P.bEncryption C.n
    unfold ErrorTrack.ErrorParams.bPlaintext ErrorTrack.ErrorParams.bEncryption ErrorTrack.ErrorParams.exportT
    rw [Nat.mod_eq_of_lt hP, sqrt_three_mul, Int.cast_natCast, abs_of_nonneg (Nat.cast_nonneg _)]
    ring

/-- C65 (partial, like `c65_encrypt_partial`): a fresh public-key encryption, when the secret key, the error of
the public key and the three polynomials sampled by the encryption have size at most `6 sigma sqrt n`. -/
theorem c65_encrypt_public_partial (h : C.Ok) (P : ErrorTrack.ErrorParams) (hP : P.t < 2 ^ 64) (k : Key C)
    (ht : k.tUnderQ = (P.t : ZMod C.q)) (S : Fin C.n → ℤ) (hS : k.key = C.toNtt (modq C.q S)) (v1 v2 : ℤ)
    (prng : PrngType) (a : C.Poly) (m e v e0 e1 : Fin C.n → ℤ) {pk : Pub.PKey C}
    (hpk : Pub.create k v1 prng a (modq C.q e) = .ok pk) (hv : 0 < v2 ∧ v2 ≤ 256)
    (hm : SizeAtMost m (P.bPlaintext C.n))
    (hsz : ∀ f ∈ [S, e, v, e0, e1], SizeAtMost f (6 * √v2 * √C.n)) :
    ∃ x, ErrorTrack.encryptPublic P pk (C.toNtt (modq C.q m)) v2 false (modq C.q v) (modq C.q e0) (modq C.q e1) = .ok x ∧
      Estimated k.key x (fun i => m i + P.t * (negMul e v i + e0 i + negMul e1 S i)) := by
  have hn1 : 1 ≤ C.n := Nat.one_le_two_pow
  obtain ⟨x, x1, x2, x3, x4⟩ := c34_noisy h k S hS (t := (P.t : ℤ)) (by rw [ht]; push_cast; rfl) v1 v2 prng a m e v
    e0 e1 hpk hv
  unfold ErrorTrack.encryptPublic ErrorTrack.ErrorParams.bPublicKey
  rw [x1, Outcome.bind_ok, if_neg (by omega), Outcome.bind_ok]
  refine ⟨_, rfl, List.length_pos_iff.mp (by show 0 < x.c.length; omega), by show x.power % 2 = 1; rw [x3]; rfl,
    by show 0 < x.power; omega,
    by show x.power < _; rw [x3]; have : (1 : ℤ) ≤ (C.n : ℤ) := by exact_mod_cast hn1
       omega, ?_, ?_⟩
  · show Noisy (subst C.l x.power.toNat k.key) x _
    rw [x3, show (1 : ℤ).toNat = 1 from rfl, subst_id h.l32]
    exact x4
  · have h1 := hm.add ((((hsz e (by simp)).mul (hsz v (by simp))).add (hsz e0 (by simp))).add
      ((hsz e1 (by simp)).mul (hsz S (by simp))) |>.smul (P.t : ℤ))
    refine Spec.SizeAtMost.mono (f := fun i => m i + (P.t : ℤ) * (negMul e v i + e0 i + negMul e1 S i)) h1 (le_of_eq ?_)
    dsimp only
    unfold ErrorTrack.ErrorParams.bPlaintext ErrorTrack.ErrorParams.exportT
    rw [Nat.mod_eq_of_lt hP, sqrt_three_mul, Int.cast_natCast, abs_of_nonneg (Nat.cast_nonneg _)]
    have a1 : √(C.n : ℝ) * √(C.n : ℝ) = C.n := Real.mul_self_sqrt (Nat.cast_nonneg _)
    have a2 : √(v2 : ℝ) * √(v2 : ℝ) = v2 := Real.mul_self_sqrt (by exact_mod_cast hv.1.le)
    have a3 : 6 * √(v2 : ℝ) * √(C.n : ℝ) * (6 * √(v2 : ℝ) * √(C.n : ℝ)) = 36 * v2 * C.n := by
      calc _ = 36 * (√(v2 : ℝ) * √(v2 : ℝ)) * (√(C.n : ℝ) * √(C.n : ℝ)) := by ring
        _ = _ := by rw [a1, a2]
    rw [a3]
    ring

/-! ## Key switching and modulus switching -/

theorem create_parts_length (h : C.Ok) (hw : C.w ≤ 128) {k : Key C} {T : ℕ}
    (htm : plaintextModulus C.w k.logT = .ok T) {prng : PrngType} {numParts : ℤ} {b : ℕ} {pw : ℤ}
    {pads errs : ℕ → ℕ → C.Poly} {rk : RKey C} (hrk : Relin.create k prng numParts b pw pads errs = .ok rk) :
    rk.parts.length = (numParts - (if pw = 1 then 2 else 1)).toNat := by
  obtain ⟨c1, c2, c3, c4, c5⟩ := (c27_create h hw k htm prng numParts b pw pads _).mp ⟨rk, hrk⟩
  obtain ⟨l1, l2, l3⟩ := ctx_logModulus h hw
  obtain ⟨one, m1, m2, m3⟩ := mask_eq (b := b) (w := C.w) (by omega)
  have hs : C.substitute k.key pw = .ok (subst C.l pw.toNat k.key) := by
    have := ctx_substitute k.key pw.toNat (by omega) (by omega)
    rwa [Int.toNat_of_nonneg c5.1] at this
  obtain ⟨L, e1, e2, e3⟩ := createParts_ok k (subst C.l pw.toNat k.key) (one : ZMod C.q)
    ((C.logModulus + (b - 1)) / b) pads errs
    (numParts - firstKeyIndex pw).toNat
    (firstKeyIndex pw) 0 (subst C.l pw.toNat k.key)
    (by unfold firstKeyIndex; split_ifs <;> omega)
    (by unfold firstKeyIndex; split_ifs <;> simp_all [pow_two])
  have hrk' : rk = { numParts := numParts, logDecomp := b, power := pw, parts := L } := by
    unfold Relin.create at hrk
    rw [if_neg (by omega), if_neg (by omega), if_neg (by omega), m1, Outcome.bind_ok] at hrk
    unfold Key.substitute at hrk
    dsimp only at hrk
    rw [htm, Outcome.bind_ok, hs, Outcome.bind_ok, Outcome.pure_eq, Outcome.bind_ok, if_neg c4] at hrk
    unfold Gadget.gadgetSize at hrk
    rw [if_neg (by omega), Outcome.bind_ok] at hrk
    dsimp only at hrk
    rw [e1, Outcome.bind_ok, Outcome.pure_eq] at hrk
    exact (Outcome.ok.inj hrk).symm
  rw [hrk']
  dsimp only
  rw [e2]
  unfold firstKeyIndex
  split_ifs <;> rfl

theorem size_sum {n : ℕ} {ι : Type*} (s : Finset ι) (F : ι → Fin n → ℤ) (B : ℝ) (h : ∀ i ∈ s, SizeAtMost (F i) B) :
    SizeAtMost (fun v => ∑ i ∈ s, F i v) (s.card * B) := by
  classical
  induction s using Finset.induction_on with
  | empty =>
    intro z hz
    simp [evalAt]
  | insert a s ha ih =>
    have h1 := (h a (by simp)).add (ih fun i hi => h i (by simp [hi]))
    rw [Finset.card_insert_of_notMem ha]
    have e : (F a + fun v => ∑ i ∈ s, F i v) = fun v => ∑ i ∈ insert a s, F i v := by
      funext v
      rw [Pi.add_apply, Finset.sum_insert ha]
    rw [e] at h1
    refine h1.mono (le_of_eq ?_)
    push_cast
    ring

/-- C65 (partial: each product of a digit of the ciphertext and an error of the key must have the size the estimate
assumes): applying a relinearization or Galois key to a ciphertext with as many components as the key has parts. -/
theorem c65_relinearize_partial (h : C.Ok) (hw : C.w ≤ 128) (P : ErrorTrack.ErrorParams) (hP : P.t < 2 ^ 64)
    (hlog : P.logModulus = C.logModulus) (k : Key C) {T : ℕ} (htm : plaintextModulus C.w k.logT = .ok T)
    (ht : k.tUnderQ = (P.t : ZMod C.q)) (prng : PrngType) (numParts : ℤ) (b : ℕ) (pw : ℤ)
    (pads : ℕ → ℕ → C.Poly) (E : ℕ → ℕ → Fin C.n → ℤ) {rk : RKey C}
    (hrk : Relin.create k prng numParts b pw pads (fun i j => modq C.q (E i j)) = .ok rk) (hb31 : b < 31)
    {x : ErrorTrack.Tracked C} {φ : Fin C.n → ℤ} (hx : Estimated k.key x φ) (hpw : x.ct.power = pw)
    (hlen : (x.ct.c.length : ℤ) = numParts)
    (hsz : ∀ u j, SizeAtMost (negMul (fun i => (digit b j
      (C.fromNtt (x.ct.c.getD ((if pw = 1 then 2 else 1) + u) 0) i).val : ℤ)) (E u j))
        (8 / √3 * P.sigma * C.n * 2 ^ b)) :
    ∃ r φ', ErrorTrack.relinearize P rk x = .ok r ∧ r.ct.power = 1 ∧ Estimated k.key r φ' ∧
      ∀ i, φ' i ≡ φ i [ZMOD P.t] := by
  obtain ⟨c1, c2, c3, c4, c5⟩ := (c27_create h hw k htm prng numParts b pw pads _).mp ⟨rk, hrk⟩
  have hn1 : 1 ≤ C.n := Nat.one_le_two_pow
  have hφ := hx.noisy
  rw [hpw] at hφ
  obtain ⟨r, d, e1, e2, e3, e4, e5⟩ := c27_relinearize_partial h hw k htm (t := (P.t : ℤ)) (by rw [ht]; push_cast; rfl)
    prng numParts b pw pads E hrk hb31 x.ct hlen hφ
  unfold ErrorTrack.relinearize ErrorTrack.ErrorParams.bRelinearize decompositionModulus
  rw [e2, Outcome.bind_ok, (create_fields hrk).2.2, if_neg (by omega), if_pos hb31, Outcome.bind_ok, Outcome.pure_eq,
    Outcome.bind_ok]
  refine ⟨_, fun v => φ v + P.t * ∑ u ∈ range (x.ct.c.length - (if pw = 1 then 2 else 1)),
        ∑ j ∈ range d, negMul (fun i => (digit b j
          (C.fromNtt (x.ct.c.getD ((if pw = 1 then 2 else 1) + u) 0) i).val : ℤ)) (E u j) v,
    rfl, e4, ⟨List.length_pos_iff.mp (by show 0 < r.c.length; omega),
    by show r.power % 2 = 1; rw [e4]; rfl, by show 0 < r.power; omega,
    by show r.power < _; rw [e4]; have : (1 : ℤ) ≤ (C.n : ℤ) := by exact_mod_cast hn1
       omega, ?_, ?_⟩, ?_⟩
  · show Noisy (subst C.l r.power.toNat k.key) r _
    rw [e4, show (1 : ℤ).toNat = 1 from rfl, subst_id h.l32]
    exact e5
  · have h1 := hx.size.add ((size_sum (range (x.ct.c.length - (if pw = 1 then 2 else 1))) _ _ fun u _ =>
      size_sum (range d) _ _ fun j _ => hsz u j).smul (P.t : ℤ))
    refine Spec.SizeAtMost.mono h1 (le_of_eq ?_)
    dsimp only
    rw [create_parts_length h hw htm hrk]
    have hd : d = (b + P.logModulus - 1) / b := by
      unfold Gadget.gadgetSize at e1
      rw [if_neg (by omega)] at e1
      rw [hlog, ← Outcome.ok.inj e1]
      congr 1
      omega
    have hl : (numParts - (if pw = 1 then 2 else 1)).toNat = x.ct.c.length - (if pw = 1 then 2 else 1) := by
      rw [← hlen]
      split_ifs <;> omega
    rw [hl, ← hd, card_range, card_range]
    unfold ErrorTrack.ErrorParams.exportT
    rw [Nat.mod_eq_of_lt hP, Int.cast_natCast, abs_of_nonneg (Nat.cast_nonneg _)]
    push_cast
    ring
  · intro i
    exact (Int.modEq_iff_dvd.mpr (by rw [add_sub_cancel_left]; exact dvd_mul_right _ _) :
      φ i ≡ φ i + (P.t : ℤ) * _ [ZMOD P.t]).symm

theorem norm_root {n : ℕ} (hn : n ≠ 0) {z : ℂ} (hz : z ^ n = -1) : ‖z‖ = 1 := by
  have h : ‖z‖ ^ n = 1 := by rw [← norm_pow, hz, norm_neg, norm_one]
  exact (pow_eq_one_iff_of_nonneg (norm_nonneg _) hn).mp h

/-- The size of a polynomial is at most the sum of its coefficients' absolute values. -/
theorem size_le_sum {n : ℕ} (hn : n ≠ 0) (f : Fin n → ℤ) : SizeAtMost f (∑ i, |(f i : ℝ)|) := fun z hz => by
  unfold evalAt
  refine (norm_sum_le _ _).trans (le_of_eq (Finset.sum_congr rfl fun i _ => ?_))
  rw [norm_mul, norm_pow, norm_root hn hz, one_pow, mul_one, Complex.norm_intCast]

theorem size_of_coeff {n : ℕ} (hn : n ≠ 0) {f : Fin n → ℤ} {B : ℝ} (hB : ∀ i, |(f i : ℝ)| ≤ B) : SizeAtMost f (n * B) := by
  refine (size_le_sum hn f).mono ((Finset.sum_le_sum fun i _ => hB i).trans (le_of_eq ?_))
  simp

/-- C65 (partial: the rounding error of the switch, bounded by `n ((t+1)/2 + 1)` times the powers of the key's
norm, must be at most `B_scale`): modulus switching. -/
theorem c65_switch_partial (hC : C.Ok) (hD : D.Ok) (hl : C.l = D.l) (hqp : D.q ≤ C.q) (Q : ErrorTrack.ErrorParams)
    {t : ℕ} (ht : 0 < t) (htq : t ≤ D.q) (hmod : C.q % t = D.q % t) (S : Fin C.n → ℤ)
    {x : ErrorTrack.Tracked C} {φ : Fin C.n → ℤ} (hx : Estimated (C.toNtt (modq C.q S)) x φ) (hp : x.ct.power = 1)
    (hscale : (C.n : ℝ) * (((t + 1) / 2 + 1 : ℕ) * ∑ j ∈ range x.ct.c.length, (norm1 S : ℝ) ^ j) ≤ Q.bScale D.n) :
    ∃ r φ', ErrorTrack.switchModulus Q D hl x t = .ok r ∧ r.ct.power = 1 ∧
      Estimated (D.toNtt (modq D.q fun i => S (Fin.cast (by unfold Ctx.n; rw [hl]) i))) r φ' ∧
      ∀ i, φ' i ≡ φ (Fin.cast (by unfold Ctx.n; rw [hl]) i) [ZMOD t] := by
  have hφ := hx.noisy
  rw [hp, show (1 : ℤ).toNat = 1 from rfl, subst_id hC.l32] at hφ
  obtain ⟨r, φ', e1, e2, e3, e4, e5⟩ := c24_switch_modulus_partial hC hD hl hqp ht htq hmod S x.ct hφ
  have hlen : r.c.length = x.ct.c.length := by
    unfold Sym.switchModulus at e1
    rw [if_neg (by omega), if_neg (by simpa using hmod)] at e1
    rw [← Outcome.ok.inj e1]
    simp
  unfold ErrorTrack.switchModulus
  rw [e1, Outcome.bind_ok]
  have hn1 : 1 ≤ D.n := Nat.one_le_two_pow
  have hne := List.length_pos_iff.mpr hx.nonempty
  refine ⟨_, φ', rfl, e2.trans hp, ⟨List.length_pos_iff.mp (by show 0 < r.c.length; omega),
    by show r.power % 2 = 1; rw [e2, hp]; rfl, by show 0 < r.power; omega,
    by show r.power < _; rw [e2, hp]; have : (1 : ℤ) ≤ (D.n : ℤ) := by exact_mod_cast hn1
       omega, ?_, ?_⟩, e4⟩
  · show Noisy (subst D.l r.power.toNat _) r _
    rw [e2, hp, show (1 : ℤ).toNat = 1 from rfl, subst_id hD.l32]
    exact e3
  · obtain ⟨w', q', l', psi'⟩ := D
    dsimp only at hl hqp htq hmod
    subst hl
    have hq0 : (0 : ℝ) < C.q := by exact_mod_cast hC.prime.pos
    have hsz := hx.size
    set K : ℝ := ((t + 1) / 2 + 1 : ℕ) * ∑ j ∈ range x.ct.c.length, (norm1 S : ℝ) ^ j with hK
    have hn0 : C.n ≠ 0 := by unfold Ctx.n; positivity
    have h1 : SizeAtMost (fun i => (C.q : ℤ) * φ' i - q' * φ i) (C.n * (C.q * K)) :=
      size_of_coeff hn0 fun i => by
        have := e5 i
        have h2 : ((|(C.q : ℤ) * φ' i - q' * φ i| : ℤ) : ℝ) ≤
            ((C.q * ((t + 1) / 2 + 1 : ℕ) * ∑ j ∈ range x.ct.c.length, norm1 S ^ j : ℤ) : ℝ) := by
          exact_mod_cast this
        rw [Int.cast_abs] at h2
        refine h2.trans (le_of_eq ?_)
        rw [hK, Int.cast_mul, Int.cast_mul, Int.cast_sum]
        simp only [Int.cast_natCast, Int.cast_pow]
        ring
    intro z hz
    have h2 := h1 z hz
    have h3 := hsz z hz
    have e : evalAt (fun i => (C.q : ℤ) * φ' i - q' * φ i) z = C.q * evalAt φ' z - q' * evalAt φ z := by
      have := valueAt_sub (fun i => (C.q : ℤ) * φ' i) (fun i => (q' : ℤ) * φ i) z
      rw [valueAt_smul, valueAt_smul] at this
      rw [show (fun i => (C.q : ℤ) * φ' i - q' * φ i) = (fun i => (C.q : ℤ) * φ' i) - fun i => (q' : ℤ) * φ i from rfl,
        this]
      push_cast
      rfl
    rw [e] at h2
    have h4 : (C.q : ℝ) * ‖evalAt φ' z‖ ≤ C.n * (C.q * K) + q' * x.error := by
      have a1 : ‖(C.q : ℂ) * evalAt φ' z‖ = C.q * ‖evalAt φ' z‖ := by rw [norm_mul, Complex.norm_natCast]
      have a2 : ‖(q' : ℂ) * evalAt φ z‖ = q' * ‖evalAt φ z‖ := by rw [norm_mul, Complex.norm_natCast]
      have a3 := norm_le_norm_sub_add ((C.q : ℂ) * evalAt φ' z) ((q' : ℂ) * evalAt φ z)
      rw [a1, a2] at a3
      have a4 : (q' : ℝ) * ‖evalAt φ z‖ ≤ q' * x.error := mul_le_mul_of_nonneg_left h3 (Nat.cast_nonneg _)
      linarith
    show ‖evalAt φ' z‖ ≤ (q' : ℝ) / C.q * x.error + Q.bScale C.n
    have h5 : ‖evalAt φ' z‖ ≤ C.n * K + q' / C.q * x.error := by
      rw [← mul_le_mul_iff_right₀ hq0]
      refine h4.trans (le_of_eq ?_)
      field_simp
    linarith [hscale]

/-! ## Lazy accumulation -/

/-- A sequence of lazy accumulations on tracked ciphertexts. -/
noncomputable def trackedLazyRun (P : ErrorTrack.ErrorParams) (x : ErrorTrack.Tracked C)
    (hist : List (ErrorTrack.Tracked C × (Fin C.n → ℤ))) : Outcome (ErrorTrack.Tracked C) :=
  hist.foldlM (fun x ag => ErrorTrack.fusedAbsorbAddLazily P x ag.1 (C.toNtt (modq C.q ag.2))) x

/-- The value of the accumulation on noisy plaintexts. -/
def accumulated (f : ErrorTrack.Tracked C → Fin C.n → ℤ) (φ : Fin C.n → ℤ)
    (hist : List (ErrorTrack.Tracked C × (Fin C.n → ℤ))) : Fin C.n → ℤ :=
  hist.foldl (fun acc ag => acc + negMul (f ag.1) ag.2) φ

/-- The error estimate after the accumulation. -/
noncomputable def accumulatedError (P : ErrorTrack.ErrorParams) (e : ℝ) (hist : List (ErrorTrack.Tracked C × (Fin C.n → ℤ))) : ℝ :=
  hist.foldl (fun acc ag => acc + ag.1.error * P.bPlaintext C.n) e

theorem trackedLazyRun_eq (P : ErrorTrack.ErrorParams) (hist : List (ErrorTrack.Tracked C × (Fin C.n → ℤ)))
    (hne : ∀ ag ∈ hist, ag.1.ct.c ≠ []) (x : ErrorTrack.Tracked C) {y : Ct C}
    (hy : lazyRun x.ct (hist.map fun ag => (ag.1.ct, C.toNtt (modq C.q ag.2))) = .ok y) :
    trackedLazyRun P x hist = .ok ⟨y, accumulatedError P x.error hist⟩ := by
  induction hist generalizing x with
  | nil => cases hy; rfl
  | cons ag hist ih =>
    unfold lazyRun at hy
    rw [List.map_cons, List.foldlM_cons] at hy
    obtain ⟨c, c1, hy⟩ := Outcome.bind_eq_ok.mp hy
    unfold trackedLazyRun
    rw [List.foldlM_cons]
    have e : ErrorTrack.fusedAbsorbAddLazily P x ag.1 (C.toNtt (modq C.q ag.2)) =
        .ok ⟨c, x.error + ag.1.error * P.bPlaintext C.n⟩ := by
      unfold ErrorTrack.fusedAbsorbAddLazily
      dsimp only at c1
      rw [c1, Outcome.bind_ok, if_neg (by simpa using hne ag (by simp))]
      rfl
    rw [e, Outcome.bind_ok]
    exact ih (fun a ha => hne a (by simp [ha])) ⟨c, _⟩ hy

theorem eager_estimated (h : C.Ok) (s : C.Poly) (P : ErrorTrack.ErrorParams) (f : ErrorTrack.Tracked C → Fin C.n → ℤ)
    (hist : List (ErrorTrack.Tracked C × (Fin C.n → ℤ)))
    (hin : ∀ ag ∈ hist, Estimated s ag.1 (f ag.1) ∧ SizeAtMost ag.2 (P.bPlaintext C.n))
    (x : ErrorTrack.Tracked C) {φ : Fin C.n → ℤ} (hx : Estimated s x φ) {z : Ct C}
    (hz : eagerRun x.ct (hist.map fun ag => (ag.1.ct, C.toNtt (modq C.q ag.2))) = .ok z) :
    Estimated s ⟨z, accumulatedError P x.error hist⟩ (accumulated f φ hist) := by
  induction hist generalizing x φ with
  | nil => cases hz; exact hx
  | cons ag hist ih =>
    unfold eagerRun at hz
    rw [List.map_cons, List.foldlM_cons] at hz
    obtain ⟨c, c1, hz⟩ := Outcome.bind_eq_ok.mp hz
    dsimp only at c1
    obtain ⟨ha, hg⟩ := hin ag (by simp)
    refine ih (fun a ha => hin a (by simp [ha])) ⟨c, x.error + ag.1.error * P.bPlaintext C.n⟩ ?_ hz
    by_cases hp : x.ct.power = ag.1.ct.power
    · obtain ⟨c', e1, e2, e3, e4⟩ := (c21_fused h _ x.ct ag.1.ct hx.noisy (by rw [hp]; exact ha.noisy) ag.2).2 hp
      rw [e1] at c1
      cases c1
      refine ⟨?_, e3 ▸ hx.odd, e3 ▸ hx.pos, e3 ▸ hx.lt, e3 ▸ e2, hx.size.add (ha.size.mul hg)⟩
      have := List.length_pos_iff.mpr hx.nonempty
      exact List.length_pos_iff.mp (by rw [e4]; omega)
    · unfold Sym.fusedAbsorbAdd at c1
      rw [if_pos hp] at c1
      cases c1

/-- C65 (partial, like C22: the numbers of components must not decrease): lazy accumulation followed by
`MergeLazyOperations`. -/
theorem c65_lazy_partial (h : C.Ok) (s : C.Poly) (P : ErrorTrack.ErrorParams) (f : ErrorTrack.Tracked C → Fin C.n → ℤ)
    (hist : List (ErrorTrack.Tracked C × (Fin C.n → ℤ))) (hne : hist ≠ [])
    (hin : ∀ ag ∈ hist, Estimated s ag.1 (f ag.1) ∧ SizeAtMost ag.2 (P.bPlaintext C.n))
    (x : ErrorTrack.Tracked C) (hlazy : x.ct.lazy = []) {φ : Fin C.n → ℤ} (hx : Estimated s x φ)
    (hp : ∀ ag ∈ hist, ag.1.ct.power = x.ct.power)
    (hmono : hist.Pairwise fun u v => u.1.ct.c.length ≤ v.1.ct.c.length) :
    ∃ y z, trackedLazyRun P x hist = .ok y ∧ ErrorTrack.mergeLazy y = .ok z ∧
      Estimated s z (accumulated f φ hist) := by
  obtain ⟨ag, hist', rfl⟩ := List.exists_cons_of_ne_nil hne
  obtain ⟨y, z, e1, e2, e3, e4⟩ := c22_lazy_eq_eager_partial x.ct hlazy
    ((ag :: hist').map fun ag => (ag.1.ct, C.toNtt (modq C.q ag.2)))
    ⟨_, List.mem_map_of_mem (List.mem_cons_self ..), (hin ag (by simp)).1.nonempty⟩
    (by
      intro ab hab
      obtain ⟨a, ha, rfl⟩ := List.mem_map.mp hab
      exact hp a ha)
    (by rw [List.pairwise_map]; exact hmono)
  refine ⟨_, _, trackedLazyRun_eq P _ (fun a ha => (hin a ha).1.nonempty) x e1, ?_,
    eager_estimated h s P f _ hin x hx e4⟩
  unfold ErrorTrack.mergeLazy
  dsimp only
  rw [e3]
  rfl

/-! ## The estimates are not bounds for every sampled value -/

/-- C65 is false for all samples: the error distribution of variance 25 reaches `50`, and `MeasureError` of such a
fresh encryption is larger than its error estimate. -/
theorem c65_fresh_witness : ∃ (P : ErrorTrack.ErrorParams) (k : Key exCtx2) (em : exCtx2.Poly),
    ErrorTrack.ErrorParams.create exCtx2 1 25 = .ok P ∧ Key.sample ![1, 12288] 25 1 = .ok k ∧
    extract k (ErrorTrack.encrypt P k 0 ![5000, 61] (modq 12289 ![50, 50])).ct = .ok em ∧
    (ErrorTrack.encrypt P k 0 ![5000, 61] (modq 12289 ![50, 50])).error <
      (measureError 12289 (List.ofFn fun i => (em i).val) : ℝ) := by
  obtain ⟨k, k1, k2, k3, k4, k5, k6⟩ := sample_ok exCtx2_ok ![1, 12288] 25 1 (by decide)
  have hP : ErrorTrack.ErrorParams.create exCtx2 1 25 = .ok ⟨3, 25, 14⟩ := by
    have h1 : plaintextModulus exCtx2.w (1 : ℤ).toNat = .ok 3 := by decide
    have h2 : exCtx2.logModulus = 14 := by decide +kernel
    unfold ErrorTrack.ErrorParams.create
    rw [h1, h2]
    decide
  have hn := c19_encrypt_noisy k (0 : Fin exCtx2.n → ℤ) ![50, 50] ![5000, 61] (t := 3) (by rw [k5]; rfl)
  have hz : exCtx2.toNtt (modq exCtx2.q 0) = 0 := by
    rw [show modq exCtx2.q (0 : Fin exCtx2.n → ℤ) = 0 from by funext i; simp [modq], toNtt_zero]
  rw [hz] at hn
  obtain ⟨em, e1, e2, -⟩ := c19_measureError exCtx2_ok k _ hn (fun i => by
    have : i = 0 ∨ i = 1 := by revert i; decide
    rcases this with rfl | rfl <;> decide)
  refine ⟨_, k, em, hP, k1, e1, ?_⟩
  have h1 : (150 : ℝ) ≤ (measureError 12289 (List.ofFn fun i => (em i).val) : ℝ) := by
    have := e2 0
    have h2 : (150 : ℤ) ≤ (measureError 12289 (List.ofFn fun i => (em i).val) : ℤ) := by
      refine le_trans ?_ this
      decide
    exact_mod_cast h2
  refine lt_of_lt_of_le ?_ h1
  show ErrorTrack.ErrorParams.bEncryption ⟨3, 25, 14⟩ exCtx2.n < 150
  unfold ErrorTrack.ErrorParams.bEncryption ErrorTrack.ErrorParams.exportT ErrorTrack.ErrorParams.sigma
  have a1 : √((exCtx2.n : ℕ) : ℝ) ≤ 1.4143 := Real.sqrt_le_iff.mpr ⟨by norm_num, by norm_num [exCtx2, Ctx.n]⟩
  have a2 : √(3 : ℝ) ≤ 1.7321 := Real.sqrt_le_iff.mpr ⟨by norm_num, by norm_num⟩
  have a3 : √((25 : ℕ) : ℝ) = 5 := by
    rw [show ((25 : ℕ) : ℝ) = 5 ^ 2 by norm_num]
    exact Real.sqrt_sq (by norm_num)
  have a4 := Real.sqrt_nonneg ((exCtx2.n : ℕ) : ℝ)
  have a5 := Real.sqrt_nonneg (3 : ℝ)
  dsimp only
  rw [a3, show ((3 % 2 ^ 64 : ℕ) : ℝ) = 3 by norm_num]
  generalize √((exCtx2.n : ℕ) : ℝ) = a at *
  generalize √(3 : ℝ) = b at *
  nlinarith

/-- C65 is false for all plaintexts: for 16 and more coefficients and `t` at least 5, the plaintext with all
coefficients `t - 1` is larger than `B_plaintext`. -/
theorem c65_plaintext_witness (P : ErrorTrack.ErrorParams) (ht : 5 ≤ P.t) (ht' : P.t < 2 ^ 64) {n : ℕ} (hn : 16 ≤ n) :
    ¬ SizeAtMost (fun _ : Fin n => (P.t : ℤ) - 1) (P.bPlaintext n) := by
  intro hs
  have hn0 : (0 : ℝ) < n := by exact_mod_cast (show 0 < n by omega)
  set θ : ℝ := Real.pi / n with hθ
  set z : ℂ := Complex.exp (Complex.I * θ) with hz
  have hzn : z ^ n = -1 := by
    have hnc : (n : ℂ) ≠ 0 := by exact_mod_cast (show n ≠ 0 by omega)
    rw [hz, ← Complex.exp_nat_mul, hθ]
    push_cast
    rw [show (n : ℂ) * (Complex.I * (Real.pi / n)) = Real.pi * Complex.I by field_simp]
    exact Complex.exp_pi_mul_I
  have h1 := hs z hzn
  have hgeo : evalAt (fun _ : Fin n => (P.t : ℤ) - 1) z * (z - 1) = -2 * ((P.t : ℂ) - 1) := by
    unfold evalAt
    rw [← Finset.mul_sum, Fin.sum_univ_eq_sum_range (fun i => z ^ i) n, mul_assoc, geom_sum_mul, hzn]
    push_cast
    ring
  have h2 : ‖z - 1‖ ≤ θ := by
    have := Real.norm_exp_I_mul_ofReal_sub_one_le (x := θ)
    rwa [Real.norm_of_nonneg (by positivity)] at this
  have htr : (5 : ℝ) ≤ P.t := by exact_mod_cast ht
  have h3 : 2 * ((P.t : ℝ) - 1) = ‖evalAt (fun _ : Fin n => (P.t : ℤ) - 1) z‖ * ‖z - 1‖ := by
    rw [← norm_mul, hgeo, norm_mul, norm_neg]
    have : ((P.t : ℂ) - 1) = ((P.t - 1 : ℝ) : ℂ) := by push_cast; ring
    rw [this, Complex.norm_real, Real.norm_of_nonneg (by linarith)]
    norm_num
  have hB : P.bPlaintext n = P.t * √(3 * n) := by
    unfold ErrorTrack.ErrorParams.bPlaintext ErrorTrack.ErrorParams.exportT
    rw [Nat.mod_eq_of_lt ht']
  rw [hB] at h1
  have h4 : 2 * ((P.t : ℝ) - 1) ≤ P.t * √(3 * n) * θ := by
    rw [h3]
    exact mul_le_mul h1 h2 (norm_nonneg _) (by positivity)
  -- sqrt (3n) * pi / n < 8/5
  have h5 : √(3 * (n : ℝ)) * θ < 8 / 5 := by
    have hpi := Real.pi_lt_d2
    have hpi0 := Real.pi_pos
    have h16 : (16 : ℝ) ≤ n := by exact_mod_cast hn
    have : √(3 * (n : ℝ)) ≤ 7 / 16 * n := by
      apply Real.sqrt_le_iff.mpr
      refine ⟨by positivity, ?_⟩
      nlinarith
    rw [hθ, mul_div_assoc', div_lt_iff₀ hn0]
    nlinarith
  nlinarith

/-! ## The hypotheses can be met -/

/-- The parameters of the examples: `t = 5`, variance 8. -/
theorem exErrorParams : ErrorTrack.ErrorParams.create exCtx2 2 8 = .ok ⟨5, 8, 14⟩ := by
  have h1 : plaintextModulus exCtx2.w (2 : ℤ).toNat = .ok 5 := by decide
  have h2 : exCtx2.logModulus = 14 := by decide +kernel
  unfold ErrorTrack.ErrorParams.create
  rw [h1, h2]
  decide

theorem exParams_plaintext (g : Fin 2 → ℤ) (hg : |g 0| + |g 1| ≤ 12) :
    SizeAtMost g (ErrorTrack.ErrorParams.bPlaintext ⟨5, 8, 14⟩ 2) := by
  refine (size_le_sum (by norm_num) g).mono ?_
  rw [Fin.sum_univ_two]
  have h1 : |(g 0 : ℝ)| + |(g 1 : ℝ)| ≤ 12 := by exact_mod_cast hg
  refine h1.trans ?_
  unfold ErrorTrack.ErrorParams.bPlaintext ErrorTrack.ErrorParams.exportT
  have : (12 / 5 : ℝ) ≤ √(3 * (2 : ℕ)) := Real.le_sqrt_of_sq_le (by norm_num)
  rw [show ((5 % 2 ^ 64 : ℕ) : ℝ) = 5 by norm_num]
  calc (12 : ℝ) = 5 * (12 / 5) := by norm_num
    _ ≤ _ := mul_le_mul_of_nonneg_left this (by norm_num)

theorem run_add_absorb (P : ErrorTrack.ErrorParams) (k : Key C) (m a e m' a' e' : C.Poly) (g : Fin C.n → ℤ) :
    ∃ r, Tracking.run P (.absorb (.add (.input (ErrorTrack.encrypt P k m a e))
      (.input (ErrorTrack.encrypt P k m' a' e'))) g) = .ok r := by
  obtain ⟨c, c1, -⟩ := add_ok (Sym.encrypt k m a e) (Sym.encrypt k m' a' e') rfl
  refine ⟨ErrorTrack.absorb P ⟨⟨c, 1, []⟩, P.bEncryption C.n + P.bEncryption C.n⟩ (C.toNtt (modq C.q g)), ?_⟩
  simp only [Tracking.run, Outcome.bind_ok, ErrorTrack.add, ErrorTrack.encrypt, c1]
  rfl

theorem exParams_error (e : Fin 2 → ℤ) (he : |e 0| + |e 1| ≤ 20) :
    SizeAtMost e (6 * ErrorTrack.ErrorParams.sigma ⟨5, 8, 14⟩ * √(2 : ℕ)) := by
  refine (size_le_sum (by norm_num) e).mono ?_
  rw [Fin.sum_univ_two]
  have h1 : |(e 0 : ℝ)| + |(e 1 : ℝ)| ≤ 20 := by exact_mod_cast he
  refine h1.trans ?_
  unfold ErrorTrack.ErrorParams.sigma
  dsimp only
  rw [mul_assoc, ← Real.sqrt_mul (Nat.cast_nonneg _), show ((8 : ℕ) : ℝ) * ((2 : ℕ) : ℝ) = 4 ^ 2 by norm_num,
    Real.sqrt_sq (by norm_num)]
  norm_num

/-- Two fresh encryptions, their sum absorbed into a plaintext: `c65_encrypt_partial` and `c65_computation` apply
and the computation succeeds. -/
example : ∃ (k : Key exCtx2) (x y r : ErrorTrack.Tracked exCtx2) (φ χ : Fin 2 → ℤ),
    Key.sample ![1, 12288] 8 2 = .ok k ∧ Estimated k.key x φ ∧ Estimated k.key y χ ∧
    (Tracking.run ⟨5, 8, 14⟩ (.absorb (.add (.input x) (.input y)) ![1, 4]) = .ok r) ∧
    Estimated k.key r (negMul (φ + χ) ![1, 4]) := by
  obtain ⟨k, k1, k2, k3, k4, k5, k6⟩ := sample_ok exCtx2_ok ![1, 12288] 8 2 (by decide)
  have hk : k.tUnderQ = ((5 : ℕ) : ZMod exCtx2.q) := by rw [k5]; rfl
  have hx := c65_encrypt_partial exCtx2_ok ⟨5, 8, 14⟩ (by norm_num) k hk ![2, 1] ![3, -4] ![5000, 61]
    (exParams_plaintext _ (by decide)) (exParams_error _ (by decide))
  have hy := c65_encrypt_partial exCtx2_ok ⟨5, 8, 14⟩ (by norm_num) k hk ![4, 0] ![-2, 7] ![10, 11]
    (exParams_plaintext _ (by decide)) (exParams_error _ (by decide))
  obtain ⟨r, hr⟩ := run_add_absorb ⟨5, 8, 14⟩ k (exCtx2.toNtt (modq exCtx2.q ![2, 1])) ![5000, 61]
    (modq exCtx2.q ![3, -4]) (exCtx2.toNtt (modq exCtx2.q ![4, 0])) ![10, 11] (modq exCtx2.q ![-2, 7]) ![1, 4]
  have hne : (ErrorTrack.encrypt ⟨5, 8, 14⟩ k (exCtx2.toNtt (modq exCtx2.q ![2, 1])) ![5000, 61] (modq exCtx2.q ![3, -4])) ≠
      (ErrorTrack.encrypt ⟨5, 8, 14⟩ k (exCtx2.toNtt (modq exCtx2.q ![4, 0])) ![10, 11] (modq exCtx2.q ![-2, 7])) := by
    intro hc
    have h1 := congrArg (fun x => (x.ct.c.getD 1 0) 0) hc
    revert h1
    show ¬ (-(5000 : ZMod 12289) = -10)
    decide
  classical
  have := c65_computation exCtx2_ok k.key ⟨5, 8, 14⟩
    (fun z => if z = ErrorTrack.encrypt ⟨5, 8, 14⟩ k (exCtx2.toNtt (modq exCtx2.q ![2, 1])) ![5000, 61] (modq exCtx2.q ![3, -4])
      then (fun i => ![2, 1] i + (5 : ℕ) * ![3, -4] i) else (fun i => ![4, 0] i + (5 : ℕ) * ![-2, 7] i)) _
    (by
      intro z hz
      simp only [Tracking.inputs, List.mem_append, List.mem_singleton] at hz
      rcases hz with rfl | rfl
      · rw [if_pos rfl]; exact hx
      · rw [if_neg hne.symm]; exact hy)
    (by
      intro g hg
      simp only [Tracking.plaintexts, List.append_nil] at hg
      rw [List.mem_singleton.mp hg]
      exact exParams_plaintext _ (by decide)) r hr
  simp only [Tracking.eval, if_true, if_neg hne.symm] at this
  exact ⟨k, _, _, r, _, _, k1, hx, hy, hr, this⟩

/-- The size condition of `c65_relinearize_partial` holds for every digit polynomial in base 4 when the key errors are
`1 - X`. -/
example (D : Fin 2 → ℕ) (hD : ∀ i, D i < 2 ^ 2) :
    SizeAtMost (negMul (fun i => (D i : ℤ)) ![1, -1]) (8 / √3 * ErrorTrack.ErrorParams.sigma ⟨5, 8, 14⟩ * (2 : ℕ) * 2 ^ 2) := by
  have h1 : SizeAtMost (fun i => (D i : ℤ)) ((2 : ℕ) * 3) := size_of_coeff (by norm_num) fun i => by
    have : D i ≤ 3 := by have := hD i; omega
    rw [Int.cast_natCast, abs_of_nonneg (Nat.cast_nonneg _)]
    exact_mod_cast this
  have h2 : SizeAtMost (![1, -1] : Fin 2 → ℤ) 2 := (size_le_sum (by norm_num) _).mono (by norm_num [Fin.sum_univ_two])
  refine (h1.mul h2).mono ?_
  have a1 : (2.8 : ℝ) ≤ √((8 : ℕ) : ℝ) := Real.le_sqrt_of_sq_le (by norm_num)
  have a2 : √(3 : ℝ) ≤ 2 := Real.sqrt_le_iff.mpr ⟨by norm_num, by norm_num⟩
  have a3 : (0 : ℝ) < √3 := Real.sqrt_pos.mpr (by norm_num)
  have a4 : (4 : ℝ) ≤ 8 / √3 := by rw [le_div_iff₀ a3]; linarith
  unfold ErrorTrack.ErrorParams.sigma
  dsimp only
  push_cast at *
  nlinarith

/-- The condition of `c65_switch_partial` for two components, `t = 5` and a key of norm 2. -/
example : ((2 : ℕ) : ℝ) * (((5 + 1) / 2 + 1 : ℕ) * ∑ j ∈ range 2, ((2 : ℤ) : ℝ) ^ j) ≤
    ErrorTrack.ErrorParams.bScale ⟨5, 8, 14⟩ 2 := by
  unfold ErrorTrack.ErrorParams.bScale ErrorTrack.ErrorParams.exportT
  have a1 : (2.4 : ℝ) ≤ √(3 * (2 : ℕ)) := Real.le_sqrt_of_sq_le (by norm_num)
  have a2 : (0.57 : ℝ) ≤ √(1 / 3) := Real.le_sqrt_of_sq_le (by norm_num)
  rw [show ((5 % 2 ^ 64 : ℕ) : ℝ) = 5 by norm_num]
  norm_num [Finset.sum_range_succ] at *
  linarith

end Shell
