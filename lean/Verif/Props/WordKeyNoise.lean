import Verif.Lemmas.WordKeyTail
import Verif.Spec.WordKeyNoise
import Verif.Props.KeyNoise
/-!
# Property C106: key switching of symmetric ciphertexts within the error estimates

For uniformly distributed bytes, a relinearization key or Galois key of `c` parts with `d` digits each is, except with
probability at most `exp (-9 n c d)`, such that it adds to no ciphertext at all more noise than the increase of
`Error()`, in every coefficient.
-/

namespace Shell
open Spec Rns WordCt ErrorTrack MParams Ntt NttRing Sym Real Finset
variable {σ : Type} {C : Ctx} {p : MParams} {q : NttParams}

/-! ### Keys with small errors -/

/-- The noise of a key whose errors have small coefficients. -/
theorem digits_bound {n b parts d : ℕ} [NeZero n] (D : ℕ → ℕ → Fin n → ℕ) (hD : ∀ u j i, D u j i < 2 ^ b)
    (E : ℕ → ℕ → Fin n → ℤ) (v : Fin n) :
    |∑ u ∈ range parts, ∑ j ∈ range d, negMul (fun i => (D u j i : ℤ)) (E u j) v| ≤
      2 ^ b * ∑ u ∈ range parts, ∑ j ∈ range d, norm1 (E u j) := by
  rw [mul_sum]
  refine (abs_sum_le_sum_abs _ _).trans (sum_le_sum fun u _ => ?_)
  rw [mul_sum]
  refine (abs_sum_le_sum_abs _ _).trans (sum_le_sum fun j _ => ?_)
  rw [NR.negMul_comm, mul_comm]
  refine negMul_bound (E u j) _ (2 ^ b) (by positivity) (fun i => ?_) v
  rw [Nat.abs_cast]
  exact_mod_cast (hD u j i).le

/-- Relinearization of residues with a key whose errors have small coefficients. -/
theorem switch_core (h : C.Ok) (hw : C.w ≤ 128) (K : Sym.Key C) {t : ℕ} (htm : plaintextModulus C.w K.logT = .ok t)
    (ht : K.tUnderQ = ((t : ℤ) : ZMod C.q)) {P : ErrorParams} (hPt : P.t = t) (ht64 : t < 2 ^ 64)
    (hPl : P.logModulus = C.logModulus) {prng : PrngType} {numParts : ℤ} {b : ℕ} (hb : b < 31) {pw : ℤ}
    {pads : ℕ → ℕ → C.Poly} {E : ℕ → ℕ → Fin C.n → ℤ} {RK : Relin.RKey C}
    (hrk : Relin.create K prng numParts b pw pads (fun u v => modq C.q (E u v)) = .ok RK)
    (hlen : RK.parts.length = (numParts - Relin.firstKeyIndex pw).toNat)
    (hE : ((∑ u ∈ range (numParts - Relin.firstKeyIndex pw).toNat, ∑ v ∈ range ((C.logModulus + (b - 1)) / b),
      norm1 (E u v) : ℤ) : ℝ) ≤ 8 / √3 * √P.variance * C.n *
        ((numParts - Relin.firstKeyIndex pw).toNat * ((C.logModulus + (b - 1)) / b) : ℕ))
    (X : Tracked C) (hX : (X.ct.c.length : ℤ) = numParts) {φ : Fin C.n → ℤ}
    (hφ : Noisy (subst C.l pw.toNat K.key) X.ct φ) :
    ∃ (r : Ct C) (e : ℝ) (R : Fin C.n → ℤ), RK.applyTo X.ct = .ok r ∧ P.bRelinearize C.n RK.parts.length b = .ok e ∧
      ErrorTrack.relinearize P RK X = .ok ⟨r, X.error + e⟩ ∧ r.c.length = 2 ∧ r.power = 1 ∧
      Noisy K.key r (fun i => φ i + t * R i) ∧ ∀ i, |((t * R i : ℤ) : ℝ)| ≤ e := by
  haveI : NeZero C.n := ⟨by unfold Ctx.n; positivity⟩
  obtain ⟨c1, c2, c3, c4, c5, c6, c7⟩ := (c27_create h hw K htm _ _ _ _ _ _).mp ⟨RK, hrk⟩
  obtain ⟨f1, f2, f3⟩ := create_fields hrk
  obtain ⟨r, d, g1, g2, g3, g4, g5⟩ := c27_relinearize_partial h hw K htm ht prng numParts b pw pads E hrk hb X.ct hX hφ
  have hd : d = (C.logModulus + (b - 1)) / b := by
    unfold Gadget.gadgetSize at g1
    rw [if_neg (by omega)] at g1
    exact (Outcome.ok.inj g1).symm
  have hcnt : X.ct.c.length - (if pw = 1 then 2 else 1) = (numParts - Relin.firstKeyIndex pw).toNat := by
    unfold Relin.firstKeyIndex
    split_ifs <;> omega
  rw [hcnt, hd] at g5
  have hest : P.bRelinearize C.n RK.parts.length b = .ok (8 / √3 * P.exportT * ((b + C.logModulus - 1) / b : ℕ) * P.sigma *
      C.n * (2 ^ b : ℕ) * RK.parts.length) := by
    unfold ErrorParams.bRelinearize Relin.decompositionModulus
    rw [if_neg (by omega), if_pos hb, hPl]
    rfl
  refine ⟨r, _, _, g2, hest, ?_, g3, g4, g5, fun i => ?_⟩
  · unfold ErrorTrack.relinearize
    rw [g2, Outcome.bind_ok, f3, hest]
    rfl
  · have h1 := digits_bound (n := C.n) (b := b) (parts := (numParts - Relin.firstKeyIndex pw).toNat)
      (d := (C.logModulus + (b - 1)) / b)
      (fun u j i => digit b j (C.fromNtt (X.ct.c.getD ((if pw = 1 then 2 else 1) + u) 0) i).val)
      (fun u j i => Nat.mod_lt _ (by positivity)) E i
    set R := ∑ u ∈ range (numParts - Relin.firstKeyIndex pw).toNat, ∑ j ∈ range ((C.logModulus + (b - 1)) / b),
      negMul (fun i => (digit b j (C.fromNtt (X.ct.c.getD ((if pw = 1 then 2 else 1) + u) 0) i).val : ℤ)) (E u j) i with hR
    set S := ∑ u ∈ range (numParts - Relin.firstKeyIndex pw).toNat, ∑ j ∈ range ((C.logModulus + (b - 1)) / b),
      norm1 (E u j) with hS
    have h2 : |(R : ℝ)| ≤ 2 ^ b * (S : ℝ) := by exact_mod_cast h1
    have h3 : P.exportT = t := by
      unfold ErrorParams.exportT
      rw [hPt, Nat.mod_eq_of_lt ht64]
    rw [Int.cast_mul, abs_mul, Int.cast_natCast, Nat.abs_cast, h3, hlen,
      show (b + C.logModulus - 1) / b = (C.logModulus + (b - 1)) / b by congr 1; omega]
    unfold ErrorParams.sigma
    calc (t : ℝ) * |(R : ℝ)| ≤ t * (2 ^ b * (8 / √3 * √P.variance * C.n *
          ((numParts - Relin.firstKeyIndex pw).toNat * ((C.logModulus + (b - 1)) / b) : ℕ))) := by
          refine mul_le_mul_of_nonneg_left (h2.trans ?_) (Nat.cast_nonneg _)
          exact mul_le_mul_of_nonneg_left hE (by positivity)
      _ = _ := by push_cast; ring

/-- The hypotheses on the parameters of the error estimates: those of the secret key. -/
structure EstimatesFor (P : ErrorParams) (k : Word.Key) (p : MParams) (t : ℕ) : Prop where
  modulus : P.t = t
  small : t < 2 ^ 64
  variance : P.variance = k.variance
  log : P.logModulus = p.logModulus

/-! ### The probability that a key is not quiet -/

/-- **C106.** For uniformly distributed bytes from which the errors are sampled, every secret key and any seed of the masks:
the probability that `RelinearizationKey::Create` returns a key that adds more noise to some ciphertext than the increase
of `Error()`. -/
theorem c106_relin (hC : Fit C p) (ht : Tables p C.w C.q C.l C.psi q) (hw : C.w ≤ 128) (hcr : create C.w C.q = .ok p)
    {k : Word.Key} {K : Sym.Key C} (hk : HoldsKey C p q k K) (hv0 : 0 < k.variance) (hv : 4 * k.variance < C.q) {t : ℕ}
    (htm : plaintextModulus C.w K.logT = .ok t) (htq : K.tUnderQ = ((t : ℤ) : ZMod C.q)) {P : ErrorParams}
    (hP : EstimatesFor P k p t) (fuel : ℕ) (prng : PrngType) (parts : ℕ) {b : ℕ} (hb : b < 31) (seed : List ℕ) (L : ℕ) :
    bytesProbability L (fun tape => ∃ rk, Word.RKey.create tapeRng fuel k prng parts b 1 seed (tape.map Fin.val) = .ok rk ∧
      ¬ QuietWordRelin C p K.key P t parts rk) ≤
      exp (-(9 * 2 ^ C.l * ((parts - 2) * ((p.logModulus + (b - 1)) / b) : ℕ))) := by
  classical
  have hlog : p.logModulus = C.logModulus := logModulus_of_create hcr
  rw [hlog]
  refine (bytesProbability_le ((errTree C.l k.variance).times ((parts - 2) * ((C.logModulus + (b - 1)) / b))) ?_ L).trans
    (errors_tail (by exact_mod_cast hv0) _)
  rintro tape ⟨rk, h1, h2⟩
  obtain ⟨pads, E, RK, psss, t', d1, d2, d3, d4, d5⟩ := create_drawn hC ht hw hcr hk hv htm h1
  have hcnt : ((parts : ℤ) - Relin.firstKeyIndex 1).toNat = parts - 2 := by
    unfold Relin.firstKeyIndex
    rw [if_pos rfl]
    omega
  rw [hcnt] at d1
  refine ⟨psss, t', d1, ?_⟩
  by_contra hc
  push Not at hc
  refine h2 fun x φ hx => ?_
  obtain ⟨X, x1, x2, x3, x4⟩ := hx
  obtain ⟨f1, f2, f3⟩ := create_fields d3
  obtain ⟨l1, l2, l3⟩ := ctx_logModulus hC.ok hw
  obtain ⟨r, e, R, g0, g1, g2, g3, g4, g5, g6⟩ := switch_core hC.ok hw K htm htq hP.modulus hP.small (hP.log.trans hlog) hb d3 d5
    (by
      rw [d2, hcnt, hP.variance]
      refine le_trans (le_of_eq ?_) (hc.trans (le_of_eq ?_))
      · unfold drawnNorm
        push_cast [List.map_map]
        rfl
      · rw [show ((C.n : ℕ) : ℝ) = 2 ^ C.l by unfold Ctx.n; push_cast; rfl]
        push_cast
        rfl) X (by rw [x4]) (φ := φ)
    (by rw [show (1 : ℤ).toNat = 1 from rfl, subst_id hC.ok.l32]; exact x2)
  obtain ⟨-, -, c3, -⟩ := (c27_create hC.ok hw K htm _ _ _ _ _ _).mp ⟨RK, d3⟩
  have ha := c74_relinearize hC ht hcr d4 (by rw [f3]; omega) P x1
  rw [g2] at ha
  obtain ⟨y, y1, y2⟩ := ha
  refine ⟨y, R, y1, ⟨_, y2, g5, g4, g3⟩, fun i => ?_⟩
  rw [y2.error, x1.error]
  show _ ≤ X.error + e - X.error
  rw [add_sub_cancel_left]
  exact g6 i

/-- **C106.** The same for `GaloisKey::Create` with any power. -/
theorem c106_galois (hC : Fit C p) (ht : Tables p C.w C.q C.l C.psi q) (hw : C.w ≤ 128) (hcr : create C.w C.q = .ok p)
    {k : Word.Key} {K : Sym.Key C} (hk : HoldsKey C p q k K) (hv0 : 0 < k.variance) (hv : 4 * k.variance < C.q) {t : ℕ}
    (htm : plaintextModulus C.w K.logT = .ok t) (htq : K.tUnderQ = ((t : ℤ) : ZMod C.q)) {P : ErrorParams}
    (hP : EstimatesFor P k p t) (fuel : ℕ) (prng : PrngType) (pw : ℕ) {b : ℕ} (hb : b < 31) (seed : List ℕ) (L : ℕ) :
    bytesProbability L (fun tape => ∃ gk, Word.galoisCreate tapeRng fuel k prng pw b seed (tape.map Fin.val) = .ok gk ∧
      ¬ QuietWordGalois C p q K.key P t pw gk) ≤ exp (-(9 * 2 ^ C.l * ((p.logModulus + (b - 1)) / b : ℕ))) := by
  classical
  have hlog : p.logModulus = C.logModulus := logModulus_of_create hcr
  rw [hlog]
  refine (bytesProbability_le ((errTree C.l k.variance).times ((C.logModulus + (b - 1)) / b)) ?_ L).trans
    (errors_tail (by exact_mod_cast hv0) _)
  rintro tape ⟨gk, h1, h2⟩
  obtain ⟨pads, E, RK, psss, t', d1, d2, d3, d4, d5⟩ := create_drawn hC ht hw hcr hk hv htm h1
  obtain ⟨k1, k2, k3, k4, k5, k6⟩ := (c28_create hC.ok hw K htm _ _ _ _ _).mp ⟨RK, d3⟩
  have hcnt : ((2 : ℤ) - Relin.firstKeyIndex pw).toNat = 1 := by
    unfold Relin.firstKeyIndex
    rw [if_neg (by omega)]
    rfl
  rw [hcnt, one_mul] at d1
  refine ⟨psss, t', d1, ?_⟩
  by_contra hc
  push Not at hc
  refine h2 ⟨by omega, fun x φ hx => ?_⟩
  obtain ⟨X, x1, x2, x3, x4⟩ := hx
  obtain ⟨f1, f2, f3⟩ := create_fields d3
  obtain ⟨l1, l2, l3⟩ := ctx_logModulus hC.ok hw
  have hn : C.n ≤ 2 ^ 15 := Nat.pow_le_pow_right (by norm_num) hC.ok.l15
  obtain ⟨s, k', s1, s2, s3, s4, s5, s6⟩ := c25_substitute_partial hC.ok K htm X.ct
    (List.length_pos_iff.mp (by omega)) x2 pw (by omega) (by omega) (by omega) (by rw [x3]; omega)
  have hk' : k'.key = subst C.l pw K.key := by
    unfold Key.substitute at s2
    rw [htm, Outcome.bind_ok, ctx_substitute _ pw (by omega) (by omega), Outcome.bind_ok] at s2
    cases s2
    rfl
  obtain ⟨r, e, R, g0, g1, g2, g3, g4, g5, g6⟩ := switch_core hC.ok hw K htm htq hP.modulus hP.small (hP.log.trans hlog) hb d3 d5
    (by
      rw [d2, hcnt, one_mul, hP.variance]
      refine le_trans (le_of_eq ?_) (hc.trans (le_of_eq ?_))
      · unfold drawnNorm
        push_cast [List.map_map]
        rfl
      · rw [show ((C.n : ℕ) : ℝ) = 2 ^ C.l by unfold Ctx.n; push_cast; rfl]
        push_cast
        rfl) ⟨s, X.error⟩ (by show ((s.c.length : ℕ) : ℤ) = 2; omega) (φ := substPow pw φ)
    (by rw [Int.toNat_natCast, ← hk']; exact s3)
  have hs := substitute_agrees hC ht x1 (pw : ℤ)
  unfold ErrorTrack.substitute at hs
  rw [s1, Outcome.bind_ok] at hs
  obtain ⟨y, y1, y2⟩ := hs
  have ha := c74_galois hC ht hcr d4 (by rw [f3]; omega) P y2
  have hpw : s.power = RK.power := by
    rw [s4, x3, one_mul, f1]
    exact Int.emod_eq_of_lt (by omega) (by push_cast; push_cast at k3; exact k3)
  have hne' : ¬ (Tracked.mk s X.error).ct.power ≠ RK.power := fun hh => hh hpw
  rw [if_neg hne', g2] at ha
  obtain ⟨z, z1, z2⟩ := ha
  refine ⟨z, R, ?_, ⟨_, z2, g5, g4, g3⟩, fun i => ?_⟩
  · unfold substituteAndSwitch
    rw [d4.power, f1, y1, Outcome.bind_ok, z1]
  · rw [z2.error, x1.error]
    show _ ≤ X.error + e - X.error
    rw [add_sub_cancel_left]
    exact g6 i

/-! ### Circuits -/

theorem WordCircuit.Switchless.last {u : WordCircuit} (h : u.Switchless) : u.SwitchesLast := by
  induction u with
  | input i => trivial
  | add u v ihu ihv => exact ⟨ihu h.1, ihv h.2⟩
  | sub u v ihu ihv => exact ⟨ihu h.1, ihv h.2⟩
  | mul u v _ _ => exact h
  | absorb u j _ => exact h
  | scale u c ihu => exact ihu h
  | relin u _ => exact h.elim
  | rotate u i _ => exact h.elim

theorem substPow_abs_le {l e : ℕ} (he : e % 2 = 1) {f : Fin (2 ^ l) → ℤ} {B : ℝ} (h : ∀ i, |(f i : ℝ)| ≤ B)
    (i : Fin (2 ^ l)) : |((substPow e f i : ℤ) : ℝ)| ≤ B := by
  rcases Expand.substPow_single l e he f i with h0 | ⟨j, h1 | h1⟩
  · rw [h0]; simpa using (abs_nonneg _).trans (h i)
  · rw [h1]; exact h j
  · rw [h1, Int.cast_neg, abs_neg]; exact h j

/-- A circuit on words with quiet keys: all operations succeed, and the noisy plaintext of the result is congruent to the
value of the circuit and at most `Error()`. -/
theorem circuit_quiet (hC : Fit C p) (P : ErrorParams) (S : C.Poly) {e : Env ℝ} (he : e.p = p)
    (hbp : e.bPlain = P.bPlaintext C.n) {parts r ng t : ℕ} {pw : ℕ → ℕ} {m g : ℕ → Fin C.n → ℤ}
    (hx : ∀ i < r, ∃ φ, Sound C p S (e.x i) φ 2 ∧ modq t φ = modq t (m i) ∧ SizeAtMost φ (e.x i).error)
    (hf : ∀ j, Poly.Rep p C.q C.n (e.f j) (C.toNtt (modq C.q (g j))))
    (hg : ∀ j, SizeAtMost (g j) (P.bPlaintext C.n))
    (hrelin : ∀ x φ, Sound C p S x φ parts → ∃ (y : Obj ℝ) (R : Fin C.n → ℤ), e.relin x = .ok y ∧
      Sound C p S y (fun i => φ i + t * R i) 2 ∧ ∀ i, |((t * R i : ℤ) : ℝ)| ≤ y.error - x.error)
    (hrot : ∀ v < ng, pw v % 2 = 1 ∧ ∀ x φ, Sound C p S x φ 2 → ∃ (y : Obj ℝ) (R : Fin C.n → ℤ), e.rotate v x = .ok y ∧
      Sound C p S y (fun i => substPow (pw v) φ i + t * R i) 2 ∧ ∀ i, |((t * R i : ℤ) : ℝ)| ≤ y.error - x.error)
    (u : WordCircuit) (hu : u.Fits C.w parts) (hl : u.SwitchesLast) (hw : u.Within r ng C.q) :
    2 ≤ u.len ∧ ∃ y φ, u.run e = .ok y ∧ Sound C p S y φ u.len ∧ modq t φ = modq t (u.eval pw m g) ∧
      (∀ i, |(φ i : ℝ)| ≤ y.error) ∧ (u.Switchless → SizeAtMost φ y.error) := by
  haveI : NeZero C.n := ⟨by unfold Ctx.n; positivity⟩
  have value_ok : ∀ {r : Res (Obj ℝ)} {Y : Tracked C}, Agrees C p r (.ok Y) →
      ∃ y, r.value = .ok y ∧ Carries C p y Y := by
    intro r Y h
    obtain ⟨h1, h2⟩ := h
    exact ⟨r.1, by unfold Res.value; rw [h1], h2⟩
  have noise : ∀ {x y : Obj ℝ} {φ R : Fin C.n → ℤ}, (∀ i, |(φ i : ℝ)| ≤ x.error) →
      (∀ i, |((t * R i : ℤ) : ℝ)| ≤ y.error - x.error) → ∀ i, |((φ i + t * R i : ℤ) : ℝ)| ≤ y.error := by
    intro x y φ R h1 h2 i
    have h3 := abs_add_le (φ i : ℝ) ((t * R i : ℤ) : ℝ)
    have h4 := h1 i
    have h5 := h2 i
    rw [Int.cast_add]
    linarith
  have vanish : ∀ φ R : Fin C.n → ℤ, modq t (fun i => φ i + t * R i) = modq t φ := by
    intro φ R
    funext i
    show ((φ i + t * R i : ℤ) : ZMod t) = ((φ i : ℤ) : ZMod t)
    push_cast
    rw [ZMod.natCast_self, zero_mul, add_zero]
  induction u with
  | input i =>
    obtain ⟨φ, h1, h2, h3⟩ := hx i hw
    exact ⟨le_rfl, e.x i, φ, rfl, h1, h2, fun i => coeff_le_size h3 i, fun _ => h3⟩
  | add u v ihu ihv =>
    obtain ⟨a0, a, φ, a1, ⟨A', a2, a3, a4, a5⟩, a6, a7, a8⟩ := ihu hu.1 hl.1 hw.1
    obtain ⟨b0, b, ψ, b1, ⟨B', b2, b3, b4, b5⟩, b6, b7, b8⟩ := ihv hu.2 hl.2 hw.2
    obtain ⟨r, r1, r2, r3, r4⟩ := (c20_add S A'.ct B'.ct a3 b3).2 (by rw [a4, b4])
    have h := add_agrees hC a2 b2
    unfold ErrorTrack.add at h
    rw [r1, Outcome.bind_ok] at h
    obtain ⟨y, y1, y2⟩ := value_ok h
    have hy : y.error = a.error + b.error := by rw [y2.error, a2.error, b2.error]
    refine ⟨le_trans a0 (le_max_left _ _), y, φ + ψ, ?_, ⟨_, y2, r2, by rw [r3, a4], by rw [r4, a5, b5]; rfl⟩, ?_,
      fun i => ?_, fun hs => ?_⟩
    · show (do ((Call.add (← v.run e)).run e.p _ (← u.run e)).value) = _
      rw [b1, Outcome.bind_ok, a1, Outcome.bind_ok, he]
      exact y1
    · show modq t (φ + ψ) = modq t (u.eval pw m g + v.eval pw m g)
      rw [modq_add, modq_add, a6, b6]
    · rw [hy, Pi.add_apply, Int.cast_add]
      exact (abs_add_le _ _).trans (add_le_add (a7 i) (b7 i))
    · rw [hy]
      exact (a8 hs.1).add (b8 hs.2)
  | sub u v ihu ihv =>
    obtain ⟨a0, a, φ, a1, ⟨A', a2, a3, a4, a5⟩, a6, a7, a8⟩ := ihu hu.1 hl.1 hw.1
    obtain ⟨b0, b, ψ, b1, ⟨B', b2, b3, b4, b5⟩, b6, b7, b8⟩ := ihv hu.2 hl.2 hw.2
    obtain ⟨r, r1, r2, r3, r4⟩ := (c20_sub S A'.ct B'.ct a3 b3).2 (by rw [a4, b4])
    have h := sub_agrees hC a2 b2
    unfold ErrorTrack.sub at h
    rw [r1, Outcome.bind_ok] at h
    obtain ⟨y, y1, y2⟩ := value_ok h
    have hy : y.error = a.error + b.error := by rw [y2.error, a2.error, b2.error]
    refine ⟨le_trans a0 (le_max_left _ _), y, φ - ψ, ?_, ⟨_, y2, r2, by rw [r3, a4], by rw [r4, a5, b5]; rfl⟩, ?_,
      fun i => ?_, fun hs => ?_⟩
    · show (do ((Call.sub (← v.run e)).run e.p _ (← u.run e)).value) = _
      rw [b1, Outcome.bind_ok, a1, Outcome.bind_ok, he]
      exact y1
    · show modq t (φ - ψ) = modq t (u.eval pw m g - v.eval pw m g)
      rw [modq_sub, modq_sub, a6, b6]
    · rw [hy, Pi.sub_apply, Int.cast_sub]
      exact (abs_sub _ _).trans (add_le_add (a7 i) (b7 i))
    · rw [hy]
      exact (a8 hs.1).sub (b8 hs.2)
  | mul u v ihu ihv =>
    obtain ⟨a0, a, φ, a1, ⟨A', a2, a3, a4, a5⟩, a6, a7, a8⟩ := ihu hu.1 (WordCircuit.Switchless.last hl.1) hw.1
    obtain ⟨b0, b, ψ, b1, ⟨B', b2, b3, b4, b5⟩, b6, b7, b8⟩ := ihv hu.2 (WordCircuit.Switchless.last hl.2) hw.2
    obtain ⟨r, r1, r2, r3, r4⟩ := (c21_mul hC.ok S A'.ct B'.ct a3 b3).2 (by rw [a4, b4])
      (List.length_pos_iff.mp (by omega)) (List.length_pos_iff.mp (by omega))
    have h := mul_agrees hC a2 b2
    unfold ErrorTrack.mul at h
    rw [r1, Outcome.bind_ok] at h
    obtain ⟨y, y1, y2⟩ := h
    have hy : y.error = a.error * b.error := by rw [y2.error, a2.error, b2.error]
    have hsize : SizeAtMost (negMul φ ψ) y.error := by rw [hy]; exact (a8 hl.1).mul (b8 hl.2)
    refine ⟨by show 2 ≤ u.len + v.len - 1; omega, y, _, ?_, ⟨_, y2, r2, by rw [r3, a4], by rw [r4, a5, b5]; rfl⟩, ?_,
      fun i => coeff_le_size hsize i, fun _ => hsize⟩
    · show (do WordCt.mul e.p (← u.run e) (← v.run e)) = _
      rw [a1, Outcome.bind_ok, b1, Outcome.bind_ok, he]
      exact y1
    · show modq t _ = modq t (negMul (u.eval pw m g) (v.eval pw m g))
      rw [modq_negMul, modq_negMul, a6, b6]
  | absorb u j ihu =>
    obtain ⟨a0, a, φ, a1, ⟨A', a2, a3, a4, a5⟩, a6, a7, a8⟩ := ihu hu (WordCircuit.Switchless.last hl) hw
    obtain ⟨r2, r3⟩ := (c21_absorb hC.ok S A'.ct a3).1 (g j)
    obtain ⟨y, y1, y2⟩ := value_ok (absorb_agrees (P := P) hC a2 (hf j))
    have hsize : SizeAtMost (negMul φ (g j)) y.error := by
      rw [y2.error]
      show SizeAtMost _ (A'.error * P.bPlaintext C.n)
      rw [← a2.error]
      exact (a8 hl).mul (hg j)
    refine ⟨a0, y, _, ?_, ⟨_, y2, r2, by rw [← a4]; exact r3, ?_⟩, ?_, fun i => coeff_le_size hsize i, fun _ => hsize⟩
    · show (do ((Call.absorb (e.f j)).run e.p e.bPlain (← u.run e)).value) = _
      rw [a1, Outcome.bind_ok, he, hbp]
      exact y1
    · show (A'.ct.c.map _).length = u.len
      rw [List.length_map, a5]
    · show modq t _ = modq t (negMul (u.eval pw m g) (g j))
      rw [modq_negMul, modq_negMul, a6]
  | scale u c ihu =>
    obtain ⟨a0, a, φ, a1, ⟨A', a2, a3, a4, a5⟩, a6, a7, a8⟩ := ihu hu.1 hl hw.1
    obtain ⟨r2, r3⟩ := (c21_absorb hC.ok S A'.ct a3).2 (c : ℤ)
    have hlt : Mont.importInt p c < C.q := importInt_lt hC.good _ hu.2
    have hcast : ((Mont.exportInt p (Mont.importInt p c) : ℕ) : ZMod C.q) = ((c : ℤ) : ZMod C.q) := by
      have e1 : ((Mont.exportInt p (Mont.importInt p c) : ℕ) : ZMod C.q) = res p C.q (Mont.importInt p c) :=
        res_export hC.good hlt.le
      rw [e1, res_import hC.good hu.2]
      push_cast
      rfl
    have h := absorbScalar_agrees hC a2 hlt.le
    rw [hcast] at h
    obtain ⟨y, y1, y2⟩ := value_ok h
    have hy : y.error = c * a.error := by
      rw [y2.error, a2.error]
      show A'.error * (((c : ℤ) : ZMod C.q).val : ℕ) = _
      rw [Int.cast_natCast, ZMod.val_natCast_of_lt hw.2, mul_comm]
    refine ⟨a0, y, _, ?_, ⟨_, y2, r2, by rw [← a4]; exact r3, ?_⟩, ?_, fun i => ?_, fun hs => ?_⟩
    · show (do ((Call.absorbScalar (Mont.importInt e.p c)).run e.p _ (← u.run e)).value) = _
      rw [a1, Outcome.bind_ok, he]
      exact y1
    · show (A'.ct.c.map _).length = u.len
      rw [List.length_map, a5]
    · show modq t _ = modq t (fun i => (c : ℤ) * u.eval pw m g i)
      rw [modq_smul, modq_smul, a6]
    · rw [hy, Int.cast_mul, abs_mul, Int.cast_natCast, Nat.abs_cast]
      exact mul_le_mul_of_nonneg_left (a7 i) (by positivity)
    · rw [hy]
      have := (a8 hs).smul (c : ℤ)
      rwa [Int.cast_natCast, Nat.abs_cast] at this
  | relin u ihu =>
    obtain ⟨a0, a, φ, a1, a2, a6, a7, a8⟩ := ihu hu.1 hl hw
    rw [hu.2] at a2
    obtain ⟨y, R, y1, y2, y3⟩ := hrelin a φ a2
    refine ⟨le_rfl, y, _, ?_, y2, (vanish _ _).trans a6, noise a7 y3, fun hs => hs.elim⟩
    show (do e.relin (← u.run e)) = _
    rw [a1, Outcome.bind_ok, y1]
  | rotate u v ihu =>
    obtain ⟨a0, a, φ, a1, a2, a6, a7, a8⟩ := ihu hu.1 hl hw.1
    rw [hu.2] at a2
    obtain ⟨hodd, hrot'⟩ := hrot v hw.2
    obtain ⟨z, R, z1, z2, z3⟩ := hrot' a φ a2
    refine ⟨le_rfl, z, _, ?_, z2, ?_, noise (substPow_abs_le (l := C.l) hodd a7) z3, fun hs => hs.elim⟩
    · show (do e.rotate v (← u.run e)) = _
      rw [a1, Outcome.bind_ok, z1]
    · show modq t _ = modq t (substPow (pw v) (u.eval pw m g))
      rw [vanish, modq_substPow, modq_substPow, a6]

theorem encryptAll_length {G : Gen σ} {fuel : ℕ} {k : Word.Key} {bits : ℕ} {pts : List (List ℕ)} {t s : σ}
    {xs : List Word.Ct} (h : encryptAll G fuel k bits pts t = .ok (xs, s)) :
    ∀ i < pts.length, (xs.getD i ⟨[], 0, 0⟩).c.length = 2 := by
  induction pts generalizing t xs with
  | nil => simp
  | cons pt pts ih =>
    unfold encryptAll at h
    obtain ⟨⟨x, t'⟩, h1, h⟩ := Outcome.bind_eq_ok.mp h
    obtain ⟨⟨xs', s'⟩, h2, h⟩ := Outcome.bind_eq_ok.mp h
    cases h
    intro i hi
    cases i with
    | zero => exact encrypt_length h1
    | succ i => exact ih h2 i (by simpa using hi)

/-- The ciphertext `i` of a list, with the estimate of a fresh encryption. -/
noncomputable def freshObj (P : ErrorParams) (n : ℕ) (xs : List Word.Ct) (i : ℕ) : Obj ℝ :=
  ⟨(xs.getD i ⟨[], 0, 0⟩).c, (xs.getD i ⟨[], 0, 0⟩).power, P.bEncryption n, []⟩

/-- Fresh encryptions are within their estimates, except with small probability. -/
theorem fresh_sound (hC : Fit C p) (tb : Tables p C.w C.q C.l C.psi q) (h : create C.w C.q = .ok p) (k : Word.Key)
    (k1 : k.p = p) (k2 : k.q = q) (k6 : ValidPoly C.q C.n k.key) (hvar : 0 < k.variance) (hN : 4 * k.variance < C.q)
    (k7 : k.tMod < C.q) {T : ℕ} (k8 : Mont.exportInt p k.tMod = T) {P : ErrorParams} (hP : EstimatesFor P k p T)
    {pts : List (List ℕ)} (m : ℕ → Fin C.n → ℕ)
    (hsize : ∀ i < pts.length, SizeAtMost (fun j => (m i j : ℤ)) (P.bPlaintext C.n))
    (hpt : ∀ i < pts.length, ValidPoly C.q C.n (pts.getD i []))
    (hpt' : ∀ i < pts.length, HasCoeffs p q C.q C.n (pts.getD i []) fun j => (m i j : ZMod C.q)) (fuel bits L : ℕ) :
    bytesProbability L (fun t => ∃ xs s, encryptAll bytesSource fuel k bits pts t = .ok (xs, s) ∧
      ¬ ∀ i < pts.length, ∃ φ, Sound C p (fun j => res p C.q (k.key.getD j 0)) (freshObj P C.n xs i) φ 2 ∧
        modq T φ = modq T (fun j => (m i j : ℤ)) ∧ SizeAtMost φ (P.bEncryption C.n)) ≤
      pts.length * (8 * 2 ^ C.l * exp (-30)) := by
  classical
  obtain ⟨A, hA⟩ := pad_reads p fuel ((2 ^ C.l : ℕ) : ℤ)
  have hn : 2 ^ C.l ≠ 0 := by positivity
  haveI : NeZero (2 ^ C.l) := ⟨hn⟩
  have he : Even (2 ^ C.l) := (Nat.even_pow.mpr ⟨even_two, by have := tb.l1; omega⟩)
  have htail := many_tail A hvar hn he pts.length
  push_cast at htail
  refine (bytesProbability_le (manyTree A k.variance (2 ^ C.l) pts.length) ?_ L).trans htail
  rintro t ⟨xs, s, hx, hbad⟩
  obtain ⟨psss, b1, b2, b3⟩ := encryptAll_tape h hC.ok.prime tb k k1 k2 k6 hN k7 k8 hA bits pts m hpt hpt' hx
  refine ⟨psss, s, b1, ?_⟩
  by_contra hgood
  push Not at hgood
  refine hbad fun i hi => ?_
  obtain ⟨X, e1, e2, e3, e5⟩ := b3 i hi
  refine ⟨fun j => (m i j : ℤ) + T * coeffOf k.variance ((psss.getD i []).getD j []),
    ⟨⟨⟨X, 1, []⟩, P.bEncryption C.n⟩, ⟨e1, e3, rfl, .nil⟩, e5, rfl, ?_⟩, ?_, ?_⟩
  · rw [← encryptAll_length hx i hi]
    exact e1.length_eq.symm
  · funext j
    show (((m i j : ℤ) + (T : ℤ) * coeffOf k.variance ((psss.getD i []).getD j []) : ℤ) : ZMod T) =
      ((m i j : ℤ) : ZMod T)
    rw [Int.cast_add, Int.cast_mul, Int.cast_natCast T, ZMod.natCast_self, zero_mul, add_zero]
  · have hmem : psss.getD i [] ∈ psss := by
      rw [List.getD_eq_getElem _ _ (by omega)]
      exact List.getElem_mem _
    have hsz := hgood _ hmem
    refine ((hsize i hi).add (hsz.smul (T : ℤ))).mono (le_of_eq ?_)
    unfold ErrorTrack.ErrorParams.bPlaintext ErrorTrack.ErrorParams.bEncryption ErrorTrack.ErrorParams.exportT
      ErrorTrack.ErrorParams.sigma
    rw [hP.modulus, hP.variance, Nat.mod_eq_of_lt hP.small, sqrt_three_mul, Int.cast_natCast,
      abs_of_nonneg (Nat.cast_nonneg _)]
    have : ((C.n : ℕ) : ℝ) = 2 ^ C.l := by unfold Ctx.n; push_cast; rfl
    rw [this]
    ring

theorem tapesProbability_mono {ι : Type} [Fintype ι] (L : ι → ℕ) {e₁ e₂ : (ι → List (Fin 256)) → Prop}
    (h : ∀ t, e₁ t → e₂ t) :
    tapesProbability L e₁ ≤ tapesProbability L e₂ := by
  classical
  unfold tapesProbability
  refine div_le_div_of_nonneg_right (Nat.cast_le.mpr (Finset.card_le_card fun t ht => ?_)) (by positivity)
  exact Finset.mem_filter.mpr ⟨Finset.mem_univ _, h _ (Finset.mem_filter.mp ht).2⟩

/-- The circuits of C106 return ciphertexts within their estimates, except with small probability. -/
theorem program_quiet {w N : ℕ} (h : create w N = .ok p) (hw : w ≤ 128) (hp : N.Prime) {l : ℕ} (hq : initNtt p l = .ok q)
    {psi : ZMod N} (hC : Fit ⟨w, N, l, psi⟩ p) (tb : Tables p w N l psi q)
    (G : Gen σ) {variance logT : ℕ} {s s' : σ} {k : Word.Key}
    (hk : Word.Key.sample G p q l variance logT s = .ok (k, s')) (hT : 2 ^ logT + 1 < N) (hT64 : 2 ^ logT + 1 < 2 ^ 64)
    (hvar : 0 < variance) (hN : 4 * variance < N) {P : ErrorParams} (hPt : P.t = 2 ^ logT + 1)
    (hPv : P.variance = variance) (hPl : P.logModulus = p.logModulus) {pts : List (List ℕ)} (m : ℕ → Fin (2 ^ l) → ℕ)
    (hsize : ∀ i < pts.length, SizeAtMost (fun j => (m i j : ℤ)) (P.bPlaintext (2 ^ l)))
    (hpt : ∀ i < pts.length, ValidPoly N (2 ^ l) (pts.getD i []))
    (hpt' : ∀ i < pts.length, HasCoeffs p q N (2 ^ l) (pts.getD i []) fun j => (m i j : ZMod N))
    (g : ℕ → Fin (2 ^ l) → ℤ) (hg : ∀ j, SizeAtMost (g j) (P.bPlaintext (2 ^ l))) {f : ℕ → List ℕ}
    (hf : ∀ i, ValidPoly N (2 ^ l) (f i)) (hf' : ∀ i, HasCoeffs p q N (2 ^ l) (f i) fun j => (g i j : ZMod N))
    (fuel bits : ℕ) (prng : PrngType) (parts : ℕ) {b : ℕ} (hb : b < 31) (pw : ℕ → ℕ) (seed : List ℕ) (seeds : ℕ → List ℕ)
    (ng : ℕ) (L : Fin 2 ⊕ Fin ng → ℕ) :
    tapesProbability L (fun t => ∃ xs s rk, ∃ gk : ℕ → Word.RKey, encryptAll bytesSource fuel k bits pts (t (.inl 0)) = .ok (xs, s) ∧
      Word.RKey.create tapeRng fuel k prng parts b 1 seed ((t (.inl 1)).map Fin.val) = .ok rk ∧
      (∀ j : Fin ng, Word.galoisCreate tapeRng fuel k prng (pw j) b (seeds j) ((t (.inr j)).map Fin.val) = .ok (gk j)) ∧
      ∃ u : WordCircuit, u.Fits w parts ∧ u.SwitchesLast ∧ u.Within pts.length ng N ∧
        ¬ ∃ y φ, u.run ⟨p, P.bPlaintext (2 ^ l), WordCt.relinearize rk (P.bRelinearize (2 ^ l)),
            fun i => substituteAndSwitch q (P.bRelinearize (2 ^ l)) (gk i), freshObj P (2 ^ l) xs, f⟩ = .ok y ∧
          Sound ⟨w, N, l, psi⟩ p (fun j => res p N (k.key.getD j 0)) y φ u.len ∧
          modq (2 ^ logT + 1) φ = modq (2 ^ logT + 1) (u.eval pw (fun i j => (m i j : ℤ)) g) ∧
          ∀ j, |(φ j : ℝ)| ≤ y.error) ≤
      pts.length * (8 * 2 ^ l * exp (-30)) +
        exp (-(9 * 2 ^ l * ((parts - 2) * ((p.logModulus + (b - 1)) / b) : ℕ))) +
        ng * exp (-(9 * 2 ^ l * ((p.logModulus + (b - 1)) / b : ℕ))) := by
  have gd := good_of_create h
  haveI : NeZero N := ⟨hp.ne_zero⟩
  obtain ⟨k1, k2, k3, k4, k5, k6, k7, k8⟩ := sample_word G h hp hq hk hT
  obtain ⟨K, hK, hkey, hKv, htm, hTz, -⟩ := sampled_holds G h hp hq hC hk hT
  have hTz' : K.tUnderQ = (((2 ^ logT + 1 : ℕ) : ℤ) : ZMod N) := by rw [hTz, Int.cast_natCast]
  have hP : EstimatesFor P k p (2 ^ logT + 1) := ⟨hPt, hT64, by rw [hPv, k4], hPl⟩
  let C : Ctx := ⟨w, N, l, psi⟩
  let S : C.Poly := fun j => res p N (k.key.getD j 0)
  let B : Fin 2 ⊕ Fin ng → List (Fin 256) → Prop
    | .inl 0 => fun t => ∃ xs s, encryptAll bytesSource fuel k bits pts t = .ok (xs, s) ∧
        ¬ ∀ i < pts.length, ∃ φ, Sound C p S (freshObj P C.n xs i) φ 2 ∧
          modq (2 ^ logT + 1) φ = modq (2 ^ logT + 1) (fun j => (m i j : ℤ)) ∧ SizeAtMost φ (P.bEncryption C.n)
    | .inl 1 => fun t => ∃ rk, Word.RKey.create tapeRng fuel k prng parts b 1 seed (t.map Fin.val) = .ok rk ∧
        ¬ QuietWordRelin C p K.key P (2 ^ logT + 1) parts rk
    | .inr j => fun t => ∃ gk, Word.galoisCreate tapeRng fuel k prng (pw j) b (seeds j) (t.map Fin.val) = .ok gk ∧
        ¬ QuietWordGalois C p q K.key P (2 ^ logT + 1) (pw j) gk
  refine (tapesProbability_le L (B := B) ?_).trans ?_
  · rintro t ⟨xs, s, rk, gk, h1, h2, h3, u, hu, hl, hwi, hbad⟩
    by_contra hc
    push Not at hc
    have b1 : ∀ i < pts.length, ∃ φ, Sound C p S (freshObj P C.n xs i) φ 2 ∧
        modq (2 ^ logT + 1) φ = modq (2 ^ logT + 1) (fun j => (m i j : ℤ)) ∧ SizeAtMost φ (P.bEncryption C.n) := by
      by_contra hn
      exact hc (.inl 0) ⟨xs, s, h1, hn⟩
    have b2 : QuietWordRelin C p K.key P (2 ^ logT + 1) parts rk := by
      by_contra hn
      exact hc (.inl 1) ⟨rk, h2, hn⟩
    have b3 : ∀ j : Fin ng, QuietWordGalois C p q K.key P (2 ^ logT + 1) (pw j) (gk j) := fun j => by
      by_contra hn
      exact hc (.inr j) ⟨gk j, h3 j, hn⟩
    rw [hkey] at b2
    simp only [hkey] at b3
    obtain ⟨-, y, φ, y1, y2, y6, y7, -⟩ := circuit_quiet (C := C) hC P S
      (e := ⟨p, P.bPlaintext (2 ^ l), WordCt.relinearize rk (P.bRelinearize (2 ^ l)),
        fun i => substituteAndSwitch q (P.bRelinearize (2 ^ l)) (gk i), freshObj P (2 ^ l) xs, f⟩) rfl rfl
      (parts := parts) (r := pts.length) (ng := ng) (t := 2 ^ logT + 1) (pw := pw) (m := fun i j => (m i j : ℤ)) (g := g)
      b1
      (fun j => by
        have := (hf j).rep (p := p)
        have h2 := (hasCoeffs_iff gd hp tb this).mp (hf' j)
        show Poly.Rep p N (2 ^ l) (f j) (ntt psi l (modq N (g j)))
        have h3 : modq N (g j) = fun i => (g j i : ZMod N) := rfl
        rw [h3, h2]
        exact this) hg b2 (fun v hv => b3 ⟨v, hv⟩) u hu hl hwi
    exact hbad ⟨y, φ, y1, y2, y6, y7⟩
  · rw [Fintype.sum_sum_type, Fin.sum_univ_two]
    have e1 : bytesProbability (L (.inl 0)) (B (.inl 0)) ≤ pts.length * (8 * 2 ^ l * exp (-30)) :=
      fresh_sound (C := C) hC tb h k k1 k2 k6 (by rw [k4]; exact hvar) (by rw [k4]; exact hN) k7 k8 hP m hsize hpt hpt'
        fuel bits (L (.inl 0))
    have e2 : bytesProbability (L (.inl 1)) (B (.inl 1)) ≤
        exp (-(9 * 2 ^ l * ((parts - 2) * ((p.logModulus + (b - 1)) / b) : ℕ))) :=
      c106_relin (C := C) hC tb hw h hK (by rw [k4]; exact hvar) (by rw [k4]; exact hN) htm hTz' hP fuel prng parts hb seed
        (L (.inl 1))
    have e3 : ∑ j, bytesProbability (L (.inr j)) (B (.inr j)) ≤
        ∑ _j : Fin ng, exp (-(9 * 2 ^ l * ((p.logModulus + (b - 1)) / b : ℕ) : ℝ)) := Finset.sum_le_sum fun j _ =>
      c106_galois (C := C) hC tb hw h hK (by rw [k4]; exact hvar) (by rw [k4]; exact hN) htm hTz' hP fuel prng (pw j) hb
        (seeds j) (L (.inr j))
    rw [Finset.sum_const, Finset.card_univ, Fintype.card_fin, nsmul_eq_mul] at e3
    linarith

/-- **C106.** Plaintexts are encrypted one after the other, a relinearization key for ciphertexts of `parts` components is
made and a Galois key for each of the powers `pw j`, all from independent and uniformly distributed bytes (the masks of the
keys come from seeds that do not matter). This bounds the probability that all of them are returned, and that there is any
circuit of sums, differences, products, products with plaintexts and constants and, after the products of polynomials,
relinearizations and automorphisms, which fails, or returns a ciphertext with twice its `Error()` below the modulus that
does not decrypt to the circuit evaluated on the messages. -/
theorem c106_program {w N : ℕ} (h : create w N = .ok p) (hw : w ≤ 128) (hp : N.Prime) {l : ℕ} (hq : initNtt p l = .ok q)
    (G : Gen σ) {variance logT : ℕ} {s s' : σ} {k : Word.Key}
    (hk : Word.Key.sample G p q l variance logT s = .ok (k, s')) (hT : 2 ^ logT + 1 < N) (hT64 : 2 ^ logT + 1 < 2 ^ 64)
    (hvar : 0 < variance) (hN : 4 * variance < N) {P : ErrorParams} (hPt : P.t = 2 ^ logT + 1)
    (hPv : P.variance = variance) (hPl : P.logModulus = p.logModulus) {pts : List (List ℕ)} (m : ℕ → Fin (2 ^ l) → ℕ)
    (hsize : ∀ i < pts.length, SizeAtMost (fun j => (m i j : ℤ)) (P.bPlaintext (2 ^ l)))
    (hpt : ∀ i < pts.length, ValidPoly N (2 ^ l) (pts.getD i []))
    (hpt' : ∀ i < pts.length, HasCoeffs p q N (2 ^ l) (pts.getD i []) fun j => (m i j : ZMod N))
    (g : ℕ → Fin (2 ^ l) → ℤ) (hg : ∀ j, SizeAtMost (g j) (P.bPlaintext (2 ^ l))) {f : ℕ → List ℕ}
    (hf : ∀ i, ValidPoly N (2 ^ l) (f i)) (hf' : ∀ i, HasCoeffs p q N (2 ^ l) (f i) fun j => (g i j : ZMod N))
    (fuel bits : ℕ) (prng : PrngType) (parts : ℕ) {b : ℕ} (hb : b < 31) (pw : ℕ → ℕ) (seed : List ℕ) (seeds : ℕ → List ℕ)
    (ng : ℕ) (L : Fin 2 ⊕ Fin ng → ℕ) :
    tapesProbability L (fun t => ∃ xs s rk, ∃ gk : ℕ → Word.RKey, encryptAll bytesSource fuel k bits pts (t (.inl 0)) = .ok (xs, s) ∧
      Word.RKey.create tapeRng fuel k prng parts b 1 seed ((t (.inl 1)).map Fin.val) = .ok rk ∧
      (∀ j : Fin ng, Word.galoisCreate tapeRng fuel k prng (pw j) b (seeds j) ((t (.inr j)).map Fin.val) = .ok (gk j)) ∧
      ∃ u : WordCircuit, u.Fits w parts ∧ u.SwitchesLast ∧ u.Within pts.length ng N ∧
        ¬ ∃ y, u.run ⟨p, P.bPlaintext (2 ^ l), WordCt.relinearize rk (P.bRelinearize (2 ^ l)),
            fun i => substituteAndSwitch q (P.bRelinearize (2 ^ l)) (gk i), freshObj P (2 ^ l) xs, f⟩ = .ok y ∧
          (2 * y.error < N → Word.decrypt k ⟨y.c, y.power, 0⟩ =
            .ok (List.ofFn fun j => (u.eval pw (fun i j => (m i j : ℤ)) g j % (2 ^ logT + 1)).toNat))) ≤
      pts.length * (8 * 2 ^ l * exp (-30)) +
        exp (-(9 * 2 ^ l * ((parts - 2) * ((p.logModulus + (b - 1)) / b) : ℕ))) +
        ng * exp (-(9 * 2 ^ l * ((p.logModulus + (b - 1)) / b : ℕ))) := by
  have gd := good_of_create h
  haveI : NeZero N := ⟨hp.ne_zero⟩
  obtain ⟨k1, k2, k3, k4, k5, k6, k7, k8⟩ := sample_word G h hp hq hk hT
  obtain ⟨psi, hC, tb⟩ := fit_of_create h hw hp hq
  refine (tapesProbability_mono L ?_).trans (program_quiet h hw hp hq hC tb G hk hT hT64 hvar hN hPt hPv hPl m hsize hpt hpt' g
    hg hf hf' fuel bits prng parts hb pw seed seeds ng L)
  rintro t ⟨xs, s, rk, gk, h1, h2, h3, u, hu, hl, hwi, hbad⟩
  refine ⟨xs, s, rk, gk, h1, h2, h3, u, hu, hl, hwi, ?_⟩
  rintro ⟨y, φ, y1, ⟨Y, y2, y3, y4, y5⟩, y6, y7⟩
  refine hbad ⟨y, y1, fun hfit => ?_⟩
  rw [Word.decrypt_word gd hp tb k k1 k2 (k6.rep (p := p)) (T := 2 ^ logT + 1) (by rw [k3, k8]) (Nat.succ_pos _) hT.le
    ⟨y.c, y.power, 0⟩ y2.c]
  congr 2
  funext j
  have hph : ntt psi l (modq N φ) = phase (fun i : Fin (2 ^ l) => res p N (k.key.getD i 0)) Y.ct.c := y3
  rw [← hph, intt_ntt hp gd.odd tb.root (by have := tb.l15; omega)]
  have hsm : 2 * |φ j| < N := by
    have h2 : (2 : ℝ) * |(φ j : ℝ)| < N :=
      lt_of_le_of_lt (mul_le_mul_of_nonneg_left (y7 j) (by norm_num)) hfit
    exact_mod_cast h2
  show (centered N ((φ j : ℤ) : ZMod N) % ((2 ^ logT + 1 : ℕ) : ℤ)).toNat = _
  have h3 := le_abs_self (φ j)
  have h4 := neg_abs_le (φ j)
  rw [centered_eq N _ (by omega) (by omega)]
  rw [(ZMod.intCast_eq_intCast_iff' _ _ _).mp (congrFun y6 j)]
  norm_cast

end Shell
