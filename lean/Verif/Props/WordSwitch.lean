import Verif.Lemmas.WordSwitch
import Verif.Props.Serialize
/-!
# Property C74: key switching on stored words
-/

namespace Shell
open Spec Rns WordCt ErrorTrack MParams Ntt NttRing Sym
variable {σ τ ρ : Type} {C : Ctx} {p : MParams} {q : NttParams}

/-- **C74.** A relinearization key created on words holds a key over residues, made with some random polynomials and
with errors of at most `2 * variance`. -/
theorem c74_create (hC : Fit C p) (ht : Tables p C.w C.q C.l C.psi q) (hw : C.w ≤ 128) (R : Word.Rng σ)
    (hR : ∀ t, Words (R.gen t)) (hcr : create C.w C.q = .ok p) {k : Word.Key} {K : Sym.Key C}
    (hk : HoldsKey C p q k K) (hv : 2 * k.variance ≤ C.q) {T : ℕ} (htm : plaintextModulus C.w K.logT = .ok T)
    {fuel : ℕ} {prng : PrngType} {numParts : ℤ} {b : ℕ} {pw : ℤ} {seed seedE : List ℕ} {rk : Word.RKey}
    (h : Word.RKey.create R fuel k prng numParts b pw seed seedE = .ok rk) :
    ∃ (pads : ℕ → ℕ → C.Poly) (E : ℕ → ℕ → Fin C.n → ℤ) (RK : Relin.RKey C),
      (∀ u j i, |E u j i| ≤ 2 * K.variance) ∧
      Relin.create K prng numParts b pw pads (fun u v => modq C.q (E u v)) = .ok RK ∧ HoldsSwitch C p q rk RK :=
  create_agrees hC ht hw R hR hcr hk hv htm h

/-- **C74.** Relinearizing words returns what relinearizing residues returns. -/
theorem c74_relinearize (hC : Fit C p) (ht : Tables p C.w C.q C.l C.psi q) (hcr : create C.w C.q = .ok p)
    {rk : Word.RKey} {RK : Relin.RKey C} (hrk : HoldsSwitch C p q rk RK) (hb : RK.logDecomp < C.w) (P : ErrorParams)
    {x : Obj ℝ} {X : Tracked C} (hx : Carries C p x X) :
    AgreesNew C p (WordCt.relinearize rk (P.bRelinearize C.n) x) (ErrorTrack.relinearize P RK X) :=
  relinearize_agrees hC ht hcr hrk hb P hx

/-- **C74.** The same for Galois keys, which reject ciphertexts of another power. -/
theorem c74_galois (hC : Fit C p) (ht : Tables p C.w C.q C.l C.psi q) (hcr : create C.w C.q = .ok p)
    {rk : Word.RKey} {RK : Relin.RKey C} (hrk : HoldsSwitch C p q rk RK) (hb : RK.logDecomp < C.w) (P : ErrorParams)
    {x : Obj ℝ} {X : Tracked C} (hx : Carries C p x X) :
    AgreesNew C p (WordCt.galoisApply rk (P.bRelinearize C.n) x)
      (if X.ct.power ≠ RK.power then .err .invalidArgument else ErrorTrack.relinearize P RK X) :=
  galois_agrees hC ht hcr hrk hb P hx

/-! ## Circuits, end to end -/

/-- The invariant: the words `y` hold a ciphertext under `S` whose noisy plaintext is `φ`. -/
def Sound (C : Ctx) (p : MParams) (S : C.Poly) (y : Obj ℝ) (φ : Fin C.n → ℤ) (len : ℕ) : Prop :=
  ∃ Y, Carries C p y Y ∧ Noisy S Y.ct φ ∧ Y.ct.power = 1 ∧ Y.ct.c.length = len

theorem estimate_ok (P : ErrorParams) (n c : ℕ) {b : ℕ} (h0 : 0 < b) (h31 : b < 31) :
    ∃ v, P.bRelinearize n c b = .ok v := by
  unfold ErrorParams.bRelinearize Relin.decompositionModulus
  rw [if_neg (by omega), if_pos h31]
  exact ⟨_, rfl⟩

/-- Relinearization on words. -/
theorem sound_relin (hC : Fit C p) (ht : Tables p C.w C.q C.l C.psi q) (hw : C.w ≤ 128) (R : Word.Rng ρ)
    (hR : ∀ t, Words (R.gen t)) (hcr : create C.w C.q = .ok p) {k : Word.Key} {K : Sym.Key C}
    (hk : HoldsKey C p q k K) (hv : 2 * k.variance ≤ C.q) {T : ℕ} (htm : plaintextModulus C.w K.logT = .ok T)
    (hT : K.tUnderQ = ((T : ℤ) : ZMod C.q)) {fuel : ℕ} {prng : PrngType} {parts b : ℕ} (hb : b < 31)
    {seed seedE : List ℕ} {rk : Word.RKey}
    (h : Word.RKey.create R fuel k prng parts b 1 seed seedE = .ok rk) (P : ErrorParams) {x : Obj ℝ}
    {φ : Fin C.n → ℤ} (hx : Sound C p K.key x φ parts) :
    ∃ y φ', WordCt.relinearize rk (P.bRelinearize C.n) x = .ok y ∧ Sound C p K.key y φ' 2 ∧
      modq T φ' = modq T φ ∧
      ∀ i, |φ' i - φ i| ≤ switchNoise C.n T (parts - 2) ((C.logModulus + (b - 1)) / b) b (2 * K.variance) := by
  obtain ⟨X, x1, x2, x3, x4⟩ := hx
  obtain ⟨pads, E, RK, e1, e2, e3⟩ := c74_create hC ht hw R hR hcr hk hv htm h
  obtain ⟨f1, f2, f3⟩ := create_fields e2
  obtain ⟨-, c2, c3, -⟩ := (c27_create hC.ok hw K htm _ _ _ _ _ _).mp ⟨RK, e2⟩
  obtain ⟨l1, l2, l3⟩ := ctx_logModulus hC.ok hw
  obtain ⟨r, d, φ', g1, g2, g3, g4, g5, g6, g7⟩ := c27_noise_partial hC.ok hw K htm hT prng parts b 1 pads E
    (B := ((2 * K.variance : ℕ) : ℤ)) (by positivity) (fun u j i => by push_cast; exact e1 u j i) e2 hb X.ct
    (by rw [x4]) (φ := φ) (by rw [show (1 : ℤ).toNat = 1 from rfl, subst_id hC.ok.l32]; exact x2)
  obtain ⟨v, hv'⟩ := estimate_ok P C.n RK.parts.length (b := b) c2 hb
  have ha := c74_relinearize hC ht hcr e3 (by rw [f3]; omega) P x1
  unfold ErrorTrack.relinearize at ha
  rw [g2, Outcome.bind_ok, f3, hv', Outcome.bind_ok] at ha
  obtain ⟨y, y1, y2⟩ := ha
  refine ⟨y, φ', y1, ⟨_, y2, g5, g4, g3⟩, ?_, fun i => ?_⟩
  · funext i
    exact (ZMod.intCast_eq_intCast_iff _ _ _).mpr (g6 i)
  · have hd : d = (C.logModulus + (b - 1)) / b := by
      unfold Gadget.gadgetSize at g1
      rw [if_neg (by omega)] at g1
      exact (Outcome.ok.inj g1).symm
    have := g7 i
    rw [if_pos rfl, x4, hd, Nat.abs_cast] at this
    unfold switchNoise
    have h2 : ((2 ^ b - 1 : ℕ) : ℤ) = 2 ^ b - 1 := by
      rw [Nat.cast_sub Nat.one_le_two_pow]; push_cast; rfl
    rw [Nat.cast_mul, Nat.cast_mul (_ * _), Nat.cast_mul (parts - 2), Nat.cast_mul (C.n * _), Nat.cast_mul C.n, h2]
    exact this

/-- Substitution and key switching on words. -/
theorem sound_rotate (hC : Fit C p) (ht : Tables p C.w C.q C.l C.psi q) (hw : C.w ≤ 128) (R : Word.Rng ρ)
    (hR : ∀ t, Words (R.gen t)) (hcr : create C.w C.q = .ok p) {k : Word.Key} {K : Sym.Key C}
    (hk : HoldsKey C p q k K) (hv : 2 * k.variance ≤ C.q) {T : ℕ} (htm : plaintextModulus C.w K.logT = .ok T)
    (hT : K.tUnderQ = ((T : ℤ) : ZMod C.q)) {fuel : ℕ} {prng : PrngType} {pw b : ℕ} (hb : b < 31)
    {seed seedE : List ℕ} {rk : Word.RKey}
    (h : Word.galoisCreate R fuel k prng pw b seed seedE = .ok rk) (P : ErrorParams) {x : Obj ℝ}
    {φ : Fin C.n → ℤ} (hx : Sound C p K.key x φ 2) :
    ∃ z φ', substituteAndSwitch q (P.bRelinearize C.n) rk x = .ok z ∧
      Sound C p K.key z φ' 2 ∧ pw % 2 = 1 ∧ modq T φ' = modq T (substPow pw φ) ∧
      ∀ i, |φ' i - substPow pw φ i| ≤
        switchNoise C.n T 1 ((C.logModulus + (b - 1)) / b) b (2 * K.variance) := by
  obtain ⟨X, x1, x2, x3, x4⟩ := hx
  obtain ⟨pads, E, RK, e1, e2, e3⟩ := c74_create hC ht hw R hR hcr hk hv htm h
  obtain ⟨f1, f2, f3⟩ := create_fields e2
  obtain ⟨d1, d2, d3, d4, d5, d6⟩ := (c28_create hC.ok hw K htm _ _ _ _ _).mp ⟨RK, e2⟩
  obtain ⟨l1, l2, l3⟩ := ctx_logModulus hC.ok hw
  obtain ⟨s, r, d, φ', g1, g0, g2, g3, g4, g5, g6, g7⟩ := c28_automorphism_partial hC.ok hw K htm hT prng b pw pads E
    (B := ((2 * K.variance : ℕ) : ℤ)) (by positivity) (fun u j i => by push_cast; exact e1 u j i) e2 hb X.ct
    x4 x3 x2
  have hs := substitute_agrees hC ht x1 (pw : ℤ)
  unfold ErrorTrack.substitute at hs
  rw [g0, Outcome.bind_ok] at hs
  obtain ⟨y, y1, y2⟩ := hs
  unfold Galois.applyTo at g2
  obtain ⟨_, g2⟩ | ⟨hne, g2⟩ := ite_eq_iff.mp g2
  · cases g2
  obtain ⟨v, hv'⟩ := estimate_ok P C.n RK.parts.length (b := b) d4 hb
  have ha := c74_galois hC ht hcr e3 (by rw [f3]; omega) P y2
  have hne' : ¬ (Tracked.mk s X.error).ct.power ≠ RK.power := hne
  rw [if_neg hne'] at ha
  unfold ErrorTrack.relinearize at ha
  rw [g2, Outcome.bind_ok, f3, hv', Outcome.bind_ok] at ha
  obtain ⟨z, z1, z2⟩ := ha
  refine ⟨z, φ', ?_, ⟨_, z2, g5, g4, g3⟩, by omega, ?_, fun i => ?_⟩
  · unfold substituteAndSwitch
    rw [e3.power, f1, y1, Outcome.bind_ok, z1]
  · funext i
    exact (ZMod.intCast_eq_intCast_iff _ _ _).mpr (g6 i)
  · have hd : d = (C.logModulus + (b - 1)) / b := by
      unfold Gadget.gadgetSize at g1
      rw [if_neg (by omega)] at g1
      exact (Outcome.ok.inj g1).symm
    have := g7 i
    rw [hd, Nat.abs_cast] at this
    unfold switchNoise
    have h2 : ((2 ^ b - 1 : ℕ) : ℤ) = 2 ^ b - 1 := by
      rw [Nat.cast_sub Nat.one_le_two_pow]; push_cast; rfl
    rw [one_mul, Nat.cast_mul, Nat.cast_mul (_ / _), Nat.cast_mul (C.n * _), Nat.cast_mul C.n, h2]
    exact this

theorem substPow_abs {l : ℕ} {e : ℕ} (he : e % 2 = 1) {f : Fin (2 ^ l) → ℤ} {B : ℕ} (h : ∀ i, |f i| ≤ B)
    (i : Fin (2 ^ l)) : |substPow e f i| ≤ B := by
  rcases Expand.substPow_single l e he f i with h0 | ⟨j, h1 | h1⟩
  · rw [h0]; simp
  · rw [h1]; exact h j
  · rw [h1, abs_neg]; exact h j

/-- A circuit run on words: all operations succeed, and the noisy plaintext of the result is bounded and congruent to
the value of the circuit. -/
theorem circuit_sound (hC : Fit C p) (P : ErrorParams) (S : C.Poly) {e : Env ℝ} (he : e.p = p)
    (hbp : e.bPlain = P.bPlaintext C.n) {B G Rn parts t : ℕ} {A pw : ℕ → ℕ} {m g : ℕ → Fin C.n → ℤ}
    (hx : ∀ i, ∃ φ, Sound C p S (e.x i) φ 2 ∧ modq t φ = modq t (m i) ∧ ∀ j, |φ j| ≤ B)
    (hf : ∀ j, Poly.Rep p C.q C.n (e.f j) (C.toNtt (modq C.q (g j)))) (hg : ∀ i j, |g i j| ≤ G)
    (hrelin : ∀ x φ, Sound C p S x φ parts → ∃ y φ', e.relin x = .ok y ∧
      Sound C p S y φ' 2 ∧ modq t φ' = modq t φ ∧ ∀ i, |φ' i - φ i| ≤ Rn)
    (hrot : ∀ v x φ, Sound C p S x φ 2 → ∃ z φ', e.rotate v x = .ok z ∧ Sound C p S z φ' 2 ∧ pw v % 2 = 1 ∧
      modq t φ' = modq t (substPow (pw v) φ) ∧ ∀ i, |φ' i - substPow (pw v) φ i| ≤ A v)
    (u : WordCircuit) (hu : u.Fits C.w parts) :
    2 ≤ u.len ∧ ∃ y φ, u.run e = .ok y ∧ Sound C p S y φ u.len ∧ modq t φ = modq t (u.eval pw m g) ∧
      ∀ i, |φ i| ≤ u.bound C.n B G Rn A := by
  have value_ok : ∀ {r : Res (Obj ℝ)} {Y : Tracked C}, Agrees C p r (.ok Y) →
      ∃ y, r.value = .ok y ∧ Carries C p y Y := by
    intro r Y h
    obtain ⟨h1, h2⟩ := h
    exact ⟨r.1, by unfold Res.value; rw [h1], h2⟩
  have hm : ∀ {F H : Fin C.n → ℤ} {a b : ℕ}, (∀ i, |F i| ≤ a) → (∀ i, |H i| ≤ b) → ∀ i,
      |negMul F H i| ≤ ((C.n * (a * b) : ℕ) : ℤ) := by
    intro F H a b hF hH i
    refine (negMul_bound F H b (by positivity) hH i).trans ?_
    unfold norm1
    have : ∑ i, |F i| ≤ (C.n : ℕ) * (a : ℤ) := by
      refine (Finset.sum_le_sum fun i _ => hF i).trans ?_
      simp
    rw [← mul_assoc, Nat.cast_mul, Nat.cast_mul]
    exact mul_le_mul_of_nonneg_right this (by positivity)
  have near : ∀ {F H : Fin C.n → ℤ} {a b : ℕ}, (∀ i, |F i| ≤ a) → (∀ i, |H i - F i| ≤ b) → ∀ i,
      |H i| ≤ ((a + b : ℕ) : ℤ) := by
    intro F H a b hF hH i
    have := abs_add_le (F i) (H i - F i)
    rw [add_sub_cancel] at this
    rw [Nat.cast_add]
    exact this.trans (add_le_add (hF i) (hH i))
  induction u with
  | input i =>
    obtain ⟨φ, h1, h2, h3⟩ := hx i
    exact ⟨le_rfl, e.x i, φ, rfl, h1, h2, h3⟩
  | add u v ihu ihv =>
    obtain ⟨a0, a, φ, a1, ⟨A', a2, a3, a4, a5⟩, a6, a7⟩ := ihu hu.1
    obtain ⟨b0, b, ψ, b1, ⟨B', b2, b3, b4, b5⟩, b6, b7⟩ := ihv hu.2
    obtain ⟨r, r1, r2, r3, r4⟩ := (c20_add S A'.ct B'.ct a3 b3).2 (by rw [a4, b4])
    have h := add_agrees hC a2 b2
    unfold ErrorTrack.add at h
    rw [r1, Outcome.bind_ok] at h
    obtain ⟨y, y1, y2⟩ := value_ok h
    refine ⟨le_trans a0 (le_max_left _ _), y, φ + ψ, ?_, ⟨_, y2, r2, by rw [r3, a4], by rw [r4, a5, b5]; rfl⟩, ?_,
      fun i => ?_⟩
    · show (do ((Call.add (← v.run e)).run e.p _ (← u.run e)).value) = _
      rw [b1, Outcome.bind_ok, a1, Outcome.bind_ok, he]
      exact y1
    · show modq t (φ + ψ) = modq t (u.eval pw m g + v.eval pw m g)
      rw [modq_add, modq_add, a6, b6]
    · show |φ i + ψ i| ≤ ((u.bound C.n B G Rn A + v.bound C.n B G Rn A : ℕ) : ℤ)
      rw [Nat.cast_add]
      exact (abs_add_le _ _).trans (add_le_add (a7 i) (b7 i))
  | sub u v ihu ihv =>
    obtain ⟨a0, a, φ, a1, ⟨A', a2, a3, a4, a5⟩, a6, a7⟩ := ihu hu.1
    obtain ⟨b0, b, ψ, b1, ⟨B', b2, b3, b4, b5⟩, b6, b7⟩ := ihv hu.2
    obtain ⟨r, r1, r2, r3, r4⟩ := (c20_sub S A'.ct B'.ct a3 b3).2 (by rw [a4, b4])
    have h := sub_agrees hC a2 b2
    unfold ErrorTrack.sub at h
    rw [r1, Outcome.bind_ok] at h
    obtain ⟨y, y1, y2⟩ := value_ok h
    refine ⟨le_trans a0 (le_max_left _ _), y, φ - ψ, ?_, ⟨_, y2, r2, by rw [r3, a4], by rw [r4, a5, b5]; rfl⟩, ?_,
      fun i => ?_⟩
    · show (do ((Call.sub (← v.run e)).run e.p _ (← u.run e)).value) = _
      rw [b1, Outcome.bind_ok, a1, Outcome.bind_ok, he]
      exact y1
    · show modq t (φ - ψ) = modq t (u.eval pw m g - v.eval pw m g)
      rw [modq_sub, modq_sub, a6, b6]
    · show |φ i - ψ i| ≤ ((u.bound C.n B G Rn A + v.bound C.n B G Rn A : ℕ) : ℤ)
      rw [Nat.cast_add]
      exact (abs_sub _ _).trans (add_le_add (a7 i) (b7 i))
  | mul u v ihu ihv =>
    obtain ⟨a0, a, φ, a1, ⟨A', a2, a3, a4, a5⟩, a6, a7⟩ := ihu hu.1
    obtain ⟨b0, b, ψ, b1, ⟨B', b2, b3, b4, b5⟩, b6, b7⟩ := ihv hu.2
    obtain ⟨r, r1, r2, r3, r4⟩ := (c21_mul hC.ok S A'.ct B'.ct a3 b3).2 (by rw [a4, b4])
      (List.length_pos_iff.mp (by omega)) (List.length_pos_iff.mp (by omega))
    have h := mul_agrees hC a2 b2
    unfold ErrorTrack.mul at h
    rw [r1, Outcome.bind_ok] at h
    obtain ⟨y, y1, y2⟩ := h
    refine ⟨by show 2 ≤ u.len + v.len - 1; omega, y, _, ?_, ⟨_, y2, r2, by rw [r3, a4], by rw [r4, a5, b5]; rfl⟩, ?_,
      hm a7 b7⟩
    · show (do WordCt.mul e.p (← u.run e) (← v.run e)) = _
      rw [a1, Outcome.bind_ok, b1, Outcome.bind_ok, he]
      exact y1
    · show modq t _ = modq t (negMul (u.eval pw m g) (v.eval pw m g))
      rw [modq_negMul, modq_negMul, a6, b6]
  | absorb u j ihu =>
    obtain ⟨a0, a, φ, a1, ⟨A', a2, a3, a4, a5⟩, a6, a7⟩ := ihu hu
    obtain ⟨r2, r3⟩ := (c21_absorb hC.ok S A'.ct a3).1 (g j)
    obtain ⟨y, y1, y2⟩ := value_ok (absorb_agrees (P := P) hC a2 (hf j))
    refine ⟨a0, y, _, ?_, ⟨_, y2, r2, by rw [← a4]; exact r3, ?_⟩, ?_, hm a7 (hg j)⟩
    · show (do ((Call.absorb (e.f j)).run e.p e.bPlain (← u.run e)).value) = _
      rw [a1, Outcome.bind_ok, he, hbp]
      exact y1
    · show (A'.ct.c.map _).length = u.len
      rw [List.length_map, a5]
    · show modq t _ = modq t (negMul (u.eval pw m g) (g j))
      rw [modq_negMul, modq_negMul, a6]
  | scale u c ihu =>
    obtain ⟨a0, a, φ, a1, ⟨A', a2, a3, a4, a5⟩, a6, a7⟩ := ihu hu.1
    obtain ⟨r2, r3⟩ := (c21_absorb hC.ok S A'.ct a3).2 (c : ℤ)
    have hlt : Mont.importInt p c < C.q := importInt_lt hC.good _ hu.2
    have hcast : ((Mont.exportInt p (Mont.importInt p c) : ℕ) : ZMod C.q) = ((c : ℤ) : ZMod C.q) := by
      have e1 : ((Mont.exportInt p (Mont.importInt p c) : ℕ) : ZMod C.q) = res p C.q (Mont.importInt p c) :=
        res_export hC.good hlt.le
      rw [e1, res_import hC.good hu.2]
      push_cast
      rfl
    have h := absorbScalar_agrees hC a2 hlt.le
    rw [hcast] at h
    obtain ⟨y, y1, y2⟩ := value_ok h
    refine ⟨a0, y, _, ?_, ⟨_, y2, r2, by rw [← a4]; exact r3, ?_⟩, ?_, fun i => ?_⟩
    · show (do ((Call.absorbScalar (Mont.importInt e.p c)).run e.p _ (← u.run e)).value) = _
      rw [a1, Outcome.bind_ok, he]
      exact y1
    · show (A'.ct.c.map _).length = u.len
      rw [List.length_map, a5]
    · show modq t _ = modq t (fun i => (c : ℤ) * u.eval pw m g i)
      rw [modq_smul, modq_smul, a6]
    · show |(c : ℤ) * φ i| ≤ ((c * u.bound C.n B G Rn A : ℕ) : ℤ)
      rw [abs_mul, Nat.cast_mul, Nat.abs_cast]
      exact mul_le_mul_of_nonneg_left (a7 i) (by positivity)
  | relin u ihu =>
    obtain ⟨a0, a, φ, a1, a2, a6, a7⟩ := ihu hu.1
    rw [hu.2] at a2
    obtain ⟨y, φ', y1, y2, y3, y4⟩ := hrelin a φ a2
    refine ⟨le_rfl, y, φ', ?_, y2, y3.trans a6, near a7 y4⟩
    show (do e.relin (← u.run e)) = _
    rw [a1, Outcome.bind_ok, y1]
  | rotate u v ihu =>
    obtain ⟨a0, a, φ, a1, a2, a6, a7⟩ := ihu hu.1
    rw [hu.2] at a2
    obtain ⟨z, φ', z1, z2, hodd, z3, z4⟩ := hrot v a φ a2
    refine ⟨le_rfl, z, φ', ?_, z2, ?_, near (substPow_abs (l := C.l) hodd a7) z4⟩
    · show (do e.rotate v (← u.run e)) = _
      rw [a1, Outcome.bind_ok, z1]
    · show modq t φ' = modq t (substPow (pw v) (u.eval pw m g))
      rw [z3, modq_substPow, modq_substPow, a6]

theorem encrypt_length {G : Gen τ} {fuel : ℕ} {k : Word.Key} {pt : List ℕ} {bEnc : ℕ} {t t' : τ} {x : Word.Ct}
    (h : Word.encrypt G fuel k pt bEnc t = .ok (x, t')) : x.c.length = 2 := by
  unfold Word.encrypt at h
  obtain ⟨⟨a, t₁⟩, -, h⟩ := Outcome.bind_eq_ok.mp h
  obtain ⟨⟨c0, t₂⟩, -, h⟩ := Outcome.bind_eq_ok.mp h
  cases h
  rfl

theorem valid_of_reps {N n : ℕ} {c : List (List ℕ)} {X : List (Fin n → ZMod N)}
    (h : List.Forall₂ (Poly.Rep p N n) c X) : ∀ v ∈ c, ValidPoly N n v := by
  induction h with
  | nil => simp
  | cons h1 _ ih => simpa using ⟨h1.valid, ih⟩

/-- The secret key over residues that a sampled key holds. -/
theorem sampled_holds (G : Gen σ) {w N : ℕ} (h : create w N = .ok p) (hp : N.Prime) {l : ℕ} (hq : initNtt p l = .ok q)
    {psi : ZMod N} (hC : Fit ⟨w, N, l, psi⟩ p) {variance logT : ℕ} {s s' : σ} {k : Word.Key}
    (hk : Word.Key.sample G p q l variance logT s = .ok (k, s')) (hT : 2 ^ logT + 1 < N) :
    ∃ K : Sym.Key ⟨w, N, l, psi⟩, HoldsKey ⟨w, N, l, psi⟩ p q k K ∧ K.key = (fun i : Fin (2 ^ l) => res p N (k.key.getD i 0)) ∧
      K.variance = variance ∧ plaintextModulus w K.logT = .ok (2 ^ logT + 1) ∧
      K.tUnderQ = ((2 ^ logT + 1 : ℕ) : ZMod N) ∧ K.tUnderQ.val = 2 ^ logT + 1 := by
  have gd := good_of_create h
  haveI : NeZero N := ⟨hp.ne_zero⟩
  obtain ⟨k1, k2, k3, k4, k5, k6, k7, k8⟩ := sample_word G h hp hq hk hT
  let C : Ctx := ⟨w, N, l, psi⟩
  let S : C.Poly := fun i => res p N (k.key.getD i 0)
  have hpm : plaintextModulus w logT = .ok (2 ^ logT + 1) := by
    have hf := gd.lt
    have hlt : logT < w := by
      by_contra hc
      have : 2 ^ w ≤ 2 ^ logT := Nat.pow_le_pow_right (by norm_num) (by omega)
      omega
    unfold plaintextModulus Transcription.shl
    rw [if_pos (by omega), Outcome.bind_ok, Nat.one_shiftLeft,
      Nat.mod_eq_of_lt (by omega : 2 ^ logT < 2 ^ w), Nat.mod_eq_of_lt (by omega)]
    rfl
  obtain ⟨K, a1, a2, a3, a4, a5, a6⟩ := sample_ok (C := C) hC.ok (C.fromNtt S) variance logT hT
  have hkey : K.key = S := by rw [a2]; exact toNtt_fromNtt hC.ok _
  have hKv : K.variance = variance := by
    unfold Key.sample at a1
    rw [show C.w = w from rfl, hpm, Outcome.bind_ok] at a1
    cases a1
    rfl
  refine ⟨K, ⟨k1, k2, by rw [hkey]; exact k6.rep (p := p), by rw [k4, hKv], k7.le, by rw [k8, a5]⟩, hkey, hKv,
    by rw [a3]; exact hpm, a5, ?_⟩
  rw [a5]
  exact ZMod.val_cast_of_lt hT

/-- A circuit on ciphertexts whose noisy plaintexts are bounded by `B`, with any means of key switching. -/
theorem circuit_decrypts (G : Gen σ) {w N : ℕ} (h : create w N = .ok p) (hp : N.Prime) {l : ℕ}
    (hq : initNtt p l = .ok q) {psi : ZMod N} (hC : Fit ⟨w, N, l, psi⟩ p) (tb : Tables p w N l psi q)
    {variance logT : ℕ} {s s' : σ} {k : Word.Key} (hk : Word.Key.sample G p q l variance logT s = .ok (k, s'))
    (hT : 2 ^ logT + 1 < N) (m : ℕ → Fin (2 ^ l) → ℕ) (g : ℕ → Fin (2 ^ l) → ℤ)
    {Gb : ℕ} (hg : ∀ i j, |g i j| ≤ Gb) {e : Env ℝ} (he : e.p = p) (P : ErrorParams)
    (hbp : e.bPlain = P.bPlaintext (2 ^ l)) (hf : ∀ i, ValidPoly N (2 ^ l) (e.f i))
    (hf' : ∀ i, HasCoeffs p q N (2 ^ l) (e.f i) fun j => (g i j : ZMod N)) {B : ℕ}
    (hx : ∀ i, ∃ (X : List (Fin (2 ^ l) → ZMod N)) (r : Fin (2 ^ l) → ℤ),
      List.Forall₂ (Poly.Rep p N (2 ^ l)) (e.x i).c X ∧ X.length = 2 ∧ (e.x i).power = 1 ∧ (e.x i).lazy = [] ∧
      (∀ j, |(m i j : ℤ) + ((2 ^ logT + 1 : ℕ) : ℤ) * r j| ≤ (B : ℤ)) ∧
      ntt psi l (modq N fun j => (m i j : ℤ) + ((2 ^ logT + 1 : ℕ) : ℤ) * r j) =
        phase (fun i : Fin (2 ^ l) => res p N (k.key.getD i 0)) X)
    {parts Rn : ℕ} {A pw : ℕ → ℕ}
    (hrelin : ∀ x φ, Sound ⟨w, N, l, psi⟩ p (fun i => res p N (k.key.getD i 0)) x φ parts → ∃ y φ', e.relin x = .ok y ∧
      Sound ⟨w, N, l, psi⟩ p (fun i => res p N (k.key.getD i 0)) y φ' 2 ∧
      modq (2 ^ logT + 1) φ' = modq (2 ^ logT + 1) φ ∧ ∀ i, |φ' i - φ i| ≤ Rn)
    (hrot : ∀ v x φ, Sound ⟨w, N, l, psi⟩ p (fun i => res p N (k.key.getD i 0)) x φ 2 → ∃ z φ', e.rotate v x = .ok z ∧
      Sound ⟨w, N, l, psi⟩ p (fun i => res p N (k.key.getD i 0)) z φ' 2 ∧ pw v % 2 = 1 ∧
      modq (2 ^ logT + 1) φ' = modq (2 ^ logT + 1) (substPow (pw v) φ) ∧
      ∀ i, |φ' i - substPow (pw v) φ i| ≤ A v)
    (u : WordCircuit) (hu : u.Fits w parts) (hbound : 2 * u.bound (2 ^ l) B Gb Rn A < N) :
    ∃ y, u.run e = .ok y ∧ y.c.length = u.len ∧
      y.power = 1 ∧ (∀ c ∈ y.c, ValidPoly N (2 ^ l) c) ∧ ∀ bits, Word.decrypt k ⟨y.c, y.power, bits⟩ =
        .ok (List.ofFn fun j => (u.eval pw (fun i j => (m i j : ℤ)) g j % (2 ^ logT + 1)).toNat) := by
  have gd := good_of_create h
  haveI : NeZero N := ⟨hp.ne_zero⟩
  haveI : Fact N.Prime := ⟨hp⟩
  obtain ⟨k1, k2, k3, k4, k5, k6, k7, k8⟩ := sample_word G h hp hq hk hT
  let C : Ctx := ⟨w, N, l, psi⟩
  have hS := k6.rep (p := p)
  choose X r e1 e2 e3 e6 e4 e5 using hx
  obtain ⟨-, y, φ, y1, ⟨Y, y2, y3, y4, y5⟩, y6, y7⟩ := circuit_sound (C := C) hC P
    (fun i => res p N (k.key.getD i 0)) he hbp
    (B := B) (G := Gb) (t := 2 ^ logT + 1) (m := fun i j => (m i j : ℤ)) (g := g) (pw := pw) (parts := parts)
    (Rn := Rn) (A := A)
    (fun i => by
      refine ⟨fun j => (m i j : ℤ) + ((2 ^ logT + 1 : ℕ) : ℤ) * r i j,
        ⟨⟨⟨X i, 1, []⟩, (e.x i).error⟩, ⟨e1 i, e3 i, rfl, by rw [e6 i]; exact .nil⟩, e5 i, rfl, e2 i⟩, ?_, e4 i⟩
      funext j
      show (((m i j : ℤ) + ((2 ^ logT + 1 : ℕ) : ℤ) * r i j : ℤ) : ZMod (2 ^ logT + 1)) =
        ((m i j : ℤ) : ZMod (2 ^ logT + 1))
      rw [Int.cast_add, Int.cast_mul, Int.cast_natCast (2 ^ logT + 1), ZMod.natCast_self, zero_mul, add_zero])
    (fun j => by
      have := (hf j).rep (p := p)
      have h2 := (hasCoeffs_iff gd hp tb this).mp (hf' j)
      show Poly.Rep p N (2 ^ l) (e.f j) (ntt psi l (modq N (g j)))
      have h3 : modq N (g j) = fun i => (g j i : ZMod N) := rfl
      rw [h3, h2]
      exact this) hg hrelin hrot u hu
  refine ⟨y, y1, by rw [y2.c.length_eq, y5], by rw [y2.power, y4], valid_of_reps y2.c, fun bits => ?_⟩
  rw [Word.decrypt_word gd hp tb k k1 k2 hS (T := 2 ^ logT + 1) (by rw [k3, k8]) (Nat.succ_pos _) hT.le ⟨y.c, y.power, bits⟩
    y2.c]
  congr 2
  funext j
  have hph : ntt psi l (modq N φ) = phase (fun i : Fin (2 ^ l) => res p N (k.key.getD i 0)) Y.ct.c := y3
  rw [← hph, intt_ntt hp gd.odd tb.root (by have := tb.l15; omega)]
  show (centered N ((φ j : ℤ) : ZMod N) % ((2 ^ logT + 1 : ℕ) : ℤ)).toNat = _
  have hle := abs_le.mp (y7 j)
  have hcn : C.n = 2 ^ l := rfl
  rw [hcn] at hle
  generalize u.bound _ _ _ _ _ = Bd at hle hbound
  rw [centered_eq N _ (by omega) (by omega)]
  have hmod' := (ZMod.intCast_eq_intCast_iff' _ _ _).mp (congrFun y6 j)
  rw [hmod']
  norm_cast

/-- Relinearization with a key made for a sampled secret key. -/
theorem gadget_relin (G : Gen σ) (R : Word.Rng ρ) (hR : ∀ t, Words (R.gen t)) {w N : ℕ}
    (h : create w N = .ok p) (hw : w ≤ 128) (hp : N.Prime) {l : ℕ} (hq : initNtt p l = .ok q) {psi : ZMod N}
    (hC : Fit ⟨w, N, l, psi⟩ p) (tb : Tables p w N l psi q) {variance logT : ℕ}
    {s s' : σ} {k : Word.Key} (hk : Word.Key.sample G p q l variance logT s = .ok (k, s')) (hT : 2 ^ logT + 1 < N)
    (hvar : 2 * variance ≤ N) {fuel : ℕ} {prng : PrngType} {parts b : ℕ} (hb : b < 31) {seed seedE : List ℕ}
    {rk : Word.RKey} (hrk : Word.RKey.create R fuel k prng parts b 1 seed seedE = .ok rk) (P : ErrorParams) (x : Obj ℝ)
    (φ : Fin (2 ^ l) → ℤ) (hx : Sound ⟨w, N, l, psi⟩ p (fun i => res p N (k.key.getD i 0)) x φ parts) :
    ∃ y φ', WordCt.relinearize rk (P.bRelinearize (2 ^ l)) x = .ok y ∧
      Sound ⟨w, N, l, psi⟩ p (fun i => res p N (k.key.getD i 0)) y φ' 2 ∧
      modq (2 ^ logT + 1) φ' = modq (2 ^ logT + 1) φ ∧ ∀ i, |φ' i - φ i| ≤
        switchNoise (2 ^ l) (2 ^ logT + 1) (parts - 2) ((p.logModulus + (b - 1)) / b) b (2 * variance) := by
  obtain ⟨k1, k2, k3, k4, k5, k6, k7, k8⟩ := sample_word G h hp hq hk hT
  obtain ⟨K, hK, hkey, hKv, htm, hTz, -⟩ := sampled_holds G h hp hq hC hk hT
  have hlog : p.logModulus = (⟨w, N, l, psi⟩ : Ctx).logModulus := logModulus_of_create h
  have := sound_relin hC tb hw R hR h hK (by rw [k4]; exact hvar) htm (by rw [hTz, Int.cast_natCast]) hb hrk P (x := x)
    (φ := φ) (by rw [hkey]; exact hx)
  rw [hkey, hKv, ← hlog] at this
  exact this

/-- The automorphism with a Galois key made for a sampled secret key. -/
theorem gadget_rotate (G : Gen σ) (R : Word.Rng ρ) (hR : ∀ t, Words (R.gen t)) {w N : ℕ}
    (h : create w N = .ok p) (hw : w ≤ 128) (hp : N.Prime) {l : ℕ} (hq : initNtt p l = .ok q) {psi : ZMod N}
    (hC : Fit ⟨w, N, l, psi⟩ p) (tb : Tables p w N l psi q) {variance logT : ℕ}
    {s s' : σ} {k : Word.Key} (hk : Word.Key.sample G p q l variance logT s = .ok (k, s')) (hT : 2 ^ logT + 1 < N)
    (hvar : 2 * variance ≤ N) {fuel : ℕ} {prng : PrngType} {pw b : ℕ} (hb : b < 31) {seed seedE : List ℕ}
    {gk : Word.RKey} (hgk : Word.galoisCreate R fuel k prng pw b seed seedE = .ok gk) (P : ErrorParams) (x : Obj ℝ)
    (φ : Fin (2 ^ l) → ℤ) (hx : Sound ⟨w, N, l, psi⟩ p (fun i => res p N (k.key.getD i 0)) x φ 2) :
    ∃ z φ', substituteAndSwitch q (P.bRelinearize (2 ^ l)) gk x = .ok z ∧
      Sound ⟨w, N, l, psi⟩ p (fun i => res p N (k.key.getD i 0)) z φ' 2 ∧ pw % 2 = 1 ∧
      modq (2 ^ logT + 1) φ' = modq (2 ^ logT + 1) (substPow pw φ) ∧ ∀ i, |φ' i - substPow pw φ i| ≤
        switchNoise (2 ^ l) (2 ^ logT + 1) 1 ((p.logModulus + (b - 1)) / b) b (2 * variance) := by
  obtain ⟨k1, k2, k3, k4, k5, k6, k7, k8⟩ := sample_word G h hp hq hk hT
  obtain ⟨K, hK, hkey, hKv, htm, hTz, -⟩ := sampled_holds G h hp hq hC hk hT
  have hlog : p.logModulus = (⟨w, N, l, psi⟩ : Ctx).logModulus := logModulus_of_create h
  have := sound_rotate hC tb hw R hR h hK (by rw [k4]; exact hvar) htm (by rw [hTz, Int.cast_natCast]) hb hgk P (x := x)
    (φ := φ) (by rw [hkey]; exact hx)
  rw [hkey, hKv, ← hlog] at this
  exact this

/-- **C74, end to end.** For every word, prime modulus and ring degree for which the parameters can be created, every
generator, every sampled key, every relinearization key and all Galois keys created for it, all messages below
`t = 2^logT + 1` and fresh encryptions of them, and every circuit of additions, subtractions, products, products with
plaintexts and constants, relinearizations and automorphisms: if the bound of the circuit is below half the modulus,
every operation on the stored words succeeds, and `Decrypt` returns the circuit evaluated on the messages modulo
`X^n + 1` and `t`.  Bases of `2^31` and more are excluded, because the error estimate is then undefined. -/
theorem c74_circuit (G : Gen σ) (G' : Gen τ) (hG' : Words G') (R : Word.Rng ρ) (hR : ∀ t, Words (R.gen t)) {w N : ℕ}
    (h : create w N = .ok p) (hw : w ≤ 128) (hp : N.Prime) {l : ℕ} (hq : initNtt p l = .ok q) {variance logT : ℕ}
    {s s' : σ} {k : Word.Key} (hk : Word.Key.sample G p q l variance logT s = .ok (k, s')) (hT : 2 ^ logT + 1 < N)
    (hvar : 2 * variance ≤ N) (m : ℕ → Fin (2 ^ l) → ℕ) (hm : ∀ i j, m i j < 2 ^ logT + 1) (g : ℕ → Fin (2 ^ l) → ℤ)
    {Gb : ℕ} (hg : ∀ i j, |g i j| ≤ Gb) {pt f : ℕ → List ℕ} (hpt : ∀ i, ValidPoly N (2 ^ l) (pt i))
    (hpt' : ∀ i, HasCoeffs p q N (2 ^ l) (pt i) fun j => (m i j : ZMod N)) (hf : ∀ i, ValidPoly N (2 ^ l) (f i))
    (hf' : ∀ i, HasCoeffs p q N (2 ^ l) (f i) fun j => (g i j : ZMod N)) {fuel bEnc : ℕ} {t t' : ℕ → τ}
    {x : ℕ → Word.Ct} (hx : ∀ i, Word.encrypt G' fuel k (pt i) bEnc (t i) = .ok (x i, t' i))
    {prng : PrngType} {parts b : ℕ} (hb : b < 31) {seed seedE : List ℕ} {rk : Word.RKey}
    (hrk : Word.RKey.create R fuel k prng parts b 1 seed seedE = .ok rk)
    {prngs : ℕ → PrngType} {pw bs : ℕ → ℕ} (hbs : ∀ i, bs i < 31) {seeds seedsE : ℕ → List ℕ} {gk : ℕ → Word.RKey}
    (hgk : ∀ i, Word.galoisCreate R fuel k (prngs i) (pw i) (bs i) (seeds i) (seedsE i) = .ok (gk i))
    (P : ErrorParams) (u : WordCircuit) (hu : u.Fits w parts)
    (hbound : 2 * u.bound (2 ^ l) (2 ^ logT + 2 * variance * (2 ^ logT + 1)) Gb
      (switchNoise (2 ^ l) (2 ^ logT + 1) (parts - 2) ((p.logModulus + (b - 1)) / b) b (2 * variance))
      (fun i => switchNoise (2 ^ l) (2 ^ logT + 1) 1 ((p.logModulus + (bs i - 1)) / bs i) (bs i) (2 * variance)) < N) :
    ∃ y, u.run ⟨p, P.bPlaintext (2 ^ l), WordCt.relinearize rk (P.bRelinearize (2 ^ l)),
        fun i => substituteAndSwitch q (P.bRelinearize (2 ^ l)) (gk i),
        fun i => ⟨(x i).c, (x i).power, (x i).error, []⟩, f⟩ = .ok y ∧ y.c.length = u.len ∧ y.power = 1 ∧
      Word.decrypt k ⟨y.c, y.power, bEnc⟩ =
        .ok (List.ofFn fun j => (u.eval pw (fun i j => (m i j : ℤ)) g j % (2 ^ logT + 1)).toNat) := by
  have gd := good_of_create h
  obtain ⟨k1, k2, k3, k4, k5, k6, k7, k8⟩ := sample_word G h hp hq hk hT
  obtain ⟨psi, hC, tb⟩ := fit_of_create h hw hp hq
  obtain ⟨y, y1, y2, y3, -, y4⟩ := circuit_decrypts G h hp hq hC tb hk hT m g hg (B := 2 ^ logT + 2 * variance * (2 ^ logT + 1))
    (e := ⟨p, P.bPlaintext (2 ^ l), WordCt.relinearize rk (P.bRelinearize (2 ^ l)),
      fun i => substituteAndSwitch q (P.bRelinearize (2 ^ l)) (gk i),
      fun i => ⟨(x i).c, (x i).power, (x i).error, []⟩, f⟩) rfl P rfl hf hf'
    (fun i => by
      obtain ⟨X, e, e1, e2, e3, e4, e5⟩ :=
        fresh_word G' hG' h hp tb k k1 k2 k6 (by rw [k4]; exact hvar) k7 k8 (m i) (hpt i) (hpt' i) (hx i)
      refine ⟨X, e, e1, ?_, e3, rfl, fun j => ?_, e5⟩
      · rw [← e1.length_eq]
        exact encrypt_length (hx i)
      · have h1 := e4 j
        rw [k4] at h1
        have h2 := hm i j
        refine (abs_add_le _ _).trans ?_
        rw [abs_mul, Nat.abs_cast, Nat.abs_cast, Nat.cast_add (2 ^ logT) (2 * variance * (2 ^ logT + 1))]
        refine add_le_add (Int.ofNat_le.mpr (Nat.lt_succ_iff.mp h2)) ?_
        rw [mul_comm, Nat.cast_mul (2 * variance)]
        exact mul_le_mul_of_nonneg_right (by push_cast; exact h1) (by positivity))
    (gadget_relin G R hR h hw hp hq hC tb hk hT hvar hb hrk P)
    (fun v => gadget_rotate G R hR h hw hp hq hC tb hk hT hvar (hbs v) (hgk v) P) u hu hbound
  exact ⟨y, y1, y2, y3, y4 bEnc⟩

/-- `(m0 * m1)` relinearized, with `X -> X^3` applied, times `g0`, plus `2 * m0`. -/
def exWordCircuit : WordCircuit :=
  .add (.absorb (.rotate (.relin (.mul (.input 0) (.input 1))) 0) 0) (.scale (.input 0) 2)

/-- The circuit on encryptions of `1 + 2 X` and `2 + X` with the plaintext `1 - 2 X`, modulus 12289, `t = 3`,
variance 1 and base 4: keys are created, the bound is small enough, and the words decrypt to the value. -/
example : (do
    let p ← create 16 12289
    let q ← initNtt p 1
    let (k, _) ← Word.Key.sample toyGen p q 1 1 1 77
    let m0 ← Poly.convertToNtt p q ([1, 2].map (Mont.importInt p))
    let m1 ← Poly.convertToNtt p q ([2, 1].map (Mont.importInt p))
    let f ← Poly.convertToNtt p q ([1, 12287].map (Mont.importInt p))
    let (x0, s) ← Word.encrypt toyGen 8 k m0 0 5
    let (x1, _) ← Word.encrypt toyGen 8 k m1 0 s
    let rk ← Word.RKey.create toyRng 8 k .hkdf 3 2 1 [3] [4]
    let gk ← Word.galoisCreate toyRng 8 k .chacha 3 2 [5] [6]
    let y ← exWordCircuit.run ⟨p, (5 : ℚ), WordCt.relinearize rk fun c b => .ok (c * b),
      fun _ => substituteAndSwitch q (fun c b => .ok (c * b)) gk,
      fun i => if i = 0 then ⟨x0.c, x0.power, x0.error, []⟩ else ⟨x1.c, x1.power, x1.error, []⟩, fun _ => f⟩
    let d ← Word.decrypt k ⟨y.c, y.power, 0⟩
    .ok (y.c.length, d, decide (2 * exWordCircuit.bound (2 ^ 1) (2 ^ 1 + 2 * 1 * (2 ^ 1 + 1)) 2
      (switchNoise (2 ^ 1) (2 ^ 1 + 1) (3 - 2) ((p.logModulus + (2 - 1)) / 2) 2 (2 * 1))
      (fun _ => switchNoise (2 ^ 1) (2 ^ 1 + 1) 1 ((p.logModulus + (2 - 1)) / 2) 2 (2 * 1)) < 12289))) =
    .ok (2, List.ofFn fun j => (exWordCircuit.eval (fun _ => 3) (fun i => if i = 0 then ![1, 2] else ![2, 1])
      (fun _ => ![1, -2]) j % 3).toNat, true) ∧ exWordCircuit.Fits 16 3 := by
  refine ⟨by decide +kernel, ?_⟩
  simp [exWordCircuit, WordCircuit.Fits, WordCircuit.len]

end Shell
