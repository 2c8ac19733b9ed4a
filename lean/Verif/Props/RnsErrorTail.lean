import Verif.Props.RnsLaw
import Verif.Props.RnsErrorTrack
import Verif.Props.RnsBfvErrorTrack
import Verif.Props.RnsBfvExample
/-!
# Property C88: how often the error estimates of RNS ciphertexts are exceeded

The estimates of C66 are not bounds for all samples. For uniformly distributed bytes the probability that the estimate of
a fresh encryption is exceeded is at most a small multiple of `n * exp (-30)`.
-/

namespace Shell.Spec

/-- Carry out one computation after the other. -/
def inSequence {α σ : Type} : List (σ → Outcome (α × σ)) → σ → Outcome (List α × σ)
  | [], s => .ok ([], s)
  | f :: fs, s => do
    let (x, s) ← f s
    let (xs, s) ← inSequence fs s
    .ok (x :: xs, s)

end Shell.Spec

namespace Shell
open Spec Rns RnsErrorTrack NttRing Real
variable {σ τ : Type} {w l : ℕ} {ms : List Modulus} {S M : Fin (2 ^ l) → ℤ} {k : RKey} {enc : Encoder} {msgs : List ℕ}
  {pt : RPoly}

/-! ## Samples -/

/-- What `SampleError` returns, read off the tape. -/
theorem err_drawn (hg : ∀ m ∈ ms, GoodModulus w l m) {v : ℤ} (hv0 : 0 < v) (hv : v ≤ 256) (hne : ms ≠ [])
    (hN : ∀ m ∈ ms.head?, 4 * v < m.N) {t s : List (Fin 256)} {e : RPoly}
    (h : sampleErr bytesSource l v ms t = .ok (e, s)) :
    ∃ pss, ((coeffTree v.toNat).times (2 ^ l)).run t = .ok (pss, s) ∧
      Represents l ms e fun i => coeffOf v.toNat (pss.getD i []) := by
  obtain ⟨pss, h1⟩ := (sampleErr_tape hg hv0 hv hne hN t s).1 e h
  obtain ⟨x, x1, -, x3⟩ := (sampleErr_tape hg hv0 hv hne hN t s).2 pss h1
  rw [h] at x1
  cases x1
  exact ⟨pss, h1, x3⟩

theorem even_two_pow (hg : ∀ m ∈ ms, GoodModulus w l m) (hne : ms ≠ []) : Even (2 ^ l) := by
  obtain ⟨m, ms', rfl⟩ := List.exists_cons_of_ne_nil hne
  obtain ⟨psi, tb⟩ := (hg m (by simp)).tables
  exact Nat.even_pow.mpr ⟨even_two, by have := tb.l1; omega⟩

open Classical in
/-- The probability that a sampled polynomial is large. -/
theorem pss_tail (he : Even (2 ^ l)) {v : ℤ} (hv0 : 0 < v) :
    ((coeffTree v.toNat).times (2 ^ l)).expect (fun pss =>
      if ¬ SizeAtMost (fun i : Fin (2 ^ l) => coeffOf v.toNat (pss.getD i [])) (6 * √v * √(2 ^ l)) then 1 else 0) ≤
      8 * 2 ^ l * exp (-30) := by
  have h := poly_tail (v := v.toNat) (by omega) (n := 2 ^ l) (by positivity) he
  have hv : ((v.toNat : ℕ) : ℝ) = (v : ℝ) := by
    have : ((v.toNat : ℕ) : ℤ) = v := Int.toNat_of_nonneg hv0.le
    exact_mod_cast this
  rw [hv] at h
  push_cast at h
  exact h

/-- C88: for uniformly distributed bytes, the probability that `SampleError` returns a polynomial with a value of more
than `6 sigma sqrt n` at a root of `X^n + 1`. -/
theorem c88_error (hg : ∀ m ∈ ms, GoodModulus w l m) {v : ℤ} (hv0 : 0 < v) (hv : v ≤ 256) (hne : ms ≠ [])
    (hN : ∀ m ∈ ms.head?, 4 * v < m.N) (L : ℕ) :
    bytesProbability L (fun t => ∃ e s, sampleErr bytesSource l v ms t = .ok (e, s) ∧
      ¬ ∃ E, Represents l ms e E ∧ (∀ i, |E i| ≤ 2 * v) ∧ SizeAtMost E (6 * √v * √(2 ^ l))) ≤
      8 * 2 ^ l * exp (-30) := by
  classical
  refine (bytesProbability_le ((coeffTree v.toNat).times (2 ^ l)) ?_ L).trans (pss_tail (even_two_pow hg hne) hv0)
  rintro t ⟨e, s, h1, h2⟩
  obtain ⟨pss, p1, p2⟩ := err_drawn hg hv0 hv hne hN h1
  refine ⟨pss, s, p1, fun h3 => h2 ⟨_, p2, fun i => ?_, h3⟩⟩
  have := coeffOf_bound v.toNat (pss.getD i [])
  omega

/-! ## What fresh ciphertexts stand for -/

/-- A computation that returns a fresh ciphertext with the estimate `B`, which stands for `Φ` plus `c` times the error
that it draws after a uniform polynomial. -/
def Draws (l : ℕ) (S : Fin (2 ^ l) → ℤ) (k : RKey) (fuel : ℕ) (B : ℝ) (c : ℕ) (Φ : Fin (2 ^ l) → ℤ)
    (f : List (Fin 256) → Outcome (RTracked × List (Fin 256))) : Prop :=
  ∀ t x s, f t = .ok (x, s) → Fresh k x.ct ∧ x.error = B ∧ ∃ a t₁ e,
    sampleUniform bytesSource fuel l k.ms t = .ok (a, t₁) ∧ sampleErr bytesSource l k.variance k.ms t₁ = .ok (e, s) ∧
      ∀ E, Represents l k.ms e E → Encrypts l S x.ct fun i => Φ i + c * E i

theorem bgv_draws (hk : GoodKey w l k S) (henc : enc.encodeBgv msgs k.ms = .ok pt) (hpt : Represents l k.ms pt M)
    (ht : enc.t < 2 ^ w) (P : RErrorParams) (fuel : ℕ) :
    Draws l S k fuel P.bSecretKey enc.t M (RnsErrorTrack.encryptBgv P bytesSource fuel k enc msgs) := by
  intro t x s hx
  have hg := hk.good
  have hlog : k.key.logN = l := hk.key.2.1
  obtain ⟨p, p1, p2, p3⟩ := plainNtt_ok hg hpt
  unfold RnsErrorTrack.encryptBgv RKey.encryptBgv at hx
  rw [henc, Outcome.bind_ok, p1, Outcome.bind_ok] at hx
  unfold RKey.encryptPolynomialBgv at hx
  rw [if_neg (by simp [p2]), hlog] at hx
  obtain ⟨⟨c, s0⟩, hx, hx0⟩ := Outcome.bind_eq_ok.mp hx
  cases hx0
  obtain ⟨⟨a, t₁⟩, ha, hx⟩ := Outcome.bind_eq_ok.mp hx
  obtain ⟨⟨e, s'⟩, he, hx⟩ := Outcome.bind_eq_ok.mp hx
  obtain ⟨a1, A, a2⟩ := sampleUniform_ok bytesSource hg hk.coprime ha
  obtain ⟨e1, E, e2, -⟩ := sampleErr_ok bytesSource bytesSource_words hg hk.variance he
  obtain ⟨u, u1, u2, u3⟩ := repr_mulInt hg e2 ht
  obtain ⟨v, v1, v2, v3⟩ := repr_add hg u3 p3 (by rw [u2, e1, p2])
  obtain ⟨z, z1, z2, z3⟩ := repr_fusedMulAdd hg v3 a2 hk.key.2 (by rw [v2, u2, e1]) a1 hk.key.1
  obtain ⟨b, b1, b2, b3⟩ := repr_negateInPlace hg a2
  simp only [u1, Outcome.bind_ok, v1, z1, b1] at hx
  cases hx
  refine ⟨⟨rfl, rfl, rfl⟩, rfl, a, t₁, e, ha, he, fun E' hE' => encrypts_fresh ⟨z2, z3⟩ ⟨b2.trans a1, b3⟩ ?_⟩
  have hc : CongMod (modulusProd k.ms) E E' := (repr_iff hg hk.coprime e2).mp hE'
  have e3 : (fun i => (enc.t : ℤ) * E i) + M + negMul A S + negMul S (-A) = fun i => M i + enc.t * E i := by
    rw [negMul_neg_comm]
    funext i
    simp only [Pi.add_apply, Pi.neg_apply]
    ring
  rw [e3]
  intro i
  rw [show M i + enc.t * E i - (M i + enc.t * E' i) = enc.t * (E i - E' i) by ring]
  exact (hc i).mul_left _

theorem bfv_draws (hk : GoodKey w l k S) (henc : enc.encodeBfv msgs k.ms = .ok pt) (hpt : Represents l k.ms pt M)
    (P : RErrorParams) (fuel : ℕ) :
    Draws l S k fuel P.bSecretKey 1 M (RnsErrorTrack.encryptBfv1 P bytesSource fuel k enc msgs) := by
  intro t x s hx
  have hg := hk.good
  have hlog : k.key.logN = l := hk.key.2.1
  obtain ⟨p, p1, p2, p3⟩ := plainNtt_ok hg hpt
  unfold RnsErrorTrack.encryptBfv1 RKey.encryptBfv1 at hx
  rw [henc, Outcome.bind_ok, p1, Outcome.bind_ok, hlog] at hx
  obtain ⟨⟨c, s0⟩, hx, hx0⟩ := Outcome.bind_eq_ok.mp hx
  cases hx0
  obtain ⟨⟨a, t₁⟩, ha, hx⟩ := Outcome.bind_eq_ok.mp hx
  obtain ⟨⟨e, s'⟩, he, hx⟩ := Outcome.bind_eq_ok.mp hx
  obtain ⟨a1, A, a2⟩ := sampleUniform_ok bytesSource hg hk.coprime ha
  obtain ⟨e1, E, e2, -⟩ := sampleErr_ok bytesSource bytesSource_words hg hk.variance he
  obtain ⟨v, z, b, v1, z1, b1, henc⟩ := encryptBfv_core hk p2 p3 a1 a2 e1 e2
  simp only [Outcome.bind_ok, v1, z1, b1] at hx
  cases hx
  refine ⟨⟨rfl, rfl, rfl⟩, rfl, a, t₁, e, ha, he, fun E' hE' => encrypts_congr henc fun i => ?_⟩
  have hc : CongMod (modulusProd k.ms) E E' := (repr_iff hg hk.coprime e2).mp hE'
  show _ ∣ M i + E i - (M i + (1 : ℕ) * E' i)
  rw [show M i + E i - (M i + (1 : ℕ) * E' i) = E i - E' i by push_cast; ring]
  exact hc i

/-! ## One fresh ciphertext -/

/-- The probability that the error of a fresh ciphertext is large. -/
theorem draws_tail (hk : RoomyKey w l k S) {fuel : ℕ} {B : ℝ} {c : ℕ} {Φ : Fin (2 ^ l) → ℤ}
    {f : List (Fin 256) → Outcome (RTracked × List (Fin 256))} (hf : Draws l S k fuel B c Φ f)
    {good : RTracked → Prop} (hgood : ∀ x E, Fresh k x.ct → x.error = B → Encrypts l S x.ct (fun i => Φ i + c * E i) →
      SizeAtMost E (6 * √k.variance * √(2 ^ l)) → (∀ i, |E i| ≤ 2 * k.variance) → good x) (L : ℕ) :
    bytesProbability L (fun t => ∃ x s, f t = .ok (x, s) ∧ ¬ good x) ≤ 8 * 2 ^ l * exp (-30) := by
  classical
  have hg := hk.good.good
  refine (bytesProbability_le ((uniformTree fuel (2 ^ l) k.ms).bind fun _ => (coeffTree k.variance.toNat).times (2 ^ l))
    (bad := fun pss => ¬ SizeAtMost (fun i : Fin (2 ^ l) => coeffOf k.variance.toNat (pss.getD i []))
      (6 * √k.variance * √(2 ^ l))) ?_ L).trans ?_
  · rintro t ⟨x, s, hx, hbad⟩
    obtain ⟨h1, h2, a, t₁, e, ha, he, h3⟩ := hf t x s hx
    obtain ⟨-, -, b3⟩ := (sampleUniform_iff hk.words hg hk.nonempty fuel t a t₁).mp ha
    obtain ⟨pss, p1, p2⟩ := err_drawn hg hk.positive hk.atMost hk.nonempty hk.room he
    refine ⟨pss, s, ?_, fun hsz => hbad (hgood x _ h1 h2 (h3 _ p2) hsz fun i => ?_)⟩
    · rw [Tree.run_bind, b3, Outcome.bind_ok]
      exact p1
    · have := coeffOf_bound k.variance.toNat (pss.getD i [])
      have := hk.positive
      omega
  · rw [Tree.expect_bind]
    exact Tree.expect_le _ (by positivity) fun _ => pss_tail (even_two_pow hg hk.nonempty) hk.positive

/-- What the theorems assume of the error parameters: they are those of the key. -/
structure ParamsFor (P : RErrorParams) (l : ℕ) (v : ℤ) : Prop where
  dim : P.logN = l
  sigma : √v ≤ P.sigma
  logT : 1 ≤ P.logT

theorem ParamsFor.size {P : RErrorParams} {v : ℤ} (h : ParamsFor P l v) {E : Fin (2 ^ l) → ℤ}
    (hE : SizeAtMost E (6 * √v * √(2 ^ l))) : SizeAtMost E (6 * P.sigma * √P.dim) := by
  refine hE.mono ?_
  unfold RErrorParams.dim
  rw [h.dim]
  push_cast
  have := h.sigma
  gcongr

theorem ParamsFor.one_le {P : RErrorParams} {v : ℤ} (h : ParamsFor P l v) : 1 ≤ P.exportT := by
  unfold RErrorParams.exportT
  have : (1 : ℝ) ≤ P.logT := by exact_mod_cast h.logT
  nlinarith

theorem ParamsFor.sigma_nonneg {P : RErrorParams} {v : ℤ} (h : ParamsFor P l v) : 0 ≤ P.sigma :=
  (Real.sqrt_nonneg _).trans h.sigma

theorem bPlaintext_nonneg (P : RErrorParams) : 0 ≤ P.bPlaintext := by
  unfold RErrorParams.bPlaintext RErrorParams.exportT
  positivity

theorem ParamsFor.le_scaled {P : RErrorParams} {v : ℤ} (h : ParamsFor P l v) {B : ℝ} (hB : 0 ≤ B) :
    B ≤ P.bPlaintext + P.exportT * B := by
  have h5 := h.one_le
  have h8 := bPlaintext_nonneg P
  nlinarith

/-- C88: for uniformly distributed bytes, every secret key and every plaintext of the size the estimates assume, the
probability that `EncryptBgv` returns a ciphertext whose noise exceeds its `Error()`. The plaintext modulus must be at most
the square of its logarithm (see `c66_export_t`). -/
theorem c88_bgv (hk : RoomyKey w l k S) {P : RErrorParams} (hP : ParamsFor P l k.variance) (htP : enc.t ≤ P.exportT)
    (henc : enc.encodeBgv msgs k.ms = .ok pt) (hpt : Represents l k.ms pt M) (hsize : SizeAtMost M P.bPlaintext)
    (ht : enc.t < 2 ^ w) (fuel L : ℕ) :
    bytesProbability L (fun t => ∃ x s, RnsErrorTrack.encryptBgv P bytesSource fuel k enc msgs t = .ok (x, s) ∧
      ¬ ∃ E : Fin (2 ^ l) → ℤ, REstimated l S x fun i => M i + enc.t * E i) ≤ 8 * 2 ^ l * exp (-30) := by
  refine draws_tail hk (bgv_draws hk.good henc hpt ht P fuel)
    (good := fun x => ∃ E : Fin (2 ^ l) → ℤ, REstimated l S x fun i => M i + enc.t * E i) (fun x E h1 h2 h3 h4 _ => ⟨E, h3, ?_⟩) L
  rw [h2, bSecretKey_eq]
  exact fresh_size htP hsize (hP.size h4)

/-- C88: for uniformly distributed bytes, every secret key and every message, the probability that `EncryptBfv` returns a
ciphertext that does not stand for the encoded message plus a noise of at most its `Error()`. -/
theorem c88_bfv (hk : RoomyKey w l k S) {P : RErrorParams} (hP : ParamsFor P l k.variance)
    (henc : enc.encodeBfv msgs k.ms = .ok pt) (hpt : Represents l k.ms pt M) (fuel L : ℕ) :
    bytesProbability L (fun t => ∃ x s, RnsErrorTrack.encryptBfv1 P bytesSource fuel k enc msgs t = .ok (x, s) ∧
      ¬ ∃ E : Fin (2 ^ l) → ℤ, Encrypts l S x.ct (M + E) ∧ SizeAtMost E x.error) ≤ 8 * 2 ^ l * exp (-30) := by
  refine draws_tail hk (bfv_draws hk.good henc hpt P fuel)
    (good := fun x => ∃ E : Fin (2 ^ l) → ℤ, Encrypts l S x.ct (M + E) ∧ SizeAtMost E x.error) (fun x E h1 h2 h3 h4 _ => ⟨E, ?_, ?_⟩) L
  · convert h3 using 1
    funext i
    simp
  · rw [h2, bSecretKey_eq]
    exact (hP.size h4).mono (hP.le_scaled (by have := hP.sigma_nonneg; positivity))

/-- C88: the same for `EncryptBfv` with a separate generator for the mask, in any state. -/
theorem c88_bfv_pad (Gp : Gen τ) (sp : τ) (hk : RoomyKey w l k S) {P : RErrorParams} (hP : ParamsFor P l k.variance)
    (henc : enc.encodeBfv msgs k.ms = .ok pt) (hpt : Represents l k.ms pt M) (fuel L : ℕ) :
    bytesProbability L (fun t => ∃ x r, RnsErrorTrack.encryptBfv P bytesSource Gp fuel k enc msgs t sp = .ok (x, r) ∧
      ¬ ∃ E : Fin (2 ^ l) → ℤ, Encrypts l S x.ct (M + E) ∧ SizeAtMost E x.error) ≤ 8 * 2 ^ l * exp (-30) := by
  classical
  have hg := hk.good.good
  refine (bytesProbability_le ((coeffTree k.variance.toNat).times (2 ^ l)) ?_ L).trans
    (pss_tail (even_two_pow hg hk.nonempty) hk.positive)
  rintro t ⟨x, r, h0, hbad⟩
  have hlog : k.key.logN = l := hk.good.key.2.1
  obtain ⟨p, p1, p2, p3⟩ := plainNtt_ok hg hpt
  unfold RnsErrorTrack.encryptBfv at h0
  obtain ⟨⟨c, s0, sp0⟩, hx, hx0⟩ := Outcome.bind_eq_ok.mp h0
  cases hx0
  unfold RKey.encryptBfv at hx
  rw [henc, Outcome.bind_ok, p1, Outcome.bind_ok, hlog] at hx
  obtain ⟨⟨a, t₁⟩, ha, hx⟩ := Outcome.bind_eq_ok.mp hx
  obtain ⟨⟨e, s'⟩, he, hx⟩ := Outcome.bind_eq_ok.mp hx
  obtain ⟨a1, A, a2⟩ := sampleUniform_ok Gp hg hk.good.coprime ha
  obtain ⟨e1, -⟩ := sampleErr_ok bytesSource bytesSource_words hg hk.good.variance he
  obtain ⟨pss, q1, q2⟩ := err_drawn hg hk.positive hk.atMost hk.nonempty hk.room he
  obtain ⟨v, z, b, v1, z1, b1, henc⟩ := encryptBfv_core hk.good p2 p3 a1 a2 e1 q2
  simp only [Outcome.bind_ok, v1, z1, b1] at hx
  cases hx
  refine ⟨pss, _, q1, fun hsz => hbad ⟨_, henc, ?_⟩⟩
  show SizeAtMost _ P.bSecretKey
  rw [bSecretKey_eq]
  exact (hP.size hsz).mono (hP.le_scaled (by have := hP.sigma_nonneg; positivity))

/-! ## Fresh encryptions under a public key -/

/-- Three errors drawn one after the other. -/
theorem three_drawn (hg : ∀ m ∈ ms, GoodModulus w l m) {v : ℤ} (hv0 : 0 < v) (hv : v ≤ 256) (hne : ms ≠ [])
    (hN : ∀ m ∈ ms.head?, 4 * v < m.N) (L : ℕ) :
    bytesProbability L (fun t => ∃ a s₁ b s₂ c s₃, sampleErr bytesSource l v ms t = .ok (a, s₁) ∧
      sampleErr bytesSource l v ms s₁ = .ok (b, s₂) ∧ sampleErr bytesSource l v ms s₂ = .ok (c, s₃) ∧
      ¬ ∃ A B C, Represents l ms a A ∧ Represents l ms b B ∧ Represents l ms c C ∧
        SizeAtMost A (6 * √v * √(2 ^ l)) ∧ SizeAtMost B (6 * √v * √(2 ^ l)) ∧ SizeAtMost C (6 * √v * √(2 ^ l))) ≤
      3 * (8 * 2 ^ l * exp (-30)) := by
  classical
  have h := many_tail (.ret (.ok ()) : Tree Unit) (v := v.toNat) (by omega) (n := 2 ^ l) (by positivity)
    (even_two_pow hg hne) 3
  have hv' : ((v.toNat : ℕ) : ℝ) = (v : ℝ) := by
    have : ((v.toNat : ℕ) : ℤ) = v := Int.toNat_of_nonneg hv0.le
    exact_mod_cast this
  rw [hv'] at h
  push_cast at h
  refine (bytesProbability_le (manyTree (.ret (.ok ()) : Tree Unit) v.toNat (2 ^ l) 3) ?_ L).trans h
  rintro t ⟨a, s₁, b, s₂, c, s₃, h1, h2, h3, h4⟩
  obtain ⟨a', a1, a2⟩ := err_drawn hg hv0 hv hne hN h1
  obtain ⟨b', b1, b2⟩ := err_drawn hg hv0 hv hne hN h2
  obtain ⟨c', c1, c2⟩ := err_drawn hg hv0 hv hne hN h3
  refine ⟨[a', b', c'], s₃, ?_, ?_⟩
  · simp only [manyTree, Tree.run_bind, Tree.run, Outcome.bind_ok, a1, b1, c1]
  · by_contra hc
    push Not at hc
    exact h4 ⟨_, _, _, a2, b2, c2, hc a' (by simp), hc b' (by simp), hc c' (by simp)⟩

/-- What `RnsRlwePublicKey::Create` returns, in terms of the error that it draws. -/
theorem public_draws (Gp : Gen τ) (hk : GoodKey w l k S) {v : ℤ} (hv : ∀ m ∈ k.ms.head?, 2 * v ≤ m.N) {c : ℕ}
    (hc : c < 2 ^ w) {fuel : ℕ} {sp : τ} {t : List (Fin 256)} {pk : RPub}
    (h : RPub.create Gp bytesSource fuel k v c sp t = .ok pk) :
    pk.ms = k.ms ∧ pk.variance = v ∧ pk.a.ntt = true ∧ pk.b.ntt = true ∧ pk.a.logN = l ∧ ∃ e s,
      sampleErr bytesSource l v k.ms t = .ok (e, s) ∧ ∀ E, Represents l k.ms e E → ∃ A B,
        Represents l k.ms pk.a A ∧ Represents l k.ms pk.b B ∧
        CongMod (modulusProd k.ms) (B + negMul S A) (fun i => c * E i) := by
  have hg := hk.good
  have hlog : k.key.logN = l := hk.key.2.1
  unfold RPub.create at h
  split_ifs at h with h0
  rw [hlog] at h
  obtain ⟨⟨a, sp'⟩, ha, h⟩ := Outcome.bind_eq_ok.mp h
  obtain ⟨⟨e, s⟩, he, h⟩ := Outcome.bind_eq_ok.mp h
  obtain ⟨a1, A, a2⟩ := sampleUniform_ok Gp hg hk.coprime ha
  obtain ⟨e1, E, e2, -⟩ := sampleErr_ok bytesSource bytesSource_words hg hv he
  obtain ⟨u, u1, u2, u3⟩ := repr_mulInt hg e2 hc
  obtain ⟨z, z1, z2, z3⟩ := repr_fusedMulAdd hg u3 a2 hk.key.2 (u2.trans e1) a1 hk.key.1
  obtain ⟨b, b1, b2, b3⟩ := repr_negateInPlace hg a2
  simp only [u1, Outcome.bind_ok, z1, b1] at h
  cases h
  refine ⟨rfl, rfl, b2.trans a1, z2, b3.1, e, s, he, fun E' hE' => ⟨_, _, b3, z3, ?_⟩⟩
  have hcong : CongMod (modulusProd k.ms) E E' := (repr_iff hg hk.coprime e2).mp hE'
  have e3 : (fun i => (c : ℤ) * E i) + negMul A S + negMul S (-A) = fun i => c * E i := by
    rw [negMul_neg_comm]
    abel
  rw [e3]
  intro i
  rw [← mul_sub]
  exact (hcong i).mul_left _

/-- The noise of public-key encryption. -/
theorem public_size {P : RErrorParams} (h0 : 0 ≤ P.sigma) {Ek R E0 E1 : Fin (2 ^ l) → ℤ}
    (hE : SizeAtMost Ek (6 * P.sigma * √P.dim)) (hR : SizeAtMost R (6 * P.sigma * √P.dim))
    (h1 : SizeAtMost E0 (6 * P.sigma * √P.dim)) (hS : SizeAtMost S (6 * P.sigma * √P.dim))
    (h2 : SizeAtMost E1 (6 * P.sigma * √P.dim)) :
    SizeAtMost (negMul Ek R + E0 + negMul S E1) (6 * P.sigma * √P.dim + 72 * P.dim * P.sigma ^ 2) := by
  refine (((hE.mul hR).add h1).add (hS.mul h2)).mono (le_of_eq ?_)
  have h3 : √P.dim * √P.dim = P.dim := Real.mul_self_sqrt (by unfold RErrorParams.dim; positivity)
  linear_combination (72 * P.sigma ^ 2) * h3

/-- Three independent tapes of uniformly distributed bytes, for `Sample` of the secret key, for the error in `Create` of
the public key, and for `Encrypt`. -/
theorem public_tail (Gp : Gen τ) (hg : ∀ m ∈ ms, GoodModulus w l m) (hc : (ms.map (·.N)).Pairwise Nat.Coprime)
    (hne : ms ≠ []) {v vk : ℤ} (hv0 : 0 < v) (hv : v ≤ 256) (hk0 : 0 < vk) (hk : vk ≤ 256)
    (hvN : ∀ m ∈ ms.head?, 4 * v < m.N) (hkN : ∀ m ∈ ms.head?, 4 * vk < m.N) {P : RErrorParams} (hP : ParamsFor P l v)
    (hPk : ParamsFor P l vk) {c : ℕ} (hcw : c < 2 ^ w) (fuel : ℕ) (sp : τ)
    {f : RPub → List (Fin 256) → Outcome (RTracked × List (Fin 256))} {good : RKey → RTracked → Prop}
    (hf : ∀ k S pk t x s A B E, GoodKey w l k S → pk.ms = ms → pk.variance = vk → pk.a.ntt = true → pk.b.ntt = true →
      pk.a.logN = l → Represents l ms pk.a A → Represents l ms pk.b B →
      CongMod (modulusProd ms) (B + negMul S A) (fun i => c * E i) → f pk t = .ok (x, s) →
      ∃ r s₁ e₀ s₂ e₁ s₃, sampleErr bytesSource l vk ms t = .ok (r, s₁) ∧
        sampleErr bytesSource l vk ms s₁ = .ok (e₀, s₂) ∧ sampleErr bytesSource l vk ms s₂ = .ok (e₁, s₃) ∧
        ∀ R E₀ E₁, Represents l ms r R → Represents l ms e₀ E₀ → Represents l ms e₁ E₁ →
          SizeAtMost (negMul E R + E₀ + negMul S E₁) (6 * P.sigma * √P.dim + 72 * P.dim * P.sigma ^ 2) → good k x)
    (L₁ L₂ L₃ : ℕ) :
    bytesProbability₃ L₁ L₂ L₃ (fun t₁ t₂ t₃ => ∃ k s pk x s', RKey.sample bytesSource l v ms t₁ = .ok (k, s) ∧
      RPub.create Gp bytesSource fuel k vk c sp t₂ = .ok pk ∧ f pk t₃ = .ok (x, s') ∧ ¬ good k x) ≤
      5 * (8 * 2 ^ l * exp (-30)) := by
  have q1 := c88_error hg hv0 hv hne hvN L₁
  have q2 := c88_error hg hk0 hk hne hkN L₂
  have q3 := three_drawn hg hk0 hk hne hkN L₃
  refine (bytesProbability₃_le ?_).trans (le_trans (add_le_add (add_le_add q1 q2) q3) (le_of_eq (by ring)))
  rintro t₁ t₂ t₃ ⟨k, s, pk, x, s', f1, f2, f3, f4⟩
  by_contra hcon
  push Not at hcon
  obtain ⟨hc1, hc2, hc3⟩ := hcon
  obtain ⟨m, ms', rfl⟩ := List.exists_cons_of_ne_nil hne
  obtain ⟨psi, tb⟩ := (hg m (by simp)).tables
  have hl1 := tb.l1
  have f1' := f1
  unfold RKey.sample at f1'
  rw [if_neg (by omega), if_neg (by omega), if_neg (by simp)] at f1'
  obtain ⟨⟨e, s1⟩, he, f1'⟩ := Outcome.bind_eq_ok.mp f1'
  cases f1'
  obtain ⟨S, s2, s3, s4⟩ := hc1 e _ he
  obtain ⟨e1, -⟩ := sampleErr_ok bytesSource bytesSource_words hg (fun m hm => by have := hvN m hm; omega) he
  have gk : GoodKey w l ⟨e, m :: ms', v⟩ S := ⟨hg, hc, ⟨e1, s2⟩, fun m hm => by have := hvN m hm; show 2 * v ≤ m.N; omega⟩
  obtain ⟨b1, b2, b3, b4, b7, e', s5, b5, b6⟩ := public_draws Gp gk (fun m hm => by have := hkN m hm; omega) hcw f2
  obtain ⟨E, E1, E2, E3⟩ := hc2 e' s5 b5
  obtain ⟨A, B, a1, a2, a3⟩ := b6 E E1
  obtain ⟨r, s₁, e₀, s₂, e₁, s₃, r1, r2, r3, r4⟩ :=
    hf _ S pk t₃ x s' A B E gk b1 b2 b3 b4 b7 a1 a2 a3 f3
  obtain ⟨R, E₀, E₁, R1, R2, R3, R4, R5, R6⟩ := hc3 r s₁ e₀ s₂ e₁ s₃ r1 r2 r3
  exact f4 (r4 R E₀ E₁ R1 R2 R3 (public_size hP.sigma_nonneg (hPk.size E3) (hPk.size R4) (hPk.size R5)
    (hP.size s4) (hPk.size R6)))

/-- What BGV encryption with a public key returns, in terms of the errors that it draws. -/
theorem public_bgv_draws (hg : ∀ m ∈ ms, GoodModulus w l m) {v : ℤ} (hv : ∀ m ∈ ms.head?, 2 * v ≤ m.N) {pk : RPub}
    (pm : pk.ms = ms) (pv : pk.variance = v) (ka : pk.a.ntt = true) (kb : pk.b.ntt = true) (hlog : pk.a.logN = l)
    {A B Ek : Fin (2 ^ l) → ℤ} (ha : Represents l ms pk.a A) (hb : Represents l ms pk.b B)
    (hab : CongMod (modulusProd ms) (B + negMul S A) (fun i => enc.t * Ek i)) (henc : enc.encodeBgv msgs ms = .ok pt)
    (hpt : Represents l ms pt M) (ht : enc.t < 2 ^ w) {t s : List (Fin 256)} {x : RCt}
    (hx : pk.encryptBgv bytesSource enc msgs t = .ok (x, s)) :
    ∃ r s₁ e₀ s₂ e₁, sampleErr bytesSource l v ms t = .ok (r, s₁) ∧ sampleErr bytesSource l v ms s₁ = .ok (e₀, s₂) ∧
      sampleErr bytesSource l v ms s₂ = .ok (e₁, s) ∧ ∀ R E₀ E₁, Represents l ms r R → Represents l ms e₀ E₀ →
        Represents l ms e₁ E₁ → Encrypts l S x (fun i => M i + enc.t * (negMul Ek R + E₀ + negMul S E₁) i) := by
  obtain ⟨p, p1, p2, p3⟩ := plainNtt_ok hg hpt
  unfold RPub.encryptBgv at hx
  rw [pm, henc, Outcome.bind_ok, p1, Outcome.bind_ok, pv, hlog] at hx
  obtain ⟨⟨r, s₁⟩, hr, hx⟩ := Outcome.bind_eq_ok.mp hx
  obtain ⟨⟨e₀, s₂⟩, he₀, hx⟩ := Outcome.bind_eq_ok.mp hx
  obtain ⟨r1, R, r2, -⟩ := sampleErr_ok bytesSource bytesSource_words hg hv hr
  obtain ⟨a1, E0, a2, -⟩ := sampleErr_ok bytesSource bytesSource_words hg hv he₀
  have key : ∃ z e₁, z.ntt = true ∧ sampleErr bytesSource l v ms s₂ = .ok (e₁, s) ∧
      (∀ R E₀, Represents l ms r R → Represents l ms e₀ E₀ → Represents l ms z ((fun i => (enc.t : ℤ) * E₀ i) + negMul B R + M)) ∧
      ∃ g, g.ntt = true ∧ x = ⟨[z, g], ms, 1⟩ ∧
      ∀ R E₁, Represents l ms r R → Represents l ms e₁ E₁ → Represents l ms g ((fun i => (enc.t : ℤ) * E₁ i) + negMul A R) := by
    obtain ⟨u, u1, u2, u3⟩ := repr_mulInt hg a2 ht
    obtain ⟨v', v1, v2, v3⟩ := repr_fusedMulAdd hg u3 hb r2 (u2.trans a1) kb r1
    obtain ⟨z, z1, z2, z3⟩ := repr_add hg v3 p3 (v2.trans p2.symm)
    simp only [u1, v1, z1, Outcome.bind_ok] at hx
    obtain ⟨⟨e₁, s₃⟩, he₁, hx⟩ := Outcome.bind_eq_ok.mp hx
    obtain ⟨b1, E1, b2, -⟩ := sampleErr_ok bytesSource bytesSource_words hg hv he₁
    obtain ⟨f, f1, f2, f3⟩ := repr_mulInt hg b2 ht
    obtain ⟨g, g1, g2, g3⟩ := repr_fusedMulAdd hg f3 ha r2 (f2.trans b1) ka r1
    simp only [f1, g1, Outcome.bind_ok] at hx
    cases hx
    refine ⟨z, e₁, z2.trans v2, he₁, fun R' E₀' h1 h2 => ?_, g, g2, rfl, fun R' E₁' h1 h2 => ?_⟩
    · obtain ⟨u', x1, -, x3⟩ := repr_mulInt hg h2 ht
      rw [u1] at x1
      cases x1
      obtain ⟨v'', y1, -, y3⟩ := repr_fusedMulAdd hg x3 hb h1 (u2.trans a1) kb r1
      rw [v1] at y1
      cases y1
      obtain ⟨z', w1, -, w3⟩ := repr_add hg y3 p3 (v2.trans p2.symm)
      rw [z1] at w1
      cases w1
      exact w3
    · obtain ⟨u', x1, -, x3⟩ := repr_mulInt hg h2 ht
      rw [f1] at x1
      cases x1
      obtain ⟨v'', y1, -, y3⟩ := repr_fusedMulAdd hg x3 ha h1 (f2.trans b1) ka r1
      rw [g1] at y1
      cases y1
      exact y3
  obtain ⟨z, e₁, k1, k2, k3, g, k4, rfl, k5⟩ := key
  refine ⟨r, s₁, e₀, s₂, e₁, hr, he₀, k2, fun R E0 E1 R1 R2 R3 =>
    encrypts_fresh ⟨k1, k3 R E0 R1 R2⟩ ⟨k4, k5 R E1 R1 R3⟩ ?_⟩
  have e1 : (fun i => (enc.t : ℤ) * E0 i) + negMul B R + M +
      negMul S ((fun i => (enc.t : ℤ) * E1 i) + negMul A R) =
      negMul (B + negMul S A) R + ((fun i => (enc.t : ℤ) * E0 i) + M + fun i => enc.t * negMul S E1 i) := by
    rw [NR.negMul_add, negMul_smul, NR.add_negMul, NR.negMul_assoc]
    abel
  have e2 : (fun i => M i + (enc.t : ℤ) * (negMul Ek R + E0 + negMul S E1) i) =
      negMul (fun i => (enc.t : ℤ) * Ek i) R +
        ((fun i => (enc.t : ℤ) * E0 i) + M + fun i => enc.t * negMul S E1 i) := by
    rw [NR.negMul_comm (fun i => (enc.t : ℤ) * Ek i) R, negMul_smul, NR.negMul_comm R]
    funext i
    simp only [Pi.add_apply]; ring
  rw [e1, e2]
  exact (hab.mul (CongMod.refl R)).add (CongMod.refl _)


/-- What BFV encryption with a public key returns. -/
theorem public_bfv_draws (hg : ∀ m ∈ ms, GoodModulus w l m) {v : ℤ} (hv : ∀ m ∈ ms.head?, 2 * v ≤ m.N) {pk : RPub}
    (pm : pk.ms = ms) (pv : pk.variance = v) (ka : pk.a.ntt = true) (kb : pk.b.ntt = true) (hlog : pk.a.logN = l)
    {A B Ek : Fin (2 ^ l) → ℤ} (ha : Represents l ms pk.a A) (hb : Represents l ms pk.b B)
    (hab : CongMod (modulusProd ms) (B + negMul S A) Ek) (henc : enc.encodeBfv msgs ms = .ok pt)
    (hpt : Represents l ms pt M) {t s : List (Fin 256)} {x : RCt}
    (hx : pk.encryptBfv bytesSource enc msgs t = .ok (x, s)) :
    ∃ r s₁ e₀ s₂ e₁, sampleErr bytesSource l v ms t = .ok (r, s₁) ∧ sampleErr bytesSource l v ms s₁ = .ok (e₀, s₂) ∧
      sampleErr bytesSource l v ms s₂ = .ok (e₁, s) ∧ ∀ R E₀ E₁, Represents l ms r R → Represents l ms e₀ E₀ →
        Represents l ms e₁ E₁ → Encrypts l S x (M + (negMul Ek R + E₀ + negMul S E₁)) := by
  obtain ⟨p, p1, p2, p3⟩ := plainNtt_ok hg hpt
  unfold RPub.encryptBfv at hx
  rw [pm, henc, Outcome.bind_ok, p1, Outcome.bind_ok, pv, hlog] at hx
  obtain ⟨⟨r, s₁⟩, hr, hx⟩ := Outcome.bind_eq_ok.mp hx
  obtain ⟨⟨e₀, s₂⟩, he₀, hx⟩ := Outcome.bind_eq_ok.mp hx
  obtain ⟨r1, R, r2, -⟩ := sampleErr_ok bytesSource bytesSource_words hg hv hr
  obtain ⟨a1, E0, a2, -⟩ := sampleErr_ok bytesSource bytesSource_words hg hv he₀
  have key : ∃ z e₁, z.ntt = true ∧ sampleErr bytesSource l v ms s₂ = .ok (e₁, s) ∧
      (∀ R E₀, Represents l ms r R → Represents l ms e₀ E₀ → Represents l ms z (E₀ + negMul B R + M)) ∧
      ∃ g, g.ntt = true ∧ x = ⟨[z, g], ms, 1⟩ ∧
      ∀ R E₁, Represents l ms r R → Represents l ms e₁ E₁ → Represents l ms g (E₁ + negMul A R) := by
    obtain ⟨v', v1, v2, v3⟩ := repr_fusedMulAdd hg a2 hb r2 a1 kb r1
    obtain ⟨z, z1, z2, z3⟩ := repr_add hg v3 p3 (v2.trans p2.symm)
    simp only [v1, z1, Outcome.bind_ok] at hx
    obtain ⟨⟨e₁, s₃⟩, he₁, hx⟩ := Outcome.bind_eq_ok.mp hx
    obtain ⟨b1, E1, b2, -⟩ := sampleErr_ok bytesSource bytesSource_words hg hv he₁
    obtain ⟨g, g1, g2, g3⟩ := repr_fusedMulAdd hg b2 ha r2 b1 ka r1
    simp only [g1, Outcome.bind_ok] at hx
    cases hx
    refine ⟨z, e₁, z2.trans v2, he₁, fun R' E₀' h1 h2 => ?_, g, g2, rfl, fun R' E₁' h1 h2 => ?_⟩
    · obtain ⟨v'', y1, -, y3⟩ := repr_fusedMulAdd hg h2 hb h1 a1 kb r1
      rw [v1] at y1
      cases y1
      obtain ⟨z', w1, -, w3⟩ := repr_add hg y3 p3 (v2.trans p2.symm)
      rw [z1] at w1
      cases w1
      exact w3
    · obtain ⟨v'', y1, -, y3⟩ := repr_fusedMulAdd hg h2 ha h1 b1 ka r1
      rw [g1] at y1
      cases y1
      exact y3
  obtain ⟨z, e₁, k1, k2, k3, g, k4, rfl, k5⟩ := key
  refine ⟨r, s₁, e₀, s₂, e₁, hr, he₀, k2, fun R E0 E1 R1 R2 R3 =>
    encrypts_fresh ⟨k1, k3 R E0 R1 R2⟩ ⟨k4, k5 R E1 R1 R3⟩ ?_⟩
  have e1 : E0 + negMul B R + M + negMul S (E1 + negMul A R) =
      negMul (B + negMul S A) R + (E0 + M + negMul S E1) := by
    rw [NR.negMul_add, NR.add_negMul, NR.negMul_assoc]
    abel
  have e2 : M + (negMul Ek R + E0 + negMul S E1) = negMul Ek R + (E0 + M + negMul S E1) := by abel
  rw [e1, e2]
  exact (hab.mul (CongMod.refl R)).add (CongMod.refl _)


/-- C88: the probability that a secret key, a public key and a BGV encryption are returned, but the noise of the
ciphertext exceeds its `Error()`. The mask of the public key comes from any generator in any state. -/
theorem c88_public_bgv (Gp : Gen τ) (hg : ∀ m ∈ ms, GoodModulus w l m) (hc : (ms.map (·.N)).Pairwise Nat.Coprime)
    (hne : ms ≠ []) {v vk : ℤ} (hv0 : 0 < v) (hv : v ≤ 256) (hk0 : 0 < vk) (hk : vk ≤ 256)
    (hvN : ∀ m ∈ ms.head?, 4 * v < m.N) (hkN : ∀ m ∈ ms.head?, 4 * vk < m.N) {P : RErrorParams} (hP : ParamsFor P l v)
    (hPk : ParamsFor P l vk) (htP : enc.t ≤ P.exportT) (henc : enc.encodeBgv msgs ms = .ok pt)
    (hpt : Represents l ms pt M) (hsize : SizeAtMost M P.bPlaintext) (ht : enc.t < 2 ^ w) (fuel : ℕ) (sp : τ)
    (L₁ L₂ L₃ : ℕ) :
    bytesProbability₃ L₁ L₂ L₃ (fun t₁ t₂ t₃ => ∃ k s pk x s', RKey.sample bytesSource l v ms t₁ = .ok (k, s) ∧
      RPub.create Gp bytesSource fuel k vk enc.t sp t₂ = .ok pk ∧
      encryptBgvPublic P bytesSource pk enc msgs t₃ = .ok (x, s') ∧
      ¬ ∃ S E : Fin (2 ^ l) → ℤ, KeyIs l k S ∧ REstimated l S x fun i => M i + enc.t * E i) ≤
      5 * (8 * 2 ^ l * exp (-30)) := by
  refine public_tail Gp hg hc hne hv0 hv hk0 hk hvN hkN hP hPk ht fuel sp
    (f := fun pk t => encryptBgvPublic P bytesSource pk enc msgs t)
    (good := fun k x => ∃ S E : Fin (2 ^ l) → ℤ, KeyIs l k S ∧ REstimated l S x fun i => M i + enc.t * E i) ?_ L₁ L₂ L₃
  intro k S pk t x s A B E gk pm pv pa pb hlog hA hB hAB hx
  unfold encryptBgvPublic at hx
  obtain ⟨⟨c, s0⟩, hx, hx0⟩ := Outcome.bind_eq_ok.mp hx
  cases hx0
  obtain ⟨r, s₁, e₀, s₂, e₁, h1, h2, h3, h4⟩ :=
    public_bgv_draws hg (fun m hm => by have := hkN m hm; omega) pm pv pa pb hlog hA hB hAB henc hpt ht hx
  refine ⟨r, s₁, e₀, s₂, e₁, _, h1, h2, h3, fun R E₀ E₁ R1 R2 R3 hs => ⟨S, _, gk.key, h4 R E₀ E₁ R1 R2 R3, ?_⟩⟩
  show SizeAtMost _ P.bPublicKey
  rw [bPublicKey_eq]
  exact fresh_size htP hsize hs

/-- C88: the same for BFV, for every message. -/
theorem c88_public_bfv (Gp : Gen τ) (hg : ∀ m ∈ ms, GoodModulus w l m) (hc : (ms.map (·.N)).Pairwise Nat.Coprime)
    (hne : ms ≠ []) {v vk : ℤ} (hv0 : 0 < v) (hv : v ≤ 256) (hk0 : 0 < vk) (hk : vk ≤ 256)
    (hvN : ∀ m ∈ ms.head?, 4 * v < m.N) (hkN : ∀ m ∈ ms.head?, 4 * vk < m.N) {P : RErrorParams} (hP : ParamsFor P l v)
    (hPk : ParamsFor P l vk) (henc : enc.encodeBfv msgs ms = .ok pt) (hpt : Represents l ms pt M) (hw : 1 < 2 ^ w)
    (fuel : ℕ) (sp : τ) (L₁ L₂ L₃ : ℕ) :
    bytesProbability₃ L₁ L₂ L₃ (fun t₁ t₂ t₃ => ∃ k s pk x s', RKey.sample bytesSource l v ms t₁ = .ok (k, s) ∧
      RPub.create Gp bytesSource fuel k vk 1 sp t₂ = .ok pk ∧
      encryptBfvPublic P bytesSource pk enc msgs t₃ = .ok (x, s') ∧
      ¬ ∃ S E : Fin (2 ^ l) → ℤ, KeyIs l k S ∧ Encrypts l S x.ct (M + E) ∧ SizeAtMost E x.error) ≤
      5 * (8 * 2 ^ l * exp (-30)) := by
  refine public_tail Gp hg hc hne hv0 hv hk0 hk hvN hkN hP hPk hw fuel sp
    (f := fun pk t => encryptBfvPublic P bytesSource pk enc msgs t)
    (good := fun k x => ∃ S E : Fin (2 ^ l) → ℤ, KeyIs l k S ∧ Encrypts l S x.ct (M + E) ∧ SizeAtMost E x.error)
    ?_ L₁ L₂ L₃
  intro k S pk t x s A B E gk pm pv pa pb hlog hA hB hAB hx
  unfold encryptBfvPublic at hx
  obtain ⟨⟨c, s0⟩, hx, hx0⟩ := Outcome.bind_eq_ok.mp hx
  cases hx0
  obtain ⟨r, s₁, e₀, s₂, e₁, h1, h2, h3, h4⟩ :=
    public_bfv_draws hg (fun m hm => by have := hkN m hm; omega) pm pv pa pb hlog hA hB (by simpa using hAB) henc hpt hx
  refine ⟨r, s₁, e₀, s₂, e₁, _, h1, h2, h3, fun R E₀ E₁ R1 R2 R3 hs => ⟨S, _, gk.key, h4 R E₀ E₁ R1 R2 R3, hs.mono ?_⟩⟩
  show _ ≤ P.bPublicKey
  rw [bPublicKey_eq]
  have h5 := hP.sigma_nonneg
  have h6 : 0 ≤ P.dim := by unfold RErrorParams.dim; positivity
  exact hP.le_scaled (by positivity)

/-! ## Computations -/

/-- Successive encryptions, and the tape they read. -/
theorem many_drawn (hk : RoomyKey w l k S) {fuel : ℕ} {B : ℝ} {c : ℕ} (z : RTracked)
    (fs : List (List (Fin 256) → Outcome (RTracked × List (Fin 256)))) (Φ : ℕ → Fin (2 ^ l) → ℤ)
    (hf : ∀ i (hi : i < fs.length), Draws l S k fuel B c (Φ i) fs[i]) {t s : List (Fin 256)} {xs : List RTracked}
    (hx : inSequence fs t = .ok (xs, s)) :
    ∃ psss, (manyTree (uniformTree fuel (2 ^ l) k.ms) k.variance.toNat (2 ^ l) fs.length).run t = .ok (psss, s) ∧
      psss.length = fs.length ∧ ∀ i < fs.length, Fresh k (xs.getD i z).ct ∧ (xs.getD i z).error = B ∧
        Encrypts l S (xs.getD i z).ct
          fun j => Φ i j + c * coeffOf k.variance.toNat ((psss.getD i []).getD j []) := by
  have hg := hk.good.good
  induction fs generalizing Φ t xs with
  | nil =>
    cases hx
    exact ⟨[], rfl, rfl, by simp⟩
  | cons f fs ih =>
    unfold inSequence at hx
    obtain ⟨⟨x, t'⟩, hx1, hx⟩ := Outcome.bind_eq_ok.mp hx
    obtain ⟨⟨xs', s'⟩, hx2, hx⟩ := Outcome.bind_eq_ok.mp hx
    cases hx
    obtain ⟨h1, h2, a, t₁, e, ha, he, h3⟩ := hf 0 (by simp) t x t' hx1
    obtain ⟨-, -, d1⟩ := (sampleUniform_iff hk.words hg hk.nonempty fuel t a t₁).mp ha
    obtain ⟨pss, r1, r2⟩ := err_drawn hg hk.positive hk.atMost hk.nonempty hk.room he
    obtain ⟨rest, b1, b2, b3⟩ := ih (fun i => Φ (i + 1)) (fun i hi => hf (i + 1) (by simpa using hi)) hx2
    refine ⟨pss :: rest, ?_, by simp [b2], ?_⟩
    · show (Tree.bind _ _).run t = _
      rw [Tree.run_bind, d1, Outcome.bind_ok, Tree.run_bind]
      show (Tree.run _ t₁ >>= _) = _
      rw [r1, Outcome.bind_ok, Tree.run_bind]
      show (Tree.run _ t' >>= _) = _
      rw [b1, Outcome.bind_ok]
      rfl
    · intro i hi
      cases i with
      | zero => exact ⟨h1, h2, h3 _ r2⟩
      | succ i => exact b3 i (by simpa using hi)

/-- The probability that one of several fresh ciphertexts has a large error. -/
theorem many_draws_tail (hk : RoomyKey w l k S) {fuel : ℕ} {B : ℝ} {c : ℕ} (z : RTracked)
    {fs : List (List (Fin 256) → Outcome (RTracked × List (Fin 256)))} {Φ : ℕ → Fin (2 ^ l) → ℤ}
    (hf : ∀ i (hi : i < fs.length), Draws l S k fuel B c (Φ i) fs[i]) {good : List RTracked → Prop}
    (hgood : ∀ xs, (∀ i < fs.length, Fresh k (xs.getD i z).ct ∧ (xs.getD i z).error = B ∧ ∃ E : Fin (2 ^ l) → ℤ,
      Encrypts l S (xs.getD i z).ct (fun j => Φ i j + c * E j) ∧ SizeAtMost E (6 * √k.variance * √(2 ^ l)) ∧
      ∀ j, |E j| ≤ 2 * k.variance) → good xs) (L : ℕ) :
    bytesProbability L (fun t => ∃ xs s, inSequence fs t = .ok (xs, s) ∧ ¬ good xs) ≤
      fs.length * (8 * 2 ^ l * exp (-30)) := by
  classical
  have hv : ((k.variance.toNat : ℕ) : ℝ) = (k.variance : ℝ) := by
    have : ((k.variance.toNat : ℕ) : ℤ) = k.variance := Int.toNat_of_nonneg hk.positive.le
    exact_mod_cast this
  have htail := many_tail (uniformTree fuel (2 ^ l) k.ms) (v := k.variance.toNat) (n := 2 ^ l)
    (by have := hk.positive; omega) (by positivity) (even_two_pow hk.good.good hk.nonempty) fs.length
  rw [hv] at htail
  push_cast at htail
  refine (bytesProbability_le _ ?_ L).trans htail
  rintro t ⟨xs, s, hx, hbad⟩
  obtain ⟨psss, b1, b2, b3⟩ := many_drawn hk z fs Φ hf hx
  refine ⟨psss, s, b1, ?_⟩
  by_contra h
  push Not at h
  refine hbad (hgood xs fun i hi => ?_)
  obtain ⟨c1, c2, c3⟩ := b3 i hi
  refine ⟨c1, c2, _, c3, h _ ?_, fun j => ?_⟩
  · rw [List.getD_eq_getElem _ _ (by omega)]
    exact List.getElem_mem _
  · have := coeffOf_bound k.variance.toNat ((psss.getD i []).getD j [])
    have := hk.positive
    omega

/-- C88: for uniformly distributed bytes, every secret key and all lists of messages whose slot polynomials have the size
the estimates assume, encrypted one after the other: the probability that some computation of negations, additions,
subtractions, products and absorptions of plaintexts of that size returns a ciphertext with twice its `Error()` below the
product of the moduli, which does not decrypt to the computation carried out on the messages in every slot. The plaintext
modulus must be at most the square of its logarithm (see `c66_export_t`). -/
theorem c88_program (est : Estimate) {e : FFEncoder} (he : GoodEncoder w l e) {lev W : ℕ} (hk : RoomyKey w l k S)
    (hms : e.ctx.qs.take lev = k.ms) {P : RErrorParams} (hP : ParamsFor P l k.variance) (htP : e.ctx.t ≤ P.exportT)
    (htw : e.ctx.t < 2 ^ w) (htQ : e.ctx.t ≤ modulusProd k.ms) (hW : ∀ m ∈ k.ms, modulusProd k.ms * m.N ≤ 2 ^ W)
    {hatInvs : List ℕ} (hi : HatInvs k.ms hatInvs) {mss : List (List ℕ)}
    (hmsg : ∀ msgs ∈ mss, (∀ a ∈ msgs, a < 2 ^ w) ∧ msgs.length ≤ 2 ^ l ∧
      ∀ F : Fin (2 ^ l) → ℤ, (∀ j, 2 * |F j| ≤ e.ctx.t) →
        (∀ i < 2 ^ l, slotsOf (nttRoot l e.mt) l F i = ((msgs.getD i 0 : ℕ) : ZMod e.mt.N)) → SizeAtMost F P.bPlaintext)
    (fuel L : ℕ) :
    bytesProbability L (fun t => ∃ xs s,
      inSequence (mss.map fun msgs => RnsErrorTrack.encryptBgv P bytesSource fuel k (finiteFieldEncoder est e) msgs) t =
        .ok (xs, s) ∧
      ∃ (u : RCircuit (Fin mss.length)) (M : RPoly → Fin (2 ^ l) → ℤ) (r : RTracked), u.PlainsOk w l k.ms M ∧
        u.Within P M ∧ u.runTracked P (fun i : Fin mss.length => xs.getD i ⟨⟨[], [], 0⟩, 0⟩) = .ok r ∧ 2 * r.error < modulusProd k.ms ∧
        k.decryptBgvWithCrt W e r.ct (modulusComplements W k.ms) hatInvs ≠
          .ok (List.ofFn fun i : Fin (2 ^ l) => (u.eval (fun j : Fin mss.length => (((mss.getD j []).getD i 0 : ℕ) : ZMod e.mt.N))
            (fun p => slotsOf (nttRoot l e.mt) l (M p) i)).val)) ≤
      mss.length * (8 * 2 ^ l * exp (-30)) := by
  have hg := hk.good.good
  obtain ⟨psi, tb⟩ := he.mt.tables
  have hF : ∀ msgs ∈ mss, ∃ x F, ffEncodeBgv e msgs k.ms = .ok x ∧ x.ntt = true ∧ Represents l k.ms x F ∧
      (∀ j, 2 * |F j| ≤ e.ctx.t) ∧ ∀ i < 2 ^ l, slotsOf (nttRoot l e.mt) l F i = ((msgs.getD i 0 : ℕ) : ZMod e.mt.N) :=
    fun msgs h => c50_encode_bgv he hk.nonempty (fun m hm => by rw [← hms] at hm; exact List.mem_of_mem_take hm)
      (hmsg msgs h).1 (hmsg msgs h).2.1
  have hF' : ∀ i, ∃ x F, i < mss.length → ffEncodeBgv e (mss.getD i []) k.ms = .ok x ∧ Represents l k.ms x F ∧
      (∀ j, 2 * |F j| ≤ e.ctx.t) ∧
      ∀ j < 2 ^ l, slotsOf (nttRoot l e.mt) l F j = (((mss.getD i []).getD j 0 : ℕ) : ZMod e.mt.N) := by
    intro i
    by_cases h : i < mss.length
    · rw [List.getD_eq_getElem _ _ h]
      obtain ⟨x, F, h1, -, h2⟩ := hF mss[i] (List.getElem_mem _)
      exact ⟨x, F, fun _ => ⟨h1, h2⟩⟩
    · exact ⟨⟨0, [], false⟩, 0, fun h' => absurd h' h⟩
  choose pts F hF' using hF'
  have hlen : (mss.map fun msgs => RnsErrorTrack.encryptBgv P bytesSource fuel k (finiteFieldEncoder est e) msgs).length =
      mss.length := by simp
  refine (le_trans (le_of_eq ?_) ((many_draws_tail hk ⟨⟨[], [], 0⟩, 0⟩ (Φ := F) (B := P.bSecretKey) (c := e.ctx.t) (fuel := fuel)
    (fun i hi => ?_) (good := fun xs => ∀ (u : RCircuit (Fin mss.length)) (M : RPoly → Fin (2 ^ l) → ℤ) (r : RTracked),
      u.PlainsOk w l k.ms M → u.Within P M → u.runTracked P (fun i : Fin mss.length => xs.getD i ⟨⟨[], [], 0⟩, 0⟩) = .ok r →
      2 * r.error < modulusProd k.ms → k.decryptBgvWithCrt W e r.ct (modulusComplements W k.ms) hatInvs =
          .ok (List.ofFn fun i : Fin (2 ^ l) => (u.eval (fun j : Fin mss.length => (((mss.getD j []).getD i 0 : ℕ) : ZMod e.mt.N))
            (fun p => slotsOf (nttRoot l e.mt) l (M p) i)).val)) ?_ L).trans (le_of_eq (by rw [hlen]))))
  · congr 1
    funext t
    push Not
    rfl
  · rw [hlen] at hi
    obtain ⟨h1, h2, -⟩ := hF' i hi
    rw [List.getD_eq_getElem _ _ hi] at h1
    rw [List.getElem_map]
    exact bgv_draws hk.good (enc := finiteFieldEncoder est e) h1 h2 htw P fuel
  · intro xs hxs u M r hu hw hr hB
    have hxs' : ∀ i : Fin mss.length, ∃ E : Fin (2 ^ l) → ℤ, Fresh k (xs.getD i ⟨⟨[], [], 0⟩, 0⟩).ct ∧
        REstimated l S (xs.getD i ⟨⟨[], [], 0⟩, 0⟩) fun j => F i j + e.ctx.t * E j := by
      intro i
      obtain ⟨c1, c2, E, c3, c4, -⟩ := hxs i (by rw [hlen]; exact i.2)
      refine ⟨E, c1, c3, ?_⟩
      rw [c2, bSecretKey_eq]
      obtain ⟨-, -, f3, f4⟩ := hF' i i.2
      refine fresh_size htP ((hmsg (mss.getD i []) ?_).2.2 _ f3 f4) (hP.size c4)
      rw [List.getD_eq_getElem _ _ i.2]
      exact List.getElem_mem _
    choose E hE using hxs'
    obtain ⟨r1, r2, r3, r4⟩ := c66_computation_partial hg hk.nonempty P (pow := 1)
      (fun i => ⟨(hE i).1.1, (hE i).1.2.1, by
        have := (hE i).1.2.2
        exact List.length_pos_iff.mp (by omega), (hE i).2⟩) u hu hw hr
    rw [c66_decrypt_crt he hms hk.nonempty hk.good.key r1 r2 r3 r4 hW hi htQ hB]
    congr 2
    funext i
    have hz : nttRoot l e.mt ^ 2 ^ l = -1 := by
      rw [nttRoot_eq he.mt tb]; exact tb.root
    rw [slots_evalPoly hz tb.l1]
    congr 2
    funext j
    obtain ⟨-, -, -, f4⟩ := hF' j j.2
    rw [← f4 i i.2, ← he.N, slots_noise]

/-- C88: the same for BFV at the top level: for uniformly distributed bytes, every secret key and all lists of messages whose
encoding is rounded by a polynomial of the size the estimates assume of plaintexts, encrypted one after the other: the
probability that some computation of negations, additions, subtractions, additions and subtractions of plaintexts and
absorptions of unscaled plaintexts fails, or returns a ciphertext with `t` times its `Error()` (and the noise of the encodings
of the plaintexts that were added) below `(1/2 - ε) Q` that does not decrypt to the computation on the messages. -/
theorem c88_bfv_program {ε : ℚ} {est : Estimate} {e : FFEncoder} (he : GoodEncoder w l e) (hb : BfvConstants e.ctx e.mt)
    (hk : RoomyKey w l k S) (hkm : k.ms = e.ctx.qs) (hest : EstimateWithin k.ms.length ε est) (hε : ε < 1 / 2)
    (hlen : k.ms.length < 2 ^ w) {P : RErrorParams} (hP : ParamsFor P l k.variance) {mss : List (List ℕ)}
    (hmsg : ∀ msgs ∈ mss, (∀ a ∈ msgs, a < 2 ^ w) ∧ msgs.length ≤ 2 ^ l ∧
      ∀ F : Fin (2 ^ l) → ℕ, (∀ j, F j < e.ctx.t) →
        (∀ i < 2 ^ l, slotsOf (nttRoot l e.mt) l (fun j => (F j : ℤ)) i = ((msgs.getD i 0 : ℕ) : ZMod e.mt.N)) →
        SizeAtMost (fun j => e.ctx.t * ⌈(modulusProd k.ms * F j : ℚ) / e.ctx.t⌉ - modulusProd k.ms * F j)
          (e.ctx.t * P.bPlaintext)) (fuel L : ℕ) :
    bytesProbability L (fun t => ∃ xs s,
      inSequence (mss.map fun msgs => RnsErrorTrack.encryptBfv1 P bytesSource fuel k (finiteFieldEncoder est e) msgs) t =
        .ok (xs, s) ∧
      ∃ (u : BCircuit (Fin mss.length)) (N : RPoly → Fin (2 ^ l) → ℤ) (ρ : RPoly → ℝ), u.Linear P l e.ctx.t k.ms N ρ ∧
        ¬ ∃ r, u.runTracked P est e.ctx (fun i : Fin mss.length => xs.getD i ⟨⟨[], [], 0⟩, 0⟩) = .ok r ∧
          (e.ctx.t * (r.error + u.lacking P ρ) < (1 / 2 - ε) * modulusProd k.ms →
            k.decryptBfv (finiteFieldEncoder est e) r.ct =
              .ok (List.ofFn fun i : Fin (2 ^ l) =>
                (u.eval (fun j : Fin mss.length => (((mss.getD j []).getD i 0 : ℕ) : ZMod e.mt.N))
                  (fun p => slotsOf (nttRoot l e.mt) l (N p) i)).val))) ≤
      mss.length * (8 * 2 ^ l * exp (-30)) := by
  have hg := hk.good.good
  obtain ⟨psi, tb⟩ := he.mt.tables
  have hF' : ∀ i, ∃ (x : RPoly) (F : Fin (2 ^ l) → ℕ), i < mss.length →
      ffEncodeBfv e (mss.getD i []) k.ms true = .ok x ∧
      Represents l k.ms x (fun j => ⌈(modulusProd k.ms * F j : ℚ) / e.ctx.t⌉) ∧ (∀ j, F j < e.ctx.t) ∧
      ∀ j < 2 ^ l, slotsOf (nttRoot l e.mt) l (fun j => (F j : ℤ)) j =
        (((mss.getD i []).getD j 0 : ℕ) : ZMod e.mt.N) := by
    intro i
    by_cases h : i < mss.length
    · rw [List.getD_eq_getElem _ _ h, hkm]
      obtain ⟨h1, h2, -⟩ := hmsg mss[i] (List.getElem_mem _)
      obtain ⟨x, F, h1, -, h2⟩ := c50_encode_bfv he hb (by rw [← hkm]; exact hk.nonempty) h1 h2
      exact ⟨x, F, fun _ => ⟨h1, h2⟩⟩
    · exact ⟨⟨0, [], false⟩, 0, fun h' => absurd h' h⟩
  choose pts F hF' using hF'
  have hlen' : (mss.map fun msgs =>
      RnsErrorTrack.encryptBfv1 P bytesSource fuel k (finiteFieldEncoder est e) msgs).length = mss.length := by simp
  refine (le_trans (le_of_eq ?_) ((many_draws_tail hk ⟨⟨[], [], 0⟩, 0⟩
    (Φ := fun i j => ⌈(modulusProd k.ms * F i j : ℚ) / e.ctx.t⌉) (B := P.bSecretKey) (c := 1) (fuel := fuel)
    (fun i hi => ?_) (good := fun xs => ∀ (u : BCircuit (Fin mss.length)) (N : RPoly → Fin (2 ^ l) → ℤ) (ρ : RPoly → ℝ),
      u.Linear P l e.ctx.t k.ms N ρ →
        ∃ r, u.runTracked P est e.ctx (fun i : Fin mss.length => xs.getD i ⟨⟨[], [], 0⟩, 0⟩) = .ok r ∧
          (e.ctx.t * (r.error + u.lacking P ρ) < (1 / 2 - ε) * modulusProd k.ms →
            k.decryptBfv (finiteFieldEncoder est e) r.ct =
              .ok (List.ofFn fun i : Fin (2 ^ l) =>
                (u.eval (fun j : Fin mss.length => (((mss.getD j []).getD i 0 : ℕ) : ZMod e.mt.N))
                  (fun p => slotsOf (nttRoot l e.mt) l (N p) i)).val))) ?_ L).trans (le_of_eq (by rw [hlen']))))
  · congr 1
    funext t
    simp only [not_forall, exists_prop]
  · rw [hlen'] at hi
    obtain ⟨h1, h2, -⟩ := hF' i hi
    rw [List.getD_eq_getElem _ _ hi] at h1
    rw [List.getElem_map]
    exact bfv_draws hk.good (enc := finiteFieldEncoder est e) h1 h2 P fuel
  · intro xs hxs u N ρ hu
    have hxs' : ∀ i : Fin mss.length, Fresh k (xs.getD i ⟨⟨[], [], 0⟩, 0⟩).ct ∧
        BfvEstimated l S e.ctx.t (xs.getD i ⟨⟨[], [], 0⟩, 0⟩) (fun j => (F i j : ℤ)) 0 := by
      intro i
      obtain ⟨c1, c2, E, c3, c4, -⟩ := hxs i (by rw [hlen']; exact i.2)
      refine ⟨c1, _, c3, ?_⟩
      obtain ⟨-, -, f3, f4⟩ := hF' i i.2
      have h1 := (hmsg (mss.getD i []) (by rw [List.getD_eq_getElem _ _ i.2]; exact List.getElem_mem _)).2.2 _ f3 f4
      have h2 := h1.add ((hP.size c4).smul (e.ctx.t : ℤ))
      rw [c1.1]
      have h3 : ((fun j => (e.ctx.t : ℤ) * ⌈(modulusProd k.ms * F i j : ℚ) / e.ctx.t⌉ - modulusProd k.ms * F i j) +
          fun j => (e.ctx.t : ℤ) * E j) = fun j => (e.ctx.t : ℤ) *
            (⌈(modulusProd k.ms * F i j : ℚ) / e.ctx.t⌉ + (1 : ℕ) * E j) - modulusProd k.ms * (F i j : ℤ) := by
        funext j
        simp only [Pi.add_apply]
        push_cast
        ring
      rw [h3] at h2
      refine h2.mono ?_
      rw [c2, bSecretKey_eq, Int.cast_natCast, Nat.abs_cast, ← mul_add, add_zero]
      refine mul_le_mul_of_nonneg_left (add_le_add_right ?_ _) (Nat.cast_nonneg _)
      have h4 := hP.one_le
      have h5 : 0 ≤ 6 * P.sigma * √P.dim := by have := hP.sigma_nonneg; positivity
      nlinarith
    obtain ⟨r, r1, r2, r3, r4, r5, r6⟩ := c66_bfv_computation_partial hg (pow := 1) (d := 2) (by norm_num) P est e.ctx
      (fun i => ⟨(hxs' i).1.1, (hxs' i).1.2.1, (hxs' i).1.2.2, (hxs' i).2⟩) u hu
    refine ⟨r, r1, fun hv => ?_⟩
    rw [(c66_bfv_decrypt (lev := e.ctx.qs.length) hest hε he.ctx hb he.mt.create he.N (by rw [hkm, List.take_length])
      hk.nonempty hlen hk.good.key r3 (List.length_pos_iff.mp (by omega)) r4 r6 hv).2 e he rfl rfl]
    congr 2
    funext i
    have hz : nttRoot l e.mt ^ 2 ^ l = -1 := by rw [nttRoot_eq he.mt tb]; exact tb.root
    rw [bslots_evalPoly hz tb.l1]
    congr 2
    funext j
    exact (hF' j j.2).2.2.2 i i.2

/-! ## Concrete cases -/

/-- The parameters of the examples: `n = 4`, 5-bit plaintext moduli, standard deviation 1. -/
theorem exRErrorParams : ParamsFor ⟨2, 5, 1⟩ 2 1 := ⟨rfl, by simp, by norm_num⟩

theorem exPlaintext {F : Fin (2 ^ 2) → ℤ} (h : ∀ i, 2 * |F i| ≤ 17 * 2) :
    SizeAtMost F (⟨2, 5, 1⟩ : RErrorParams).bPlaintext := by
  have hdim : (⟨2, 5, 1⟩ : RErrorParams).dim = 4 := by unfold RErrorParams.dim; norm_num
  have h4 : √(4 : ℝ) = 2 := by rw [show (4 : ℝ) = 2 ^ 2 by norm_num]; exact Real.sqrt_sq (by norm_num)
  have h3 : (1.7 : ℝ) ≤ √(3 : ℝ) := by apply Real.le_sqrt_of_sq_le; norm_num
  refine (size_of_coeff (B := 17) (by norm_num) (fun i => ?_)).mono ?_
  · have h' : 2 * |(F i : ℝ)| ≤ 17 * 2 := by exact_mod_cast h i
    linarith
  · unfold RErrorParams.bPlaintext RErrorParams.exportT
    rw [hdim, Real.sqrt_mul (by norm_num), h4]
    norm_num
    linarith

/-- `c88_program` for encryptions of any messages, of every number of them, with `Q = 97 * 193`, `t = 17`. -/
example (est : Estimate) : ∃ e k S hatInvs, k.ms = exMs ∧ RoomyKey 16 2 k S ∧ GoodEncoder 16 2 e ∧
    ∀ mss : List (List ℕ), (∀ msgs ∈ mss, (∀ a ∈ msgs, a < 2 ^ 16) ∧ msgs.length ≤ 4) → ∀ L : ℕ,
    bytesProbability L (fun t => ∃ xs s, inSequence (mss.map fun msgs =>
        RnsErrorTrack.encryptBgv ⟨2, 5, 1⟩ bytesSource 100 k (finiteFieldEncoder est e) msgs) t = .ok (xs, s) ∧
      ∃ (u : RCircuit (Fin mss.length)) (M : RPoly → Fin (2 ^ 2) → ℤ) (r : RTracked), u.PlainsOk 16 2 k.ms M ∧
        u.Within ⟨2, 5, 1⟩ M ∧ u.runTracked ⟨2, 5, 1⟩ (fun i : Fin mss.length => xs.getD i ⟨⟨[], [], 0⟩, 0⟩) = .ok r ∧
        2 * r.error < modulusProd k.ms ∧
        k.decryptBgvWithCrt 32 e r.ct (modulusComplements 32 k.ms) hatInvs ≠
          .ok (List.ofFn fun i : Fin (2 ^ 2) => (u.eval (fun j : Fin mss.length => (((mss.getD j []).getD i 0 : ℕ) : ZMod e.mt.N))
            (fun p => slotsOf (nttRoot 2 e.mt) 2 (M p) i)).val)) ≤
      mss.length * (8 * 2 ^ 2 * exp (-30)) := by
  obtain ⟨e, he, hq, ht⟩ := exampleEncoder
  obtain ⟨k, S, hk, km, kv⟩ := exKey_roomy
  have hqs := exMs_of he.ctx.qs hq
  have hl : e.ctx.qs.length = 2 := by rw [hqs]; rfl
  obtain ⟨⟨a, -, ha⟩, -⟩ := level_consts he.ctx (k := 2) (by norm_num) hl.ge
  rw [List.take_of_length_le hl.le, hqs, ← km] at ha
  have hQ : modulusProd k.ms = 18721 := by unfold modulusProd; rw [km, ← hqs, hq]; rfl
  refine ⟨e, k, S, a, km, hk, he, fun mss hm L => ?_⟩
  refine c88_program (lev := 2) est he hk (by rw [List.take_of_length_le hl.le, hqs, km]) (by rw [kv]; exact exRErrorParams) ?_
    (by rw [ht]; norm_num) (by rw [ht, hQ]; norm_num) ?_ ha (fun msgs h => ⟨(hm msgs h).1, (hm msgs h).2, fun F h1 _ => ?_⟩) 100 L
  · rw [ht]; unfold RErrorParams.exportT; norm_num
  · intro m hm
    have : m.N ∈ [97, 193] := by rw [← hq, hqs, ← km]; exact List.mem_map_of_mem hm
    have : m.N ≤ 193 := by simp at this; omega
    rw [hQ]; omega
  · refine exPlaintext fun i => ?_
    have := h1 i
    rw [ht] at this
    push_cast at this
    omega

/-- Nontrivial computations meet the conditions of `c88_program`: the sum of two fresh ciphertexts. -/
example {k : RKey} {S : Fin (2 ^ 2) → ℤ} (hk : RoomyKey 16 2 k S) (km : k.ms = exMs) {x y : RTracked} (hx : Fresh k x.ct)
    (hy : Fresh k y.ct) {F G : Fin (2 ^ 2) → ℤ} (ex : Encrypts 2 S x.ct F) (ey : Encrypts 2 S y.ct G)
    (e1 : x.error = (⟨2, 5, 1⟩ : RErrorParams).bSecretKey) (e2 : y.error = (⟨2, 5, 1⟩ : RErrorParams).bSecretKey) :
    ∃ r, (RCircuit.add (.input true) (.input false)).runTracked ⟨2, 5, 1⟩ (fun b => if b then x else y) = .ok r ∧
      2 * r.error < modulusProd k.ms := by
  have hQ : modulusProd k.ms = 18721 := by rw [km]; decide +kernel
  obtain ⟨r, r1, -⟩ := c53_add (by rw [hx.1]; exact hk.good.good) (hy.1.trans hx.1.symm) (hy.2.1.trans hx.2.1.symm)
    (hy.2.2.trans hx.2.2.symm) ex ey
  refine ⟨⟨r, x.error + y.error⟩, ?_, ?_⟩
  · simp only [RCircuit.runTracked, Outcome.bind_ok, if_true, Bool.false_eq_true, if_false, RTracked.add, r1]
    rfl
  · show 2 * (x.error + y.error) < _
    have hdim : (⟨2, 5, 1⟩ : RErrorParams).dim = 4 := by unfold RErrorParams.dim; norm_num
    have h4 : √(4 : ℝ) = 2 := by rw [show (4 : ℝ) = 2 ^ 2 by norm_num]; exact Real.sqrt_sq (by norm_num)
    have h3 : √(3 : ℝ) ≤ 2 := by rw [Real.sqrt_le_left (by norm_num)]; norm_num
    rw [e1, e2, hQ, bSecretKey_eq]
    unfold RErrorParams.bPlaintext RErrorParams.exportT
    rw [hdim, Real.sqrt_mul (by norm_num), h4]
    norm_num
    linarith

/-- `c88_bfv_program` for encryptions of any messages, with `Q = 97 * 193 * 257`, `t = 17`. -/
example : ∃ e k S, k.ms = exMs3 ∧ RoomyKey 16 2 k S ∧ GoodEncoder 16 2 e ∧ BfvConstants e.ctx e.mt ∧
    ∀ mss : List (List ℕ), (∀ msgs ∈ mss, (∀ a ∈ msgs, a < 2 ^ 16) ∧ msgs.length ≤ 4) → ∀ L : ℕ,
    bytesProbability L (fun t => ∃ xs s, inSequence (mss.map fun msgs =>
        RnsErrorTrack.encryptBfv1 ⟨2, 5, 1⟩ bytesSource 100 k (finiteFieldEncoder exactEstimate e) msgs) t = .ok (xs, s) ∧
      ∃ (u : BCircuit (Fin mss.length)) (N : RPoly → Fin (2 ^ 2) → ℤ) (ρ : RPoly → ℝ),
        u.Linear ⟨2, 5, 1⟩ 2 e.ctx.t k.ms N ρ ∧
        ¬ ∃ r, u.runTracked ⟨2, 5, 1⟩ exactEstimate e.ctx (fun i : Fin mss.length => xs.getD i ⟨⟨[], [], 0⟩, 0⟩) = .ok r ∧
          (e.ctx.t * (r.error + u.lacking ⟨2, 5, 1⟩ ρ) < (1 / 2 - (0 : ℚ)) * modulusProd k.ms →
            k.decryptBfv (finiteFieldEncoder exactEstimate e) r.ct =
              .ok (List.ofFn fun i : Fin (2 ^ 2) =>
                (u.eval (fun j : Fin mss.length => (((mss.getD j []).getD i 0 : ℕ) : ZMod e.mt.N))
                  (fun p => slotsOf (nttRoot 2 e.mt) 2 (N p) i)).val))) ≤
      mss.length * (8 * 2 ^ 2 * exp (-30)) := by
  obtain ⟨e, he, hb, hq, hp, ht⟩ := exBfvEncoder
  obtain ⟨k, S, -, hk, km, kv, -⟩ := exKey3
  have hqs := exMs3_of he.ctx.qs hq
  have hk' : RoomyKey 16 2 k S := ⟨hk, by norm_num, by rw [km]; simp [exMs3], by rw [kv]; norm_num, by rw [kv]; norm_num, by
    rw [km, kv]; decide +kernel⟩
  refine ⟨e, k, S, km, hk', he, hb, fun mss hm L => ?_⟩
  refine c88_bfv_program he hb hk' (by rw [km, hqs]) (exactEstimate_within _) (by norm_num) (by rw [km]; decide)
    (by rw [kv]; exact exRErrorParams) (fun msgs h => ⟨(hm msgs h).1, (hm msgs h).2, fun F h1 _ => ?_⟩) 100 L
  have hc := c57_encoding (l := 2) (Q := modulusProd k.ms) he.ctx.pos (fun j => (F j : ℤ))
  refine (size_of_coeff (B := 17) (by norm_num) (fun i => ?_)).mono ?_
  · have h1 := hc i
    rw [ht] at h1 ⊢
    simp only [Int.cast_natCast] at h1
    exact_mod_cast h1
  · have hdim : (⟨2, 5, 1⟩ : RErrorParams).dim = 4 := by unfold RErrorParams.dim; norm_num
    have h4 : √(4 : ℝ) = 2 := by rw [show (4 : ℝ) = 2 ^ 2 by norm_num]; exact Real.sqrt_sq (by norm_num)
    have h3 : (1.7 : ℝ) ≤ √(3 : ℝ) := by apply Real.le_sqrt_of_sq_le; norm_num
    rw [ht]
    unfold RErrorParams.bPlaintext RErrorParams.exportT
    rw [hdim, Real.sqrt_mul (by norm_num), h4]
    norm_num
    linarith

/-- `c88_public_bgv`: keys sampled with the bytes of any generator for the mask. -/
example (est : Estimate) (Gp : Gen τ) (sp : τ) : ∃ e, GoodEncoder 16 2 e ∧ ∀ msgs : List ℕ, (∀ a ∈ msgs, a < 2 ^ 16) →
    msgs.length ≤ 4 → ∃ M : Fin (2 ^ 2) → ℤ, ∀ L₁ L₂ L₃, bytesProbability₃ L₁ L₂ L₃ (fun t₁ t₂ t₃ => ∃ k s pk x s',
      RKey.sample bytesSource 2 1 exMs t₁ = .ok (k, s) ∧
      RPub.create Gp bytesSource 100 k 1 e.ctx.t sp t₂ = .ok pk ∧
      encryptBgvPublic ⟨2, 5, 1⟩ bytesSource pk (finiteFieldEncoder est e) msgs t₃ = .ok (x, s') ∧
      ¬ ∃ S E : Fin (2 ^ 2) → ℤ, KeyIs 2 k S ∧ REstimated 2 S x fun i => M i + e.ctx.t * E i) ≤
      5 * (8 * 2 ^ 2 * exp (-30)) := by
  obtain ⟨e, he, hq, ht⟩ := exampleEncoder
  have hqs := exMs_of he.ctx.qs hq
  have h97 : ∀ m ∈ exMs.head?, 4 * (1 : ℤ) < m.N := by
    intro m hm
    have : m = exampleModulus 16 2 97 := by simpa [exMs] using hm.symm
    subst this
    decide +kernel
  refine ⟨e, he, fun msgs hw hn => ?_⟩
  obtain ⟨p, F, p1, p2, p3, p4, p5⟩ := c50_encode_bgv he (ms := exMs) (by simp [exMs]) (fun m hm => by rw [hqs]; exact hm) hw hn
  refine ⟨F, fun L₁ L₂ L₃ => ?_⟩
  exact c88_public_bgv (enc := finiteFieldEncoder est e) Gp exMs_good (by decide +kernel) (by simp [exMs]) (by norm_num)
    (by norm_num) (by norm_num) (by norm_num) h97 h97 exRErrorParams exRErrorParams (by
      show (e.ctx.t : ℝ) ≤ _
      rw [ht]; unfold RErrorParams.exportT; norm_num) p1 p3 (exPlaintext fun i => by
        have := p4 i
        rw [ht] at this
        push_cast at this
        omega) (by show e.ctx.t < _; rw [ht]; norm_num) 100 sp L₁ L₂ L₃

end Shell
