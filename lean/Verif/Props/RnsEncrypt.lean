import Verif.Props.RnsLevels
import Verif.Lemmas.RnsSample
import Verif.Props.FiniteField
/-!
# Property C55: key generation and encryption

The generators are arbitrary (`Words G`: bytes are below `2^8`, words below `2^64`), in any state.
-/

namespace Shell
open Spec Rns
variable {σ τ : Type} {w l : ℕ} {S Φ Ψ M : Fin (2 ^ l) → ℤ} {x y : RCt} {pt : RPoly}

/-! ### Samplers -/

/-- C55: `SampleUniform` returns a polynomial in NTT form. -/
theorem c55_sampleUniform (G : Gen σ) {fuel : ℕ} {ms : List Modulus} (hg : ∀ m ∈ ms, GoodModulus w l m)
    (hc : (ms.map (·.N)).Pairwise Nat.Coprime) {s s' : σ} {a : RPoly}
    (h : sampleUniform G fuel l ms s = .ok (a, s')) : a.ntt = true ∧ ∃ A, Represents l ms a A :=
  sampleUniform_ok G hg hc h

/-- C55: `SampleError` returns a polynomial with coefficients between `-2 variance` and `2 variance`, and
`SampleUniformTernary` one with coefficients -1, 0 and 1, the same modulo all moduli. -/
theorem c55_sampleError (G : Gen σ) (hG : Words G) {ms : List Modulus} (hg : ∀ m ∈ ms, GoodModulus w l m)
    {s s' : σ} {e : RPoly} :
    (∀ v : ℤ, (∀ m ∈ ms.head?, 2 * v ≤ m.N) → sampleErr G l v ms s = .ok (e, s') →
      e.ntt = true ∧ ∃ E, Represents l ms e E ∧ ∀ i, |E i| ≤ 2 * v) ∧
    (∀ fuel, sampleTernary G fuel l ms s = .ok (e, s') →
      e.ntt = true ∧ ∃ E, Represents l ms e E ∧ ∀ i, |E i| ≤ 1) :=
  ⟨fun _ hv h => sampleErr_ok G hG hg hv h, fun _ h => sampleTernary_ok G hg h⟩

/-- C55: a sampled secret key holds a secret with coefficients at most `2 variance`. -/
theorem c55_key_sample (G : Gen σ) (hG : Words G) {ms : List Modulus} (hg : ∀ m ∈ ms, GoodModulus w l m)
    {v : ℤ} (hv : ∀ m ∈ ms.head?, 2 * v ≤ m.N) {s s' : σ} {k : RKey}
    (h : RKey.sample G l v ms s = .ok (k, s')) :
    k.ms = ms ∧ k.variance = v ∧ ∃ S, KeyIs l k S ∧ ∀ i, |S i| ≤ 2 * v := by
  unfold RKey.sample at h
  obtain ⟨_, h⟩ | ⟨_, h⟩ := ite_eq_iff.mp h
  · cases h
  obtain ⟨_, h⟩ | ⟨_, h⟩ := ite_eq_iff.mp h
  · cases h
  obtain ⟨_, h⟩ | ⟨_, h⟩ := ite_eq_iff.mp h
  · cases h
  obtain ⟨⟨e, s1⟩, h1, h⟩ := Outcome.bind_eq_ok.mp h
  cases h
  obtain ⟨e1, E, e2, e3⟩ := sampleErr_ok G hG hg hv h1
  exact ⟨rfl, rfl, E, ⟨e1, e2⟩, e3⟩

/-! ### Encryption with the secret key -/

/-- What the encryption functions need of a key: good coprime moduli, the secret `S`, and an error
variance that fits the first modulus. -/
structure GoodKey (w l : ℕ) (k : RKey) (S : Fin (2 ^ l) → ℤ) : Prop where
  good : ∀ m ∈ k.ms, GoodModulus w l m
  coprime : (k.ms.map (·.N)).Pairwise Nat.Coprime
  key : KeyIs l k S
  variance : ∀ m ∈ k.ms.head?, 2 * k.variance ≤ m.N

/-- The shape of a fresh encryption. -/
def Fresh (k : RKey) (x : RCt) : Prop := x.ms = k.ms ∧ x.power = 1 ∧ x.c.length = 2

theorem negMul_neg_comm (S A : Fin (2 ^ l) → ℤ) : negMul S (-A) = -negMul A S := by
  have h : negMul S (-A) + negMul A S = 0 := by
    rw [NR.negMul_comm A, ← NR.negMul_add, neg_add_cancel, NR.negMul_zero]
  exact eq_neg_of_add_eq_zero_left h

theorem encrypts_fresh {c0 a : RPoly} {ms : List Modulus} {C A : Fin (2 ^ l) → ℤ} (h1 : Comp l ms c0 C)
    (h2 : Comp l ms a A) (h : CongMod (modulusProd ms) (C + negMul S A) Φ) :
    Encrypts l S ⟨[c0, a], ms, 1⟩ Φ := by
  refine ⟨by norm_num, [C, A], .cons h1 (.cons h2 .nil), ?_⟩
  show CongMod _ (innerProduct (substPow 1 S) _) _
  rw [Expand.substPow_one]
  simp only [innerProduct, NR.negMul_zero, add_zero]
  exact h

/-- C55: encrypting the plaintext polynomial `M` for BGV gives a ciphertext of degree 1 that stands for
`M + t E`, with `E` at most `2 variance`; it fails only if the sampling fails. -/
theorem c55_encrypt_polynomial (G : Gen σ) (hG : Words G) {fuel : ℕ} {k : RKey} (hk : GoodKey w l k S)
    (hn : pt.ntt = true) (hpt : Represents l k.ms pt M) {t : ℕ} (ht : t < 2 ^ w) {s s1 s2 : σ} {a e : RPoly}
    (ha : sampleUniform G fuel k.key.logN k.ms s = .ok (a, s1))
    (he : sampleErr G k.key.logN k.variance k.ms s1 = .ok (e, s2)) :
    ∃ (x : RCt) (E : Fin (2 ^ l) → ℤ), k.encryptPolynomialBgv G fuel pt t s = .ok (x, s2) ∧ Fresh k x ∧
      Encrypts l S x (fun i => M i + t * E i) ∧ ∀ i, |E i| ≤ 2 * k.variance := by
  have hlog : k.key.logN = l := hk.key.2.1
  have hg := hk.good
  have ha' := ha
  have he' := he
  rw [hlog] at ha' he'
  obtain ⟨a1, A, a2⟩ := sampleUniform_ok G hg hk.coprime ha'
  obtain ⟨e1, E, e2, e3⟩ := sampleErr_ok G hG hg hk.variance he'
  obtain ⟨u, u1, u2, u3⟩ := repr_mulInt hg e2 ht
  obtain ⟨v, v1, v2, v3⟩ := repr_add hg u3 hpt (by rw [u2, e1, hn])
  obtain ⟨z, z1, z2, z3⟩ := repr_fusedMulAdd hg v3 a2 hk.key.2 (by rw [v2, u2, e1]) a1 hk.key.1
  obtain ⟨b, b1, b2, b3⟩ := repr_negateInPlace hg a2
  refine ⟨⟨[z, b], k.ms, 1⟩, E, ?_, ⟨rfl, rfl, rfl⟩, encrypts_fresh ⟨z2, z3⟩ ⟨b2.trans a1, b3⟩ ?_, e3⟩
  · unfold RKey.encryptPolynomialBgv
    rw [if_neg (by simp [hn]), ha, Outcome.bind_ok]
    simp only [he, Outcome.bind_ok, u1, v1, z1, b1]
    rfl
  · have : (fun i => (t : ℤ) * E i) + M + negMul A S + negMul S (-A) = fun i => M i + t * E i := by
      have e0 : negMul S (-A) = -negMul A S := by
        exact negMul_neg_comm S A
      rw [e0]
      funext i
      simp only [Pi.add_apply, Pi.neg_apply]; ring
    rw [this]; exact CongMod.refl _

/-- C55: `EncryptBgv` encrypts what the encoder made of the messages. -/
theorem c55_encrypt_bgv (G : Gen σ) (hG : Words G) {fuel : ℕ} {k : RKey} (hk : GoodKey w l k S)
    {E : Encoder} {msgs : List ℕ} (hE : E.encodeBgv msgs k.ms = .ok pt) (hpt : Represents l k.ms pt M)
    (ht : E.t < 2 ^ w) {s s1 s2 : σ} {a e : RPoly}
    (ha : sampleUniform G fuel k.key.logN k.ms s = .ok (a, s1))
    (he : sampleErr G k.key.logN k.variance k.ms s1 = .ok (e, s2)) :
    ∃ (x : RCt) (R : Fin (2 ^ l) → ℤ), k.encryptBgv G fuel E msgs s = .ok (x, s2) ∧ Fresh k x ∧
      Encrypts l S x (fun i => M i + E.t * R i) ∧ ∀ i, |R i| ≤ 2 * k.variance := by
  obtain ⟨p, p1, p2, p3⟩ : ∃ p, plainNtt k.ms pt = .ok p ∧ p.ntt = true ∧ Represents l k.ms p M := by
    unfold plainNtt
    cases hb : pt.ntt with
    | true => exact ⟨pt, by simp, hb, hpt⟩
    | false =>
      obtain ⟨r, r1, r2, r3⟩ := repr_toNtt hk.good hpt hb
      exact ⟨r, by simpa using r1, r2, r3⟩
  obtain ⟨x, R, x1, x2⟩ := c55_encrypt_polynomial G hG hk p2 p3 ht ha he
  refine ⟨x, R, ?_, x2⟩
  unfold RKey.encryptBgv
  rw [hE, Outcome.bind_ok, p1, Outcome.bind_ok, x1]

theorem encryptBfv_core {k : RKey} (hk : GoodKey w l k S) (hn : pt.ntt = true) (hpt : Represents l k.ms pt M)
    {a e : RPoly} {A E : Fin (2 ^ l) → ℤ} (a1 : a.ntt = true) (a2 : Represents l k.ms a A)
    (e1 : e.ntt = true) (e2 : Represents l k.ms e E) :
    ∃ v z b, Rns.add k.ms e pt = .ok v ∧ fusedMulAdd k.ms v a k.key = .ok z ∧
      negateInPlace k.ms a = .ok b ∧ Encrypts l S ⟨[z, b], k.ms, 1⟩ (M + E) := by
  have hg := hk.good
  obtain ⟨v, v1, v2, v3⟩ := repr_add hg e2 hpt (by rw [e1, hn])
  obtain ⟨z, z1, z2, z3⟩ := repr_fusedMulAdd hg v3 a2 hk.key.2 (by rw [v2, e1]) a1 hk.key.1
  obtain ⟨b, b1, b2, b3⟩ := repr_negateInPlace hg a2
  refine ⟨v, z, b, v1, z1, b1, encrypts_fresh ⟨z2, z3⟩ ⟨b2.trans a1, b3⟩ ?_⟩
  have : E + M + negMul A S + negMul S (-A) = M + E := by
    rw [negMul_neg_comm]; abel
  rw [this]; exact CongMod.refl _

/-- C55: `EncryptBfv` with one or two generators gives a ciphertext of degree 1 that stands for the encoded
plaintext plus an error of at most `2 variance`. -/
theorem c55_encrypt_bfv (G : Gen σ) (hG : Words G) (Gp : Gen τ) {fuel : ℕ} {k : RKey} (hk : GoodKey w l k S)
    {E : Encoder} {msgs : List ℕ} (hE : E.encodeBfv msgs k.ms = .ok pt) (hpt : Represents l k.ms pt M) :
    (∀ {s s1 s2 : σ} {a e : RPoly}, sampleUniform G fuel k.key.logN k.ms s = .ok (a, s1) →
      sampleErr G k.key.logN k.variance k.ms s1 = .ok (e, s2) →
      ∃ (x : RCt) (R : Fin (2 ^ l) → ℤ), k.encryptBfv1 G fuel E msgs s = .ok (x, s2) ∧ Fresh k x ∧ Encrypts l S x (M + R) ∧
        ∀ i, |R i| ≤ 2 * k.variance) ∧
    (∀ {s s1 : σ} {sp sp1 : τ} {a e : RPoly}, sampleUniform Gp fuel k.key.logN k.ms sp = .ok (a, sp1) →
      sampleErr G k.key.logN k.variance k.ms s = .ok (e, s1) →
      ∃ (x : RCt) (R : Fin (2 ^ l) → ℤ), k.encryptBfv G Gp fuel E msgs s sp = .ok (x, s1, sp1) ∧ Fresh k x ∧ Encrypts l S x (M + R) ∧
        ∀ i, |R i| ≤ 2 * k.variance) := by
  have hlog : k.key.logN = l := hk.key.2.1
  obtain ⟨p, p1, p2, p3⟩ : ∃ p, plainNtt k.ms pt = .ok p ∧ p.ntt = true ∧ Represents l k.ms p M := by
    unfold plainNtt
    cases hb : pt.ntt with
    | true => exact ⟨pt, by simp, hb, hpt⟩
    | false =>
      obtain ⟨r, r1, r2, r3⟩ := repr_toNtt hk.good hpt hb
      exact ⟨r, by simpa using r1, r2, r3⟩
  constructor
  · intro s s1 s2 a e ha he
    have ha' := ha
    have he' := he
    rw [hlog] at ha' he'
    obtain ⟨a1, A, a2⟩ := sampleUniform_ok G hk.good hk.coprime ha'
    obtain ⟨e1, R, e2, e3⟩ := sampleErr_ok G hG hk.good hk.variance he'
    obtain ⟨v, z, b, v1, z1, b1, h⟩ := encryptBfv_core hk p2 p3 a1 a2 e1 e2
    refine ⟨_, R, ?_, ⟨rfl, rfl, rfl⟩, h, e3⟩
    unfold RKey.encryptBfv1
    rw [hE, Outcome.bind_ok, p1, Outcome.bind_ok, ha, Outcome.bind_ok]
    simp only [he, Outcome.bind_ok, v1, z1, b1]
    rfl
  · intro s s1 sp sp1 a e ha he
    have ha' := ha
    have he' := he
    rw [hlog] at ha' he'
    obtain ⟨a1, A, a2⟩ := sampleUniform_ok Gp hk.good hk.coprime ha'
    obtain ⟨e1, R, e2, e3⟩ := sampleErr_ok G hG hk.good hk.variance he'
    obtain ⟨v, z, b, v1, z1, b1, h⟩ := encryptBfv_core hk p2 p3 a1 a2 e1 e2
    refine ⟨_, R, ?_, ⟨rfl, rfl, rfl⟩, h, e3⟩
    unfold RKey.encryptBfv
    rw [hE, Outcome.bind_ok, p1, Outcome.bind_ok, ha, Outcome.bind_ok]
    simp only [he, Outcome.bind_ok, v1, z1, b1]
    rfl

/-! ### Public keys -/

/-- The public key `(b, a)` is an encryption of zero under `S`: `b + a s = c E` modulo `Q`, with `E` at most
`2 variance`; `c` is `t` for BGV and 1 for BFV. -/
def PublicKeyOf (l : ℕ) (k : RPub) (S : Fin (2 ^ l) → ℤ) (c : ℕ) : Prop :=
  k.a.ntt = true ∧ k.b.ntt = true ∧ ∃ A B E : Fin (2 ^ l) → ℤ, Represents l k.ms k.a A ∧ Represents l k.ms k.b B ∧
    CongMod (modulusProd k.ms) (B + negMul S A) (fun i => c * E i) ∧ ∀ i, |E i| ≤ 2 * k.variance

/-- C55: `Create` makes a public key of the secret key. -/
theorem c55_public_key (Gp : Gen τ) (G : Gen σ) (hG : Words G) {fuel : ℕ} {k : RKey} (hk : GoodKey w l k S)
    {v : ℤ} (hv : ∀ m ∈ k.ms.head?, 2 * v ≤ m.N) {c : ℕ} (hc : c < 2 ^ w) {sp sp' : τ} {s s' : σ}
    (hv0 : 0 < v) {a e : RPoly} (ha : sampleUniform Gp fuel k.key.logN k.ms sp = .ok (a, sp'))
    (he : sampleErr G k.key.logN v k.ms s = .ok (e, s')) :
    ∃ pk, RPub.create Gp G fuel k v c sp s = .ok pk ∧ pk.ms = k.ms ∧ pk.variance = v ∧
      PublicKeyOf l pk S c := by
  have hlog : k.key.logN = l := hk.key.2.1
  have hg := hk.good
  have ha' := ha
  have he' := he
  rw [hlog] at ha' he'
  obtain ⟨a1, A, a2⟩ := sampleUniform_ok Gp hg hk.coprime ha'
  obtain ⟨e1, E, e2, e3⟩ := sampleErr_ok G hG hg hv he'
  obtain ⟨u, u1, u2, u3⟩ := repr_mulInt hg e2 hc
  obtain ⟨z, z1, z2, z3⟩ := repr_fusedMulAdd hg u3 a2 hk.key.2 (u2.trans e1) a1 hk.key.1
  obtain ⟨b, b1, b2, b3⟩ := repr_negateInPlace hg a2
  refine ⟨⟨b, z, k.ms, v⟩, ?_, rfl, rfl, b2.trans a1, z2, -A, _, E, b3, z3, ?_, e3⟩
  · unfold RPub.create
    rw [if_neg (by omega), ha, Outcome.bind_ok]
    simp only [he, Outcome.bind_ok, u1, z1, b1]
    rfl
  · have : (fun i => (c : ℤ) * E i) + negMul A S + negMul S (-A) = fun i => c * E i := by
      have e0 : negMul S (-A) = -negMul A S := by
        exact negMul_neg_comm S A
      rw [e0]
      funext i
      simp only [Pi.add_apply, Pi.neg_apply]; ring
    rw [this]; exact CongMod.refl _

/-- The noise of a public-key encryption. -/
theorem public_noise {V : ℤ} (hV : 0 ≤ V) {E R E0 E1 : Fin (2 ^ l) → ℤ} (hE : ∀ i, |E i| ≤ V)
    (hR : ∀ i, |R i| ≤ V) (h0 : ∀ i, |E0 i| ≤ V) (h1 : ∀ i, |E1 i| ≤ V) (i : Fin (2 ^ l)) :
    |(negMul E R + E0 + negMul S E1) i| ≤ V * (2 ^ l * V + 1 + norm1 S) := by
  have b1 := negMul_bound E R V hV hR i
  have b2 := negMul_bound S E1 V hV h1 i
  have b3 : norm1 E ≤ 2 ^ l * V := by
    unfold norm1
    refine (Finset.sum_le_sum fun i _ => hE i).trans ?_
    simp
  have b4 : norm1 E * V ≤ 2 ^ l * V * V := mul_le_mul_of_nonneg_right b3 hV
  simp only [Pi.add_apply]
  refine (abs_add_le _ _).trans ?_
  have := (abs_add_le (negMul E R i) (E0 i))
  have := h0 i
  nlinarith

/-- C55: public-key encryption for BGV stands for the encoded plaintext plus `t` times a bounded noise, under the
secret key. -/
theorem c55_public_encrypt_bgv (G : Gen σ) (hG : Words G) {k : RPub} (hg : ∀ m ∈ k.ms, GoodModulus w l m)
    (hv : ∀ m ∈ k.ms.head?, 2 * k.variance ≤ m.N) (hv0 : 0 ≤ k.variance) {E : Encoder}
    (hk : PublicKeyOf l k S E.t) {msgs : List ℕ} (hE : E.encodeBgv msgs k.ms = .ok pt)
    (hpt : Represents l k.ms pt M) (ht : E.t < 2 ^ w) {s s1 s2 s3 : σ} {r e0 e1 : RPoly}
    (hr : sampleErr G k.a.logN k.variance k.ms s = .ok (r, s1))
    (h0 : sampleErr G k.a.logN k.variance k.ms s1 = .ok (e0, s2))
    (h1 : sampleErr G k.a.logN k.variance k.ms s2 = .ok (e1, s3)) :
    ∃ (x : RCt) (N : Fin (2 ^ l) → ℤ), k.encryptBgv G E msgs s = .ok (x, s3) ∧ x.ms = k.ms ∧ x.power = 1 ∧ x.c.length = 2 ∧
      Encrypts l S x (fun i => M i + E.t * N i) ∧
      ∀ i, |N i| ≤ 2 * k.variance * (2 ^ l * (2 * k.variance) + 1 + norm1 S) := by
  obtain ⟨ka, kb, A, B, Ek, ha, hb, hab, hEk⟩ := hk
  have hlog : k.a.logN = l := ha.1
  obtain ⟨p, p1, p2, p3⟩ : ∃ p, plainNtt k.ms pt = .ok p ∧ p.ntt = true ∧ Represents l k.ms p M := by
    unfold plainNtt
    cases hb : pt.ntt with
    | true => exact ⟨pt, by simp, hb, hpt⟩
    | false =>
      obtain ⟨r, r1, r2, r3⟩ := repr_toNtt hg hpt hb
      exact ⟨r, by simpa using r1, r2, r3⟩
  have hr' := hr
  have h0' := h0
  have h1' := h1
  rw [hlog] at hr' h0' h1'
  obtain ⟨r1, R, r2, r3⟩ := sampleErr_ok G hG hg hv hr'
  obtain ⟨a1, E0, a2, a3⟩ := sampleErr_ok G hG hg hv h0'
  obtain ⟨b1, E1, b2, b3⟩ := sampleErr_ok G hG hg hv h1'
  obtain ⟨u, u1, u2, u3⟩ := repr_mulInt hg a2 ht
  obtain ⟨v, v1, v2, v3⟩ := repr_fusedMulAdd hg u3 hb r2 (u2.trans a1) kb r1
  obtain ⟨z, z1, z2, z3⟩ := repr_add hg v3 p3 (v2.trans p2.symm)
  obtain ⟨f, f1, f2, f3⟩ := repr_mulInt hg b2 ht
  obtain ⟨g, g1, g2, g3⟩ := repr_fusedMulAdd hg f3 ha r2 (f2.trans b1) ka r1
  refine ⟨⟨[z, g], k.ms, 1⟩, negMul Ek R + E0 + negMul S E1, ?_, rfl, rfl, rfl,
    encrypts_fresh ⟨z2.trans v2, z3⟩ ⟨g2, g3⟩ ?_, public_noise (by omega) hEk r3 a3 b3⟩
  · unfold RPub.encryptBgv
    rw [hE, Outcome.bind_ok, p1, Outcome.bind_ok, hr, Outcome.bind_ok]
    simp only [h0, Outcome.bind_ok, u1, v1, z1, h1, f1, g1]
    rfl
  · have e1 : (fun i => (E.t : ℤ) * E0 i) + negMul B R + M +
        negMul S ((fun i => (E.t : ℤ) * E1 i) + negMul A R) =
        negMul (B + negMul S A) R + ((fun i => (E.t : ℤ) * E0 i) + M + fun i => E.t * negMul S E1 i) := by
      rw [NR.negMul_add, negMul_smul, NR.add_negMul, NR.negMul_assoc]
      abel
    have e2 : (fun i => M i + (E.t : ℤ) * (negMul Ek R + E0 + negMul S E1) i) =
        negMul (fun i => (E.t : ℤ) * Ek i) R +
          ((fun i => (E.t : ℤ) * E0 i) + M + fun i => E.t * negMul S E1 i) := by
      rw [NR.negMul_comm (fun i => (E.t : ℤ) * Ek i) R, negMul_smul, NR.negMul_comm R]
      funext i
      simp only [Pi.add_apply]; ring
    rw [e1, e2]
    exact (hab.mul (CongMod.refl R)).add (CongMod.refl _)

/-- C55: public-key encryption for BFV. -/
theorem c55_public_encrypt_bfv (G : Gen σ) (hG : Words G) {k : RPub} (hg : ∀ m ∈ k.ms, GoodModulus w l m)
    (hv : ∀ m ∈ k.ms.head?, 2 * k.variance ≤ m.N) (hv0 : 0 ≤ k.variance) {E : Encoder}
    (hk : PublicKeyOf l k S 1) {msgs : List ℕ} (hE : E.encodeBfv msgs k.ms = .ok pt)
    (hpt : Represents l k.ms pt M) {s s1 s2 s3 : σ} {r e0 e1 : RPoly}
    (hr : sampleErr G k.a.logN k.variance k.ms s = .ok (r, s1))
    (h0 : sampleErr G k.a.logN k.variance k.ms s1 = .ok (e0, s2))
    (h1 : sampleErr G k.a.logN k.variance k.ms s2 = .ok (e1, s3)) :
    ∃ (x : RCt) (N : Fin (2 ^ l) → ℤ), k.encryptBfv G E msgs s = .ok (x, s3) ∧ x.ms = k.ms ∧ x.power = 1 ∧ x.c.length = 2 ∧
      Encrypts l S x (M + N) ∧
      ∀ i, |N i| ≤ 2 * k.variance * (2 ^ l * (2 * k.variance) + 1 + norm1 S) := by
  obtain ⟨ka, kb, A, B, Ek, ha, hb, hab, hEk⟩ := hk
  have hlog : k.a.logN = l := ha.1
  obtain ⟨p, p1, p2, p3⟩ : ∃ p, plainNtt k.ms pt = .ok p ∧ p.ntt = true ∧ Represents l k.ms p M := by
    unfold plainNtt
    cases hb : pt.ntt with
    | true => exact ⟨pt, by simp, hb, hpt⟩
    | false =>
      obtain ⟨r, r1, r2, r3⟩ := repr_toNtt hg hpt hb
      exact ⟨r, by simpa using r1, r2, r3⟩
  have hr' := hr
  have h0' := h0
  have h1' := h1
  rw [hlog] at hr' h0' h1'
  obtain ⟨r1, R, r2, r3⟩ := sampleErr_ok G hG hg hv hr'
  obtain ⟨a1, E0, a2, a3⟩ := sampleErr_ok G hG hg hv h0'
  obtain ⟨b1, E1, b2, b3⟩ := sampleErr_ok G hG hg hv h1'
  obtain ⟨v, v1, v2, v3⟩ := repr_fusedMulAdd hg a2 hb r2 a1 kb r1
  obtain ⟨z, z1, z2, z3⟩ := repr_add hg v3 p3 (v2.trans p2.symm)
  obtain ⟨g, g1, g2, g3⟩ := repr_fusedMulAdd hg b2 ha r2 b1 ka r1
  refine ⟨⟨[z, g], k.ms, 1⟩, negMul Ek R + E0 + negMul S E1, ?_, rfl, rfl, rfl,
    encrypts_fresh ⟨z2.trans v2, z3⟩ ⟨g2, g3⟩ ?_, public_noise (by omega) hEk r3 a3 b3⟩
  · unfold RPub.encryptBfv
    rw [hE, Outcome.bind_ok, p1, Outcome.bind_ok, hr, Outcome.bind_ok]
    simp only [h0, Outcome.bind_ok, v1, z1, h1, g1]
    rfl
  · have e1 : E0 + negMul B R + M + negMul S (E1 + negMul A R) =
        negMul (B + negMul S A) R + (E0 + M + negMul S E1) := by
      rw [NR.negMul_add, NR.add_negMul, NR.negMul_assoc]
      abel
    have e2 : M + (negMul Ek R + E0 + negMul S E1) = negMul Ek R + (E0 + M + negMul S E1) := by abel
    rw [e1, e2]
    refine (CongMod.mul ?_ (CongMod.refl R)).add (CongMod.refl _)
    simpa using hab

end Shell
