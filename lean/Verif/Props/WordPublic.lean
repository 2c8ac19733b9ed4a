import Verif.Spec.WordPublic
import Verif.Props.WordSwitch
import Verif.Props.PublicKey
import Verif.Props.Serialize
/-!
# Property C81: public-key encryption on stored words
-/

namespace Shell
open Spec WordCt ErrorTrack Sym MParams Ntt NttRing
variable {σ τ ρ : Type} {C : Ctx} {p : MParams} {q : NttParams}

/-! ## Agreement with the model over residues -/

/-- `c81_create` with the sample. -/
theorem public_create_drawn (hC : Fit C p) (ht : Tables p C.w C.q C.l C.psi q) (R : Word.Rng ρ) (hR : ∀ t, Words (R.gen t))
    (hcr : create C.w C.q = .ok p) {k : Word.Key} {K : Sym.Key C} (hk : HoldsKey C p q k K) {variance : ℤ}
    (hv : 2 * variance ≤ C.q) {fuel : ℕ} {prng : PrngType} {seed seedE : List ℕ} {pk : Word.PKey}
    (h : Word.PKey.create R fuel k variance prng seed seedE = .ok pk) :
    ∃ (a : C.Poly) (E : Fin C.n → ℤ) (PK : Pub.PKey C), (∀ i, |E i| ≤ 2 * variance) ∧
      Pub.create K variance prng a (modq C.q E) = .ok PK ∧ HoldsPublic C p q pk PK ∧
      ∃ t e t', R.start prng seedE = .ok t ∧ Sampler.sampleError (R.gen prng) p C.n variance.toNat t = .ok (e, t') ∧
        Poly.Rep p C.q C.n e (modq C.q E) := by
  unfold Word.PKey.create at h
  obtain ⟨_, h⟩ | ⟨c1, h⟩ := ite_eq_iff.mp h
  · cases h
  rw [hk.params, hk.ntt, hk.key.len] at h
  obtain ⟨s, h1, h⟩ := Outcome.bind_eq_ok.mp h
  obtain ⟨t, h2, h⟩ := Outcome.bind_eq_ok.mp h
  obtain ⟨⟨a, s'⟩, h3, h⟩ := Outcome.bind_eq_ok.mp h
  obtain ⟨⟨e, t'⟩, h4, h⟩ := Outcome.bind_eq_ok.mp h
  have hpr : prng ≠ .invalid := by
    intro hc
    unfold Word.Rng.start at h1
    rw [if_pos hc] at h1
    cases h1
  have c3 : ¬ variance > 256 := by
    intro hc
    rw [c38_rejects _ _ _ _ _ (by omega)] at h4
    cases h4
  have g := hC.good
  have hA := Word.pad_rep _ g fuel _ s s' a h3
  obtain ⟨E, e1, e2⟩ := Word.error_rep _ (hR prng) hcr _ _ (by omega) t t' e h4
  obtain ⟨b1, f1, f2, -⟩ := e2.forward g ht
  obtain ⟨b2, g1, g2⟩ := f2.mulScalar g hk.tLe
  obtain ⟨b3, i1, i2⟩ := g2.fusedMulAdd g hA hk.key
  dsimp only at h
  rw [f1, Outcome.bind_ok, Word.copy_ok g1, Outcome.bind_ok, Word.copy_ok i1, Outcome.bind_ok] at h
  cases h
  have hr : res p C.q k.tMod = K.tUnderQ := by rw [← hk.t]; exact (res_export g hk.tLe).symm
  let A : C.Poly := fun i => res p C.q (a.getD i 0)
  refine ⟨A, E, ⟨-A, scalarMul K.tUnderQ (C.toNtt (modq C.q E)) + A * K.key, K.tUnderQ⟩, fun i => ?_, ?_,
    ⟨rfl, rfl, hA.negate g, ?_, hk.tLe, hk.t⟩, t, e, t', h2, h4, e2⟩
  · have := e1 i
    rw [show ((variance.toNat : ℕ) : ℤ) = variance from Int.toNat_of_nonneg (by omega)] at this
    exact this
  · unfold Pub.create Pub.kMaxVariance
    rw [if_neg c1, if_neg hpr, if_neg c3]
  · rw [hr] at i2
    exact i2

/-- **C81.** A public key created on words holds the public key created over residues from some pad and small errors.
-/
theorem c81_create (hC : Fit C p) (ht : Tables p C.w C.q C.l C.psi q) (R : Word.Rng ρ) (hR : ∀ t, Words (R.gen t))
    (hcr : create C.w C.q = .ok p) {k : Word.Key} {K : Sym.Key C} (hk : HoldsKey C p q k K) {variance : ℤ}
    (hv : 2 * variance ≤ C.q) {fuel : ℕ} {prng : PrngType} {seed seedE : List ℕ} {pk : Word.PKey}
    (h : Word.PKey.create R fuel k variance prng seed seedE = .ok pk) :
    ∃ (a : C.Poly) (E : Fin C.n → ℤ) (PK : Pub.PKey C), (∀ i, |E i| ≤ 2 * variance) ∧
      Pub.create K variance prng a (modq C.q E) = .ok PK ∧ HoldsPublic C p q pk PK := by
  obtain ⟨a, E, PK, h1, h2, h3, -⟩ := public_create_drawn hC ht R hR hcr hk hv h
  exact ⟨a, E, PK, h1, h2, h3⟩

/-- **C81.** `Encrypt` rejects variances outside `[1, 256]` and a null generator, like the model over residues. -/
theorem c81_rejects (G : Gen τ) (pk : Word.PKey) (m : List ℕ) (variance : ℤ) {E : Type}
    (bPub : ℕ → ℤ → Outcome E) (s : Option τ) (h : variance ≤ 0 ∨ 256 < variance ∨ s = none) :
    pk.encrypt G m variance bPub s = .err .invalidArgument := by
  unfold Word.PKey.encrypt
  by_cases h0 : variance ≤ 0
  · rw [if_pos h0]
  rw [if_neg h0]
  cases s with
  | none => rfl
  | some s =>
    have : 256 < variance := by
      rcases h with h | h | h
      · omega
      · exact h
      · cases h
    dsimp only
    rw [c38_rejects _ _ _ _ _ (by omega)]
    rfl

/-- What `Encrypt` does once the three samples are drawn. -/
theorem public_encrypt_word (hC : Fit C p) (ht : Tables p C.w C.q C.l C.psi q) (G : Gen τ) (hG : Words G)
    (hcr : create C.w C.q = .ok p) {pk : Word.PKey} {PK : Pub.PKey C} (hk : HoldsPublic C p q pk PK) {variance : ℤ}
    (h0 : 0 < variance) (hv : 2 * variance ≤ C.q) {m : List ℕ} {M : C.Poly} (hm : Poly.Rep p C.q C.n m M)
    (P : ErrorParams) {s s₁ s₂ s₃ : τ} {v e0 e1 : List ℕ}
    (h1 : Sampler.sampleError G p C.n variance.toNat s = .ok (v, s₁))
    (h2 : Sampler.sampleError G p C.n variance.toNat s₁ = .ok (e0, s₂))
    (h3 : Sampler.sampleError G p C.n variance.toNat s₂ = .ok (e1, s₃)) :
    ∃ (x : Obj ℝ) (X : Tracked C) (V E0 E1 : Fin C.n → ℤ), pk.encrypt G m variance P.bPublicKey (some s) = .ok (x, s₃) ∧
      (∀ i, |V i| ≤ 2 * variance) ∧ (∀ i, |E0 i| ≤ 2 * variance) ∧ (∀ i, |E1 i| ≤ 2 * variance) ∧
      ErrorTrack.encryptPublic P PK M variance false (modq C.q V) (modq C.q E0) (modq C.q E1) = .ok X ∧
      Carries C p x X ∧ Poly.Rep p C.q C.n v (modq C.q V) ∧ Poly.Rep p C.q C.n e0 (modq C.q E0) ∧
      Poly.Rep p C.q C.n e1 (modq C.q E1) := by
  have g := hC.good
  have hvn : ((variance.toNat : ℕ) : ℤ) = variance := Int.toNat_of_nonneg (by omega)
  have c3 : ¬ variance > 256 := by
    intro hc
    rw [c38_rejects _ _ _ _ _ (by omega)] at h1
    cases h1
  obtain ⟨V, v1, v2⟩ := Word.error_rep G hG hcr _ _ (by omega) _ _ _ h1
  obtain ⟨E0, a1, a2⟩ := Word.error_rep G hG hcr _ _ (by omega) _ _ _ h2
  obtain ⟨E1, b1, b2⟩ := Word.error_rep G hG hcr _ _ (by omega) _ _ _ h3
  rw [hvn] at v1 a1 b1
  obtain ⟨v', w1, w2, -⟩ := v2.forward g ht
  obtain ⟨x1, c1, d1, -⟩ := a2.forward g ht
  obtain ⟨x2, c2, d2⟩ := d1.mulScalar g hk.tLe
  obtain ⟨x3, c3', d3⟩ := d2.fusedMulAdd g hk.b w2
  obtain ⟨x4, c4, d4⟩ := d3.add g hm
  obtain ⟨y1, f1, g1, -⟩ := b2.forward g ht
  obtain ⟨y2, f2, g2⟩ := g1.mulScalar g hk.tLe
  obtain ⟨y3, f3, g3⟩ := g2.fusedMulAdd g hk.a w2
  have hr : res p C.q pk.tMod = PK.t := by rw [← hk.t]; exact (res_export g hk.tLe).symm
  rw [hr] at d4 g3
  obtain ⟨er, her⟩ : ∃ er, P.bPublicKey C.n variance = .ok er := by
    unfold ErrorParams.bPublicKey
    rw [if_neg (by omega)]
    exact ⟨_, rfl⟩
  refine ⟨⟨[x4, y3], 1, er, []⟩, ⟨⟨[_, _], 1, []⟩, er⟩, V, E0, E1, ?_, v1, a1, b1, ?_,
    ⟨.cons d4 (.cons g3 .nil), rfl, rfl, .nil⟩, v2, a2, b2⟩
  · unfold Word.PKey.encrypt
    rw [if_neg (by omega)]
    dsimp only
    rw [hk.params, hk.ntt, hk.a.len, h1, Outcome.bind_ok]
    dsimp only
    rw [w1, Outcome.bind_ok, h2, Outcome.bind_ok]
    dsimp only
    rw [h3, Outcome.bind_ok]
    dsimp only
    rw [c1, Outcome.bind_ok, Word.copy_ok c2, Outcome.bind_ok, Word.copy_ok c3', Outcome.bind_ok, Word.copy_ok c4,
      Outcome.bind_ok, f1, Outcome.bind_ok, Word.copy_ok f2, Outcome.bind_ok, Word.copy_ok f3, Outcome.bind_ok, her,
      Outcome.bind_ok]
  · unfold ErrorTrack.encryptPublic Pub.encrypt Pub.kMaxVariance
    rw [if_neg (by omega), if_neg (by simp), if_neg c3, Outcome.bind_ok, her]
    rfl

/-- **C81.** A ciphertext `Encrypt` returns on words holds the one it returns over residues for some small randomness,
with its error estimate. -/
theorem c81_encrypt (hC : Fit C p) (ht : Tables p C.w C.q C.l C.psi q) (G : Gen τ) (hG : Words G)
    (hcr : create C.w C.q = .ok p) {pk : Word.PKey} {PK : Pub.PKey C} (hk : HoldsPublic C p q pk PK) {variance : ℤ}
    (hv : 2 * variance ≤ C.q) {m : List ℕ} {M : C.Poly} (hm : Poly.Rep p C.q C.n m M)
    (P : ErrorParams) {s : Option τ} {s' : τ} {x : Obj ℝ}
    (h : pk.encrypt G m variance P.bPublicKey s = .ok (x, s')) :
    ∃ (X : Tracked C) (V E0 E1 : Fin C.n → ℤ), 0 < variance ∧ variance ≤ 256 ∧
      (∀ i, |V i| ≤ 2 * variance) ∧ (∀ i, |E0 i| ≤ 2 * variance) ∧ (∀ i, |E1 i| ≤ 2 * variance) ∧
      ErrorTrack.encryptPublic P PK M variance false (modq C.q V) (modq C.q E0) (modq C.q E1) = .ok X ∧
      Carries C p x X := by
  by_cases hr : variance ≤ 0 ∨ 256 < variance ∨ s = none
  · rw [c81_rejects G pk m variance _ s hr] at h
    cases h
  push Not at hr
  obtain ⟨r1, r2, r3⟩ := hr
  obtain ⟨s, rfl⟩ := Option.ne_none_iff_exists'.mp r3
  have h' := h
  unfold Word.PKey.encrypt at h
  rw [if_neg (by omega)] at h
  dsimp only at h
  rw [hk.params, hk.ntt, hk.a.len] at h
  obtain ⟨⟨v, s₁⟩, h1, h⟩ := Outcome.bind_eq_ok.mp h
  obtain ⟨v', -, h⟩ := Outcome.bind_eq_ok.mp h
  obtain ⟨⟨e0, s₂⟩, h2, h⟩ := Outcome.bind_eq_ok.mp h
  obtain ⟨⟨e1, s₃⟩, h3, -⟩ := Outcome.bind_eq_ok.mp h
  obtain ⟨x', X, V, E0, E1, f1, f2, f3, f4, f5, f6, -⟩ := public_encrypt_word hC ht G hG hcr hk r1 hv hm P h1 h2 h3
  rw [f1] at h'
  cases h'
  exact ⟨X, V, E0, E1, r1, r2, f2, f3, f4, f5, f6⟩

/-- **C81.** With a positive variance, `Encrypt` fails only if the generator fails. -/
theorem c81_total (hC : Fit C p) (ht : Tables p C.w C.q C.l C.psi q) (G : Gen τ) (hG : Words G)
    (hcr : create C.w C.q = .ok p) {pk : Word.PKey} {PK : Pub.PKey C} (hk : HoldsPublic C p q pk PK) {variance : ℤ}
    (h0 : 0 < variance) (hv : 2 * variance ≤ C.q) {m : List ℕ} (hm : ValidPoly C.q C.n m) (P : ErrorParams)
    {s s₁ s₂ s₃ : τ} {v e0 e1 : List ℕ}
    (h1 : Sampler.sampleError G p C.n variance.toNat s = .ok (v, s₁))
    (h2 : Sampler.sampleError G p C.n variance.toNat s₁ = .ok (e0, s₂))
    (h3 : Sampler.sampleError G p C.n variance.toNat s₂ = .ok (e1, s₃)) :
    ∃ x, pk.encrypt G m variance P.bPublicKey (some s) = .ok (x, s₃) ∧ x.c.length = 2 ∧ x.power = 1 ∧
      ∀ c ∈ x.c, ValidPoly C.q C.n c := by
  obtain ⟨x, X, V, E0, E1, f1, f2, f3, f4, f5, f6, -⟩ :=
    public_encrypt_word hC ht G hG hcr hk h0 hv (hm.rep (p := p)) P h1 h2 h3
  unfold ErrorTrack.encryptPublic at f5
  obtain ⟨c, f8, f7⟩ := Outcome.bind_eq_ok.mp f5
  obtain ⟨b, -, f7⟩ := Outcome.bind_eq_ok.mp f7
  cases f7
  have hc : c.c.length = 2 ∧ c.power = 1 := by
    unfold Pub.encrypt at f8
    split_ifs at f8
    rw [← Outcome.ok.inj f8]
    exact ⟨rfl, rfl⟩
  refine ⟨x, f1, by rw [f6.c.length_eq]; exact hc.1, by rw [f6.power]; exact hc.2, valid_of_reps f6.c⟩

/-! ## End to end -/

theorem circuit_len_pos (u : WordCircuit) : 0 < u.len := by
  induction u with
  | input | relin | rotate => exact Nat.succ_pos _
  | add u v h1 h2 | sub u v h1 h2 => exact lt_of_lt_of_le h1 (le_max_left _ _)
  | mul u v h1 h2 => simp only [WordCircuit.len]; omega
  | absorb u j h | scale u c h => exact h

/-- The sampled secret key is small. -/
theorem sample_drawn (G : Gen σ) (hG : Words G) {w N : ℕ} (h : create w N = .ok p) {l : ℕ} {psi : ZMod N}
    (tb : Tables p w N l psi q) {variance logT : ℕ} (hvar : 2 * variance ≤ N) {s s' : σ} {k : Word.Key}
    (hk : Word.Key.sample G p q l variance logT s = .ok (k, s')) :
    ∃ S : Fin (2 ^ l) → ℤ, (∀ i, |S i| ≤ 2 * variance) ∧ Poly.Rep p N (2 ^ l) k.key (ntt psi l (modq N S)) ∧
      ∃ cs, Sampler.sampleError G p (2 ^ l) variance s = .ok (cs, s') ∧ Poly.Rep p N (2 ^ l) cs (modq N S) := by
  have g := good_of_create h
  unfold Word.Key.sample at hk
  rw [if_neg (by have := tb.l15; omega)] at hk
  obtain ⟨x, hx, hk⟩ := Outcome.bind_eq_ok.mp hk
  obtain ⟨y, hy, hk⟩ := Outcome.bind_eq_ok.mp hk
  obtain ⟨T, hT', hk⟩ := Outcome.bind_eq_ok.mp hk
  cases hk
  rw [Nat.one_shiftLeft] at hx
  obtain ⟨S, s1, s2⟩ := Word.error_rep G hG h _ _ hvar s x.2 x.1 hx
  obtain ⟨r, r1, r2, -⟩ := s2.forward g tb
  rw [r1] at hy
  cases hy
  exact ⟨S, s1, r2, x.1, hx, s2⟩

/-- The sampled secret key is small. -/
theorem sample_small (G : Gen σ) (hG : Words G) {w N : ℕ} (h : create w N = .ok p) {l : ℕ} {psi : ZMod N}
    (tb : Tables p w N l psi q) {variance logT : ℕ} (hvar : 2 * variance ≤ N) {s s' : σ} {k : Word.Key}
    (hk : Word.Key.sample G p q l variance logT s = .ok (k, s')) :
    ∃ S : Fin (2 ^ l) → ℤ, (∀ i, |S i| ≤ 2 * variance) ∧ Poly.Rep p N (2 ^ l) k.key (ntt psi l (modq N S)) := by
  obtain ⟨S, h1, h2, -⟩ := sample_drawn G hG h tb hvar hk
  exact ⟨S, h1, h2⟩

theorem public_word_noise {n : ℕ} (S K B : ℕ) (s e v e0 e1 : Fin n → ℤ) (hs : ∀ i, |s i| ≤ S) (he : ∀ i, |e i| ≤ K)
    (hv : ∀ i, |v i| ≤ B) (h0 : ∀ i, |e0 i| ≤ B) (h1 : ∀ i, |e1 i| ≤ B) (i : Fin n) :
    |negMul e v i + e0 i + negMul e1 s i| ≤ publicNoise n S K B := by
  have n1 : ∀ (f : Fin n → ℤ) (b : ℕ), (∀ i, |f i| ≤ b) → norm1 f ≤ n * b := by
    intro f b hf
    unfold norm1
    refine (Finset.sum_le_card_nsmul _ _ _ fun i _ => hf i).trans ?_
    simp
  have b1 := negMul_bound e v B (by positivity) hv i
  have b2 := negMul_bound e1 s S (by positivity) hs i
  have b1' := b1.trans (mul_le_mul_of_nonneg_right (n1 e K he) (by positivity))
  have b2' := b2.trans (mul_le_mul_of_nonneg_right (n1 e1 B h1) (by positivity))
  have t1 := abs_add_le (negMul e v i + e0 i) (negMul e1 s i)
  have t2 := abs_add_le (negMul e v i) (e0 i)
  have := h0 i
  unfold publicNoise
  push_cast
  linarith

/-- The noisy plaintext of a fresh encryption under the secret or the public key. -/
theorem encryption_word (G : Gen σ) (hG : Words G) (G' : Gen τ) (hG' : Words G') (R : Word.Rng ρ)
    (hR : ∀ t, Words (R.gen t)) {w N : ℕ} (h : create w N = .ok p) (hp : N.Prime) {l : ℕ}
    (hq : initNtt p l = .ok q) {psi : ZMod N} (hC : Fit ⟨w, N, l, psi⟩ p) (tb : Tables p w N l psi q)
    {variance logT : ℕ} {s s' : σ} {k : Word.Key} (hk : Word.Key.sample G p q l variance logT s = .ok (k, s'))
    (hT : 2 ^ logT + 1 < N) (hvar : 2 * variance ≤ N) {fuel vk V : ℕ} (hvk : 2 * vk ≤ N) (hV : 2 * V ≤ N)
    {prng : PrngType} {seed seedE : List ℕ} {pk : Word.PKey}
    (hpk : Word.PKey.create R fuel k vk prng seed seedE = .ok pk) (P : ErrorParams) (m : Fin (2 ^ l) → ℕ)
    (hm : ∀ j, m j < 2 ^ logT + 1) {pt : List ℕ} (hv : ValidPoly N (2 ^ l) pt)
    (hpt : HasCoeffs p q N (2 ^ l) pt fun j => (m j : ZMod N)) {fuel' : ℕ} {x : Obj ℝ}
    (hx : EncryptionOf G' fuel' k pk V P.bPublicKey pt x) :
    ∃ (X : List (Fin (2 ^ l) → ZMod N)) (e : Fin (2 ^ l) → ℤ),
      List.Forall₂ (Poly.Rep p N (2 ^ l)) x.c X ∧ X.length = 2 ∧ x.power = 1 ∧ x.lazy = [] ∧
      (∀ j, |(m j : ℤ) + ((2 ^ logT + 1 : ℕ) : ℤ) * e j| ≤ ((2 ^ logT + (2 ^ logT + 1) *
        max (2 * variance) (publicNoise (2 ^ l) (2 * variance) (2 * vk) (2 * V)) : ℕ) : ℤ)) ∧
      ntt psi l (modq N fun j => (m j : ℤ) + ((2 ^ logT + 1 : ℕ) : ℤ) * e j) =
        phase (fun i : Fin (2 ^ l) => res p N (k.key.getD i 0)) X := by
  have gd := good_of_create h
  haveI : NeZero N := ⟨hp.ne_zero⟩
  haveI : Fact N.Prime := ⟨hp⟩
  obtain ⟨k1, k2, k3, k4, k5, k6, k7, k8⟩ := sample_word G h hp hq hk hT
  have bound : ∀ (e : Fin (2 ^ l) → ℤ) (B : ℕ), (∀ j, |e j| ≤ B) →
      B ≤ max (2 * variance) (publicNoise (2 ^ l) (2 * variance) (2 * vk) (2 * V)) →
      ∀ j, |(m j : ℤ) + ((2 ^ logT + 1 : ℕ) : ℤ) * e j| ≤ ((2 ^ logT + (2 ^ logT + 1) *
        max (2 * variance) (publicNoise (2 ^ l) (2 * variance) (2 * vk) (2 * V)) : ℕ) : ℤ) := by
    intro e B he hB j
    generalize max (2 * variance) _ = Mx at hB ⊢
    refine (abs_add_le _ _).trans ?_
    rw [abs_mul, Nat.abs_cast, Nat.abs_cast, Nat.cast_add (2 ^ logT) (_ * Mx), Nat.cast_mul (2 ^ logT + 1)]
    have h1 := hm j
    exact add_le_add (Int.ofNat_le.mpr (Nat.lt_succ_iff.mp h1))
      (mul_le_mul_of_nonneg_left ((he j).trans (Int.ofNat_le.mpr hB)) (by positivity))
  cases hx with
  | @secret bits t t' x error hx =>
    obtain ⟨X, e, e1, e2, e3, e4, e5⟩ :=
      fresh_word G' hG' h hp tb k k1 k2 k6 (by rw [k4]; exact hvar) k7 k8 m hv hpt hx
    refine ⟨X, e, e1, ?_, e3, rfl, bound e (2 * variance) (fun j => ?_) (le_max_left _ _), e5⟩
    · rw [← e1.length_eq]
      exact encrypt_length hx
    · have := e4 j
      rw [k4] at this
      push_cast
      exact this
  | @withPublic ve t t' _ hle hx =>
    let C : Ctx := ⟨w, N, l, psi⟩
    obtain ⟨S, s1, s2⟩ := sample_small G hG h tb hvar hk
    have hS : (fun i : Fin (2 ^ l) => res p N (k.key.getD i 0)) = ntt psi l (modq N S) := by
      funext i
      exact s2.val i
    have hpm : plaintextModulus w logT = .ok (2 ^ logT + 1) := by
      have hf := gd.lt
      have hlt : logT < w := by
        by_contra hc
        have : 2 ^ w ≤ 2 ^ logT := Nat.pow_le_pow_right (by norm_num) (by omega)
        omega
      unfold plaintextModulus Transcription.shl
      rw [if_pos (by omega), Outcome.bind_ok, Nat.one_shiftLeft,
        Nat.mod_eq_of_lt (by omega : 2 ^ logT < 2 ^ w), Nat.mod_eq_of_lt (by omega)]
      rfl
    obtain ⟨K, a1, a2, a3, a4, a5, a6⟩ := sample_ok (C := C) hC.ok (modq N S) variance logT hT
    have hKv : K.variance = variance := by
      unfold Key.sample at a1
      rw [show C.w = w from rfl, hpm, Outcome.bind_ok] at a1
      cases a1
      rfl
    have hK : HoldsKey C p q k K := ⟨k1, k2, by rw [a2]; exact s2, by rw [k4, hKv], k7.le, by rw [k8, a5]⟩
    obtain ⟨a, E, PK, c1, c2, c3⟩ := c81_create hC tb R hR h hK (by exact_mod_cast hvk) hpk
    obtain ⟨X, Vv, E0, E1, d1, d2, d3, d4, d5, d6, d7⟩ := c81_encrypt hC tb G' hG' h c3
      (hv := le_trans (mul_le_mul_of_nonneg_left hle (by norm_num)) (by exact_mod_cast hV)) (hv.rep (p := p)) P hx
    have hM := (hasCoeffs_iff gd hp tb (hv.rep (p := p))).mp hpt
    obtain ⟨y, y1, y2, y3, y4⟩ := c34_noisy (C := C) hC.ok K S a2 (t := ((2 ^ logT + 1 : ℕ) : ℤ))
      (by rw [a5, Int.cast_natCast]) vk ve prng a (fun j => (m j : ℤ)) E Vv E0 E1 c2 ⟨d1, d2⟩
    have hmm : C.toNtt (modq C.q fun j => (m j : ℤ)) = fun i : Fin (2 ^ l) => res p N (pt.getD i 0) := by
      rw [← hM]
      show ntt psi l (modq N fun j => (m j : ℤ)) = _
      congr 1
      funext i
      show (((m i : ℕ) : ℤ) : ZMod N) = _
      rw [Int.cast_natCast]
    rw [hmm] at y1
    unfold ErrorTrack.encryptPublic at d6
    rw [y1, Outcome.bind_ok] at d6
    obtain ⟨er, -, d6⟩ := Outcome.bind_eq_ok.mp d6
    cases d6
    have hlz : x.lazy = [] := by
      have := d7.lazy
      have hl : y.lazy = [] := by
        unfold Pub.encrypt at y1
        split_ifs at y1
        rw [← Outcome.ok.inj y1]
      rw [hl] at this
      exact List.forall₂_nil_right_iff.mp this
    refine ⟨y.c, fun i => negMul E Vv i + E0 i + negMul E1 S i, d7.c, y2, by rw [d7.power]; exact y3, hlz, bound _ _ (fun j => ?_) (le_max_right _ _), ?_⟩
    · have hve : (2 : ℤ) * ve ≤ ((2 * V : ℕ) : ℤ) := by push_cast; linarith
      exact public_word_noise (2 * variance) (2 * vk) (2 * V) S E Vv E0 E1 (fun i => by push_cast; exact s1 i)
        (fun i => by push_cast; exact c1 i) (fun i => (d3 i).trans hve) (fun i => (d4 i).trans hve)
        (fun i => (d5 i).trans hve) j
    · rw [hS]
      have : C.toNtt (modq C.q _) = phase K.key y.c := y4
      rw [a2] at this
      exact this

/-- **C81, end to end.** For every word, prime modulus and ring degree for which the parameters can be created, every
generator, every sampled secret key, every public key created for it, sent to and read by another party, every
relinearization key and all Galois keys, all messages below `t = 2^logT + 1`, fresh encryptions of them under the secret
key or by means of the received public key, and every circuit: if the bound of the circuit is below half the modulus,
every operation on the stored words succeeds, and `Decrypt` returns the circuit evaluated on the messages. -/
theorem c81_circuit (G : Gen σ) (hG : Words G) (G' : Gen τ) (hG' : Words G') (R : Word.Rng ρ)
    (hR : ∀ t, Words (R.gen t)) {w N : ℕ} (h : create w N = .ok p) (hw : w ≤ 128) (hw8 : 8 ≤ w) (hp : N.Prime) {l : ℕ}
    (hq : initNtt p l = .ok q) {variance logT : ℕ} {s s' : σ} {k : Word.Key}
    (hk : Word.Key.sample G p q l variance logT s = .ok (k, s')) (hT : 2 ^ logT + 1 < N) (hvar : 2 * variance ≤ N)
    {fuel vk V : ℕ} (hvk : 2 * vk ≤ N) (hV : 2 * V ≤ N) {prngP : PrngType} {seedP seedPE : List ℕ}
    {pk pk' : Word.PKey} (hpk : Word.PKey.create R fuel k vk prngP seedP seedPE = .ok pk)
    {sent : List ℕ × PrngType × Word.SPoly} (hsent : pk.serialize = .ok sent)
    (hrecv : Word.PKey.deserialize R fuel sent k.tMod p q = .ok pk') (P : ErrorParams)
    (m : ℕ → Fin (2 ^ l) → ℕ) (hm : ∀ i j, m i j < 2 ^ logT + 1) (g : ℕ → Fin (2 ^ l) → ℤ)
    {Gb : ℕ} (hg : ∀ i j, |g i j| ≤ Gb) {pt f : ℕ → List ℕ} (hpt : ∀ i, ValidPoly N (2 ^ l) (pt i))
    (hpt' : ∀ i, HasCoeffs p q N (2 ^ l) (pt i) fun j => (m i j : ZMod N)) (hf : ∀ i, ValidPoly N (2 ^ l) (f i))
    (hf' : ∀ i, HasCoeffs p q N (2 ^ l) (f i) fun j => (g i j : ZMod N)) {x : ℕ → Obj ℝ}
    (hx : ∀ i, EncryptionOf G' fuel k pk' V P.bPublicKey (pt i) (x i))
    {prng : PrngType} {parts b : ℕ} (hb : b < 31) {seed seedE : List ℕ} {rk : Word.RKey}
    (hrk : Word.RKey.create R fuel k prng parts b 1 seed seedE = .ok rk)
    {prngs : ℕ → PrngType} {pw bs : ℕ → ℕ} (hbs : ∀ i, bs i < 31) {seeds seedsE : ℕ → List ℕ} {gk : ℕ → Word.RKey}
    (hgk : ∀ i, Word.galoisCreate R fuel k (prngs i) (pw i) (bs i) (seeds i) (seedsE i) = .ok (gk i))
    (u : WordCircuit) (hu : u.Fits w parts)
    (hbound : 2 * u.bound (2 ^ l) (2 ^ logT + (2 ^ logT + 1) *
        max (2 * variance) (publicNoise (2 ^ l) (2 * variance) (2 * vk) (2 * V))) Gb
      (switchNoise (2 ^ l) (2 ^ logT + 1) (parts - 2) ((p.logModulus + (b - 1)) / b) b (2 * variance))
      (fun i => switchNoise (2 ^ l) (2 ^ logT + 1) 1 ((p.logModulus + (bs i - 1)) / bs i) (bs i) (2 * variance)) < N) :
    ∃ y, u.run ⟨p, P.bPlaintext (2 ^ l), WordCt.relinearize rk (P.bRelinearize (2 ^ l)),
        fun i => substituteAndSwitch q (P.bRelinearize (2 ^ l)) (gk i), x, f⟩ = .ok y ∧ y.c.length = u.len ∧
      y.power = 1 ∧ ∀ bits, Word.decrypt k ⟨y.c, y.power, bits⟩ =
        .ok (List.ofFn fun j => (u.eval pw (fun i j => (m i j : ℤ)) g j % (2 ^ logT + 1)).toNat) := by
  obtain ⟨k1, k2, k3, k4, k5, k6, k7, k8⟩ := sample_word G h hp hq hk hT
  obtain ⟨psi, hC, tb⟩ := fit_of_create h hw hp hq
  obtain ⟨sent', r1, r2⟩ := c29_public h hp hq hw hw8 R fuel k ⟨k1, k2, k6, k7.le⟩ vk prngP seedP seedPE pk hpk
  rw [hsent] at r1
  cases r1
  rw [hrecv] at r2
  cases r2
  obtain ⟨y, y1, y2, y3, -, y4⟩ := circuit_decrypts G h hp hq hC tb hk hT m g hg
    (e := ⟨p, P.bPlaintext (2 ^ l), WordCt.relinearize rk (P.bRelinearize (2 ^ l)),
      fun i => substituteAndSwitch q (P.bRelinearize (2 ^ l)) (gk i), x, f⟩) rfl P rfl hf hf'
    (fun i => encryption_word G hG G' hG' R hR h hp hq hC tb hk hT hvar hvk hV hpk P (m i) (hm i) (hpt i) (hpt' i)
      (hx i)) (gadget_relin G R hR h hw hp hq hC tb hk hT hvar hb hrk P)
    (fun v => gadget_rotate G R hR h hw hp hq hC tb hk hT hvar (hbs v) (hgk v) P) u hu hbound
  exact ⟨y, y1, y2, y3, y4⟩

/-- **C81, over the wire.** The same when everything passes through serialization: the public key, the relinearization
and Galois keys, the input ciphertexts and the result are each serialized by one party and deserialized by another.
Then every input and the result can be serialized and deserialized, and decrypting the received result gives the
circuit evaluated on the messages.  The encoding of the error estimates is left open. -/
theorem c81_wire (G : Gen σ) (hG : Words G) (G' : Gen τ) (hG' : Words G') (R : Word.Rng ρ)
    (hR : ∀ t, Words (R.gen t)) {w N : ℕ} (h : create w N = .ok p) (hw : w ≤ 128) (hw8 : 8 ≤ w) (hp : N.Prime) {l : ℕ}
    (hq : initNtt p l = .ok q) {variance logT : ℕ} {s s' : σ} {k : Word.Key}
    (hk : Word.Key.sample G p q l variance logT s = .ok (k, s')) (hT : 2 ^ logT + 1 < N) (hvar : 2 * variance ≤ N)
    {fuel vk V : ℕ} (hvk : 2 * vk ≤ N) (hV : 2 * V ≤ N) {prngP : PrngType} {seedP seedPE : List ℕ}
    {pk pk' : Word.PKey} (hpk : Word.PKey.create R fuel k vk prngP seedP seedPE = .ok pk)
    (hpk' : (do Word.PKey.deserialize R fuel (← pk.serialize) k.tMod p q) = .ok pk') (P : ErrorParams)
    (m : ℕ → Fin (2 ^ l) → ℕ) (hm : ∀ i j, m i j < 2 ^ logT + 1) (g : ℕ → Fin (2 ^ l) → ℤ)
    {Gb : ℕ} (hg : ∀ i j, |g i j| ≤ Gb) {pt f : ℕ → List ℕ} (hpt : ∀ i, ValidPoly N (2 ^ l) (pt i))
    (hpt' : ∀ i, HasCoeffs p q N (2 ^ l) (pt i) fun j => (m i j : ZMod N)) (hf : ∀ i, ValidPoly N (2 ^ l) (f i))
    (hf' : ∀ i, HasCoeffs p q N (2 ^ l) (f i) fun j => (g i j : ZMod N)) {x : ℕ → Obj ℝ}
    (hx : ∀ i, EncryptionOf G' fuel k pk' V P.bPublicKey (pt i) (x i)) (bits : ℕ → ℕ)
    {prng : PrngType} {parts b : ℕ} (hb : b < 31) {seed seedE : List ℕ} {rk rk' : Word.RKey}
    (hrk : Word.RKey.create R fuel k prng parts b 1 seed seedE = .ok rk)
    (hrk' : (do Word.RKey.deserialize R fuel (← rk.serialize) p q) = .ok rk')
    {prngs : ℕ → PrngType} {pw bs : ℕ → ℕ} (hbs : ∀ i, bs i < 31) {seeds seedsE : ℕ → List ℕ}
    {gk gk' : ℕ → Word.RKey}
    (hgk : ∀ i, Word.galoisCreate R fuel k (prngs i) (pw i) (bs i) (seeds i) (seedsE i) = .ok (gk i))
    (hgk' : ∀ i, (do Word.RKey.deserialize R fuel (← (gk i).serialize) p q) = .ok (gk' i))
    (u : WordCircuit) (hu : u.Fits w parts) (hlen : u.len ≤ 2 ^ 15)
    (hbound : 2 * u.bound (2 ^ l) (2 ^ logT + (2 ^ logT + 1) *
        max (2 * variance) (publicNoise (2 ^ l) (2 * variance) (2 * vk) (2 * V))) Gb
      (switchNoise (2 ^ l) (2 ^ logT + 1) (parts - 2) ((p.logModulus + (b - 1)) / b) b (2 * variance))
      (fun i => switchNoise (2 ^ l) (2 ^ logT + 1) 1 ((p.logModulus + (bs i - 1)) / bs i) (bs i) (2 * variance)) < N) :
    ∃ z : ℕ → Word.Ct,
      (∀ i, (do Word.Ct.deserialize p (← (Word.Ct.mk (x i).c (x i).power (bits i)).serialize p)) = .ok (z i)) ∧
      ∀ error : ℕ → ℝ, ∃ y, u.run ⟨p, P.bPlaintext (2 ^ l), WordCt.relinearize rk' (P.bRelinearize (2 ^ l)),
          fun i => substituteAndSwitch q (P.bRelinearize (2 ^ l)) (gk' i),
          fun i => ⟨(z i).c, (z i).power, error i, []⟩, f⟩ = .ok y ∧
        ∀ bit, ∃ y', (do Word.Ct.deserialize p (← (Word.Ct.mk y.c y.power bit).serialize p)) = .ok y' ∧
          Word.decrypt k y' =
            .ok (List.ofFn fun j => (u.eval pw (fun i j => (m i j : ℤ)) g j % (2 ^ logT + 1)).toNat) := by
  have gd := good_of_create h
  obtain ⟨k1, k2, k3, k4, k5, k6, k7, k8⟩ := sample_word G h hp hq hk hT
  obtain ⟨psi, hC, tb⟩ := fit_of_create h hw hp hq
  have hvk' : ValidKey p q N l k := ⟨k1, k2, k6, k7.le⟩
  obtain ⟨s1, r1, r2⟩ := c29_public h hp hq hw hw8 R fuel k hvk' vk prngP seedP seedPE pk hpk
  rw [r1, Outcome.bind_ok, r2] at hpk'
  cases hpk'
  obtain ⟨s2, r1, r2⟩ := c29_relinearization h hp hq hw hw8 R fuel k hvk' prng parts b 1 seed seedE rk hrk
  rw [r1, Outcome.bind_ok, r2] at hrk'
  cases hrk'
  have hgg : gk' = gk := by
    funext i
    obtain ⟨s3, r1, r2⟩ := c29_galois h hp hq hw hw8 R fuel k hvk' (prngs i) (pw i) (bs i) (seeds i) (seedsE i) _ (hgk i)
    have := hgk' i
    rw [r1, Outcome.bind_ok, r2] at this
    exact (Outcome.ok.inj this).symm
  subst hgg
  have hin := fun i => encryption_word G hG G' hG' R hR h hp hq hC tb hk hT hvar hvk hV hpk P (m i) (hm i) (hpt i)
    (hpt' i) (hx i)
  have hwire : ∀ (c : List (List ℕ)) (e : ℤ) (bt : ℕ), c ≠ [] → c.length ≤ 2 ^ 15 → (∀ v ∈ c, ValidPoly N (2 ^ l) v) →
      (do Word.Ct.deserialize p (← (Word.Ct.mk c e bt).serialize p)) = .ok ⟨c, e, bt⟩ := by
    intro c e bt h0 h15 hc
    obtain ⟨sc, a1, a2⟩ := c29_ciphertext_partial h hw hw8 ⟨c, e, bt⟩ h0 h15 fun v hv =>
      Word.valid_ser (N := N) Nat.one_le_two_pow (Nat.pow_le_pow_right (by norm_num) tb.l15) (hc v hv)
    rw [a1, Outcome.bind_ok, a2]
  refine ⟨fun i => ⟨(x i).c, (x i).power, bits i⟩, fun i => ?_, fun error => ?_⟩
  · obtain ⟨X, e, e1, e2, -⟩ := hin i
    have := e1.length_eq
    exact hwire _ _ _ (by rintro h0; rw [h0] at this; simp at this; omega) (by omega) (valid_of_reps e1)
  · obtain ⟨y, y1, y2, y3, y5, y4⟩ := circuit_decrypts G h hp hq hC tb hk hT m g hg
      (e := ⟨p, P.bPlaintext (2 ^ l), WordCt.relinearize rk (P.bRelinearize (2 ^ l)),
        fun i => substituteAndSwitch q (P.bRelinearize (2 ^ l)) (gk' i),
        fun i => ⟨(x i).c, (x i).power, error i, []⟩, f⟩) rfl P rfl hf hf'
      (fun i => by
        obtain ⟨X, e, e1, e2, e3, -, e4, e5⟩ := hin i
        exact ⟨X, e, e1, e2, e3, rfl, e4, e5⟩) (gadget_relin G R hR h hw hp hq hC tb hk hT hvar hb hrk P)
      (fun v => gadget_rotate G R hR h hw hp hq hC tb hk hT hvar (hbs v) (hgk v) P) u hu hbound
    refine ⟨y, y1, fun bit => ⟨_, hwire y.c y.power bit ?_ (by omega) y5, y4 bit⟩⟩
    intro h0
    rw [h0] at y2
    have := circuit_len_pos u
    simp at y2
    omega

/-- `(m0 * m1)` relinearized, with `X -> X^3` applied, on encryptions of `1 + X` under the received public key and of
`2 + X` under the secret key, with modulus 16777153, `t = 3`, variance 1 and base 4: keys are created and sent, the bound
is small enough, and the words decrypt to the value. -/
example : (do
    let p ← create 32 16777153
    let q ← initNtt p 1
    let (k, _) ← Word.Key.sample toyGen p q 1 1 1 77
    let pk ← Word.PKey.create toyRng 8 k 1 .hkdf [7] [8]
    let sent ← pk.serialize
    let pk' ← Word.PKey.deserialize toyRng 8 sent k.tMod p q
    let m0 ← Poly.convertToNtt p q ([1, 1].map (Mont.importInt p))
    let m1 ← Poly.convertToNtt p q ([2, 1].map (Mont.importInt p))
    let (x0, s) ← pk'.encrypt toyGen m0 1 (fun _ _ => .ok (0 : ℚ)) (some 5)
    let (x1, _) ← Word.encrypt toyGen 8 k m1 0 s
    let rk ← Word.RKey.create toyRng 8 k .hkdf 3 2 1 [3] [4]
    let gk ← Word.galoisCreate toyRng 8 k .chacha 3 2 [5] [6]
    let y ← (WordCircuit.rotate (.relin (.mul (.input 0) (.input 1))) 0).run ⟨p, (5 : ℚ),
      WordCt.relinearize rk fun c b => .ok (c * b), fun _ => substituteAndSwitch q (fun c b => .ok (c * b)) gk, fun i => if i = 0 then x0 else ⟨x1.c, x1.power, x1.error, []⟩, fun _ => m0⟩
    let d ← Word.decrypt k ⟨y.c, y.power, 0⟩
    .ok (y.c.length, d, decide (2 * (WordCircuit.rotate (.relin (.mul (.input 0) (.input 1))) 0).bound (2 ^ 1)
      (2 ^ 1 + (2 ^ 1 + 1) * max (2 * 1) (publicNoise (2 ^ 1) (2 * 1) (2 * 1) (2 * 1))) 2
      (switchNoise (2 ^ 1) (2 ^ 1 + 1) (3 - 2) ((p.logModulus + (2 - 1)) / 2) 2 (2 * 1))
      (fun _ => switchNoise (2 ^ 1) (2 ^ 1 + 1) 1 ((p.logModulus + (2 - 1)) / 2) 2 (2 * 1)) < 16777153))) =
    .ok (2, List.ofFn fun j => ((WordCircuit.rotate (.relin (.mul (.input 0) (.input 1))) 0).eval (fun _ => 3)
      (fun i => if i = 0 then ![1, 1] else ![2, 1]) (fun _ => ![1, -2]) j % 3).toNat, true) := by
  decide +kernel

end Shell
