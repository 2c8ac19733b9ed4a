import Verif.Lemmas.Splice
/-!
# Property C19 on stored words, and C35: compressed encryption
-/

namespace Shell
open Spec Word MParams Ntt NttRing
variable {σ τ : Type}

/-! ## C19 on words, end to end -/

/-- What `Sample` returns for parameters made by `Create` and `InitializeNttParameters`. -/
theorem sample_word (G : Gen σ) {w N : ℕ} {p : MParams} (h : create w N = .ok p) (hp : N.Prime)
    {l : ℕ} {q : NttParams} (hq : initNtt p l = .ok q) {variance logT : ℕ} {s s' : σ} {k : Key}
    (hk : Key.sample G p q l variance logT s = .ok (k, s')) (hT : 2 ^ logT + 1 < N) :
    k.p = p ∧ k.q = q ∧ k.tp = p ∧ k.variance = variance ∧ k.logT = logT ∧
      ValidPoly N (2 ^ l) k.key ∧ k.tMod < N ∧ Mont.exportInt p k.tMod = 2 ^ logT + 1 := by
  have g := good_of_create h
  have h4 := g.lt
  obtain ⟨l', hl', psi, t⟩ := tables_of_init h hp hq
  have : l' = l := by omega
  subst this
  unfold Key.sample at hk
  rw [if_neg (by have := t.l15; omega)] at hk
  obtain ⟨x, hx, hk⟩ := Outcome.bind_eq_ok.mp hk
  obtain ⟨y, hy, hk⟩ := Outcome.bind_eq_ok.mp hk
  obtain ⟨T, hT', hk⟩ := Outcome.bind_eq_ok.mp hk
  cases hk
  rw [Nat.one_shiftLeft] at hx
  obtain ⟨r, r1, r2⟩ := valid_ntt g t (valid_error G g variance s x.2 x.1 hx)
  rw [r1] at hy
  cases hy
  have hlt : logT < w := by
    by_contra hc
    have : 2 ^ w ≤ 2 ^ logT := Nat.pow_le_pow_right (by norm_num) (by omega)
    omega
  have hTT : T = 2 ^ logT + 1 := by
    unfold Sym.plaintextModulus Transcription.shl at hT'
    rw [g.hw, if_pos (by omega), Outcome.bind_ok, Nat.one_shiftLeft,
      Nat.mod_eq_of_lt (by omega : 2 ^ logT < 2 ^ w), Nat.mod_eq_of_lt (by omega)] at hT'
    exact (Outcome.ok.inj hT').symm
  subst hTT
  refine ⟨rfl, rfl, rfl, rfl, rfl, r2, importInt_lt g _ (by omega), ?_⟩
  rw [(c01_import_export h).1 _ (by omega) |>.1, Nat.mod_eq_of_lt hT]

/-- C19, end to end on stored words: for every word size, prime modulus and ring degree for which the
parameters can be created, every generator and every state of it, every sampled key, every message of
coefficients below `t = 2^logT + 1` and every fresh encryption of it, `Decrypt` returns the message
provided `2 * ((t - 1) + 2 * variance * t) < modulus`. -/
theorem c19_words (G : Gen σ) (G' : Gen τ) (hG' : Words G') {w N : ℕ} {p : MParams}
    (h : create w N = .ok p) (hp : N.Prime) {l : ℕ} {q : NttParams} (hq : initNtt p l = .ok q)
    {variance logT : ℕ} {s s' : σ} {k : Key} (hk : Key.sample G p q l variance logT s = .ok (k, s'))
    (hb : 2 * (2 ^ logT + 2 * variance * (2 ^ logT + 1)) < N)
    (m : Fin (2 ^ l) → ℕ) (hm : ∀ i, m i < 2 ^ logT + 1) {pt : List ℕ}
    (hv : ValidPoly N (2 ^ l) pt) (hpt : HasCoeffs p q N (2 ^ l) pt fun i => (m i : ZMod N))
    {fuel bEnc : ℕ} {t t' : τ} {x : Ct} (hx : encrypt G' fuel k pt bEnc t = .ok (x, t')) :
    decrypt k x = .ok (List.ofFn m) := by
  have g := good_of_create h
  haveI : NeZero N := ⟨hp.ne_zero⟩
  have hpow : 1 ≤ 2 ^ logT := Nat.one_le_two_pow
  have hT : 2 ^ logT + 1 < N := by nlinarith
  have hvar : 2 * variance ≤ N := by nlinarith
  obtain ⟨k1, k2, k3, k4, k5, k6, k7, k8⟩ := sample_word G h hp hq hk hT
  obtain ⟨l', hl', psi, tb⟩ := tables_of_init h hp hq
  have : l' = l := by omega
  subst this
  have hl := tb.l15
  unfold encrypt at hx
  obtain ⟨⟨a, t₁⟩, ha, hx⟩ := Outcome.bind_eq_ok.mp hx
  obtain ⟨⟨c0, t₂⟩, hc, hx⟩ := Outcome.bind_eq_ok.mp hx
  cases hx
  rw [k1, k6.1] at ha
  have hA := pad_rep G' g fuel _ t t₁ a ha
  have hS := k6.rep (p := p)
  have hM := hv.rep (p := p)
  have hM' := (hasCoeffs_iff g hp tb hM).mp hpt
  rcases encryptWithPad_word G' hG' h tb k k1 k2 hS (by rw [k4]; exact hvar) k7.le hM hA t₁ with
    ⟨_, _, e⟩ | ⟨_, _, e⟩ | ⟨c0', s'', e, e1, -, e2, e3⟩
  · rw [e] at hc; cases hc
  · rw [e] at hc; cases hc
  rw [e1] at hc
  cases hc
  have hN' := hA.negate g
  rw [k1]
  rw [decrypt_word g hp tb k k1 k2 hS (T := 2 ^ logT + 1) (by rw [k3, k8]) (by omega) hT.le _
    (.cons e3 (.cons hN' .nil))]
  congr 2
  funext i
  -- the noisy plaintext
  have hph : phase (fun i : Fin (2 ^ l') => res p N (k.key.getD i 0))
      [(fun i => res p N k.tMod * ntt psi l' (modq N e) i) +
        (fun i : Fin (2 ^ l') => res p N (pt.getD i 0)) +
          (fun i : Fin (2 ^ l') => res p N (a.getD i 0)) *
          (fun i : Fin (2 ^ l') => res p N (k.key.getD i 0)),
        -(fun i : Fin (2 ^ l') => res p N (a.getD i 0))] =
      ntt psi l' (modq N fun i => (m i : ℤ) + (2 ^ logT + 1) * e i) := by
    let C : Ctx := ⟨w, N, l', psi⟩
    have hr : res p N k.tMod = ((2 ^ logT + 1 : ℕ) : ZMod N) := by
      rw [← res_export g k7.le]
      show ((Mont.exportInt p k.tMod : ℕ) : ZMod N) = _
      rw [k8]
    have e1 : (fun i => (m i : ℤ) + (2 ^ logT + 1) * e i) =
        (fun i => (m i : ℤ)) + (fun i => ((2 ^ logT + 1 : ℤ)) * e i) := rfl
    have e2 : modq N (fun i => (m i : ℤ)) = fun i => (m i : ZMod N) := by
      funext i; unfold modq; push_cast; rfl
    rw [e1, modq_add]
    have a1' : ntt psi l' (modq N (fun i => (m i : ℤ)) + modq N fun i => ((2 ^ logT + 1 : ℤ)) * e i) =
      ntt psi l' (modq N fun i => (m i : ℤ)) +
        ntt psi l' (modq N fun i => ((2 ^ logT + 1 : ℤ)) * e i) := toNtt_add (C := C) _ _
    have a2' : ntt psi l' (scalarMul ((2 ^ logT + 1 : ℤ) : ZMod N) (modq N e)) =
      scalarMul ((2 ^ logT + 1 : ℤ) : ZMod N) (ntt psi l' (modq N e)) := toNtt_smul (C := C) _ _
    have a3 := modq_smul (q := N) (2 ^ logT + 1 : ℤ) e
    rw [a1', a3, a2', e2, hM', phase_cons, phase_cons, phase_nil, hr]
    have a4 : (fun i => ((2 ^ logT + 1 : ℕ) : ZMod N) * ntt psi l' (modq N e) i) =
        scalarMul ((2 ^ logT + 1 : ℤ) : ZMod N) (ntt psi l' (modq N e)) := by
      unfold scalarMul; push_cast; rfl
    rw [a4]
    ring
  rw [hph, intt_ntt hp g.odd tb.root (by omega)]
  show (centered N (((m i : ℤ) + (2 ^ logT + 1) * e i : ℤ) : ZMod N) % ((2 ^ logT + 1 : ℕ) : ℤ)).toNat
    = m i
  have hbd := abs_le.mp (e2 i)
  rw [k4] at hbd
  have hmi := hm i
  have hz : (2 : ℤ) * (2 ^ logT + 2 * variance * (2 ^ logT + 1)) < N := by exact_mod_cast hb
  have hpz : (1 : ℤ) ≤ 2 ^ logT := by exact_mod_cast hpow
  have hmz : (m i : ℤ) < 2 ^ logT + 1 := by exact_mod_cast hmi
  rw [centered_eq N _ (by nlinarith) (by nlinarith)]
  push_cast
  rw [Int.add_mul_emod_self_left, Int.emod_eq_of_lt (by omega) hmz]
  simp

/-- C19, end to end: sampling a key and encrypting fail only if the generator fails (or the rejection
loop for the pad never accepts): nothing else can go wrong. -/
theorem c19_words_total (G : Gen σ) (G' : Gen τ) (hG' : Words G') {w N : ℕ} {p : MParams}
    (h : create w N = .ok p) (hp : N.Prime) {l : ℕ} {q : NttParams} (hq : initNtt p l = .ok q)
    {variance logT : ℕ} (hv : 2 * variance ≤ N) (hT : 2 ^ logT + 1 < N) (s : σ) :
    (∀ cs s', Sampler.sampleError G p (2 ^ l) variance s = .ok (cs, s') →
      ∃ k, Key.sample G p q l variance logT s = .ok (k, s')) ∧
    ∀ k s', Key.sample G p q l variance logT s = .ok (k, s') → ∀ pt, ValidPoly N (2 ^ l) pt →
      ∀ (fuel bEnc : ℕ) (t t₁ t₂ : τ) (a e : List ℕ),
        Sampler.samplePolynomial G' p fuel (2 ^ l : ℕ) t = .ok (a, t₁) →
        Sampler.sampleError G' p (2 ^ l) variance t₁ = .ok (e, t₂) →
        ∃ x, encrypt G' fuel k pt bEnc t = .ok (x, t₂) ∧ x.c.length = 2 ∧
          (∀ c ∈ x.c, ValidPoly N (2 ^ l) c) ∧ x.power = 1 ∧ x.error = bEnc := by
  have g := good_of_create h
  have h4 := g.lt
  obtain ⟨l', hl', psi, tb⟩ := tables_of_init h hp hq
  have : l' = l := by omega
  subst this
  constructor
  · intro cs s' hs
    obtain ⟨r, r1, r2⟩ := valid_ntt g tb (valid_error G g variance s s' cs hs)
    have hlt : logT < w := by
      by_contra hc
      have : 2 ^ w ≤ 2 ^ logT := Nat.pow_le_pow_right (by norm_num) (by omega)
      omega
    have e : Sym.plaintextModulus p.w logT = .ok (2 ^ logT + 1) := by
      unfold Sym.plaintextModulus Transcription.shl
      rw [g.hw, if_pos (by omega), Outcome.bind_ok, Nat.one_shiftLeft,
        Nat.mod_eq_of_lt (by omega : 2 ^ logT < 2 ^ w), Nat.mod_eq_of_lt (by omega)]
      rfl
    refine ⟨⟨p, q, r, variance, logT, p, Mont.importInt p (2 ^ logT + 1)⟩, ?_⟩
    · unfold Key.sample
      rw [if_neg (by have := tb.l15; omega), Nat.one_shiftLeft, hs, Outcome.bind_ok]
      dsimp only
      rw [r1, Outcome.bind_ok, e, Outcome.bind_ok]
  · intro k s' hk pt hpt fuel bEnc t t₁ t₂ a e ha he
    obtain ⟨k1, k2, k3, k4, k5, k6, k7, k8⟩ := sample_word G h hp hq hk hT
    have hA := pad_rep G' g fuel _ t t₁ a ha
    rcases encryptWithPad_word G' hG' h tb k k1 k2 (k6.rep (p := p)) (by rw [k4]; exact hv) k7.le
        (hpt.rep (p := p)) hA t₁ with
      ⟨_, e', _⟩ | ⟨_, e', _⟩ | ⟨c0, s'', e', e1, ⟨cs, e0, -⟩, e2, e3⟩
    · rw [k4, he] at e'; cases e'
    · rw [k4, he] at e'; cases e'
    · rw [k4, he] at e0
      cases e0
      refine ⟨⟨[c0, Poly.negate p a], 1, bEnc⟩, ?_, rfl, ?_, rfl, rfl⟩
      · unfold encrypt
        rw [k1, k6.1, ha, Outcome.bind_ok]
        dsimp only
        rw [e1]; rfl
      · intro c hc
        simp only [List.mem_cons, List.not_mem_nil, or_false] at hc
        rcases hc with rfl | rfl
        · exact e3.valid
        · exact (hA.negate g).valid

/-! ## C35 -/

/-- C35: for every pad generator `P`, error generator `Q` and their states, if `EncryptWithPrng`
succeeds on `ms`, then `ExpandFromPrng` on its output with `P` in the same initial state succeeds, ends
with `P` in the same state, and gives exactly the ciphertexts `Encrypt` returns when its pads come from
the stream of `P` and its errors from the stream of `Q`. -/
theorem c35_replay (P : Gen σ) (Q : Gen τ) (fuel : ℕ) (k : Key) (bEnc : ℕ) (ms : List (List ℕ))
    (s s' : σ) (t t' : τ) (c0s : List (List ℕ))
    (h : encryptWithPrng P Q fuel k ms s t = .ok (c0s, s', t')) :
    ∃ cts, expandFromPrng P fuel k.p bEnc c0s s = .ok (cts, s') ∧
      Encrypted P Q fuel k bEnc ms s t cts s' t' := by
  induction ms generalizing s t c0s with
  | nil => cases h; exact ⟨[], rfl, .nil _ _⟩
  | cons m ms ih =>
    rw [encryptWithPrng] at h
    obtain ⟨⟨a, s₁⟩, ha, h⟩ := Outcome.bind_eq_ok.mp h
    obtain ⟨⟨c0, t₁⟩, hc, h⟩ := Outcome.bind_eq_ok.mp h
    obtain ⟨⟨rest, s₂, t₂⟩, hr, h⟩ := Outcome.bind_eq_ok.mp h
    cases h
    obtain ⟨cts, e1, e2⟩ := ih _ _ _ hr
    refine ⟨⟨[c0, Poly.negate k.p a], 1, bEnc⟩ :: cts, ?_, ?_⟩
    · rw [expandFromPrng, encryptWithPad_length Q k m a c0 t t₁ hc, ha, Outcome.bind_ok]
      dsimp only
      rw [e1]; rfl
    · obtain ⟨calls, hcalls⟩ := splices_sample P Q k.p fuel k.key.length s a s₁ ha
      refine .cons calls ?_ e2
      unfold encrypt
      have := hcalls 0 t
      rw [Nat.add_zero] at this
      rw [this, Outcome.bind_ok]
      dsimp only
      rw [embeds_encryptWithPad P Q k m a s₁ t, hc]
      rfl

/-- C35: one polynomial is returned for each message, of the length of the key. -/
theorem c35_lengths (P : Gen σ) (Q : Gen τ) (fuel : ℕ) (k : Key) (ms : List (List ℕ))
    (s s' : σ) (t t' : τ) (c0s : List (List ℕ))
    (h : encryptWithPrng P Q fuel k ms s t = .ok (c0s, s', t')) :
    c0s.length = ms.length ∧ ∀ c ∈ c0s, c.length = k.key.length := by
  induction ms generalizing s t c0s with
  | nil => cases h; simp
  | cons m ms ih =>
    rw [encryptWithPrng] at h
    obtain ⟨⟨a, s₁⟩, ha, h⟩ := Outcome.bind_eq_ok.mp h
    obtain ⟨⟨c0, t₁⟩, hc, h⟩ := Outcome.bind_eq_ok.mp h
    obtain ⟨⟨rest, s₂, t₂⟩, hr, h⟩ := Outcome.bind_eq_ok.mp h
    cases h
    obtain ⟨e1, e2⟩ := ih _ _ _ hr
    refine ⟨by simp [e1], fun c hc' => ?_⟩
    rcases List.mem_cons.mp hc' with rfl | hc'
    · exact encryptWithPad_length Q k m a _ t t₁ hc
    · exact e2 c hc'

/-- A generator spliced from two is as well-behaved as these. -/
theorem splice_words {P : Gen σ} {Q : Gen τ} (hP : Words P) (hQ : Words Q) : Words (splice P Q) := by
  constructor
  · rintro ⟨n, s, t⟩ v s' hv
    cases n with
    | zero =>
      obtain ⟨x, hx, hv⟩ := Outcome.bind_eq_ok.mp hv
      cases hv; exact hQ.byte _ _ _ hx
    | succ n =>
      obtain ⟨x, hx, hv⟩ := Outcome.bind_eq_ok.mp hv
      cases hv; exact hP.byte _ _ _ hx
  · rintro ⟨n, s, t⟩ v s' hv
    cases n with
    | zero =>
      obtain ⟨x, hx, hv⟩ := Outcome.bind_eq_ok.mp hv
      cases hv; exact hQ.word _ _ _ hx
    | succ n =>
      obtain ⟨x, hx, hv⟩ := Outcome.bind_eq_ok.mp hv
      cases hv; exact hP.word _ _ _ hx

/-- C35 with C19: under the noise condition of C19, every expanded ciphertext decrypts to its
message. -/
theorem c35_decrypt {ρ : Type} (G : Gen ρ) (P : Gen σ) (Q : Gen τ) (hP : Words P) (hQ : Words Q)
    {w N : ℕ} {p : MParams} (h : create w N = .ok p) (hp : N.Prime) {l : ℕ} {q : NttParams}
    (hq : initNtt p l = .ok q) {variance logT : ℕ} {r r' : ρ} {k : Key}
    (hk : Key.sample G p q l variance logT r = .ok (k, r'))
    (hb : 2 * (2 ^ logT + 2 * variance * (2 ^ logT + 1)) < N)
    (ms : List ((Fin (2 ^ l) → ℕ) × List ℕ))
    (hm : ∀ m ∈ ms, (∀ i, m.1 i < 2 ^ logT + 1) ∧ ValidPoly N (2 ^ l) m.2 ∧
      HasCoeffs p q N (2 ^ l) m.2 fun i => (m.1 i : ZMod N))
    {fuel bEnc : ℕ} {s s' : σ} {t t' : τ} {c0s : List (List ℕ)}
    (he : encryptWithPrng P Q fuel k (ms.map Prod.snd) s t = .ok (c0s, s', t')) :
    ∃ cts, expandFromPrng P fuel p bEnc c0s s = .ok (cts, s') ∧
      cts.map (decrypt k) = ms.map fun m => .ok (List.ofFn m.1) := by
  have hpow : 1 ≤ 2 ^ logT := Nat.one_le_two_pow
  have hT : 2 ^ logT + 1 < N := by nlinarith
  obtain ⟨k1, -⟩ := sample_word G h hp hq hk hT
  obtain ⟨cts, e1, e2⟩ := c35_replay P Q fuel k bEnc _ s s' t t' c0s he
  rw [k1] at e1
  refine ⟨cts, e1, ?_⟩
  clear e1 he
  induction ms generalizing s t cts with
  | nil => cases e2; rfl
  | cons m ms ih =>
    rw [List.map_cons] at e2
    cases e2 with
    | cons calls now later =>
      rw [List.map_cons, List.map_cons]
      obtain ⟨m1, m2, m3⟩ := hm m (by simp)
      rw [c19_words G (splice P Q) (splice_words hP hQ) h hp hq hk hb m.1 m1 m2 m3 now]
      rw [ih (fun m hm' => hm m (by simp [hm'])) _ later]

/-- Sampling a key with `2^31` coefficients or more has undefined behaviour, whatever the parameters: nothing checks
the exponent before it is used as a shift of an `int`. -/
theorem c19_words_dimension_witness (G : Gen σ) (p : MParams) (q : NttParams) {l : ℕ} (hl : 31 ≤ l)
    (variance logT : ℕ) (s : σ) : Key.sample G p q l variance logT s = .ub .badShift := by
  unfold Key.sample
  rw [if_pos hl]

/-! ### A concrete case -/

/-- A linear congruential toy generator. -/
def toyGen : Gen ℕ where
  rand8 s := .ok (s / 16 % 256, (s * 5 + 12345) % 65536)
  rand64 s := .ok (s * 281474976710657 % 2 ^ 64, (s * 5 + 12345) % 65536)

theorem toyGen_words : Words toyGen where
  byte s v s' h := by cases h; exact Nat.mod_lt _ (by norm_num)
  word s v s' h := by cases h; exact Nat.mod_lt _ (by norm_num)

/-- The hypotheses of `c19_words`, `c35_replay` and `c35_decrypt` are met by modulus 12289, two
coefficients, `t = 5`, variance 8: key, compressed encryption of two messages, expansion, decryption. -/
example : (do
    let p ← create 16 12289
    let q ← initNtt p 1
    let (k, _) ← Key.sample toyGen p q 1 8 2 77
    let m1 ← Poly.convertToNtt p q ([3, 4].map (Mont.importInt p))
    let m2 ← Poly.convertToNtt p q ([0, 1].map (Mont.importInt p))
    let (c0s, _, _) ← encryptWithPrng toyGen toyGen 8 k [m1, m2] 5 6
    let (cts, _) ← expandFromPrng toyGen 8 p 0 c0s 5
    let ds ← cts.mapM (decrypt k)
    .ok (c0s.length, decide (2 * (2 ^ 2 + 2 * 8 * (2 ^ 2 + 1)) < 12289), ds)) =
    .ok (2, true, [[3, 4], [0, 1]]) := by decide +kernel

end Shell
