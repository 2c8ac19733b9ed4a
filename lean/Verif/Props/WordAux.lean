import Verif.Lemmas.WordAux
import Verif.Lemmas.RnsSample
import Verif.Props.WordPublic
/-!
# Property C82: key switching with an auxiliary modulus on stored words
-/

namespace Shell
open Spec Rns WordCt ErrorTrack MParams Ntt NttRing Sym
variable {σ τ ρ : Type} {C : Ctx} {p pA : MParams} {q qA : NttParams} {m : ℕ} {psiA : ZMod m}

/-- **C82.** A key with an auxiliary modulus created on words holds a key over residues, made with some random
polynomials and with errors of at most `2 * variance`. -/
theorem c82_create (H : FitAux C p q m psiA pA qA) (R : Word.Rng σ) (hR : ∀ t, Words (R.gen t)) {k : Word.Key}
    {K : Sym.Key C} (hk : HoldsKey C p q k K) (hv : 2 * k.variance ≤ C.q) {fuel : ℕ} {prng : PrngType} {degree pw : ℤ}
    {seed seedE : List ℕ} {ak : Word.AKey}
    (h : Word.AKey.create R fuel k prng degree pA qA pw seed seedE = .ok ak) :
    ∃ (padsM : ℕ → C.Poly) (padsA : ℕ → (AuxKey.aux C m psiA).Poly) (E : ℕ → Fin C.n → ℤ) (AK : AuxKey.AKey C m),
      (∀ u i, |E u i| ≤ 2 * K.variance) ∧
      AuxKey.create psiA K prng degree pw padsM padsA (fun u => modq C.q (E u)) = .ok AK ∧
      HoldsAux C p q pA qA m ak AK :=
  auxCreate_agrees H R hR hk hv h

/-- **C82.** Applying such a key to words returns what applying it to residues returns, with the same errors, and for
a Galois key likewise; a ciphertext of another modulus and one without error parameters are rejected. -/
theorem c82_apply (H : FitAux C p q m psiA pA qA) {ak : Word.AKey} {AK : AuxKey.AKey C m}
    (hak : HoldsAux C p q pA qA m ak AK) (P : ErrorParams) {x : Obj ℝ} {X : Tracked C} (hx : Carries C p x X) :
    AgreesNew C p (auxApply ak C.q (some (P.bAux C.n)) x) (auxRelinearize P psiA AK X) ∧
    AgreesNew C p (auxGaloisApply ak C.q (some (P.bAux C.n)) x)
      (if X.ct.power ≠ AK.power then .err .invalidArgument else auxRelinearize P psiA AK X) ∧
    (∀ N b, N ≠ C.q → auxApply ak N b x = .err .invalidArgument) ∧
    ∀ N, auxApply ak N none x = .err .invalidArgument := by
  refine ⟨auxApply_agrees H hak P hx, auxGalois_agrees H hak P hx, fun N b hN => ?_, fun N => ?_⟩
  · unfold auxApply
    rw [hak.params, (modulus_facts H).2.1, if_pos hN]
  · unfold auxApply
    dsimp only
    split_ifs <;> rfl

/-! ## Circuits, end to end -/

/-- The coefficients of a sampled key. -/
theorem sampled_norm1 (G : Gen σ) (hG : Words G) {w N : ℕ} (h : create w N = .ok p) (hp : N.Prime) {l : ℕ}
    {psi : ZMod N} (hC : Fit ⟨w, N, l, psi⟩ p) (tb : Tables p w N l psi q) {variance logT : ℕ}
    (hvar : 2 * variance ≤ N) {s s' : σ} {k : Word.Key}
    (hk : Word.Key.sample G p q l variance logT s = .ok (k, s')) :
    norm1 (fun i => centered N (intt psi l (fun i : Fin (2 ^ l) => res p N (k.key.getD i 0)) i)) ≤
      ((2 ^ l * (2 * variance) : ℕ) : ℤ) := by
  haveI : NeZero N := ⟨hp.ne_zero⟩
  obtain ⟨S, s1, s2⟩ := sample_small G hG h tb hvar hk
  have hS : (fun i : Fin (2 ^ l) => res p N (k.key.getD i 0)) = ntt psi l (modq N S) := by
    funext i; exact s2.val i
  have hi : intt psi l (ntt psi l (modq N S)) = modq N S := fromNtt_toNtt (C := ⟨w, N, l, psi⟩) hC.ok _
  rw [hS, hi]
  unfold norm1
  refine (Finset.sum_le_sum fun i _ => centered_abs_le (S i) (2 * variance) (s1 i)).trans ?_
  simp

/-- What `c30_noise` bounds, divided by the auxiliary modulus. -/
theorem aux_noise {n t cnt N m B S : ℕ} (hm : 0 < m) {d norm : ℤ} (hn : norm ≤ ((n * S : ℕ) : ℤ))
    (h : (m : ℤ) * |d| ≤ t * ((cnt : ℕ) * ((n : ℕ) * (B : ℤ) * (N / 2 : ℕ)) + (m / 2 : ℕ) + norm * (m / 2 : ℕ))) :
    |d| ≤ (auxNoise n t cnt N m B S : ℕ) := by
  unfold auxNoise
  have h1 : (m : ℤ) * |d| ≤ ((t * (cnt * (n * B * (N / 2)) + m / 2 + n * S * (m / 2)) : ℕ) : ℤ) := by
    refine h.trans ?_
    have h2 : norm * ((m / 2 : ℕ) : ℤ) ≤ ((n * S : ℕ) : ℤ) * ((m / 2 : ℕ) : ℤ) :=
      mul_le_mul_of_nonneg_right hn (by positivity)
    rw [Nat.cast_mul t, Nat.cast_add, Nat.cast_add, Nat.cast_mul cnt, Nat.cast_mul (n * B), Nat.cast_mul n B,
      Nat.cast_mul (n * S) (m / 2)]
    exact mul_le_mul_of_nonneg_left (by linarith) (by positivity)
  rw [← Int.natCast_natAbs] at h1 ⊢
  rw [← Nat.cast_mul] at h1
  have h2 := Int.ofNat_le.mp h1
  apply Int.ofNat_le.mpr
  rw [Nat.le_div_iff_mul_le hm, mul_comm]
  exact h2

theorem fitAux {w N l t : ℕ} (h : create w N = .ok p) (hw : w ≤ 128) {psi : ZMod N} (hC : Fit ⟨w, N, l, psi⟩ p)
    (tb : Tables p w N l psi q) {m : ℕ} (ha : AuxParams w N l t m pA qA) :
    ∃ psiA : ZMod m, FitAux ⟨w, N, l, psi⟩ p q m psiA pA qA := by
  obtain ⟨psiA, a1, a2⟩ := fit_of_create ha.params hw ha.prime ha.ntt
  exact ⟨psiA, hC, tb, h, a1, a2, ha.params⟩

/-- Relinearization with an auxiliary-modulus key made for a sampled secret key. -/
theorem aux_relin (G : Gen σ) (hG : Words G) (R : Word.Rng ρ) (hR : ∀ t, Words (R.gen t)) {w N : ℕ}
    (h : create w N = .ok p) (hw : w ≤ 128) (hp : N.Prime) {l : ℕ} (hq : initNtt p l = .ok q) {psi : ZMod N}
    (hC : Fit ⟨w, N, l, psi⟩ p) (tb : Tables p w N l psi q) {variance logT : ℕ}
    {s s' : σ} {k : Word.Key} (hk : Word.Key.sample G p q l variance logT s = .ok (k, s')) (hT : 2 ^ logT + 1 < N)
    (hvar : 4 * variance < N) {m : ℕ} (ha : AuxParams w N l (2 ^ logT + 1) m pA qA) {fuel : ℕ} {prng : PrngType}
    {parts : ℕ} {seed seedE : List ℕ} {ak : Word.AKey}
    (hak : Word.AKey.create R fuel k prng (parts - 1 : ℤ) pA qA 1 seed seedE = .ok ak) (P : ErrorParams) (x : Obj ℝ)
    (φ : Fin (2 ^ l) → ℤ) (hx : Sound ⟨w, N, l, psi⟩ p (fun i => res p N (k.key.getD i 0)) x φ parts) :
    ∃ y φ', auxApply ak N (some (P.bAux (2 ^ l))) x = .ok y ∧
      Sound ⟨w, N, l, psi⟩ p (fun i => res p N (k.key.getD i 0)) y φ' 2 ∧
      modq (2 ^ logT + 1) φ' = modq (2 ^ logT + 1) φ ∧ ∀ i, |φ' i - φ i| ≤
        auxNoise (2 ^ l) (2 ^ logT + 1) (parts - 2) N m (2 * variance) (2 * variance) := by
  obtain ⟨k1, k2, k3, k4, k5, k6, k7, k8⟩ := sample_word G h hp hq hk hT
  obtain ⟨K, hK, hkey, hKv, htm, hTz, hTv⟩ := sampled_holds G h hp hq hC hk hT
  obtain ⟨psiA, H⟩ := fitAux h hw hC tb ha
  obtain ⟨X, x1, x2, x3, x4⟩ := hx
  obtain ⟨padsM, padsA, E, AK, e1, e2, e3⟩ := c82_create H R hR hK (by rw [k4]; show 2 * variance ≤ N; omega) hak
  have hN : ((⟨w, N, l, psi⟩ : Ctx).q : ℤ) = N := rfl
  obtain ⟨r, φ', g1, g2, g3, g4, g5, g6⟩ := c30_noise hC.ok H.fitA.ok ha.ne K (by rw [hTv]; exact ha.ndvd) prng
    (parts - 1) 1 padsM padsA E (B := ((2 * variance : ℕ) : ℤ)) (fun u i => by
      have := e1 u i
      rw [hKv] at this
      push_cast
      exact this)
    (by rw [hN]; push_cast; omega) e2 X.ct (by rw [x4]; ring) (φ := φ)
    (by rw [show (1 : ℤ).toNat = 1 from rfl, subst_id hC.ok.l32, hkey]; exact x2)
  have ha' := (c82_apply H e3 P x1).1
  unfold auxRelinearize at ha'
  rw [g1, Outcome.bind_ok] at ha'
  obtain ⟨y, y1, y2⟩ := ha'
  refine ⟨y, φ', y1, ⟨_, y2, by rw [← hkey]; exact g4, g3, g2⟩, ?_, fun i => ?_⟩
  · funext i
    refine (ZMod.intCast_eq_intCast_iff _ _ _).mpr ?_
    rw [← hTv]
    exact g5 i
  · have h1 := g6 i
    rw [if_pos rfl, x4, hTv, hkey] at h1
    exact aux_noise ha.prime.pos (sampled_norm1 G hG h hp hC tb (by omega) hk) h1

/-- The automorphism with an auxiliary-modulus Galois key made for a sampled secret key. -/
theorem aux_rotate (G : Gen σ) (hG : Words G) (R : Word.Rng ρ) (hR : ∀ t, Words (R.gen t)) {w N : ℕ}
    (h : create w N = .ok p) (hw : w ≤ 128) (hp : N.Prime) {l : ℕ} (hq : initNtt p l = .ok q) {psi : ZMod N}
    (hC : Fit ⟨w, N, l, psi⟩ p) (tb : Tables p w N l psi q) {variance logT : ℕ}
    {s s' : σ} {k : Word.Key} (hk : Word.Key.sample G p q l variance logT s = .ok (k, s')) (hT : 2 ^ logT + 1 < N)
    (hvar : 4 * variance < N) {m : ℕ} (ha : AuxParams w N l (2 ^ logT + 1) m pA qA) {fuel : ℕ} {prng : PrngType}
    {pw : ℕ} {seed seedE : List ℕ} {ak : Word.AKey}
    (hak : auxGaloisCreate R fuel k prng pA qA pw seed seedE = .ok ak) (P : ErrorParams) (x : Obj ℝ)
    (φ : Fin (2 ^ l) → ℤ) (hx : Sound ⟨w, N, l, psi⟩ p (fun i => res p N (k.key.getD i 0)) x φ 2) :
    ∃ z φ', (do auxGaloisApply ak N (some (P.bAux (2 ^ l))) (← WordCt.substitute q x ak.power)) = .ok z ∧
      Sound ⟨w, N, l, psi⟩ p (fun i => res p N (k.key.getD i 0)) z φ' 2 ∧ pw % 2 = 1 ∧
      modq (2 ^ logT + 1) φ' = modq (2 ^ logT + 1) (substPow pw φ) ∧ ∀ i, |φ' i - substPow pw φ i| ≤
        auxNoise (2 ^ l) (2 ^ logT + 1) 1 N m (2 * variance) (2 * variance) := by
  obtain ⟨k1, k2, k3, k4, k5, k6, k7, k8⟩ := sample_word G h hp hq hk hT
  obtain ⟨K, hK, hkey, hKv, htm, hTz, hTv⟩ := sampled_holds G h hp hq hC hk hT
  obtain ⟨psiA, H⟩ := fitAux h hw hC tb ha
  obtain ⟨X, x1, x2, x3, x4⟩ := hx
  obtain ⟨padsM, padsA, E, AK, e1, e2, e3⟩ := c82_create H R hR hK (by rw [k4]; show 2 * variance ≤ N; omega) hak
  have hN : ((⟨w, N, l, psi⟩ : Ctx).q : ℤ) = N := rfl
  have hc := (c30_galois_create (psi := psiA) K prng pw padsM padsA _).mp ⟨AK, e2⟩
  obtain ⟨s, r, φ', g0, g1, g2, g3, g4, g5, g6⟩ := (c30_galois hC.ok H.fitA.ok ha.ne K htm
    (by rw [hTv]; exact ha.ndvd) prng pw padsM padsA E (B := ((2 * variance : ℕ) : ℤ)) (fun u i => by
      have := e1 u i
      rw [hKv] at this
      push_cast
      exact this)
    (by rw [hN]; push_cast; omega) e2).1 X.ct x4 x3 (φ := φ) (by rw [hkey]; exact x2)
  have hpow : AK.power = pw := by
    unfold AuxKey.create at e2
    obtain ⟨_, e2⟩ | ⟨_, e2⟩ := ite_eq_iff.mp e2
    · cases e2
    obtain ⟨_, e2⟩ | ⟨_, e2⟩ := ite_eq_iff.mp e2
    · cases e2
    obtain ⟨_, e2⟩ | ⟨_, e2⟩ := ite_eq_iff.mp e2
    · cases e2
    obtain ⟨_, -, e2⟩ := Outcome.bind_eq_ok.mp e2
    cases e2
    rfl
  have hs := substitute_agrees hC tb x1 (pw : ℤ)
  unfold ErrorTrack.substitute at hs
  rw [g0, Outcome.bind_ok] at hs
  obtain ⟨y, y1, y2⟩ := hs
  unfold AuxKey.galoisApply at g1
  obtain ⟨_, g1⟩ | ⟨hne, g1⟩ := ite_eq_iff.mp g1
  · cases g1
  have ha' := (c82_apply H e3 P y2).2.1
  have hne' : ¬ (Tracked.mk s X.error).ct.power ≠ AK.power := hne
  rw [if_neg hne'] at ha'
  unfold auxRelinearize at ha'
  rw [g1, Outcome.bind_ok] at ha'
  obtain ⟨z, z1, z2⟩ := ha'
  refine ⟨z, φ', ?_, ⟨_, z2, by rw [← hkey]; exact g4, g3, g2⟩, by omega, ?_, fun i => ?_⟩
  · rw [e3.power, hpow, y1, Outcome.bind_ok]
    exact z1
  · funext i
    refine (ZMod.intCast_eq_intCast_iff _ _ _).mpr ?_
    rw [← hTv]
    exact g5 i
  · have h1 := g6 i
    rw [hTv, hkey] at h1
    refine aux_noise (S := 2 * variance) ha.prime.pos (sampled_norm1 G hG h hp hC tb (by omega) hk) ?_
    rw [Nat.cast_one, one_mul]
    exact h1

/-- **C82, end to end.** The computation of C81, with a relinearization key and Galois keys each either of the gadget
or of the auxiliary-modulus kind: if the bound of the circuit is below half the modulus, every operation on the stored
words succeeds, and `Decrypt` returns the circuit evaluated on the messages modulo `X^n + 1` and `t`. -/
theorem c82_circuit (G : Gen σ) (hG : Words G) (G' : Gen τ) (hG' : Words G') (R : Word.Rng ρ)
    (hR : ∀ t, Words (R.gen t)) {w N : ℕ} (h : create w N = .ok p) (hw : w ≤ 128) (hp : N.Prime) {l : ℕ}
    (hq : initNtt p l = .ok q) {variance logT : ℕ} {s s' : σ} {k : Word.Key}
    (hk : Word.Key.sample G p q l variance logT s = .ok (k, s')) (hT : 2 ^ logT + 1 < N) (hvar : 4 * variance < N)
    {fuel vk V : ℕ} (hvk : 2 * vk ≤ N) (hV : 2 * V ≤ N) {prngP : PrngType} {seedP seedPE : List ℕ}
    {pk : Word.PKey} (hpk : Word.PKey.create R fuel k vk prngP seedP seedPE = .ok pk) (P : ErrorParams)
    (m : ℕ → Fin (2 ^ l) → ℕ) (hm : ∀ i j, m i j < 2 ^ logT + 1) (g : ℕ → Fin (2 ^ l) → ℤ)
    {Gb : ℕ} (hg : ∀ i j, |g i j| ≤ Gb) {pt f : ℕ → List ℕ} (hpt : ∀ i, ValidPoly N (2 ^ l) (pt i))
    (hpt' : ∀ i, HasCoeffs p q N (2 ^ l) (pt i) fun j => (m i j : ZMod N)) (hf : ∀ i, ValidPoly N (2 ^ l) (f i))
    (hf' : ∀ i, HasCoeffs p q N (2 ^ l) (f i) fun j => (g i j : ZMod N)) {x : ℕ → Obj ℝ}
    (hx : ∀ i, EncryptionOf G' fuel k pk V P.bPublicKey (pt i) (x i)) {parts Rn : ℕ} {rk : SwitchKey}
    (hrk : RelinKey R fuel k w N l (2 ^ logT + 1) variance parts rk Rn) {pw A : ℕ → ℕ} {gk : ℕ → SwitchKey}
    (hgk : ∀ i, RotateKey R fuel k w N l (2 ^ logT + 1) variance (pw i) (gk i) (A i))
    (u : WordCircuit) (hu : u.Fits w parts)
    (hbound : 2 * u.bound (2 ^ l) (2 ^ logT + (2 ^ logT + 1) *
        max (2 * variance) (publicNoise (2 ^ l) (2 * variance) (2 * vk) (2 * V))) Gb Rn A < N) :
    ∃ y, u.run ⟨p, P.bPlaintext (2 ^ l), rk.relin P (2 ^ l) N, fun i => (gk i).rotate P q (2 ^ l) N, x, f⟩ = .ok y ∧
      y.c.length = u.len ∧ y.power = 1 ∧ ∀ bits, Word.decrypt k ⟨y.c, y.power, bits⟩ =
        .ok (List.ofFn fun j => (u.eval pw (fun i j => (m i j : ℤ)) g j % (2 ^ logT + 1)).toNat) := by
  obtain ⟨k1, k2, k3, k4, k5, k6, k7, k8⟩ := sample_word G h hp hq hk hT
  obtain ⟨psi, hC, tb⟩ := fit_of_create h hw hp hq
  have hvar' : 2 * variance ≤ N := by omega
  obtain ⟨y, y1, y2, y3, -, y4⟩ := circuit_decrypts G h hp hq hC tb hk hT m g hg
    (e := ⟨p, P.bPlaintext (2 ^ l), rk.relin P (2 ^ l) N, fun i => (gk i).rotate P q (2 ^ l) N, x, f⟩) rfl P rfl hf hf'
    (fun i => encryption_word G hG G' hG' R hR h hp hq hC tb hk hT hvar' hvk hV hpk P (m i) (hm i) (hpt i) (hpt' i)
      (hx i)) (parts := parts) (Rn := Rn) (pw := pw) (A := A)
    (fun x φ hx => by
      cases hrk with
      | gadget hb hrk => rw [k1]; exact gadget_relin G R hR h hw hp hq hC tb hk hT hvar' hb hrk P x φ hx
      | aux ha hak => exact aux_relin G hG R hR h hw hp hq hC tb hk hT hvar ha hak P x φ hx)
    (fun v x φ hx => by
      have hv := hgk v
      show ∃ z φ', (gk v).rotate P q (2 ^ l) N x = .ok z ∧ _
      generalize gk v = sk at hv
      generalize A v = Av at hv
      cases hv with
      | gadget hb hgk => rw [k1]; exact gadget_rotate G R hR h hw hp hq hC tb hk hT hvar' hb hgk P x φ hx
      | aux ha hak => exact aux_rotate G hG R hR h hw hp hq hC tb hk hT hvar ha hak P x φ hx) u hu hbound
  exact ⟨y, y1, y2, y3, y4⟩

/-- The circuit of C74 on encryptions of `1 + 2 X` and `2 + X` with the plaintext `1 - 2 X`, modulus 12289, `t = 3`,
variance 1, with keys for the auxiliary modulus 7681: they are created, the bound is small enough, and the words
decrypt to the value. -/
example : (do
    let p ← create 16 12289
    let q ← initNtt p 1
    let pA ← create 16 7681
    let qA ← initNtt pA 1
    let (k, _) ← Word.Key.sample toyGen p q 1 1 1 77
    let m0 ← Poly.convertToNtt p q ([1, 2].map (Mont.importInt p))
    let m1 ← Poly.convertToNtt p q ([2, 1].map (Mont.importInt p))
    let f ← Poly.convertToNtt p q ([1, 12287].map (Mont.importInt p))
    let (x0, s) ← Word.encrypt toyGen 8 k m0 0 5
    let (x1, _) ← Word.encrypt toyGen 8 k m1 0 s
    let rk ← Word.AKey.create toyRng 8 k .hkdf 2 pA qA 1 [3] [4]
    let gk ← auxGaloisCreate toyRng 8 k .chacha pA qA 3 [5] [6]
    let y ← exWordCircuit.run ⟨p, (5 : ℚ), auxApply rk 12289 (some fun _ _ => 1),
      fun _ x => do auxGaloisApply gk 12289 (some fun _ _ => 1) (← WordCt.substitute q x gk.power),
      fun i => if i = 0 then ⟨x0.c, x0.power, x0.error, []⟩ else ⟨x1.c, x1.power, x1.error, []⟩, fun _ => f⟩
    let d ← Word.decrypt k ⟨y.c, y.power, 0⟩
    .ok (y.c.length, d, decide (2 * exWordCircuit.bound (2 ^ 1) (2 ^ 1 + 2 * 1 * (2 ^ 1 + 1)) 2
      (auxNoise (2 ^ 1) (2 ^ 1 + 1) (3 - 2) 12289 7681 (2 * 1) (2 * 1))
      (fun _ => auxNoise (2 ^ 1) (2 ^ 1 + 1) 1 12289 7681 (2 * 1) (2 * 1)) < 12289))) =
    .ok (2, List.ofFn fun j => (exWordCircuit.eval (fun _ => 3) (fun i => if i = 0 then ![1, 2] else ![2, 1])
      (fun _ => ![1, -2]) j % 3).toNat, true) ∧ exWordCircuit.Fits 16 3 ∧ ¬ 7681 ∣ 2 ^ 1 + 1 ∧ Nat.Prime 7681 := by
  refine ⟨by decide +kernel, ?_, by norm_num, by norm_num⟩
  simp [exWordCircuit, WordCircuit.Fits, WordCircuit.len]

end Shell
