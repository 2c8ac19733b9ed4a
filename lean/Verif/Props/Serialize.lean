import Verif.Lemmas.Serialize
import Verif.Props.Word
/-!
# Property C29: serialized objects deserialize to the same object
-/

namespace Shell
open Spec Word MParams Ntt NttRing Sampler
variable {σ τ : Type}

/-- A secret key under parameters `p`, `q` with `2^l` coefficients, as the public functions make them. -/
structure ValidKey (p : MParams) (q : NttParams) (N l : ℕ) (k : Word.Key) : Prop where
  params : k.p = p
  ntt : k.q = q
  poly : ValidPoly N (2 ^ l) k.key
  t : k.tMod ≤ N

/-- Sampled keys are valid keys. -/
theorem validKey_sample (G : Gen σ) {w N : ℕ} {p : MParams} (h : create w N = .ok p) (hp : N.Prime)
    {l : ℕ} {q : NttParams} (hq : initNtt p l = .ok q) {variance logT : ℕ} {s s' : σ} {k : Word.Key}
    (hk : Word.Key.sample G p q l variance logT s = .ok (k, s')) (hT : 2 ^ logT + 1 < N) :
    ValidKey p q N l k := by
  obtain ⟨k1, k2, -, -, -, k6, k7, -⟩ := sample_word G h hp hq hk hT
  exact ⟨k1, k2, k6, k7.le⟩

/-! ## Polynomials -/

/-- C29, polynomials: every non-empty polynomial of at most `2^15` stored words survives. -/
theorem c29_polynomial {w N : ℕ} {p : MParams} (h : create w N = .ok p) (hw : w ≤ 128) (hw8 : 8 ≤ w)
    (x : List ℕ) (h0 : x ≠ []) (h15 : x.length ≤ 2 ^ 15) (hx : ∀ a ∈ x, a ≤ N) :
    ∃ s, serPoly p x = .ok s ∧ s.1 = x.length ∧ desPoly p s = .ok x := by
  obtain ⟨s, s1, s2⟩ := poly_roundtrip h hw hw8 h0 h15 hx
  refine ⟨s, s1, ?_, s2⟩
  unfold serPoly at s1
  obtain ⟨r, hr, s1⟩ := Outcome.bind_eq_ok.mp s1
  cases s1
  unfold Poly.serialize at hr
  obtain ⟨b, -, hr⟩ := Outcome.bind_eq_ok.mp hr
  cases hr
  rfl

/-- C29, polynomials: what cannot be the serialization of a polynomial is rejected: counts outside
`1 .. 2^15` and byte strings that are too short. -/
theorem c29_polynomial_rejects {w N : ℕ} {p : MParams} (h : create w N = .ok p) (hw : w ≤ 128)
    (hw8 : 8 ≤ w) (s : SPoly)
    (hs : s.1 ≤ 0 ∨ s.1 > 2 ^ 15 ∨ (s.2.length : ℤ) * 8 < p.logModulus * s.1) :
    desPoly p s = .err .invalidArgument := by
  unfold desPoly Poly.deserialize Mont.kMaxNumCoeffs
  by_cases h1 : s.1 ≤ 0
  · rw [if_pos h1]
  by_cases h2 : s.1 > 2 ^ 15
  · rw [if_neg h1, if_pos (by exact_mod_cast h2)]
  rw [if_neg h1, if_neg (by push_cast; exact h2)]
  obtain ⟨n, hn⟩ := Int.eq_ofNat_of_zero_le (by omega : 0 ≤ s.1)
  rcases hs with hs | hs | hs
  · exact absurd hs h1
  · exact absurd hs h2
  · rw [hn] at hs h2 ⊢
    exact (c10_rejects h hw hw8).2.2.1 n s.2 (by omega) (by exact_mod_cast hs)

/-- C29: `operator==` on polynomials decides equality of the stored words, lengths included. -/
theorem c29_equality (x y : List ℕ) : Poly.beq x y = true ↔ x = y := by
  unfold Poly.beq
  constructor
  · intro h
    rw [Bool.and_eq_true, beq_iff_eq] at h
    obtain ⟨h1, h2⟩ := h
    induction x generalizing y with
    | nil => cases y with
      | nil => rfl
      | cons b y => simp at h1
    | cons a x ih => cases y with
      | nil => simp at h1
      | cons b y =>
        simp only [List.zipWith_cons_cons, List.all_cons, Bool.and_eq_true, id] at h2
        rw [ih y (by simpa using h1) h2.2]
        have : a = b := by simpa [Mont.beq] using h2.1
        rw [this]
  · rintro rfl
    simp only [beq_self_eq_true, Bool.true_and]
    induction x with
    | nil => rfl
    | cons a x ih => simp [Mont.beq]

/-! ## Ciphertexts -/

/-- C29, ciphertexts of 1 to `2^15` components.  Partial: see `c29_empty_ciphertext_violated`; pending
lazy operations (C22) are not part of the serialization. -/
theorem c29_ciphertext_partial {w N : ℕ} {p : MParams} (h : create w N = .ok p) (hw : w ≤ 128)
    (hw8 : 8 ≤ w) (x : Ct) (h0 : x.c ≠ []) (h15 : x.c.length ≤ 2 ^ 15)
    (hx : ∀ c ∈ x.c, c ≠ [] ∧ c.length ≤ 2 ^ 15 ∧ ∀ a ∈ c, a ≤ N) :
    ∃ s, x.serialize p = .ok s ∧ Ct.deserialize p s = .ok x := by
  obtain ⟨ss, s1, s2⟩ := polys_roundtrip h hw hw8 hx
  have hl := s2.length_eq
  have hpos : 0 < x.c.length := List.length_pos_iff.mpr h0
  refine ⟨⟨ss, x.power, x.error⟩, ?_, ?_⟩
  · unfold Ct.serialize; rw [s1]; rfl
  · unfold Ct.deserialize Mont.kMaxNumCoeffs
    dsimp only
    rw [if_neg (by omega), if_neg (by omega), mapM_des s2]; rfl

/-- A ciphertext without components (as the default constructor makes it) is serialized but not
deserialized. -/
theorem c29_empty_ciphertext_violated (p : MParams) (power : ℤ) (e : ℕ) :
    ∃ s, (Ct.mk [] power e).serialize p = .ok s ∧ Ct.deserialize p s = .err .invalidArgument :=
  ⟨⟨[], power, e⟩, rfl, rfl⟩

/-! ## Secret keys -/

/-- C29, secret keys whose plaintext modulus has at most `log_modulus - 1` bits.  Partial: see
`c29_key_violated`. -/
theorem c29_key_partial {w N l : ℕ} {p : MParams} {q : NttParams} (h : create w N = .ok p)
    (hp : N.Prime) (hq : initNtt p l = .ok q) (hw : w ≤ 128)
    (hw8 : 8 ≤ w) (k : Word.Key) (hk : ValidKey p q N l k) (hlog : k.logT + 1 ≤ p.logModulus)
    (ht : Sym.plaintextModulus k.tp.w k.logT >>= (fun t => .ok (Mont.importInt k.tp t)) = .ok k.tMod) :
    ∃ s, k.serialize = .ok s ∧ Word.Key.deserialize k.variance k.logT s p k.tp q = .ok k := by
  obtain ⟨l', hl', psi, tb⟩ := tables_of_init h hp hq
  have : l' = l := by omega
  subst this
  obtain ⟨v1, v2, v3⟩ := valid_ser (N := N) Nat.one_le_two_pow
    (Nat.pow_le_pow_right (by norm_num) tb.l15) hk.poly
  obtain ⟨s, s1, s2⟩ := poly_roundtrip h hw hw8 v1 v2 v3
  obtain ⟨-, l2, -, l4, -⟩ := logModulus_facts h hw
  refine ⟨s, by unfold Word.Key.serialize; rw [hk.params, s1], ?_⟩
  unfold Word.Key.deserialize
  have e : trunc 32 ((p.logModulus : ℤ) - 1) = p.logModulus - 1 := by
    rw [show ((p.logModulus : ℤ) - 1) = ((p.logModulus - 1 : ℕ) : ℤ) by omega]
    exact trunc_nat (by omega)
  rw [e, if_neg (by omega), s2, Outcome.bind_ok]
  obtain ⟨t, t1, t2⟩ := Outcome.bind_eq_ok.mp ht
  rw [t1, Outcome.bind_ok]
  rw [Outcome.ok.inj t2, ← hk.params, ← hk.ntt]

/-- `Sample` accepts a plaintext modulus of as many bits as the modulus; the resulting key is
serialized, but `Deserialize` rejects it. -/
theorem c29_key_violated :
    (do let p ← create 16 12289
        let q ← initNtt p 1
        let (k, _) ← Word.Key.sample toyGen p q 1 8 14 77
        k.serialize >>= fun s => .ok (s.1)) = .ok 2 ∧
    (do let p ← create 16 12289
        let q ← initNtt p 1
        let (k, _) ← Word.Key.sample toyGen p q 1 8 14 77
        let s ← k.serialize
        Word.Key.deserialize 8 14 s p p q >>= fun k => .ok k.key) = .err .invalidArgument := by
  decide +kernel

/-! ## Relinearization and Galois keys -/

/-- C29, relinearization keys: for every generator, seeds, number of parts, decomposition and
substitution power for which `Create` succeeds, `Serialize` succeeds and `Deserialize` returns the same
key: all parts with both rows, the dimension, the decomposition modulus and the other fields. -/
theorem c29_relinearization {w N l : ℕ} {p : MParams} {q : NttParams} (h : create w N = .ok p)
    (hp : N.Prime) (hq : initNtt p l = .ok q) (hw : w ≤ 128) (hw8 : 8 ≤ w) (R : Rng σ) (fuel : ℕ)
    (k : Word.Key) (hk : ValidKey p q N l k) (prng : PrngType) (numParts : ℤ) (logDecomp : ℕ)
    (power : ℤ) (seed seedE : List ℕ) (rk : Word.RKey)
    (hrk : Word.RKey.create R fuel k prng numParts logDecomp power seed seedE = .ok rk) :
    ∃ s, rk.serialize = .ok s ∧ Word.RKey.deserialize R fuel s p q = .ok rk := by
  have g := good_of_create h
  have h4 := g.lt
  obtain ⟨l', hl', psi, tb⟩ := tables_of_init h hp hq
  have : l' = l := by omega
  subst this
  unfold Word.RKey.create at hrk
  obtain ⟨_, hrk⟩ | ⟨h1, hrk⟩ := ite_eq_iff.mp hrk
  · cases hrk
  obtain ⟨_, hrk⟩ | ⟨h2, hrk⟩ := ite_eq_iff.mp hrk
  · cases hrk
  obtain ⟨_, hrk⟩ | ⟨h3, hrk⟩ := ite_eq_iff.mp hrk
  · cases hrk
  rw [hk.params, hk.ntt] at hrk
  rw [hk.params] at h3
  obtain ⟨one, e1, hrk⟩ := Outcome.bind_eq_ok.mp hrk
  obtain ⟨base, e2, hrk⟩ := Outcome.bind_eq_ok.mp hrk
  obtain ⟨s, e3, hrk⟩ := Outcome.bind_eq_ok.mp hrk
  obtain ⟨u, e4, hrk⟩ := Outcome.bind_eq_ok.mp hrk
  obtain ⟨dim, e5, hrk⟩ := Outcome.bind_eq_ok.mp hrk
  obtain ⟨⟨parts, s', u'⟩, e6, hrk⟩ := Outcome.bind_eq_ok.mp hrk
  have hrk' := Outcome.ok.inj hrk
  clear hrk
  subst hrk'
  have hone : one < 2 ^ w := by
    unfold Transcription.shl at e1
    obtain ⟨_, e1⟩ | ⟨_, e1⟩ := ite_eq_iff.mp e1
    · cases e1
      rw [g.hw]; exact Nat.mod_lt _ (Nat.two_pow_pos _)
    · cases e1
  have hbase := valid_substitute tb hk.poly e2
  obtain ⟨c1, c2, c3⟩ := parts_replay (R.gen prng) (R.gen prng) g tb k hk.params hk.ntt hk.poly hk.t
    (importInt_lt g one hone).le hbase _ _ hbase e6
  obtain ⟨ss, s1, s2⟩ := polys_roundtrip h hw hw8 (xs := parts.flatMap Part.row0) (by
    intro x hx
    obtain ⟨y, hy, hxy⟩ := List.mem_flatMap.mp hx
    exact valid_ser Nat.one_le_two_pow (Nat.pow_le_pow_right (by norm_num) tb.l15)
      ((c2 y hy).2 x hxy))
  have hlen : ss.length = parts.length * dim := by
    rw [s2.length_eq, flatMap_length fun y hy => (c2 y hy).1]
  have hfirst : ((Relin.firstKeyIndex power : ℕ) : ℤ) < numParts := by
    unfold Relin.firstKeyIndex
    split_ifs at h1 ⊢ <;> push_cast <;> omega
  refine ⟨⟨ss, logDecomp, numParts, seed, prng, power⟩, ?_, ?_⟩
  · unfold Word.RKey.serialize; rw [s1]; rfl
  · unfold Word.RKey.deserialize
    dsimp only
    have hpos : 0 < (numParts - (Relin.firstKeyIndex power : ℕ)).toNat := by omega
    rw [c1] at hlen
    rw [if_neg (by omega), if_neg (by rw [hlen]; simp), if_neg (by omega), if_neg (by omega), hlen,
      Nat.mul_div_cancel_left _ hpos, Int.toNat_natCast, e5, Outcome.bind_ok, if_neg (by simp), e1,
      Outcome.bind_ok, e3, Outcome.bind_ok]
    have := c3 [] ss 0 (by simp) s2
    rw [List.nil_append] at this
    rw [this]
    simp only [Outcome.bind_ok, hk.params, hk.ntt]

/-- C29, Galois keys: a Galois key is serialized as its relinearization key with two parts. -/
theorem c29_galois {w N l : ℕ} {p : MParams} {q : NttParams} (h : create w N = .ok p)
    (hp : N.Prime) (hq : initNtt p l = .ok q) (hw : w ≤ 128) (hw8 : 8 ≤ w) (R : Rng σ) (fuel : ℕ)
    (k : Word.Key) (hk : ValidKey p q N l k) (prng : PrngType) (power : ℤ) (logDecomp : ℕ)
    (seed seedE : List ℕ) (rk : Word.RKey)
    (hrk : galoisCreate R fuel k prng power logDecomp seed seedE = .ok rk) :
    ∃ s, rk.serialize = .ok s ∧ Word.RKey.deserialize R fuel s p q = .ok rk :=
  c29_relinearization h hp hq hw hw8 R fuel k hk prng 2 logDecomp power seed seedE rk hrk

/-! ## Public keys -/

/-- C29, public keys. -/
theorem c29_public {w N l : ℕ} {p : MParams} {q : NttParams} (h : create w N = .ok p)
    (hp : N.Prime) (hq : initNtt p l = .ok q) (hw : w ≤ 128) (hw8 : 8 ≤ w) (R : Rng σ) (fuel : ℕ)
    (k : Word.Key) (hk : ValidKey p q N l k) (variance : ℤ) (prng : PrngType) (seed seedE : List ℕ)
    (pk : PKey) (hpk : PKey.create R fuel k variance prng seed seedE = .ok pk) :
    ∃ s, pk.serialize = .ok s ∧ PKey.deserialize R fuel s k.tMod p q = .ok pk := by
  have g := good_of_create h
  obtain ⟨l', hl', psi, tb⟩ := tables_of_init h hp hq
  have : l' = l := by omega
  subst this
  unfold PKey.create at hpk
  obtain ⟨_, hpk⟩ | ⟨h1, hpk⟩ := ite_eq_iff.mp hpk
  · cases hpk
  rw [hk.params, hk.ntt, hk.poly.1] at hpk
  obtain ⟨s, e1, hpk⟩ := Outcome.bind_eq_ok.mp hpk
  obtain ⟨u, e2, hpk⟩ := Outcome.bind_eq_ok.mp hpk
  obtain ⟨⟨a, s'⟩, e3, hpk⟩ := Outcome.bind_eq_ok.mp hpk
  obtain ⟨⟨e, u'⟩, e4, hpk⟩ := Outcome.bind_eq_ok.mp hpk
  obtain ⟨b1, e5, hpk⟩ := Outcome.bind_eq_ok.mp hpk
  obtain ⟨b2, e6, hpk⟩ := Outcome.bind_eq_ok.mp hpk
  obtain ⟨b3, e7, hpk⟩ := Outcome.bind_eq_ok.mp hpk
  cases hpk
  have va := valid_pad (R.gen prng) g fuel s s' a e3
  obtain ⟨x, x1, vx⟩ := valid_ntt g tb (valid_error (R.gen prng) g _ u u' e e4)
  rw [x1] at e5; cases e5
  obtain ⟨y, y1, vy⟩ := valid_scalar g vx hk.t
  rw [y1] at e6; cases e6
  obtain ⟨z, z1, vz⟩ := valid_fused g vy va hk.poly
  rw [z1] at e7; cases e7
  obtain ⟨v1, v2, v3⟩ := valid_ser (N := N) Nat.one_le_two_pow
    (Nat.pow_le_pow_right (by norm_num) tb.l15) vz
  obtain ⟨sb, s1, s2⟩ := poly_roundtrip h hw hw8 v1 v2 v3
  refine ⟨(seed, prng, sb), ?_, ?_⟩
  · unfold PKey.serialize; rw [s1]; rfl
  · unfold PKey.deserialize
    dsimp only
    rw [e1, Outcome.bind_ok, tb.num, e3, Outcome.bind_ok]
    dsimp only
    rw [s2]; rfl

/-! ## Keys with an auxiliary modulus -/

/-- C29, keys with an auxiliary modulus and exactly one component.  Partial: with any other number of
components the claim is false, see `c29_aux_violated`. -/
theorem c29_aux_partial {w N M l : ℕ} {p pAux : MParams} {q qAux : NttParams}
    (h : create w N = .ok p) (hp : N.Prime) (hq : initNtt p l = .ok q)
    (h' : create w M = .ok pAux) (hp' : M.Prime) (hq' : initNtt pAux l = .ok qAux)
    (hw : w ≤ 128) (hw8 : 8 ≤ w) (R : Rng σ) (fuel : ℕ) (k : Word.Key) (hk : ValidKey p q N l k)
    (prng : PrngType) (degree power : ℤ) (seed seedE : List ℕ) (ak : AKey)
    (hak : AKey.create R fuel k prng degree pAux qAux power seed seedE = .ok ak)
    (hone : (if power = 1 then degree - 1 else degree) = 1) :
    ∃ s, ak.serialize = .ok s ∧ AKey.deserialize R fuel s p q pAux qAux ak.t = .ok ak := by
  have g := good_of_create h
  have h4 := g.lt
  have g' := good_of_create h'
  have h4' := g'.lt
  obtain ⟨l', hl', psi, tb⟩ := tables_of_init h hp hq
  have : l' = l := by omega
  subst this
  obtain ⟨l'', hl'', psi', tb'⟩ := tables_of_init h' hp' hq'
  have : l'' = l' := by omega
  subst this
  unfold AKey.create at hak
  obtain ⟨_, hak⟩ | ⟨_, hak⟩ := ite_eq_iff.mp hak
  · cases hak
  obtain ⟨_, hak⟩ | ⟨_, hak⟩ := ite_eq_iff.mp hak
  · cases hak
  rw [hk.params, hk.ntt] at hak
  obtain ⟨s, e1, hak⟩ := Outcome.bind_eq_ok.mp hak
  obtain ⟨u, e2, hak⟩ := Outcome.bind_eq_ok.mp hak
  obtain ⟨sMain, e3, hak⟩ := Outcome.bind_eq_ok.mp hak
  obtain ⟨sAux, e4, hak⟩ := Outcome.bind_eq_ok.mp hak
  obtain ⟨base, e5, hak⟩ := Outcome.bind_eq_ok.mp hak
  obtain ⟨sPower, e6, hak⟩ := Outcome.bind_eq_ok.mp hak
  obtain ⟨⟨keys, s', u'⟩, e7, hak⟩ := Outcome.bind_eq_ok.mp hak
  have hak' := Outcome.ok.inj hak
  clear hak
  subst hak'
  rw [hone] at e7
  have vbase := valid_substitute tb hk.poly e5
  obtain ⟨x, x1, vp⟩ := valid_scalar g vbase
    (importInt_lt g pAux.modulus (by rw [g'.hN]; omega)).le
  have e6' : Poly.copying (Poly.mulScalarInPlace p base (Mont.importInt p pAux.modulus)) =
    .ok sPower := e6
  rw [x1] at e6'; cases e6'
  obtain ⟨y, y1, vm⟩ := valid_inverse g hp tb hk.poly
  rw [y1] at e3; cases e3
  have vma := (c33_refines h h' _ _ (vm.rep (p := p))).valid
  obtain ⟨z, z1, va⟩ := valid_ntt g' tb' vma
  rw [z1] at e4; cases e4
  -- the only component
  rw [show Int.toNat 1 = 0 + 1 by rfl, createComps, hk.params] at e7
  obtain ⟨sp, f1, e7⟩ := Outcome.bind_eq_ok.mp e7
  have vsp : ValidPoly N (2 ^ l'') sp := by
    split_ifs at f1
    · obtain ⟨r, r1, r2⟩ := valid_mul g vp vbase
      rw [r1] at f1; cases f1; exact r2
    · cases f1; exact vp
  obtain ⟨⟨c, s₁, u₁⟩, f2, e7⟩ := Outcome.bind_eq_ok.mp e7
  cases e7
  unfold Comp.create at f2
  rw [hk.params, hk.ntt, hk.poly.1] at f2
  obtain ⟨⟨aMain, t₁⟩, k1, f2⟩ := Outcome.bind_eq_ok.mp f2
  obtain ⟨⟨aAux, t₂⟩, k2, f2⟩ := Outcome.bind_eq_ok.mp f2
  obtain ⟨⟨e, t₃⟩, k3, f2⟩ := Outcome.bind_eq_ok.mp f2
  obtain ⟨b1, k4, f2⟩ := Outcome.bind_eq_ok.mp f2
  obtain ⟨d1, k5, f2⟩ := Outcome.bind_eq_ok.mp f2
  obtain ⟨b2, k6, f2⟩ := Outcome.bind_eq_ok.mp f2
  obtain ⟨d2, k7, f2⟩ := Outcome.bind_eq_ok.mp f2
  obtain ⟨b3, k8, f2⟩ := Outcome.bind_eq_ok.mp f2
  obtain ⟨d3, k9, f2⟩ := Outcome.bind_eq_ok.mp f2
  obtain ⟨b4, k10, f2⟩ := Outcome.bind_eq_ok.mp f2
  cases f2
  have vam := valid_pad (R.gen prng) g fuel s t₁ aMain k1
  have vaa := valid_pad (R.gen prng) g' fuel t₁ s' aAux k2
  have ve := valid_error (R.gen prng) g k.variance u u' e k3
  have vea := (c33_refines h h' _ _ (ve.rep (p := p))).valid
  obtain ⟨_, q1, v1⟩ := valid_ntt g tb ve
  rw [q1] at k4; cases k4
  obtain ⟨_, q2, v2⟩ := valid_ntt g' tb' vea
  rw [q2] at k5; cases k5
  obtain ⟨_, q3, v3⟩ := valid_scalar g v1 hk.t
  rw [q3] at k6; cases k6
  have htint : Mont.exportInt p k.tMod < 2 ^ w := by
    have := exportInt_lt g k.tMod (by have := hk.t; omega) (Or.inr hk.t)
    unfold Mont.exportInt; omega
  obtain ⟨_, q4, v4⟩ := valid_scalar g' v2 (importInt_lt g' _ htint).le
  rw [q4] at k7; cases k7
  obtain ⟨_, q5, v5⟩ := valid_fused g v3 vam hk.poly
  rw [q5] at k8; cases k8
  obtain ⟨_, q6, v6⟩ := valid_fused g' v4 vaa va
  rw [q6] at k9; cases k9
  obtain ⟨_, q7, v7⟩ := valid_add g v5 vsp
  rw [q7] at k10; cases k10
  have h15 : 2 ^ l'' ≤ 2 ^ 15 := Nat.pow_le_pow_right (by norm_num) tb.l15
  obtain ⟨m1, m2, m3⟩ := valid_ser (N := N) Nat.one_le_two_pow h15 v7
  obtain ⟨sb, sb1, sb2⟩ := poly_roundtrip h hw hw8 m1 m2 m3
  obtain ⟨n1, n2, n3⟩ := valid_ser (N := M) Nat.one_le_two_pow h15 v6
  obtain ⟨sd, sd1, sd2⟩ := poly_roundtrip h' hw hw8 n1 n2 n3
  refine ⟨⟨[sb, sd], 1, seed, prng, power⟩, ?_, ?_⟩
  · unfold AKey.serialize
    simp only [serComps, sb1, sd1, Outcome.bind_ok, List.length_singleton, Nat.cast_one]
  · unfold AKey.deserialize
    dsimp only
    rw [if_neg (by norm_num), if_neg (by simp), e1, Outcome.bind_ok, show Int.toNat 1 = 0 + 1 by rfl,
      desComps, if_pos (by omega), rd_ok (by simp), Outcome.bind_ok]
    simp only [List.getElem_cons_zero]
    rw [sb2, Outcome.bind_ok, rd_ok (by simp), Outcome.bind_ok]
    simp only [Nat.zero_add, List.getElem_cons_succ, List.getElem_cons_zero]
    rw [sd2, Outcome.bind_ok, tb.num, k1, Outcome.bind_ok]
    dsimp only
    rw [tb'.num, k2, Outcome.bind_ok]
    dsimp only
    rw [desComps, Outcome.bind_ok, Outcome.bind_ok]

theorem desComps_length (P : Gen σ) (fuel : ℕ) (p : MParams) (q : NttParams) (pAux : MParams)
    (qAux : NttParams) (b : List SPoly) (n cnt i : ℕ) (hc : n ≤ cnt + i) (s s' : σ) (cs : List Comp)
    (h : desComps P fuel p q pAux qAux b n cnt i s = .ok (cs, s')) :
    cs.length = (n - i + 1) / 2 := by
  induction cnt generalizing i s cs with
  | zero => cases h; simp; omega
  | succ cnt ih =>
    rw [desComps] at h
    obtain ⟨hi, h⟩ | ⟨hi, h⟩ := ite_eq_iff.mp h
    · obtain ⟨x, -, h⟩ := Outcome.bind_eq_ok.mp h
      obtain ⟨bm, -, h⟩ := Outcome.bind_eq_ok.mp h
      obtain ⟨y, -, h⟩ := Outcome.bind_eq_ok.mp h
      obtain ⟨ba, -, h⟩ := Outcome.bind_eq_ok.mp h
      obtain ⟨a, -, h⟩ := Outcome.bind_eq_ok.mp h
      obtain ⟨a', -, h⟩ := Outcome.bind_eq_ok.mp h
      obtain ⟨r, hr, h⟩ := Outcome.bind_eq_ok.mp h
      cases h
      have := ih (i + 2) (by omega) a'.2 r.1 hr
      simp only [List.length_cons]; omega
    · cases h; simp; omega

/-- The code as written violates C29 for every key with an auxiliary modulus that does not have exactly
one component: without components `Deserialize` fails, and with `n ≥ 2` components it either fails or
returns a key with only `(n + 1) / 2` of them. -/
theorem c29_aux_violated (R : Rng σ) (fuel : ℕ) (ak : AKey) (hn : ak.keys.length ≠ 1) (s : SAKey)
    (hs : ak.serialize = .ok s) :
    AKey.deserialize R fuel s ak.p ak.q ak.pAux ak.qAux ak.t ≠ .ok ak ∧
    (ak.keys.length = 0 →
      AKey.deserialize R fuel s ak.p ak.q ak.pAux ak.qAux ak.t = .err .invalidArgument) ∧
    ∀ ak', AKey.deserialize R fuel s ak.p ak.q ak.pAux ak.qAux ak.t = .ok ak' →
      ak'.keys.length = (ak.keys.length + 1) / 2 := by
  unfold AKey.serialize at hs
  obtain ⟨b, -, hs⟩ := Outcome.bind_eq_ok.mp hs
  cases hs
  have key : ∀ ak', AKey.deserialize R fuel
      ⟨b, ak.keys.length, ak.seed, ak.prng, ak.power⟩ ak.p ak.q ak.pAux ak.qAux ak.t = .ok ak' →
      ak'.keys.length = (ak.keys.length + 1) / 2 ∧ ak.keys.length ≠ 0 := by
    intro ak' h
    unfold AKey.deserialize at h
    dsimp only at h
    obtain ⟨_, h⟩ | ⟨h0, h⟩ := ite_eq_iff.mp h
    · cases h
    obtain ⟨_, h⟩ | ⟨h1, h⟩ := ite_eq_iff.mp h
    · cases h
    obtain ⟨s, -, h⟩ := Outcome.bind_eq_ok.mp h
    obtain ⟨r, hr, h⟩ := Outcome.bind_eq_ok.mp h
    cases h
    rw [Int.toNat_natCast] at hr
    exact ⟨desComps_length _ _ _ _ _ _ _ _ _ _ (by omega) _ _ _ hr, by omega⟩
  refine ⟨fun h => ?_, fun h0 => ?_, fun ak' h => (key ak' h).1⟩
  · have := key _ h; omega
  · unfold AKey.deserialize
    dsimp only
    rw [if_pos (by omega)]

/-! ### Concrete cases -/

/-- A toy selection of generators: the seed's first byte is the state. -/
def toyRng : Rng ℕ where
  create _ seed := .ok (seed.headD 0)
  gen _ := toyGen

/-- Keys of all kinds for modulus 12289 (auxiliary modulus 40961), two coefficients: serialization
and deserialization succeed, and return the same polynomials. -/
example : (do
    let p ← create 32 12289
    let q ← initNtt p 1
    let p' ← create 32 40961
    let q' ← initNtt p' 1
    let (k, _) ← Word.Key.sample toyGen p q 1 8 2 77
    let rk ← Word.RKey.create toyRng 8 k .hkdf 4 5 1 [3] [4]
    let s ← rk.serialize
    let rk' ← Word.RKey.deserialize toyRng 8 s p q
    let pk ← PKey.create toyRng 8 k 8 .chacha [3] [4]
    let s ← pk.serialize
    let pk' ← PKey.deserialize toyRng 8 s k.tMod p q
    let ak ← AKey.create toyRng 8 k .hkdf 2 p' q' 1 [3] [4]
    let s ← ak.serialize
    let ak' ← AKey.deserialize toyRng 8 s p q p' q' 5
    .ok (rk.parts.length, decide (rk.parts = rk'.parts), decide (pk.a = pk'.a ∧ pk.b = pk'.b),
      ak.keys.length, decide (ak.keys = ak'.keys))) = .ok (2, true, true, 1, true) := by
  decide +kernel

/-- A key for relinearizing ciphertexts of degree 3 comes back with one component instead of two. -/
example : (do
    let p ← create 32 12289
    let q ← initNtt p 1
    let p' ← create 32 40961
    let q' ← initNtt p' 1
    let (k, _) ← Word.Key.sample toyGen p q 1 8 2 77
    let ak ← AKey.create toyRng 8 k .hkdf 3 p' q' 1 [3] [4]
    let s ← ak.serialize
    let ak' ← AKey.deserialize toyRng 8 s p q p' q' 5
    .ok (ak.keys.length, ak'.keys.length)) = .ok (2, 1) := by
  decide +kernel

end Shell
