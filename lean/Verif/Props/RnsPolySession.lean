import Verif.Props.RnsPolyLevelled
import Verif.Props.RnsSession
/-!
# Property C78: sessions with the RNS BGV scheme and the coefficient encoder
-/

namespace Shell
open Spec Rns
variable {σ τ : Type} {G : Gen σ} {Gp : Gen τ} {fuel : ℕ} {est : Estimate} {C : SchemeChoice} {k : ℕ → RKey} {pk : RPub}
  {v : PEnv} {m m' : ℕ → List ℕ}

/-- The context of a session. -/
theorem Spec.BgvPolySession.contextOk (hC : C.ValidPoly) (h : BgvPolySession G Gp fuel est C k pk v m m') :
    GoodCtx C.w C.l v.c ∧ v.c.qs.map (·.N) = C.qs ∧ v.c.t = C.t := by
  have hp := hC.prime
  obtain ⟨h1, h2, h3, h4⟩ := c54_create (fun q hq => hp q (List.mem_append_left _ hq))
    (fun q hq => hp q (List.mem_append_right _ hq)) hC.small h.context hC.distinct hC.other
  exact ⟨h1, h2, h4⟩

/-- The ciphertexts of a session. -/
theorem Spec.BgvPolySession.inputs (hG : Words G) (hC : C.ValidPoly) (h : BgvPolySession G Gp fuel est C k pk v m m')
    {S : Fin (2 ^ C.l) → ℤ} (hk : GoodKey C.w C.l (k v.c.qs.length) S) (hms : (k v.c.qs.length).ms = v.c.qs)
    (hvar : (k v.c.qs.length).variance = C.v) (hv0 : 0 < C.v) (hS : norm1 S ≤ 2 ^ C.l * (2 * C.v)) (hne : v.c.qs ≠ [])
    (i : ℕ) :
    PSound C.l v.c S (v.x i) ⟨C.qs.length, 2, C.params.fresh⟩ (fun j => ((m i).getD j 0 : ℕ)) ∧
    PSound C.l v.c S (v.y i) ⟨C.qs.length, 2, C.params.sent⟩ (fun j => ((m' i).getD j 0 : ℕ)) := by
  obtain ⟨hc, hqs, ht⟩ := h.contextOk hC
  have hlq : C.qs.length = v.c.qs.length := by rw [← hqs, List.length_map]
  have h0 : 0 < v.c.qs.length := List.length_pos_iff.mpr hne
  have henc : ∀ msgs : List ℕ, msgs.length ≤ 2 ^ C.l → ∃ p, ∃ F : Fin (2 ^ C.l) → ℤ,
      (coefficientEncoder est v.c).encodeBgv msgs v.c.qs = .ok p ∧ Represents C.l v.c.qs p F ∧
      (∃ q, plainNtt v.c.qs p = .ok q ∧ q.ntt = true) ∧
      (∀ j, 2 * |F j| ≤ (C.t : ℤ)) ∧ ∀ i, (F i : ZMod v.c.t) = ((msgs.getD i 0 : ℕ) : ZMod v.c.t) := by
    intro msgs w2
    obtain ⟨p, p1, p2, p3⟩ := c48_encode hc hne (fun _ h => h) w2
    obtain ⟨q, q1, q2, q3⟩ := repr_toNtt hc.qs p3 p2
    refine ⟨p, _, p1, p3, ⟨q, by unfold plainNtt; rw [p2]; exact q1, q2⟩, fun j => ?_, fun j => ?_⟩
    · rw [← ht]; exact (balanced_mod hc.pos _).2
    · have h1 := (balanced_mod hc.pos (msgs.getD j 0)).1
      have h2 : ((balanced v.c.t (msgs.getD j 0 % v.c.t) : ℤ) : ZMod v.c.t) =
          ((balanced v.c.t (msgs.getD j 0 % v.c.t) % v.c.t : ℤ) : ZMod v.c.t) := by simp
      rw [h2, h1]
      simp
  have hEt : (coefficientEncoder est v.c).t = C.t := ht
  constructor
  · obtain ⟨s, s', hx⟩ := h.encrypt i
    obtain ⟨p, F, p1, p3, ⟨q, q1, q2⟩, p4, p5⟩ := henc (m i) (h.messages i).1
    have hx' := hx
    unfold RKey.encryptBgv RKey.encryptPolynomialBgv at hx
    rw [hms, p1, Outcome.bind_ok, q1, Outcome.bind_ok] at hx
    simp only [q2, Bool.not_true, Bool.false_eq_true, if_false] at hx
    obtain ⟨⟨a, s1⟩, ha, hx⟩ := Outcome.bind_eq_ok.mp hx
    obtain ⟨⟨er, s2⟩, her, -⟩ := Outcome.bind_eq_ok.mp hx
    obtain ⟨x, R, x1, x2, x3, x4⟩ := c55_encrypt_bgv G hG (E := coefficientEncoder est v.c) hk (by rw [hms]; exact p1)
      (by rw [hms]; exact p3) (by rw [hEt]; exact hC.small) (by rw [hms]; exact ha) (by rw [hms]; exact her)
    rw [hx'] at x1
    obtain rfl : v.x i = x := congrArg Prod.fst (Outcome.ok.inj x1)
    rw [hEt] at x3
    obtain ⟨f1, f2, f3⟩ := x2
    refine ⟨?_, f2, f3, by dsimp only; omega, by dsimp only; omega, le_rfl, _, x3, ?_, ?_⟩
    · rw [f1, hms]; dsimp only; rw [hlq, List.take_length]
    · intro j; dsimp only; rw [← p5 j, ← ht]; simp
    · intro j
      have := fresh_noise p4 (b := 2 * C.v) (by rw [← hvar]; exact x4) j
      simpa [SchemeChoice.params] using this
  · obtain ⟨sp, s, hpk⟩ := h.pub
    have hpk' := hpk
    unfold RPub.create at hpk
    rw [if_neg (by omega)] at hpk
    obtain ⟨⟨a, sp1⟩, ha, hpk⟩ := Outcome.bind_eq_ok.mp hpk
    obtain ⟨⟨er, s1⟩, her, -⟩ := Outcome.bind_eq_ok.mp hpk
    obtain ⟨pk', q1, q2, q3, q4⟩ := c55_public_key Gp G hG hk (by rw [← hvar]; exact hk.variance) hC.small hv0 ha her
    rw [hpk'] at q1
    obtain rfl := Outcome.ok.inj q1
    obtain ⟨s, s', hy⟩ := h.receive i
    obtain ⟨p, F, p1, p3, ⟨q, n1, n2⟩, p4, p5⟩ := henc (m' i) (h.messages i).2
    have hy' := hy
    rw [hms] at q2
    unfold RPub.encryptBgv at hy
    rw [q2, p1, Outcome.bind_ok, n1, Outcome.bind_ok] at hy
    obtain ⟨⟨e0, s1⟩, he0, hy⟩ := Outcome.bind_eq_ok.mp hy
    obtain ⟨⟨e1, s2⟩, he1, hy⟩ := Outcome.bind_eq_ok.mp hy
    obtain ⟨b1, hb1, hy⟩ := Outcome.bind_eq_ok.mp hy
    obtain ⟨b2, hb2, hy⟩ := Outcome.bind_eq_ok.mp hy
    obtain ⟨b3, hb3, hy⟩ := Outcome.bind_eq_ok.mp hy
    obtain ⟨⟨e2, s3⟩, he2, hy⟩ := Outcome.bind_eq_ok.mp hy
    obtain ⟨x, R, x1, f1, f2, f3, x3, x4⟩ := c55_public_encrypt_bgv G hG (E := coefficientEncoder est v.c) (k := pk)
      (by rw [q2, ← hms]; exact hk.good) (by rw [q2, q3, ← hms, ← hvar]; exact hk.variance) (by omega)
      (by rw [hEt]; exact q4) (by rw [q2]; exact p1) (by rw [q2]; exact p3) (by rw [hEt]; exact hC.small)
      (by rw [q2]; exact he0) (by rw [q2]; exact he1) (by rw [q2]; exact he2)
    rw [hy'] at x1
    obtain rfl : v.y i = x := congrArg Prod.fst (Outcome.ok.inj x1)
    rw [hEt] at x3
    refine ⟨?_, f2, f3, by dsimp only; omega, by dsimp only; omega, le_rfl, _, x3, ?_, ?_⟩
    · rw [f1, q2]; dsimp only; rw [hlq, List.take_length]
    · intro j; dsimp only; rw [← p5 j, ← ht]; simp
    · intro j
      have := fresh_noise p4 (R := R) (b := 2 * C.v * (2 ^ C.l * (2 * C.v) + 1 + 2 ^ C.l * (2 * C.v))) (fun j => ?_) j
      · simpa [SchemeChoice.params] using this
      · rw [q3] at x4
        refine (x4 j).trans (mul_le_mul_of_nonneg_left (by linarith) (by omega))

/-- The computation, its result and the result's form. -/
theorem Spec.BgvPolySession.circuit (hG : Words G) (hC : C.ValidPoly) (h : BgvPolySession G Gp fuel est C k pk v m m') (u : PCircuit)
    {info : LInfo} (hu : u.analyse C.params = some info)
    (hb : ∀ q ∈ C.qs.head?, 2 * lsbBound C.t (C.qs.take info.level).tail.reverse info.noise < q) :
    ∃ r, u.run v = .ok r ∧ (k info.level).decryptBgv (coefficientEncoder est v.c) r =
      .ok (List.ofFn fun i : Fin (2 ^ C.l) => (u.eval (R := ZMod C.t) (fun i j => ((m i).getD j 0 : ℕ))
        (fun i j => ((m' i).getD j 0 : ℕ)) i).val) ∧
      r.ms = v.c.qs.take info.level ∧ 0 < info.level ∧ ∃ S Φ : Fin (2 ^ C.l) → ℤ, Encrypts C.l S r Φ := by
  obtain ⟨hc, hqs, ht⟩ := h.contextOk hC
  obtain ⟨S, hv0, hS, hk⟩ := h.keys.secretOk hG hC hc hqs
  have hne : v.c.qs ≠ [] := by
    intro hn
    obtain ⟨s, s', hs⟩ := h.keys.secret
    unfold RKey.sample at hs
    rw [hn] at hs
    simp at hs
  have h0 : 0 < v.c.qs.length := List.length_pos_iff.mpr hne
  obtain ⟨t1, t2, t3⟩ := hk v.c.qs.length h0 le_rfl
  rw [List.take_length] at t1
  have hin := h.inputs hG hC t3 t1 t2 hv0 hS hne
  have hsec : ((norm1 S : ℤ) : ℚ) ≤ C.params.secret := by
    show ((norm1 S : ℤ) : ℚ) ≤ 2 ^ C.l * (2 * C.v)
    exact_mod_cast hS
  obtain ⟨r, r1, r2⟩ := poly_levelled_sound (v := v) (P := C.params) hc rfl rfl ht.symm
    hqs.symm hsec (fun i => (hin i).1) (fun i => (hin i).2)
    (fun lev hl => by rw [ht]; exact h.keys.relinOk hG hC hc hqs hC.small hv0 hk hl)
    (fun a ha => by rw [ht]; exact h.keys.galoisOk hG hC hc hqs hC.small hv0 hk ha) u hu
  refine ⟨r, r1, ?_, r2.1, r2.2.2.2.1, S, r2.2.2.2.2.2.2.imp fun _ h => h.1⟩
  rw [← ht]
  obtain ⟨g1, g2, g3, g4, g5⟩ := r2.good hc
  obtain ⟨s1, s2, s3, s4, s5, s6, Φ, s7, s8, s9⟩ := r2
  obtain ⟨k1, k2, k3⟩ := hk info.level s4 s5
  obtain ⟨m0, rest, hq0⟩ := List.exists_cons_of_ne_nil hne
  have htake : v.c.qs.take info.level = m0 :: rest.take (info.level - 1) := by
    rw [hq0]
    conv_lhs => rw [show info.level = info.level - 1 + 1 by omega, List.take_succ_cons]
  have hkne : (k info.level).ms ≠ [] := by rw [k1, htake]; simp
  obtain ⟨p, p1, p2, p3, -, -⟩ := c55_decrypt k3.good hkne k3.key (s1.trans k1.symm) s2 g3 s7
  rw [p3]
  have hhead : m0.N ∈ C.qs.head? := by rw [← hqs, hq0]; rfl
  rw [k1, htake] at p2
  have hdrop : (C.qs.take info.level).tail.reverse = dropOrder (m0 :: rest.take (info.level - 1)) := by
    rw [← hqs, ← List.map_take, htake]
    rfl
  have hdec := c48_decode hc htake (by rw [ht]; exact (hC.first _ hhead).1) p2
    (fun i => by
      have h1 := hb m0.N hhead
      rw [hdrop] at h1
      rw [ht]
      have h2 := lsbBound_mono (t := C.t) (dropOrder (m0 :: rest.take (info.level - 1))) (s9 i)
      linarith)
  show decodeBgv v.c p (k info.level).ms = _
  rw [k1, htake, hdec]
  congr 1
  congr 1
  funext i
  haveI : NeZero v.c.t := ⟨hc.pos.ne'⟩
  rw [← s8 i]
  have h1 : ((Φ i % v.c.t).toNat : ℤ) = Φ i % v.c.t := Int.toNat_of_nonneg (Int.emod_nonneg _ (by have := hc.pos; omega))
  have h2 := ZMod.val_intCast (n := v.c.t) (Φ i)
  omega

/-- **C78.** For every choice of parameters, every plaintext modulus `t`, prime or not, every generator and all
messages: if the library delivers a context, keys and encryptions, then every computation on encrypted polynomials that
the analysis supports, with its arithmetic, plaintext polynomials, relinearizations, substitutions `X ↦ X^p` and modulus
reductions, runs without error, and if the analysed noise is small enough for the moduli that are left, decryption with the
reduced secret key returns the coefficients of the result of the same computation in `Z_t[X]/(X^n + 1)`. -/
theorem c78_circuit (hG : Words G) (hC : C.ValidPoly) (h : BgvPolySession G Gp fuel est C k pk v m m') (u : PCircuit)
    {info : LInfo} (hu : u.analyse C.params = some info)
    (hb : ∀ q ∈ C.qs.head?, 2 * lsbBound C.t (C.qs.take info.level).tail.reverse info.noise < q) :
    ∃ r, u.run v = .ok r ∧ (k info.level).decryptBgv (coefficientEncoder est v.c) r =
      .ok (List.ofFn fun i : Fin (2 ^ C.l) => (u.eval (R := ZMod C.t) (fun i j => ((m i).getD j 0 : ℕ))
        (fun i j => ((m' i).getD j 0 : ℕ)) i).val) := by
  obtain ⟨r, r1, r2, -⟩ := h.circuit hG hC u hu hb
  exact ⟨r, r1, r2⟩

end Shell
