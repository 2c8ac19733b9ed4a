import Verif.Props.RnsBfvLevelled
import Verif.Props.RnsSession
/-!
# Property C76: sessions with the RNS BFV scheme
-/

namespace Shell
open Spec Rns
variable {σ τ : Type} {G : Gen σ} {Gp : Gen τ} {fuel : ℕ} {est : Estimate} {C : SchemeChoice} {c : Rns.Ctx} {k : ℕ → RKey}
  {pk : RPub} {v : LEnv} {m m' : ℕ → List ℕ} {ε : ℚ}

/-- The context of a session. -/
theorem Spec.BfvSession.contextOk (hC : C.Valid) (h : BfvSession G Gp fuel est C c k pk v m m') :
    ContextOk C c ∧ c.ps.map (·.N) = C.ps ∧ BfvConstants v.e.ctx v.e.mt := by
  have hp := hC.prime
  obtain ⟨h1, h2, h3, h4, mt, h5, h6, h7⟩ := c54_createForBfvFF (fun q hq => hp q (List.mem_append_left _ hq))
    (fun q hq => hp q (List.mem_append_right _ hq)) hC.small hC.plain h.context hC.distinct
    (fun q hq hd => hC.other q hq ((Nat.prime_dvd_prime_iff_eq (hp q hq) hC.plain).mp hd))
  have hx : ContextOk C c := ⟨h1, h2, h4, mt, h5, h6, h7.modT⟩
  obtain ⟨he, hc, -⟩ := h.keys.encoderOk hx
  refine ⟨hx, h3, ?_⟩
  have h8 := he.modT
  rw [hc, h7.modT] at h8
  obtain rfl := Option.some.inj h8
  rw [hc]
  exact h7

/-- The ciphertexts of a session. -/
theorem Spec.BfvSession.inputs (hG : Words G) (hC : C.Valid) (h : BfvSession G Gp fuel est C c k pk v m m')
    {S : Fin (2 ^ C.l) → ℤ} (hk : GoodKey C.w C.l (k c.qs.length) S) (hms : (k c.qs.length).ms = c.qs)
    (hvar : (k c.qs.length).variance = C.v) (hv0 : 0 < C.v) (hS : norm1 S ≤ 2 ^ C.l * (2 * C.v)) (hne : c.qs ≠ [])
    (i : ℕ) :
    VSound C.l v.e S (v.x i) ⟨C.qs.length, 2, (C.bfvParams ε).fresh⟩ (fun j => ((m i).getD j 0 : ℕ)) ∧
    VSound C.l v.e S (v.y i) ⟨C.qs.length, 2, (C.bfvParams ε).sent⟩ (fun j => ((m' i).getD j 0 : ℕ)) := by
  obtain ⟨hx, -, hb⟩ := h.contextOk hC
  obtain ⟨he, hc, ht, htN, hqs⟩ := h.keys.encoderOk hx
  have hlq : C.qs.length = c.qs.length := by rw [← hqs, List.length_map]
  have h0 : 0 < c.qs.length := List.length_pos_iff.mpr hne
  have hct : 0 < c.t := by rw [ht]; exact hC.plain.pos
  have henc : ∀ msgs : List ℕ, (∀ a ∈ msgs, a < 2 ^ C.w) → msgs.length ≤ 2 ^ C.l → ∃ p F,
      (finiteFieldEncoder est v.e).encodeBfv msgs c.qs = .ok p ∧ p.ntt = true ∧
      Represents C.l c.qs p (fun j => ⌈(modulusProd c.qs * (F j : ℤ) : ℚ) / c.t⌉) ∧
      ∀ i < 2 ^ C.l, slotsOf (nttRoot C.l v.e.mt) C.l F i = ((msgs.getD i 0 : ℕ) : ZMod v.e.mt.N) := by
    intro msgs w1 w2
    obtain ⟨p, F, p1, p2, p3, p4, p5⟩ := c50_encode_bfv he hb (by rw [hc]; exact hne) w1 w2
    rw [hc] at p1 p3
    exact ⟨p, fun j => (F j : ℤ), p1, p2, by simpa using p3, p5⟩
  constructor
  · obtain ⟨p, F, p1, p2, p3, p5⟩ := henc (m i) (h.messages i).1.1 (h.messages i).1.2
    have key : ∃ R : Fin (2 ^ C.l) → ℤ, Fresh (k c.qs.length) (v.x i) ∧
        Encrypts C.l S (v.x i) ((fun j => ⌈(modulusProd c.qs * (F j : ℤ) : ℚ) / c.t⌉) + R) ∧ ∀ i, |R i| ≤ 2 * C.v := by
      obtain ⟨q1, q2⟩ := c55_encrypt_bfv G hG Gp (fuel := fuel) (E := finiteFieldEncoder est v.e) hk
        (by rw [hms]; exact p1) (by rw [hms]; exact p3)
      rcases h.encrypt i with ⟨s, s', hx⟩ | ⟨s, sp, s', hx⟩
      · have hx' := hx
        unfold RKey.encryptBfv1 plainNtt at hx
        rw [hms, p1, Outcome.bind_ok, p2] at hx
        simp only [Bool.not_true, Bool.false_eq_true, if_false, Outcome.bind_ok] at hx
        obtain ⟨⟨a, s1⟩, ha, hx⟩ := Outcome.bind_eq_ok.mp hx
        obtain ⟨⟨er, s2⟩, her, -⟩ := Outcome.bind_eq_ok.mp hx
        obtain ⟨x, R, x1, x2, x3, x4⟩ := q1 (by rw [hms]; exact ha) (by rw [hms]; exact her)
        rw [hx'] at x1
        obtain rfl : v.x i = x := congrArg Prod.fst (Outcome.ok.inj x1)
        exact ⟨R, x2, x3, by rw [← hvar]; exact x4⟩
      · have hx' := hx
        unfold RKey.encryptBfv plainNtt at hx
        rw [hms, p1, Outcome.bind_ok, p2] at hx
        simp only [Bool.not_true, Bool.false_eq_true, if_false, Outcome.bind_ok] at hx
        obtain ⟨⟨a, s1⟩, ha, hx⟩ := Outcome.bind_eq_ok.mp hx
        obtain ⟨⟨er, s2⟩, her, -⟩ := Outcome.bind_eq_ok.mp hx
        obtain ⟨x, R, x1, x2, x3, x4⟩ := q2 (by rw [hms]; exact ha) (by rw [hms]; exact her)
        rw [hx'] at x1
        obtain rfl : v.x i = x := congrArg Prod.fst (Outcome.ok.inj x1)
        exact ⟨R, x2, x3, by rw [← hvar]; exact x4⟩
    obtain ⟨R, ⟨f1, f2, f3⟩, x3, x4⟩ := key
    rw [hms] at f1
    refine ⟨?_, f2, f3, by dsimp only; omega, by dsimp only; rw [hc]; omega, le_rfl, F, ?_, p5⟩
    · rw [f1, hc]; dsimp only; rw [hlq, List.take_length]
    · have := c57_fresh hct (F := F) (by rw [f1]; exact x3) x4
      rw [ht] at this
      rw [hc, ht]
      simpa [SchemeChoice.bfvParams] using this
  · obtain ⟨sp, s, hpk⟩ := h.pub
    have hpk' := hpk
    unfold RPub.create at hpk
    rw [if_neg (by omega)] at hpk
    obtain ⟨⟨a, sp1⟩, ha, hpk⟩ := Outcome.bind_eq_ok.mp hpk
    obtain ⟨⟨er, s1⟩, her, -⟩ := Outcome.bind_eq_ok.mp hpk
    obtain ⟨pk', q1, q2, q3, q4⟩ := c55_public_key Gp G hG hk (by rw [← hvar]; exact hk.variance)
      (lt_of_le_of_lt hC.plain.one_lt.le hC.small) hv0 ha her
    rw [hpk'] at q1
    obtain rfl := Outcome.ok.inj q1
    obtain ⟨s, s', hy⟩ := h.receive i
    obtain ⟨p, F, p1, p2, p3, p5⟩ := henc (m' i) (h.messages i).2.1 (h.messages i).2.2
    have hy' := hy
    rw [hms] at q2
    unfold RPub.encryptBfv plainNtt at hy
    rw [q2, p1, Outcome.bind_ok, p2] at hy
    simp only [Bool.not_true, Bool.false_eq_true, if_false, Outcome.bind_ok] at hy
    obtain ⟨⟨e0, s1⟩, he0, hy⟩ := Outcome.bind_eq_ok.mp hy
    obtain ⟨⟨e1, s2⟩, he1, hy⟩ := Outcome.bind_eq_ok.mp hy
    obtain ⟨b1, hb1, hy⟩ := Outcome.bind_eq_ok.mp hy
    obtain ⟨b2, hb2, hy⟩ := Outcome.bind_eq_ok.mp hy
    obtain ⟨⟨e2, s3⟩, he2, hy⟩ := Outcome.bind_eq_ok.mp hy
    obtain ⟨x, R, x1, f1, f2, f3, x3, x4⟩ := c55_public_encrypt_bfv G hG (E := finiteFieldEncoder est v.e) (k := pk)
      (by rw [q2, ← hms]; exact hk.good) (by rw [q2, q3, ← hms, ← hvar]; exact hk.variance) (by omega)
      q4 (by rw [q2]; exact p1) (by rw [q2]; exact p3)
      (by rw [q2]; exact he0) (by rw [q2]; exact he1) (by rw [q2]; exact he2)
    rw [hy'] at x1
    obtain rfl : v.y i = x := congrArg Prod.fst (Outcome.ok.inj x1)
    rw [q2] at f1
    refine ⟨?_, f2, f3, by dsimp only; omega, by dsimp only; rw [hc]; omega, le_rfl, F, ?_, p5⟩
    · rw [f1, hc]; dsimp only; rw [hlq, List.take_length]
    · have := c57_fresh hct (F := F) (R := R) (B := 2 * C.v * (2 ^ C.l * (2 * C.v) + 1 + 2 ^ C.l * (2 * C.v)))
        (by rw [f1]; exact x3) (fun j => ?_)
      · rw [ht] at this
        rw [hc, ht]
        simpa [SchemeChoice.bfvParams] using this
      · rw [q3] at x4
        exact (x4 j).trans (mul_le_mul_of_nonneg_left (by linarith) (by omega))

/-- **C76.** For every choice of parameters, every generator, all messages, and estimates with an error `ε` below one half:
if the library delivers a context, an encoder, keys and encryptions, then every computation that the analysis supports,
with its arithmetic, products, plaintext vectors, relinearizations, rotations and modulus reductions, runs without error,
and if the analysed noise is small enough for the moduli that are left, decryption with the reduced secret key returns the
result of the same computation on the vectors of messages modulo `t`. -/
theorem c76_circuit (hG : Words G) (hest : EstimateWithin (max C.qs.length C.ps.length) ε est) (h0 : 0 ≤ ε) (hε : ε < 1 / 2) (hC : C.Valid)
    (hps : C.ps ≠ []) (hq : C.qs.length < 2 ^ C.w) (hp : C.ps.length < 2 ^ C.w)
    (h : BfvSession G Gp fuel est C c k pk v m m') (u : VCircuit) {info : LInfo}
    (hu : u.analyse (C.bfvParams ε) = some info)
    (hb : info.noise < (1 / 2 - ε) * (C.qs.take info.level).prod) :
    ∃ r, u.run est C.l v = .ok r ∧ (k info.level).decryptBfv (finiteFieldEncoder est v.e) r =
      .ok (List.ofFn fun i : Fin (2 ^ C.l) => (u.eval (R := ZMod C.t) C.l (fun i j => ((m i).getD j 0 : ℕ))
        (fun i j => ((m' i).getD j 0 : ℕ)) i).val) := by
  obtain ⟨hx, hpN, hbc⟩ := h.contextOk hC
  obtain ⟨he, hc, ht, htN, hqs⟩ := h.keys.encoderOk hx
  obtain ⟨S, hv0, hS, hk⟩ := h.keys.secretOk hG hC hx
  have hne : c.qs ≠ [] := by
    intro hn
    obtain ⟨s, s', hs⟩ := h.keys.secret
    unfold RKey.sample at hs
    rw [hn] at hs
    simp at hs
  have h0q : 0 < c.qs.length := List.length_pos_iff.mpr hne
  obtain ⟨t1, t2, t3⟩ := hk c.qs.length h0q le_rfl
  rw [List.take_length] at t1
  have hin := h.inputs (ε := ε) hG hC t3 t1 t2 hv0 hS hne
  have hsec : ((norm1 S : ℤ) : ℚ) ≤ (C.bfvParams ε).secret := by
    show ((norm1 S : ℤ) : ℚ) ≤ 2 ^ C.l * (2 * C.v)
    exact_mod_cast hS
  have hlq : c.qs.length = C.qs.length := by rw [← hqs, List.length_map]
  have hlp : c.ps.length = C.ps.length := by rw [← hpN, List.length_map]
  have hone : 1 < 2 ^ C.w := lt_of_le_of_lt hC.plain.one_lt.le hC.small
  have hdig : ∀ lev, (v.e.ctx.t : ℚ) * digitNoise C.l 1 (2 * C.v) (gadgetLogs (C.qs.take lev) (C.logBs lev)) =
      (C.bfvParams ε).switch lev := by
    intro lev
    show _ = digitNoise C.l C.t (2 * C.v) (gadgetLogs (C.qs.take lev) (C.logBs lev))
    rw [hc, ht]
    unfold digitNoise
    push_cast
    ring
  obtain ⟨r, r1, r2⟩ := bfv_levelled_sound (v := v) (P := C.bfvParams ε) (est := est) rfl he hbc
    ⟨by rw [hc]; intro hn; exact hps (by rw [← hpN, hn]; rfl), by rw [hc, hlq]; exact hq, by rw [hc, hlp]; exact hp,
      by rw [hc, hlq, hlp]; exact hest, hε, h0⟩ rfl rfl (by rw [hc, ht]; rfl) (by rw [hc, hqs]; rfl) (by rw [hc, hpN]; rfl) rfl hsec
    (fun i => (hin i).1) (fun i => (hin i).2)
    (fun lev hl => ⟨_, hdig lev, by rw [hc]; exact h.keys.relinOk hG hC hx hone hv0 hk hl⟩)
    (fun a ha => ⟨_, hdig a.1, by rw [hc]; exact h.keys.galoisOk hG hC hx hone hv0 hk ha⟩) u hu
  refine ⟨r, r1, ?_⟩
  rw [← htN]
  obtain ⟨g1, g2, g3, g4, g5⟩ := r2.good he
  obtain ⟨s1, s2, s3, s4, s5, s6, M, s7, s8⟩ := r2
  rw [hc] at s5
  obtain ⟨k1, k2, k3⟩ := hk info.level s4 s5
  rw [hc] at s1
  have hkne : (k info.level).ms ≠ [] := by rw [k1, ← s1]; exact g2
  have hprod : (modulusProd (k info.level).ms : ℚ) = ((C.qs.take info.level).prod : ℕ) := by
    rw [k1, ← hqs, ← List.map_take]
    rfl
  have hdec := (c57_decrypt (within_mono hest (by rw [k1, List.length_take]; omega)) hε he.ctx hbc he.mt.create he.N (by rw [hc]; exact k1) hkne
    (by rw [k1, List.length_take]; omega) k3.key (s1.trans k1.symm) g3 s2 s7
    (by rw [hprod]; exact hb)).2 v.e he rfl rfl
  rw [hdec]
  congr 1
  congr 1
  funext i
  rw [s8 i i.2]

end Shell
