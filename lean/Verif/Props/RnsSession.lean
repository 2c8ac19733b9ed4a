import Verif.Spec.RnsSession
import Verif.Props.RnsLevelled
import Verif.Props.RnsGadget
import Verif.Props.RnsContextKinds
/-!
# Property C75: sessions with the RNS BGV scheme
-/

namespace Shell
open Spec Rns
variable {σ τ : Type} {w l : ℕ} {S Φ : Fin (2 ^ l) → ℤ}

theorem fresh_noise {M R : Fin (2 ^ l) → ℤ} {t : ℕ} {b : ℤ} (hM : ∀ j, 2 * |M j| ≤ (t : ℤ)) (hR : ∀ j, |R j| ≤ b)
    (j : Fin (2 ^ l)) : |((M j + t * R j : ℤ) : ℚ)| ≤ t / 2 + t * b := by
  push_cast
  have h1 : |(M j : ℚ)| ≤ t / 2 := by
    have h1 : (2 * |(M j : ℚ)|) ≤ t := by exact_mod_cast hM j
    linarith
  have h2 : |(R j : ℚ)| ≤ b := by exact_mod_cast hR j
  refine (abs_add_le _ _).trans (add_le_add h1 ?_)
  rw [abs_mul, Nat.abs_cast]
  exact mul_le_mul_of_nonneg_left h2 (Nat.cast_nonneg _)

/-- A context with the chosen parameters. -/
def ContextOk (C : SchemeChoice) (c : Rns.Ctx) : Prop :=
  GoodCtx C.w C.l c ∧ c.qs.map (·.N) = C.qs ∧ c.t = C.t ∧ ∃ mt, GoodModulus C.w C.l mt ∧ mt.N = C.t ∧ c.modT = some mt

section
variable {G : Gen σ} {Gp : Gen τ} {fuel : ℕ} {est : Estimate} {C : SchemeChoice} {c : Rns.Ctx} {k : ℕ → RKey} {pk : RPub}
  {v : LEnv} {m m' : ℕ → List ℕ} {z : ℕ}

/-- The encoder of a session. -/
theorem Spec.KeySession.encoderOk (hx : ContextOk C c) (h : KeySession G Gp fuel C z c k v) :
    GoodEncoder C.w C.l v.e ∧ v.e.ctx = c ∧ c.t = C.t ∧ v.e.mt.N = C.t ∧ c.qs.map (·.N) = C.qs := by
  obtain ⟨h1, h2, h4, mt, h5, h6, h7⟩ := hx
  have he := h.encoder
  have he' := he
  unfold ffCreate at he
  rw [h7] at he
  dsimp only at he
  split_ifs at he
  obtain ⟨s, -, he⟩ := Outcome.bind_eq_ok.mp he
  have he : (⟨c, mt, s⟩ : FFEncoder) = v.e := Outcome.ok.inj he
  rw [← he]
  refine ⟨⟨?_, h1, h7, h5, h6.trans h4.symm⟩, rfl, h4, h6, h2⟩
  show ffCreate c = _
  rw [he', he]

/-- The secret keys of a session at all levels. -/
theorem Spec.KeySession.secretOk (hG : Words G) (hC : C.Valid) (hx : ContextOk C c) (h : KeySession G Gp fuel C z c k v) :
    ∃ S : Fin (2 ^ C.l) → ℤ, 0 < C.v ∧ (norm1 S ≤ 2 ^ C.l * (2 * C.v)) ∧ ∀ lev, 0 < lev → lev ≤ c.qs.length →
      (k lev).ms = c.qs.take lev ∧ (k lev).variance = C.v ∧ GoodKey C.w C.l (k lev) S := by
  obtain ⟨he, hc, ht, -, hqs⟩ := h.encoderOk hx
  rw [← hc] at hqs
  obtain ⟨s, s', hs⟩ := h.secret
  have hv0 : 0 < C.v := by
    unfold RKey.sample at hs
    split_ifs at hs
    omega
  have hv : ∀ a ∈ v.e.ctx.qs.head?, 2 * C.v ≤ a.N := by
    intro a ha
    refine (hC.first a.N ?_).2
    rw [← hqs, List.head?_map, Option.mem_def.mp ha]
    rfl
  rw [← hc] at hs ⊢
  obtain ⟨k1, k2, S, k3, k4⟩ := c55_key_sample G hG he.ctx.qs hv hs
  refine ⟨S, hv0, ?_, ?_⟩
  · unfold norm1
    refine (Finset.sum_le_sum fun i _ => k4 i).trans ?_
    simp
  · have main : ∀ d lev, d + lev = v.e.ctx.qs.length → 0 < lev → (k lev).ms = v.e.ctx.qs.take lev ∧
        (k lev).variance = C.v ∧ KeyIs C.l (k lev) S := by
      intro d
      induction d with
      | zero =>
        intro lev hl _
        have hl : lev = v.e.ctx.qs.length := by omega
        subst hl
        rw [List.take_length]
        exact ⟨k1, k2, k3⟩
      | succ d ih =>
        intro lev hl h0
        obtain ⟨a1, a2, a3⟩ := ih (lev + 1) (by omega) (by omega)
        have hlt : lev < v.e.ctx.qs.length := by omega
        have hms : (k (lev + 1)).ms = v.e.ctx.qs.take lev ++ [v.e.ctx.qs[lev]] := by
          rw [a1, List.take_add_one, List.getElem?_eq_getElem hlt]; rfl
        have hne : v.e.ctx.qs.take lev ≠ [] := by
          intro hn
          have := congrArg List.length hn
          rw [List.length_take, List.length_nil] at this
          omega
        obtain ⟨k', b1, b2, b3, b4⟩ := c56_key_modReduce hne hms a3
        rw [h.reduced lev h0 (by rw [← hc]; exact hlt)] at b1
        obtain rfl := Outcome.ok.inj b1
        exact ⟨b2, b3.trans a2, b4⟩
    intro lev h0 hl
    obtain ⟨a1, a2, a3⟩ := main (v.e.ctx.qs.length - lev) lev (by omega) h0
    refine ⟨a1, a2, fun a ha => he.ctx.qs a ?_, ?_, a3, ?_⟩
    · rw [a1] at ha; exact List.mem_of_mem_take ha
    · rw [a1, List.map_take, hqs]
      have hnd := (List.nodup_append.mp hC.distinct).1
      have hpr : ∀ q ∈ C.qs, q.Prime := fun q hq => hC.prime q (List.mem_append_left _ hq)
      refine List.Pairwise.sublist (List.take_sublist _ _) (List.Pairwise.imp_of_mem ?_ hnd)
      intro a b ha hb hab
      exact (Nat.coprime_primes (hpr a ha) (hpr b hb)).mpr hab
    · rw [a1, a2]
      intro a ha
      refine hv a ?_
      rw [List.head?_take, if_neg (by omega)] at ha
      exact ha

/-- The gadgets of a session. -/
theorem Spec.KeySession.gadgetOk (hC : C.Valid) (hx : ContextOk C c) (h : KeySession G Gp fuel C z c k v) {lev : ℕ}
    (hl : lev ∈ C.relins ∨ lev ∈ C.galois.map (·.1)) {g : RGadget} (hg : C.Gadget c lev g) :
    ∃ Gs, GadgetFor C.l (c.qs.take lev) g Gs (gadgetLogs (C.qs.take lev) (C.logBs lev)) := by
  obtain ⟨he, hc, ht, -, hqs⟩ := h.encoderOk hx
  obtain ⟨l0, l1, l2, l3⟩ := hC.level lev hl
  have hlq : c.qs.length = C.qs.length := by rw [← hqs, List.length_map]
  obtain ⟨hats, hatInvs, g1, g2, g3⟩ := hg
  obtain ⟨a, b, g', Gs, b1, b2, b3, b4, b5⟩ := c51_context he.ctx hC.word (root_of he).2.1 (level := lev - 1)
    (by rw [hc]; omega) (logBs := C.logBs lev) (by omega) l3
  rw [hc] at b1 b2 b3 b4 b5
  rw [show ((lev - 1 : ℕ) : ℤ) = (lev : ℤ) - 1 by omega] at b1 b2
  rw [g1] at b1
  rw [g2] at b2
  obtain rfl := Outcome.ok.inj b1
  obtain rfl := Outcome.ok.inj b2
  rw [show lev - 1 + 1 = lev by omega] at b3 b4 b5
  rw [g3] at b3
  obtain rfl := Outcome.ok.inj b3
  refine ⟨Gs, ?_⟩
  unfold gadgetLogs
  rw [← hqs, ← List.map_take, List.zipWith_map_left, ← b4]
  exact b5

/-- The relinearization keys of a session. -/
theorem Spec.KeySession.relinOk (hG : Words G) (hC : C.Valid) (hx : ContextOk C c) (h : KeySession G Gp fuel C z c k v)
    (hz : z < 2 ^ C.w) {S : Fin (2 ^ C.l) → ℤ} (hv0 : 0 < C.v) (hk : ∀ lev, 0 < lev → lev ≤ c.qs.length →
      (k lev).ms = c.qs.take lev ∧ (k lev).variance = C.v ∧ GoodKey C.w C.l (k lev) S) {lev : ℕ}
    (hl : lev ∈ C.relins) : RelinOk C.l S z (c.qs.take lev) (digitNoise C.l z (2 * C.v) (gadgetLogs (C.qs.take lev) (C.logBs lev)))
      (v.relin lev) := by
  obtain ⟨he, hc, ht, -, hqs⟩ := h.encoderOk hx
  have hlq : c.qs.length = C.qs.length := by rw [← hqs, List.length_map]
  obtain ⟨l0, l1, -, -⟩ := hC.level lev (Or.inl hl)
  obtain ⟨g, prng, sp, s, hg, hr⟩ := h.relin lev hl
  obtain ⟨Gs, hgad⟩ := h.gadgetOk hC hx (Or.inl hl) hg
  obtain ⟨k1, k2, k3⟩ := hk lev l0 (by omega)
  obtain ⟨-, r2, -, -, r5⟩ := c52_relin_create Gp G hG k3 (by rw [k1]; exact hgad) (by rw [← k2]; exact k3.variance)
    hz hr
  exact ⟨r2.trans k1, 2 * C.v, Gs, _, by omega, r5, by push_cast; exact le_rfl⟩

/-- The Galois keys of a session. -/
theorem Spec.KeySession.galoisOk (hG : Words G) (hC : C.Valid) (hx : ContextOk C c) (h : KeySession G Gp fuel C z c k v)
    (hz : z < 2 ^ C.w) {S : Fin (2 ^ C.l) → ℤ} (hv0 : 0 < C.v) (hk : ∀ lev, 0 < lev → lev ≤ c.qs.length →
      (k lev).ms = c.qs.take lev ∧ (k lev).variance = C.v ∧ GoodKey C.w C.l (k lev) S) {a : ℕ × ℕ}
    (ha : a ∈ C.galois) : GaloisOk C.l S z (c.qs.take a.1) (digitNoise C.l z (2 * C.v) (gadgetLogs (C.qs.take a.1) (C.logBs a.1)))
      a.2 (v.galois a.1 a.2) := by
  obtain ⟨he, hc, ht, -, hqs⟩ := h.encoderOk hx
  have hlq : c.qs.length = C.qs.length := by rw [← hqs, List.length_map]
  have hmem : a.1 ∈ C.galois.map (·.1) := List.mem_map_of_mem ha
  obtain ⟨l0, l1, -, -⟩ := hC.level a.1 (Or.inr hmem)
  obtain ⟨g, prng, sp, s, hg, hr⟩ := h.galois a ha
  obtain ⟨Gs, hgad⟩ := h.gadgetOk hC hx (Or.inr hmem) hg
  obtain ⟨k1, k2, k3⟩ := hk a.1 l0 (by omega)
  obtain ⟨r1, r2, r3, r4, -, r5⟩ := c52_galois_create Gp G hG k3 (by rw [k1]; exact hgad)
    (by rw [← k2]; exact k3.variance) hz hr
  exact ⟨r2.trans k1, r1, by omega, by exact_mod_cast r4, 2 * C.v, Gs, _, by omega, r5,
    by push_cast; exact le_rfl⟩

/-- The context of a session. -/
theorem Spec.BgvSession.contextOk (hC : C.Valid) (h : BgvSession G Gp fuel est C c k pk v m m') : ContextOk C c := by
  have hp := hC.prime
  obtain ⟨h1, h2, h3, h4, h5⟩ := c54_createForBgvFF (fun q hq => hp q (List.mem_append_left _ hq))
    (fun q hq => hp q (List.mem_append_right _ hq)) hC.small hC.plain h.context hC.distinct
    (fun q hq hd => hC.other q hq ((Nat.prime_dvd_prime_iff_eq (hp q hq) hC.plain).mp hd))
  exact ⟨h1, h2, h4, h5⟩

/-- The ciphertexts of a session. -/
theorem Spec.BgvSession.inputs (hG : Words G) (hC : C.Valid) (h : BgvSession G Gp fuel est C c k pk v m m')
    {S : Fin (2 ^ C.l) → ℤ} (hk : GoodKey C.w C.l (k c.qs.length) S) (hms : (k c.qs.length).ms = c.qs)
    (hvar : (k c.qs.length).variance = C.v) (hv0 : 0 < C.v) (hS : norm1 S ≤ 2 ^ C.l * (2 * C.v)) (hne : c.qs ≠ [])
    (i : ℕ) :
    LSound C.l v.e S (v.x i) ⟨C.qs.length, 2, C.params.fresh⟩ (fun j => ((m i).getD j 0 : ℕ)) ∧
    LSound C.l v.e S (v.y i) ⟨C.qs.length, 2, C.params.sent⟩ (fun j => ((m' i).getD j 0 : ℕ)) := by
  obtain ⟨he, hc, ht, htN, hqs⟩ := h.keys.encoderOk (h.contextOk hC)
  have hlq : C.qs.length = c.qs.length := by rw [← hqs, List.length_map]
  have h0 : 0 < c.qs.length := List.length_pos_iff.mpr hne
  have henc : ∀ msgs : List ℕ, (∀ a ∈ msgs, a < 2 ^ C.w) → msgs.length ≤ 2 ^ C.l → ∃ p F,
      (finiteFieldEncoder est v.e).encodeBgv msgs c.qs = .ok p ∧ p.ntt = true ∧ Represents C.l c.qs p F ∧
      (∀ j, 2 * |F j| ≤ (C.t : ℤ)) ∧
      ∀ i < 2 ^ C.l, slotsOf (nttRoot C.l v.e.mt) C.l F i = ((msgs.getD i 0 : ℕ) : ZMod v.e.mt.N) := by
    intro msgs w1 w2
    obtain ⟨p, F, p1, p2, p3, p4, p5⟩ := c50_encode_bgv he hne (by rw [hc]; exact fun _ h => h) w1 w2
    rw [hc, ht] at p4
    exact ⟨p, F, p1, p2, p3, p4, p5⟩
  have hEt : (finiteFieldEncoder est v.e).t = C.t := by
    show v.e.ctx.t = C.t
    rw [hc, ht]
  have hslot : ∀ (F R : Fin (2 ^ C.l) → ℤ) j, slotsOf (nttRoot C.l v.e.mt) C.l (fun i => F i + (C.t : ℤ) * R i) j =
      slotsOf (nttRoot C.l v.e.mt) C.l F j := by
    intro F R j
    rw [← htN, slots_noise]
  constructor
  · obtain ⟨s, s', hx⟩ := h.encrypt i
    obtain ⟨p, F, p1, p2, p3, p4, p5⟩ := henc (m i) (h.messages i).1.1 (h.messages i).1.2
    have hx' := hx
    unfold RKey.encryptBgv plainNtt RKey.encryptPolynomialBgv at hx
    rw [hms, p1, Outcome.bind_ok, p2] at hx
    simp only [Bool.not_true, Bool.false_eq_true, if_false, Outcome.bind_ok, p2] at hx
    obtain ⟨⟨a, s1⟩, ha, hx⟩ := Outcome.bind_eq_ok.mp hx
    obtain ⟨⟨er, s2⟩, her, -⟩ := Outcome.bind_eq_ok.mp hx
    obtain ⟨x, R, x1, x2, x3, x4⟩ := c55_encrypt_bgv G hG (E := finiteFieldEncoder est v.e) hk (by rw [hms]; exact p1)
      (by rw [hms]; exact p3) (by rw [hEt]; exact hC.small) (by rw [hms]; exact ha) (by rw [hms]; exact her)
    rw [hx'] at x1
    obtain rfl : v.x i = x := congrArg Prod.fst (Outcome.ok.inj x1)
    rw [hEt] at x3
    obtain ⟨f1, f2, f3⟩ := x2
    refine ⟨?_, f2, f3, by dsimp only; omega, by dsimp only; rw [hc]; omega, le_rfl, _, x3, ?_, ?_⟩
    · rw [f1, hms, hc]; dsimp only; rw [hlq, List.take_length]
    · intro j hj; rw [hslot, p5 j hj]
    · intro j
      have := fresh_noise p4 (b := 2 * C.v) (by rw [← hvar]; exact x4) j
      simpa [SchemeChoice.params] using this
  · obtain ⟨sp, s, hpk⟩ := h.pub
    have hpk' := hpk
    unfold RPub.create at hpk
    rw [if_neg (by omega)] at hpk
    obtain ⟨⟨a, sp1⟩, ha, hpk⟩ := Outcome.bind_eq_ok.mp hpk
    obtain ⟨⟨er, s1⟩, her, -⟩ := Outcome.bind_eq_ok.mp hpk
    obtain ⟨pk', q1, q2, q3, q4⟩ := c55_public_key Gp G hG hk (by rw [← hvar]; exact hk.variance) hC.small hv0 ha her
    rw [hpk'] at q1
    obtain rfl := Outcome.ok.inj q1
    obtain ⟨s, s', hy⟩ := h.receive i
    obtain ⟨p, F, p1, p2, p3, p4, p5⟩ := henc (m' i) (h.messages i).2.1 (h.messages i).2.2
    have hy' := hy
    rw [hms] at q2
    unfold RPub.encryptBgv plainNtt at hy
    rw [q2, p1, Outcome.bind_ok, p2] at hy
    simp only [Bool.not_true, Bool.false_eq_true, if_false, Outcome.bind_ok] at hy
    obtain ⟨⟨e0, s1⟩, he0, hy⟩ := Outcome.bind_eq_ok.mp hy
    obtain ⟨⟨e1, s2⟩, he1, hy⟩ := Outcome.bind_eq_ok.mp hy
    obtain ⟨b1, hb1, hy⟩ := Outcome.bind_eq_ok.mp hy
    obtain ⟨b2, hb2, hy⟩ := Outcome.bind_eq_ok.mp hy
    obtain ⟨b3, hb3, hy⟩ := Outcome.bind_eq_ok.mp hy
    obtain ⟨⟨e2, s3⟩, he2, hy⟩ := Outcome.bind_eq_ok.mp hy
    obtain ⟨x, R, x1, f1, f2, f3, x3, x4⟩ := c55_public_encrypt_bgv G hG (E := finiteFieldEncoder est v.e) (k := pk)
      (by rw [q2, ← hms]; exact hk.good) (by rw [q2, q3, ← hms, ← hvar]; exact hk.variance) (by omega)
      (by rw [hEt]; exact q4) (by rw [q2]; exact p1) (by rw [q2]; exact p3) (by rw [hEt]; exact hC.small)
      (by rw [q2]; exact he0) (by rw [q2]; exact he1) (by rw [q2]; exact he2)
    rw [hy'] at x1
    obtain rfl : v.y i = x := congrArg Prod.fst (Outcome.ok.inj x1)
    rw [hEt] at x3
    refine ⟨?_, f2, f3, by dsimp only; omega, by dsimp only; rw [hc]; omega, le_rfl, _, x3, ?_, ?_⟩
    · rw [f1, q2, hc]; dsimp only; rw [hlq, List.take_length]
    · intro j hj; rw [hslot, p5 j hj]
    · intro j
      have := fresh_noise p4 (R := R) (b := 2 * C.v * (2 ^ C.l * (2 * C.v) + 1 + 2 ^ C.l * (2 * C.v))) (fun j => ?_) j
      · simpa [SchemeChoice.params] using this
      · rw [q3] at x4
        refine (x4 j).trans (mul_le_mul_of_nonneg_left (by linarith) (by omega))

/-- A supported computation runs, and its result is as analysed, under the secret of a key for its level. -/
theorem Spec.BgvSession.run (hG : Words G) (hC : C.Valid) (h : BgvSession G Gp fuel est C c k pk v m m') (u : LCircuit)
    {info : LInfo} (hu : u.analyse C.params = some info) :
    c.qs ≠ [] ∧ ∃ S r, u.run C.l v = .ok r ∧ LSound C.l v.e S r info (u.eval C.l (fun i j => ((m i).getD j 0 : ℕ))
      (fun i j => ((m' i).getD j 0 : ℕ))) ∧
      (k info.level).ms = c.qs.take info.level ∧ GoodKey C.w C.l (k info.level) S := by
  obtain ⟨he, hc, ht, htN, hqs⟩ := h.keys.encoderOk (h.contextOk hC)
  obtain ⟨S, hv0, hS, hk⟩ := h.keys.secretOk hG hC (h.contextOk hC)
  have hne : c.qs ≠ [] := by
    intro hn
    obtain ⟨s, s', hs⟩ := h.keys.secret
    unfold RKey.sample at hs
    rw [hn] at hs
    simp at hs
  have h0 : 0 < c.qs.length := List.length_pos_iff.mpr hne
  obtain ⟨t1, t2, t3⟩ := hk c.qs.length h0 le_rfl
  rw [List.take_length] at t1
  have hin := h.inputs hG hC t3 t1 t2 hv0 hS hne
  have hsec : ((norm1 S : ℤ) : ℚ) ≤ C.params.secret := by
    show ((norm1 S : ℤ) : ℚ) ≤ 2 ^ C.l * (2 * C.v)
    exact_mod_cast hS
  obtain ⟨r, r1, r2⟩ := levelled_sound (v := v) (P := C.params) rfl he rfl rfl (by rw [hc, ht]; rfl)
    (by rw [hc, hqs]; rfl) hsec (fun i => (hin i).1) (fun i => (hin i).2)
    (fun lev hl => by rw [hc, ht]; exact h.keys.relinOk hG hC (h.contextOk hC) hC.small hv0 hk hl)
    (fun a ha => by rw [hc, ht]; exact h.keys.galoisOk hG hC (h.contextOk hC) hC.small hv0 hk ha) u hu
  have s4 := r2.2.2.2.1
  have s5 := r2.2.2.2.2.1
  rw [hc] at s5
  obtain ⟨k1, -, k3⟩ := hk info.level s4 s5
  exact ⟨hne, S, r, r1, r2, k1, k3⟩

/-- **C75.** For every choice of parameters, every generator and all messages: if the library delivers a context, an
encoder, keys and encryptions, then every computation that the analysis supports, with its arithmetic, plaintext
vectors, relinearizations, rotations and modulus reductions, runs without error, and if the analysed noise is small
enough for the moduli that are left, decryption with the reduced secret key returns the result of the same computation on
the vectors of messages modulo `t`. -/
theorem c75_circuit (hG : Words G) (hC : C.Valid) (h : BgvSession G Gp fuel est C c k pk v m m') (u : LCircuit)
    {info : LInfo} (hu : u.analyse C.params = some info)
    (hb : ∀ q ∈ C.qs.head?, 2 * lsbBound C.t (C.qs.take info.level).tail.reverse info.noise < q) :
    ∃ r, u.run C.l v = .ok r ∧ (k info.level).decryptBgv (finiteFieldEncoder est v.e) r =
      .ok (List.ofFn fun i : Fin (2 ^ C.l) => (u.eval (R := ZMod C.t) C.l (fun i j => ((m i).getD j 0 : ℕ))
        (fun i j => ((m' i).getD j 0 : ℕ)) i).val) := by
  obtain ⟨he, hc, ht, htN, hqs⟩ := h.keys.encoderOk (h.contextOk hC)
  obtain ⟨hne, S, r, r1, r2, k1, k3⟩ := h.run hG hC u hu
  refine ⟨r, r1, ?_⟩
  rw [← htN]
  obtain ⟨g1, g2, g3, g4, g5⟩ := r2.good he
  obtain ⟨s1, s2, s3, s4, s5, s6, Φ, s7, s8, s9⟩ := r2
  rw [hc] at s1 s5
  obtain ⟨m0, rest, hq0⟩ := List.exists_cons_of_ne_nil hne
  have htake : c.qs.take info.level = m0 :: rest.take (info.level - 1) := by
    rw [hq0]
    conv_lhs => rw [show info.level = info.level - 1 + 1 by omega, List.take_succ_cons]
  have hkne : (k info.level).ms ≠ [] := by rw [k1, htake]; simp
  obtain ⟨p, p1, p2, p3, -, -⟩ := c55_decrypt k3.good hkne k3.key (s1.trans k1.symm) s2 g3 s7
  rw [p3]
  have hhead : m0.N ∈ C.qs.head? := by rw [← hqs, hq0]; rfl
  rw [k1, htake] at p2
  have hdrop : (C.qs.take info.level).tail.reverse = dropOrder (m0 :: rest.take (info.level - 1)) := by
    rw [← hqs, ← List.map_take, htake]
    rfl
  have hdec := c50_decode_bgv (e := v.e) he (by rw [hc]; exact htake) (by rw [hc, ht]; exact (hC.first _ hhead).1.le) p2
    (fun i => by
      have h1 := hb m0.N hhead
      rw [hdrop] at h1
      rw [hc, ht]
      have h2 := lsbBound_mono (t := C.t) (dropOrder (m0 :: rest.take (info.level - 1))) (s9 i)
      linarith)
  show ffDecodeBgv v.e p (k info.level).ms = _
  rw [k1, htake, hdec]
  congr 1
  congr 1
  funext i
  rw [s8 i i.2]

/-- **C75.** The same with `DecryptBgvWithCrt`, the complements of the moduli in a big integer type that holds their
product times each of them, and the CRT factors of the context: the noise may be up to half of the product of the moduli
that are left. -/
theorem c75_circuit_crt {W : ℕ} (hG : Words G) (hC : C.Valid) (h : BgvSession G Gp fuel est C c k pk v m m')
    (u : LCircuit) {info : LInfo} (hu : u.analyse C.params = some info)
    (hW : ∀ q ∈ C.qs.take info.level, (C.qs.take info.level).prod * q ≤ 2 ^ W)
    (hb : 2 * info.noise < (C.qs.take info.level).prod) :
    ∃ r hatInvs, u.run C.l v = .ok r ∧ c.crtFactors (info.level - 1 : ℕ) = .ok hatInvs ∧
      (k info.level).decryptBgvWithCrt W v.e r (modulusComplements W (k info.level).ms) hatInvs =
      .ok (List.ofFn fun i : Fin (2 ^ C.l) => (u.eval (R := ZMod C.t) C.l (fun i j => ((m i).getD j 0 : ℕ))
        (fun i j => ((m' i).getD j 0 : ℕ)) i).val) := by
  obtain ⟨he, hc, ht, htN, hqs⟩ := h.keys.encoderOk (h.contextOk hC)
  obtain ⟨hne, S, r, r1, r2, k1, k3⟩ := h.run hG hC u hu
  obtain ⟨g1, g2, g3, g4, g5⟩ := r2.good he
  obtain ⟨s1, s2, s3, s4, s5, s6, Φ, s7, s8, s9⟩ := r2
  rw [hc] at s1 s5
  obtain ⟨hatInvs, i1, i2⟩ := he.ctx.inverses.crtFactors (info.level - 1) (by rw [hc]; omega)
  rw [hc] at i1 i2
  rw [show info.level - 1 + 1 = info.level by omega] at i2
  refine ⟨r, hatInvs, r1, i1, ?_⟩
  rw [← htN]
  have hkne : (k info.level).ms ≠ [] := by rw [k1, ← s1]; exact g2
  have hprod : modulusProd (k info.level).ms = (C.qs.take info.level).prod := by
    rw [k1, ← hqs, ← List.map_take]
    rfl
  have hpos : ∀ q ∈ C.qs.take info.level, 0 < q := fun q hq =>
    (hC.prime q (List.mem_append_left _ (List.mem_of_mem_take hq))).pos
  have htq : C.t ≤ (C.qs.take info.level).prod := by
    obtain ⟨m0, rest, hq0⟩ := List.exists_cons_of_ne_nil hne
    have hq : C.qs = m0.N :: rest.map (·.N) := by rw [← hqs, hq0]; rfl
    have hlt := (hC.first m0.N (by rw [hq]; rfl)).1
    have hm : m0.N ∈ C.qs.take info.level := by
      rw [hq, show info.level = info.level - 1 + 1 by omega, List.take_succ_cons]
      exact List.mem_cons_self
    exact hlt.le.trans (Nat.le_of_dvd (List.prod_pos hpos) (List.dvd_prod hm))
  have hdec := c53_bgv_crt (W := W) (k := k info.level) he (by rw [hc]; exact k1.symm) hkne k3.key (s1.trans k1.symm) s2
    g3 (M := Φ) (R := 0) (by simpa using s7)
    (fun q hq => by
      rw [hprod]
      refine hW q.N ?_
      rw [← hqs, ← List.map_take, ← k1]
      exact List.mem_map_of_mem hq)
    (hatInvs := hatInvs) (by rw [k1]; exact i2) (by rw [hc, ht, hprod]; exact htq)
    (fun i => by
      rw [hprod]
      have h1 := s9 i
      have h2 : 2 * |(Φ i : ℚ)| < ((C.qs.take info.level).prod : ℕ) := by linarith
      have h3 : ∀ Q : ℕ, 2 * |(Φ i : ℚ)| < Q → 2 * |Φ i| < (Q : ℤ) := fun Q h => by exact_mod_cast h
      have h3 := h3 _ h2
      simpa using h3)
  rw [hdec]
  congr 1
  congr 1
  funext i
  rw [s8 i i.2]

end

end Shell
