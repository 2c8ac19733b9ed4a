import Verif.Lemmas.RnsBfvSlotStore
import Verif.Props.RnsBfvStore
import Verif.Props.RnsBfvSession
import Verif.Props.RnsSlotStore
/-!
# Property C100: programs on RNS BFV ciphertexts with packed plaintexts, with calls that fail, compute on slots
-/

namespace Shell
open Spec Rns Rns.Res BfvStore BfvSlotStore
open SlotStore (toVec mapCt vec_int)
open BgvStore (forall₂_object append_ok)
open RnsCtStore (Mem)
variable {σ τ : Type} {w l : ℕ} {S : Fin (2 ^ l) → ℤ} {ε : ℚ} {est : Estimate}

namespace BfvSlotStore
variable {P : VParams} {v : RnsSlotStore.Given} {f g : ℕ → Fin (2 ^ l) → ZMod v.e.mt.N} {m : Mem}
  {M : IdealBfvMem l v.e.mt.N}

/-- The coefficients that the encoder scales. -/
theorem coefficients (he : GoodEncoder w l v.e) {msgs : List ℕ} (hw : ∀ a ∈ msgs, a < 2 ^ w) (hn : msgs.length ≤ 2 ^ l) :
    ∃ u : List ℕ, (∀ a ∈ u, a < 2 ^ w) ∧ u.length = 2 ^ l ∧
      (∀ ms s, ms ≠ [] → ffEncodeBfv v.e msgs ms s = encodeBfv v.e.ctx u ms s) ∧
      toVec (nttRoot l v.e.mt) (fun i : Fin (2 ^ l) => ((u.getD i 0 : ℕ) : ZMod v.e.mt.N)) =
        fun i : Fin (2 ^ l) => ((msgs.getD i 0 : ℕ) : ZMod v.e.mt.N) := by
  obtain ⟨psi, t⟩ := he.mt.tables
  have h15 := t.l15
  have g := he.mt.good
  haveI : NeZero v.e.mt.N := ⟨he.mt.prime.ne_zero⟩
  obtain ⟨s2, s3⟩ := encoder_slots he
  rw [nttRoot_eq he.mt t]
  obtain ⟨r, Y, r1, r2, r3⟩ := toSlots_ok he.mt t s2 s3 hw hn
  have hval : ∀ j : Fin (2 ^ l), (r.map (Mont.exportInt v.e.mt.p)).getD j 0 = (Y j).val := fun j => by
    have hj : (j : ℕ) < r.length := by rw [r2.len]; exact j.2
    have h2 := r2.le j j.2
    have h3 := r2.val j
    rw [List.getD_eq_getElem _ _ hj] at h2 h3
    rw [List.getD_eq_getElem _ _ (by simpa using hj), List.getElem_map, ← h3]
    exact export_eq_val g h2
  refine ⟨r.map (Mont.exportInt v.e.mt.p), fun a ha => ?_, by rw [List.length_map, r2.len], fun ms s hms => ?_,
    funext fun i => ?_⟩
  · obtain ⟨i, hi, rfl⟩ := List.getElem_of_mem ha
    have hi' : i < 2 ^ l := by rw [← r2.len]; simpa using hi
    have := hval ⟨i, hi'⟩
    rw [List.getD_eq_getElem _ _ hi] at this
    rw [this]
    exact lt_trans (by rw [← he.N]; exact ZMod.val_lt _) he.ctx.word
  · unfold ffEncodeBfv shl1
    rw [he.ctx.logN, Int.toNat_natCast, if_pos (by omega), Outcome.bind_ok, if_neg (by omega),
      if_neg (by simpa using hms), r1, Outcome.bind_ok]
  · rw [← r3 i i.2]
    unfold toVec
    congr 1
    funext j
    rw [hval j, ZMod.natCast_zmod_val]

/-- A call does what the machine does. -/
theorem call_ok (he : GoodEncoder w l v.e) (hv : GivenOk w l v.e.mt.N S ε est P v.base f g)
    (hm : MemOk l v.e.ctx v.e.mt.N S m M) {c : RnsBfvSlotStore.Call}
    (hp : BfvSlotProper P (mapMem (nttRoot l v.e.mt) M) c) :
    match idealBfvSlotCall P (nttRoot l v.e.mt) (fun i => toVec (nttRoot l v.e.mt) (f i))
      (fun i => toVec (nttRoot l v.e.mt) (g i)) (mapMem (nttRoot l v.e.mt) M) c with
    | .ok Z => ∃ m' M', c.run est v m = (m', .ok ()) ∧ Z = mapMem (nttRoot l v.e.mt) M' ∧
        MemOk l v.e.ctx v.e.mt.N S m' M'
    | .error e => c.run est v m = (m, .err e) := by
  obtain ⟨hz, h1, h15⟩ := root_of he
  cases c with
  | encodeSlots u lev scaled =>
    have hqs : P.qs.length = v.e.ctx.qs.length := by rw [hv.qs, List.length_map]; rfl
    obtain ⟨hlev, hw⟩ := hp
    rw [hv.word] at hw
    dsimp only [idealBfvSlotCall, RnsBfvSlotStore.Call.run]
    have hne : 0 < lev → v.e.ctx.qs.take lev ≠ [] := by
      intro h0 hn
      have := congrArg List.length hn
      rw [List.length_take, List.length_nil] at this
      omega
    by_cases hs : u.length ≤ 2 ^ l ∧ 0 < lev ∧ (scaled = true → lev = P.qs.length)
    · rw [if_pos hs]
      obtain ⟨u', u1, u2, u3, u4⟩ := coefficients he hw hs.1
      obtain ⟨p, p1, p2⟩ := ok_encode (t := v.e.mt.N) he.ctx he.N.symm hv.plain hs.2.1 (by rw [← hqs]; exact hlev) u1 u2.le
        (by rw [← hqs]; exact hs.2.2)
      rw [← u3 _ _ (hne hs.2.1)] at p1
      refine ⟨{ m with pts := m.pts ++ [p] },
        { M with pts := M.pts ++ [⟨lev, scaled, fun i => ((u'.getD i 0 : ℕ) : ZMod v.e.mt.N)⟩] },
        by rw [p1]; rfl, ?_, append_ok hm.pts p2, hm.cts⟩
      unfold mapMem mapPt
      rw [List.map_append, List.map_singleton, u4]
    · rw [if_neg hs]
      have : ffEncodeBfv v.e u (v.e.ctx.qs.take lev) scaled = .err .invalidArgument := by
        by_cases hu : u.length ≤ 2 ^ l
        · by_cases h0 : 0 < lev
          · obtain ⟨u', u1, u2, u3, u4⟩ := coefficients he hw hu
            rw [u3 _ _ (hne h0)]
            refine err_encode he.ctx hv.plain hv.l30 (by rw [← hqs]; exact hlev) u1 fun h => hs ⟨hu, h0, ?_⟩
            rw [hqs]; exact h.2.2
          · obtain rfl : lev = 0 := by omega
            unfold ffEncodeBfv shl1
            rw [he.ctx.logN, Int.toNat_natCast, if_pos (by omega), Outcome.bind_ok, if_neg (by omega), if_pos (by simp)]
        · exact ((c50_rejects he (v.e.ctx.qs.take lev) scaled).1 (by omega)).2
      rw [this]
      rfl
  | call c =>
    rw [map_call hz h1]
    have h := BfvStore.call_ok hv hm ((map_proper c).mp hp)
    cases hi : idealBfvCall P f g M c with
    | ok M' =>
      rw [hi] at h
      obtain ⟨m', e, hm'⟩ := h
      exact ⟨m', M', e, rfl, hm'⟩
    | error e => rw [hi] at h; exact h

/-- A program does what the machine does. -/
theorem run_ok (he : GoodEncoder w l v.e) (hv : GivenOk w l v.e.mt.N S ε est P v.base f g) (prog : List RnsBfvSlotStore.Call)
    (hm : MemOk l v.e.ctx v.e.mt.N S m M)
    (hp : BfvSlotProgram P (nttRoot l v.e.mt) (fun i => toVec (nttRoot l v.e.mt) (f i))
      (fun i => toVec (nttRoot l v.e.mt) (g i)) (mapMem (nttRoot l v.e.mt) M) prog) :
    let ideal := idealBfvSlotRun P (nttRoot l v.e.mt) (fun i => toVec (nttRoot l v.e.mt) (f i))
      (fun i => toVec (nttRoot l v.e.mt) (g i)) (mapMem (nttRoot l v.e.mt) M) prog
    (RnsBfvSlotStore.runAll est v m prog).1 = ideal.1 ∧
      ∃ M', ideal.2 = mapMem (nttRoot l v.e.mt) M' ∧
        MemOk l v.e.ctx v.e.mt.N S (RnsBfvSlotStore.runAll est v m prog).2 M' := by
  induction prog generalizing m M with
  | nil => exact ⟨rfl, M, rfl, hm⟩
  | cons c prog ih =>
    obtain ⟨p1, p2⟩ := hp
    have h := call_ok he hv hm p1
    unfold RnsBfvSlotStore.runAll idealBfvSlotRun
    cases hi : idealBfvSlotCall P (nttRoot l v.e.mt) (fun i => toVec (nttRoot l v.e.mt) (f i))
      (fun i => toVec (nttRoot l v.e.mt) (g i)) (mapMem (nttRoot l v.e.mt) M) c with
    | ok Z =>
      rw [hi] at h p2
      obtain ⟨m', M', e, rfl, hm'⟩ := h
      obtain ⟨e1, e2⟩ := ih hm' p2
      rw [e]
      exact ⟨congrArg _ e1, e2⟩
    | error er =>
      rw [hi] at h p2
      dsimp only at h
      obtain ⟨e1, e2⟩ := ih hm p2
      rw [h]
      exact ⟨congrArg _ e1, e2⟩

end BfvSlotStore

variable {G : Gen σ} {Gp : Gen τ} {fuel : ℕ} {C : SchemeChoice} {c : Rns.Ctx} {k : ℕ → RKey} {pk : RPub}
  {v : RnsSlotStore.Given} {m m' : ℕ → List ℕ}

/-- The session delivers what the machine's parameters say, and decryption is right. -/
theorem BfvSlotStore.session_ok (hG : Words G) (hest : EstimateWithin (max C.qs.length C.ps.length) ε est) (h0 : 0 ≤ ε)
    (hε : ε < 1 / 2) (hC : C.Valid) (hps : C.ps ≠ []) (hq : C.qs.length < 2 ^ C.w) (hpw : C.ps.length < 2 ^ C.w)
    (h : BfvSession G Gp fuel est C c k pk (slotEnv v) m m') :
    GoodEncoder C.w C.l v.e ∧ v.e.mt.N = C.t ∧ ∃ (S : Fin (2 ^ C.l) → ℤ) (fx fy : ℕ → Fin (2 ^ C.l) → ZMod v.e.mt.N),
      (∀ i, toVec (nttRoot C.l v.e.mt) (fx i) = fun j : Fin (2 ^ C.l) => (((m i).getD j 0 : ℕ) : ZMod v.e.mt.N)) ∧
      (∀ i, toVec (nttRoot C.l v.e.mt) (fy i) = fun j : Fin (2 ^ C.l) => (((m' i).getD j 0 : ℕ) : ZMod v.e.mt.N)) ∧
      GivenOk C.w C.l v.e.mt.N S ε est (C.bfvParams ε) v.base fx fy ∧
      ∀ (x : RCt) (X : IdealBgvCt C.l v.e.mt.N), (∃ Y, X = mapCt (nttRoot C.l v.e.mt) Y ∧ CtOk C.l v.e.ctx v.e.mt.N S x Y) →
    x.ms = c.qs.take X.level ∧ x.c.length = X.comps ∧ x.power = X.power ∧
    (X.power = 1 → X.noise < (1 / 2 - ε) * (C.qs.take X.level).prod →
      (k X.level).decryptBfv (finiteFieldEncoder est v.e) x = .ok (List.ofFn fun i => (X.value i).val) ∧
      ∃ F : Fin (2 ^ C.l) → ZMod v.e.mt.N, (∀ i : Fin (2 ^ C.l), slotValue (nttRoot C.l v.e.mt) C.l F i = X.value i) ∧
        (k X.level).decryptBfv (coefficientEncoder est c) x = .ok (List.ofFn fun i => (F i).val)) ∧
    ∀ lev, 0 < lev → lev ≤ C.qs.length → lev ≠ X.level ∨ X.power ≠ 1 →
      (k lev).decryptBfv (finiteFieldEncoder est v.e) x = .err .invalidArgument := by
  obtain ⟨hcx, hpN, hbc⟩ := h.contextOk hC
  obtain ⟨he, hctx, ht, htN, hqs⟩ := h.keys.encoderOk hcx
  obtain ⟨S, hv0, hS, hk⟩ := h.keys.secretOk hG hC hcx
  change GoodEncoder C.w C.l v.e at he
  change v.e.ctx = c at hctx
  change v.e.mt.N = C.t at htN
  change BfvConstants v.e.ctx v.e.mt at hbc
  have hne : c.qs ≠ [] := by
    intro hn
    obtain ⟨s, s', hs⟩ := h.keys.secret
    unfold RKey.sample at hs
    rw [hn] at hs
    simp at hs
  have hlq : c.qs.length = C.qs.length := by rw [← hqs, List.length_map]
  have hlp : c.ps.length = C.ps.length := by rw [← hpN, List.length_map]
  have h0q : 0 < c.qs.length := List.length_pos_iff.mpr hne
  obtain ⟨t1, t2, t3⟩ := hk c.qs.length h0q le_rfl
  rw [List.take_length] at t1
  have hin := h.inputs (ε := ε) hG hC t3 t1 t2 hv0 hS hne
  have hsec : ((norm1 S : ℤ) : ℚ) ≤ (C.bfvParams ε).secret := by
    show ((norm1 S : ℤ) : ℚ) ≤ 2 ^ C.l * (2 * C.v)
    exact_mod_cast hS
  have ht1 : 1 < C.t := hC.plain.one_lt
  have hone : 1 < 2 ^ C.w := lt_of_le_of_lt ht1.le hC.small
  have hdig : ∀ lev, (v.e.mt.N : ℚ) * digitNoise C.l 1 (2 * C.v) (gadgetLogs (C.qs.take lev) (C.logBs lev)) =
      (C.bfvParams ε).switch lev := by
    intro lev
    show _ = digitNoise C.l C.t (2 * C.v) (gadgetLogs (C.qs.take lev) (C.logBs lev))
    rw [htN]
    unfold digitNoise
    push_cast
    ring
  have hsound : ∀ {x : RCt} {b : ℚ} {u : List ℕ},
      VSound C.l v.e S x ⟨C.qs.length, 2, b⟩ (fun j => (u.getD j 0 : ℕ)) →
      ∃ F : Fin (2 ^ C.l) → ZMod v.e.mt.N, toVec (nttRoot C.l v.e.mt) F =
        (fun j : Fin (2 ^ C.l) => ((u.getD j 0 : ℕ) : ZMod v.e.mt.N)) ∧
        CtOk C.l v.e.ctx v.e.mt.N S x ⟨(C.bfvParams ε).qs.length, 2, 1, b, F⟩ := by
    intro x b u hx
    obtain ⟨h1, h2, h3, h4, h5, h6, Φ, h7, h8⟩ := hx
    rw [← he.N] at h7
    exact ⟨fun i => (Φ i : ZMod v.e.mt.N), funext fun i => h8 i i.2, h1, h2, h3, h4, h5, h6, Φ, h7, fun _ => rfl⟩
  choose fx fx1 fx2 using fun i => hsound (hin i).1
  choose fy fy1 fy2 using fun i => hsound (hin i).2
  have hpl : PlainOk C.w v.e.ctx := ⟨v.e.mt, he.mt.create, he.N, by rw [← he.N, htN]; exact ht1, hbc⟩
  have hpr : ProductOk C.w ε est v.e.ctx := ⟨by rw [hctx]; exact fun hn => hps (by rw [← hpN, hn]; rfl),
    by rw [hctx, hlq]; exact hq, by rw [hctx, hlp]; exact hpw, by rw [hctx, hlq, hlp]; exact hest, hε, h0⟩
  have hv : GivenOk C.w C.l v.e.mt.N S ε est (C.bfvParams ε) v.base fx fy := by
    refine ⟨he.ctx, hpl, hpr, by have := (root_of he).2.2; omega, rfl, rfl, he.N.symm, htN.symm, ?_, ?_, rfl, hsec, fx2, fy2,
      ?_, ?_⟩
    · show C.qs = v.e.ctx.qs.map (·.N)
      rw [hctx, hqs]
    · show C.ps = v.e.ctx.ps.map (·.N)
      rw [hctx, hpN]
    · intro lev hl
      obtain ⟨l0, l1, -, -⟩ := hC.level lev (Or.inl hl)
      refine ⟨by show lev ≤ v.e.ctx.qs.length; rw [hctx]; omega, ?_, _, hdig lev, ?_⟩
      · obtain ⟨g, prng, sp, s, hg, hr⟩ := h.keys.relin lev hl
        obtain ⟨Gs, hgad⟩ := h.keys.gadgetOk hC hcx (Or.inl hl) hg
        obtain ⟨k1, k2, k3⟩ := hk lev l0 (by omega)
        exact (c52_relin_create Gp G hG k3 (by rw [k1]; exact hgad) (by rw [← k2]; exact k3.variance) hone hr).1
      · have := h.keys.relinOk hG hC hcx hone hv0 hk hl
        show RelinOk C.l S 1 (v.e.ctx.qs.take lev) _ _
        rw [hctx]
        exact this
    · intro a ha
      obtain ⟨l0, l1, -, -⟩ := hC.level a.1 (Or.inr (List.mem_map_of_mem ha))
      refine ⟨by show a.1 ≤ v.e.ctx.qs.length; rw [hctx]; omega, _, hdig a.1, ?_⟩
      have := h.keys.galoisOk hG hC hcx hone hv0 hk ha
      show GaloisOk C.l S 1 (v.e.ctx.qs.take a.1) _ _ _
      rw [hctx]
      exact this
  refine ⟨he, htN, S, fx, fy, fx1, fy1, hv, ?_⟩
  rintro x X ⟨Y, hXY, hxX⟩
  subst hXY
  refine ⟨by rw [← hctx]; exact hxX.ms, hxX.comps, hxX.power, fun hpw hb => ?_, fun lev l0 l1 hlev => ?_⟩
  · change Y.power = 1 at hpw
    change Y.noise < (1 / 2 - ε) * (C.qs.take Y.level).prod at hb
    obtain ⟨Φ, s7, s8⟩ := hxX.phase
    have s4 := hxX.pos
    have s5 := hxX.le
    have hms := hxX.ms
    rw [hctx] at s5 hms
    obtain ⟨k1, k2, k3⟩ := hk Y.level s4 s5
    have hkne : (k Y.level).ms ≠ [] := by rw [k1, ← hms]; exact hxX.ne
    have hprod : (modulusProd (k Y.level).ms : ℚ) = ((C.qs.take Y.level).prod : ℕ) := by
      rw [k1, ← hqs, ← List.map_take]
      rfl
    have s7 : BfvEncrypts C.l S v.e.ctx.t x Φ Y.noise := by
      rw [← he.N]
      exact s7
    obtain ⟨d1, d2⟩ := c57_decrypt (within_mono hest (by rw [k1, List.length_take]; omega)) hε he.ctx hbc he.mt.create he.N
      (by rw [hctx]; exact k1) hkne (by rw [k1, List.length_take]; omega) k3.key (hms.trans k1.symm) hxX.cne
      (by rw [hxX.power, hpw]; rfl) s7 (by rw [hprod]; exact hb)
    show (k Y.level).decryptBfv _ _ = _ ∧ _
    refine ⟨?_, Y.value, fun i => rfl, ?_⟩
    · rw [d2 v.e he rfl rfl]
      congr 1
      congr 1
      funext i
      show _ = ZMod.val (toVec _ Y.value i)
      rw [← funext s8, vec_int]
    · show (k Y.level).decryptBfv _ _ = _
      rw [← hctx, d1]
      congr 1
      congr 1
      funext i
      haveI : NeZero v.e.mt.N := ⟨he.mt.prime.ne_zero⟩
      have hpos := he.mt.prime.pos
      rw [← s8 i, ← he.N]
      have h1 : ((Φ i % v.e.mt.N).toNat : ℤ) = Φ i % v.e.mt.N := Int.toNat_of_nonneg (Int.emod_nonneg _ (by omega))
      have h2 := ZMod.val_intCast (n := v.e.mt.N) (Φ i)
      omega
  · obtain ⟨k1, k2, k3⟩ := hk lev l0 (by omega)
    obtain ⟨b, bs, hb, -, hb'⟩ := hxX.first
    refine (c55_decrypt_rejects (k lev) _ x (n := C.l) (by unfold RCt.logN; rw [hb, ← hb']; rfl) ?_).2
    change lev ≠ Y.level ∨ Y.power ≠ 1 at hlev
    have s5 := hxX.le
    rw [hctx] at s5
    rcases hlev with hl | hl
    · right; right
      rw [hxX.len, k1, List.length_take]
      omega
    · left
      rw [hxX.power]
      exact_mod_cast hl

/-- **C100, partial.** For every choice of parameters, every generator, all vectors of messages and estimates with an error
`ε` below one half: if the library delivers a context, an encoder, keys and encryptions, then there is a `2n`-th root of
unity `zeta` modulo `t` such that every program that encodes vectors and polynomials, scaled or not, copies ciphertexts,
calls their members, new or in place, multiplies, and applies relinearization and Galois keys, in any order and with calls
that fail among them, gets the statuses of the machine on vectors of slots, in particular no call is undefined; a call that
fails changes nothing, and every ciphertext the program holds at the end has the moduli, components and power of the
machine's.  If its power is 1 and its noise, as the machine bounds it, is small enough, the key for its moduli decrypts it
with the finite field encoder to the machine's vector, and with the coefficient encoder to the polynomial with these slots;
the keys for other moduli, and all keys if its power is not 1, reject it.  Programs do not multiply reduced ciphertexts in
place by plaintexts for the same moduli: such a call fails but damages the ciphertext (`c67_bfv_level_violated`). -/
theorem c100_program_partial (hG : Words G) (hest : EstimateWithin (max C.qs.length C.ps.length) ε est) (h0 : 0 ≤ ε)
    (hε : ε < 1 / 2) (hC : C.Valid) (hps : C.ps ≠ []) (hq : C.qs.length < 2 ^ C.w) (hpw : C.ps.length < 2 ^ C.w)
    (h : BfvSession G Gp fuel est C c k pk (slotEnv v) m m') :
    ∃ zeta : ZMod C.t, zeta ^ 2 ^ C.l = -1 ∧ ∀ prog : List RnsBfvSlotStore.Call,
    let f : (ℕ → List ℕ) → ℕ → Fin (2 ^ C.l) → ZMod C.t := fun m i j => ((m i).getD j 0 : ℕ)
    BfvSlotProgram (C.bfvParams ε) zeta (f m) (f m') ⟨[], []⟩ prog →
    let real := RnsBfvSlotStore.runAll est v ⟨[], []⟩ prog
    let ideal := idealBfvSlotRun (C.bfvParams ε) zeta (f m) (f m') ⟨[], []⟩ prog
    real.1 = ideal.1 ∧ real.2.pts.length = ideal.2.pts.length ∧ real.2.cts.length = ideal.2.cts.length ∧
      ∀ (a : ℕ) (x : RCt) (X : IdealBgvCt C.l C.t), real.2.cts[a]? = some x → ideal.2.cts[a]? = some X →
        x.ms = c.qs.take X.level ∧ x.c.length = X.comps ∧ x.power = X.power ∧
        (X.power = 1 → X.noise < (1 / 2 - ε) * (C.qs.take X.level).prod →
          (k X.level).decryptBfv (finiteFieldEncoder est v.e) x = .ok (List.ofFn fun i => (X.value i).val) ∧
          ∃ F : Fin (2 ^ C.l) → ZMod C.t, (∀ i : Fin (2 ^ C.l), slotValue zeta C.l F i = X.value i) ∧
            (k X.level).decryptBfv (coefficientEncoder est c) x = .ok (List.ofFn fun i => (F i).val)) ∧
        ∀ lev, 0 < lev → lev ≤ C.qs.length → lev ≠ X.level ∨ X.power ≠ 1 →
          (k lev).decryptBfv (finiteFieldEncoder est v.e) x = .err .invalidArgument := by
  obtain ⟨he, htN, S, fx, fy, fx1, fy1, hv, hd⟩ := BfvSlotStore.session_ok hG hest h0 hε hC hps hq hpw h
  rw [← htN]
  refine ⟨nttRoot C.l v.e.mt, (root_of he).1, fun prog => ?_⟩
  intro f hp real ideal
  have hfx : f m = fun i => toVec (nttRoot C.l v.e.mt) (fx i) := funext fun i => (fx1 i).symm
  have hfy : f m' = fun i => toVec (nttRoot C.l v.e.mt) (fy i) := funext fun i => (fy1 i).symm
  obtain ⟨r1, M', r2, r3⟩ := BfvSlotStore.run_ok he hv prog (m := ⟨[], []⟩) (M := ⟨[], []⟩) ⟨.nil, .nil⟩
    (by rw [← hfx, ← hfy]; exact hp)
  rw [← hfx, ← hfy] at r1 r2
  change ideal.2 = _ at r2
  rw [r2]
  refine ⟨r1, by rw [r3.pts.length_eq]; simp [mapMem], by rw [r3.cts.length_eq]; simp [mapMem], fun a x X hx hX => hd x X ?_⟩
  have hX' : (M'.cts.map (mapCt (nttRoot C.l v.e.mt)))[a]? = some X := hX
  rw [List.getElem?_map] at hX'
  obtain ⟨Y, hY, hY'⟩ := Option.map_eq_some_iff.mp hX'
  obtain ⟨x', X', e1, e2, e3⟩ := forall₂_object r3.cts (List.getElem?_eq_some_iff.mp hY).1
  unfold rd at e1
  unfold bgvObject at e2
  rw [hx] at e1
  rw [hY] at e2
  obtain rfl := Outcome.ok.inj e1
  obtain rfl := Except.ok.inj e2
  exact ⟨Y, hY'.symm, e3⟩

end Shell
