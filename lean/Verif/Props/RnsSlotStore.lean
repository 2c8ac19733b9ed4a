import Verif.Lemmas.RnsSlotStore
import Verif.Props.RnsCtStore
import Verif.Props.RnsSession
/-!
# Property C99: programs on RNS BGV ciphertexts with packed plaintexts, with calls that fail, compute on slots
-/

namespace Shell
open Spec Rns Rns.Res BgvStore SlotStore
open RnsCtStore (Mem)
variable {σ τ : Type} {w l : ℕ} {S : Fin (2 ^ l) → ℤ}

/-- **C99.** Substituting a power of 5 rotates the two halves of the slots. -/
theorem c99_source_rotate (h1 : 1 ≤ l) (r : ℕ) (i : Fin (2 ^ l)) :
    (slotSource l (5 ^ r % (2 * 2 ^ l)) i : ℕ) = rotateSlot l r i := by
  refine source_unique h1 ?_ (rotateSlot_lt h1 i.2) ?_
  · rw [Nat.mod_mod_of_dvd _ ⟨2 ^ l, rfl⟩, Nat.pow_mod]
    simp
  · have hp : 0 < 2 ^ (l - 1) := by positivity
    refine ((Nat.mod_modEq _ _).mul_left _).trans ?_
    unfold slotPower rotateSlot
    by_cases hi' : (i : ℕ) < 2 ^ (l - 1)
    · have := Nat.mod_lt (i + r) hp
      rw [if_pos hi', if_pos hi', if_pos this, ← pow_add]
      exact five_period h1 _
    · have := Nat.mod_lt (i - 2 ^ (l - 1) + r) hp
      rw [if_neg hi', if_neg hi', if_neg (by omega), mul_assoc, ← pow_add, Nat.add_sub_cancel_left]
      exact (five_period h1 _).mul_left _

/-- **C99.** Substituting `2 * 2^l - 1` exchanges the halves. -/
theorem c99_source_swap (h1 : 1 ≤ l) (i : Fin (2 ^ l)) : (slotSource l (2 * 2 ^ l - 1) i : ℕ) = swapSlot l i := by
  have hn := half_pow h1
  have hp : 0 < 2 ^ (l - 1) := by positivity
  refine source_unique h1 (by omega) (swapSlot_lt h1 i.2) ?_
  unfold slotPower swapSlot
  by_cases hi' : (i : ℕ) < 2 ^ (l - 1)
  · rw [if_pos hi', if_pos hi', if_neg (by omega), Nat.add_sub_cancel, mul_comm (5 ^ (i : ℕ))]
  · rw [if_neg hi', if_neg hi', if_pos (by omega)]
    have h2 : (2 * 2 ^ l - 1) * (2 * 2 ^ l - 1) ≡ 1 [MOD 2 * 2 ^ l] := by
      obtain ⟨M, hM⟩ : ∃ M, 2 * 2 ^ l = M + 2 := ⟨2 * 2 ^ l - 2, by omega⟩
      rw [hM]
      have e : (M + 2 - 1) * (M + 2 - 1) = 1 + (M + 2) * M := by
        have : M + 2 - 1 = M + 1 := rfl
        rw [this]; ring
      rw [e]
      exact (Nat.modEq_iff_dvd' (by omega)).mpr ⟨M, by omega⟩ |>.symm
    calc (2 * 2 ^ l - 1) * 5 ^ ((i : ℕ) - 2 ^ (l - 1)) * (2 * 2 ^ l - 1)
        = (2 * 2 ^ l - 1) * (2 * 2 ^ l - 1) * 5 ^ ((i : ℕ) - 2 ^ (l - 1)) := by ring
      _ ≡ 1 * 5 ^ ((i : ℕ) - 2 ^ (l - 1)) [MOD 2 * 2 ^ l] := h2.mul_right _
      _ = _ := one_mul _

namespace SlotStore
variable {P : LParams} {v : RnsSlotStore.Given} {f g : ℕ → Fin (2 ^ l) → ZMod v.e.mt.N} {m : Mem}
  {M : IdealBgvMem l v.e.mt.N}

theorem vec_int (F : Fin (2 ^ l) → ℤ) :
    toVec (nttRoot l v.e.mt) (fun i => (F i : ZMod v.e.mt.N)) = fun i : Fin (2 ^ l) => slotsOf (nttRoot l v.e.mt) l F i :=
  rfl

/-- A call does what the machine does. -/
theorem call_ok (he : GoodEncoder w l v.e) (hv : GivenOk w l v.e.mt.N S P v.base f g)
    (hm : MemOk l v.e.ctx v.e.mt.N S m M) {c : RnsSlotStore.Call} (hp : SlotProper P (mapMem (nttRoot l v.e.mt) M) c) :
    match idealSlotCall P (nttRoot l v.e.mt) (fun i => toVec (nttRoot l v.e.mt) (f i))
      (fun i => toVec (nttRoot l v.e.mt) (g i)) (mapMem (nttRoot l v.e.mt) M) c with
    | .ok Z => ∃ m' M', c.run v m = (m', .ok ()) ∧ Z = mapMem (nttRoot l v.e.mt) M' ∧
        MemOk l v.e.ctx v.e.mt.N S m' M'
    | .error e => c.run v m = (m, .err e) := by
  obtain ⟨hz, h1, h15⟩ := root_of he
  cases c with
  | encodeSlots u lev =>
    have hqs : P.qs.length = v.e.ctx.qs.length := by rw [hv.qs, List.length_map]; rfl
    obtain ⟨hw, hlev⟩ := hp
    dsimp only [idealSlotCall, RnsSlotStore.Call.run]
    by_cases hs : u.length ≤ 2 ^ l ∧ 0 < lev
    · rw [if_pos hs]
      have hlen : (v.e.ctx.qs.take lev).length = lev := by rw [List.length_take]; omega
      obtain ⟨p, F, p1, p2, p3, p4, p5⟩ := c50_encode_bgv he (ms := v.e.ctx.qs.take lev)
        (by intro h; rw [h] at hlen; simp at hlen; omega) (fun _ h => List.mem_of_mem_take h)
        (by rw [← hv.word]; exact hw) hs.1
      refine ⟨{ m with pts := m.pts ++ [p] },
        { M with pts := M.pts ++ [⟨lev, fun i => (F i : ZMod v.e.mt.N)⟩] }, by rw [p1]; rfl, ?_,
        append_ok hm.pts ⟨hs.2, by rw [← hqs]; exact hlev, p2, F, p3, fun j => ?_, fun _ => rfl⟩, hm.cts⟩
      · unfold mapMem mapPt
        rw [List.map_append, List.map_singleton, vec_int]
        have : (fun i : Fin (2 ^ l) => slotsOf (nttRoot l v.e.mt) l F i) =
            fun i : Fin (2 ^ l) => ((u.getD i 0 : ℕ) : ZMod v.e.mt.N) := funext fun i => p5 i i.2
        rw [this]
      · have h1 : (2 * |(F j : ℚ)|) ≤ v.e.ctx.t := by exact_mod_cast p4 j
        rw [he.N]
        linarith
    · rw [if_neg hs]
      have : ffEncodeBgv v.e u (v.e.ctx.qs.take lev) = .err .invalidArgument := by
        by_cases hu : u.length ≤ 2 ^ l
        · obtain rfl : lev = 0 := by
            by_contra h0
            exact hs ⟨hu, by omega⟩
          unfold ffEncodeBgv shl1
          rw [he.ctx.logN, Int.toNat_natCast, if_pos (by omega), Outcome.bind_ok, if_neg (by omega), if_pos (by simp)]
        · exact ((c50_rejects he (v.e.ctx.qs.take lev) true).1 (by omega)).1
      rw [this]
      rfl
  | call c =>
    rw [map_call hz h1]
    have h := BgvStore.call_ok hv hm ((map_proper c).mp hp)
    cases hi : idealBgvCall P f g M c with
    | ok M' =>
      rw [hi] at h
      obtain ⟨m', e, hm'⟩ := h
      exact ⟨m', M', e, rfl, hm'⟩
    | error e => rw [hi] at h; exact h

/-- A program does what the machine does. -/
theorem run_ok (he : GoodEncoder w l v.e) (hv : GivenOk w l v.e.mt.N S P v.base f g) (prog : List RnsSlotStore.Call)
    (hm : MemOk l v.e.ctx v.e.mt.N S m M)
    (hp : SlotProgram P (nttRoot l v.e.mt) (fun i => toVec (nttRoot l v.e.mt) (f i))
      (fun i => toVec (nttRoot l v.e.mt) (g i)) (mapMem (nttRoot l v.e.mt) M) prog) :
    let ideal := idealSlotRun P (nttRoot l v.e.mt) (fun i => toVec (nttRoot l v.e.mt) (f i))
      (fun i => toVec (nttRoot l v.e.mt) (g i)) (mapMem (nttRoot l v.e.mt) M) prog
    (RnsSlotStore.runAll v m prog).1 = ideal.1 ∧
      ∃ M', ideal.2 = mapMem (nttRoot l v.e.mt) M' ∧
        MemOk l v.e.ctx v.e.mt.N S (RnsSlotStore.runAll v m prog).2 M' := by
  induction prog generalizing m M with
  | nil => exact ⟨rfl, M, rfl, hm⟩
  | cons c prog ih =>
    obtain ⟨p1, p2⟩ := hp
    have h := call_ok he hv hm p1
    unfold RnsSlotStore.runAll idealSlotRun
    cases hi : idealSlotCall P (nttRoot l v.e.mt) (fun i => toVec (nttRoot l v.e.mt) (f i))
      (fun i => toVec (nttRoot l v.e.mt) (g i)) (mapMem (nttRoot l v.e.mt) M) c with
    | ok Z =>
      rw [hi] at h p2
      obtain ⟨m', M', e, rfl, hm'⟩ := h
      obtain ⟨e1, e2⟩ := ih hm' p2
      rw [e]
      exact ⟨congrArg _ e1, e2⟩
    | error er =>
      rw [hi] at h p2
      dsimp only at h
      obtain ⟨e1, e2⟩ := ih hm p2
      rw [h]
      exact ⟨congrArg _ e1, e2⟩

end SlotStore

variable {G : Gen σ} {Gp : Gen τ} {fuel : ℕ} {est : Estimate} {C : SchemeChoice} {c : Rns.Ctx} {k : ℕ → RKey} {pk : RPub}
  {v : RnsSlotStore.Given} {m m' : ℕ → List ℕ}

/-- The session delivers what the machine's parameters say, and decryption is right. -/
theorem SlotStore.session_ok (hG : Words G) (hC : C.Valid) (h : BgvSession G Gp fuel est C c k pk (slotEnv v) m m') :
    GoodEncoder C.w C.l v.e ∧ v.e.mt.N = C.t ∧ ∃ (S : Fin (2 ^ C.l) → ℤ) (fx fy : ℕ → Fin (2 ^ C.l) → ZMod v.e.mt.N),
      (∀ i, toVec (nttRoot C.l v.e.mt) (fx i) = fun j : Fin (2 ^ C.l) => (((m i).getD j 0 : ℕ) : ZMod v.e.mt.N)) ∧
      (∀ i, toVec (nttRoot C.l v.e.mt) (fy i) = fun j : Fin (2 ^ C.l) => (((m' i).getD j 0 : ℕ) : ZMod v.e.mt.N)) ∧
      GivenOk C.w C.l v.e.mt.N S C.params v.base fx fy ∧
      ∀ (x : RCt) (X : IdealBgvCt C.l v.e.mt.N), (∃ Y, X = mapCt (nttRoot C.l v.e.mt) Y ∧ CtOk C.l v.e.ctx v.e.mt.N S x Y) →
    x.ms = c.qs.take X.level ∧ x.c.length = X.comps ∧ x.power = X.power ∧
    (X.power = 1 → (∀ q ∈ C.qs.head?, 2 * lsbBound v.e.mt.N (C.qs.take X.level).tail.reverse X.noise < q) →
      (k X.level).decryptBgv (finiteFieldEncoder est v.e) x = .ok (List.ofFn fun i => (X.value i).val) ∧
      ∃ F : Fin (2 ^ C.l) → ZMod v.e.mt.N, (∀ i : Fin (2 ^ C.l), slotValue (nttRoot C.l v.e.mt) C.l F i = X.value i) ∧
        (k X.level).decryptBgv (coefficientEncoder est c) x = .ok (List.ofFn fun i => (F i).val)) ∧
    ∀ lev, 0 < lev → lev ≤ C.qs.length → lev ≠ X.level ∨ X.power ≠ 1 →
      (k lev).decryptBgv (finiteFieldEncoder est v.e) x = .err .invalidArgument := by
  obtain ⟨he, hctx, ht, htN, hqs⟩ := h.keys.encoderOk (h.contextOk hC)
  obtain ⟨S, hv0, hS, hk⟩ := h.keys.secretOk hG hC (h.contextOk hC)
  change GoodEncoder C.w C.l v.e at he
  change v.e.ctx = c at hctx
  change v.e.mt.N = C.t at htN
  have hc : GoodCtx C.w C.l c := by rw [← hctx]; exact he.ctx
  have hne : c.qs ≠ [] := by
    intro hn
    obtain ⟨s, s', hs⟩ := h.keys.secret
    unfold RKey.sample at hs
    rw [hn] at hs
    simp at hs
  have hlq : c.qs.length = C.qs.length := by rw [← hqs, List.length_map]
  have h0 : 0 < c.qs.length := List.length_pos_iff.mpr hne
  obtain ⟨t1, t2, t3⟩ := hk c.qs.length h0 le_rfl
  rw [List.take_length] at t1
  have hin := h.inputs hG hC t3 t1 t2 hv0 hS hne
  have hsec : ((norm1 S : ℤ) : ℚ) ≤ C.params.secret := by
    show ((norm1 S : ℤ) : ℚ) ≤ 2 ^ C.l * (2 * C.v)
    exact_mod_cast hS
  have hsound : ∀ {x : RCt} {b : ℚ} {u : List ℕ},
      LSound C.l v.e S x ⟨C.qs.length, 2, b⟩ (fun j => (u.getD j 0 : ℕ)) →
      ∃ F : Fin (2 ^ C.l) → ZMod v.e.mt.N, toVec (nttRoot C.l v.e.mt) F =
        (fun j : Fin (2 ^ C.l) => ((u.getD j 0 : ℕ) : ZMod v.e.mt.N)) ∧
        CtOk C.l v.e.ctx v.e.mt.N S x ⟨C.params.qs.length, 2, 1, b, F⟩ := by
    intro x b u hx
    obtain ⟨h1, h2, h3, h4, h5, h6, Φ, h7, h8, h9⟩ := hx
    exact ⟨fun i => (Φ i : ZMod v.e.mt.N), funext fun i => h8 i i.2, h1, h2, h3, h4, h5, h6, Φ, h7, fun _ => rfl, h9⟩
  choose fx fx1 fx2 using fun i => hsound (hin i).1
  choose fy fy1 fy2 using fun i => hsound (hin i).2
  have hv : GivenOk C.w C.l v.e.mt.N S C.params v.base fx fy := by
    refine ⟨he.ctx, by have := (root_of he).2.2; omega, rfl, he.N.symm, ?_, hsec, fx2, fy2, ?_, ?_⟩
    · show C.qs = v.e.ctx.qs.map (·.N)
      rw [hctx, hqs]
    · intro lev hl
      obtain ⟨l0, l1, -, -⟩ := hC.level lev (Or.inl hl)
      refine ⟨by show lev ≤ v.e.ctx.qs.length; rw [hctx]; omega, ?_, ?_⟩
      · obtain ⟨g, prng, sp, s, hg, hr⟩ := h.keys.relin lev hl
        obtain ⟨Gs, hgad⟩ := h.keys.gadgetOk hC (h.contextOk hC) (Or.inl hl) hg
        obtain ⟨k1, k2, k3⟩ := hk lev l0 (by omega)
        exact (c52_relin_create Gp G hG k3 (by rw [k1]; exact hgad) (by rw [← k2]; exact k3.variance) hC.small hr).1
      · have := h.keys.relinOk hG hC (h.contextOk hC) hC.small hv0 hk hl
        rw [htN]
        show RelinOk C.l S C.t (v.e.ctx.qs.take lev) _ _
        rw [hctx]
        exact this
    · intro a ha
      obtain ⟨l0, l1, -, -⟩ := hC.level a.1 (Or.inr (List.mem_map_of_mem ha))
      refine ⟨by show a.1 ≤ v.e.ctx.qs.length; rw [hctx]; omega, ?_⟩
      have := h.keys.galoisOk hG hC (h.contextOk hC) hC.small hv0 hk ha
      rw [htN]
      show GaloisOk C.l S C.t (v.e.ctx.qs.take a.1) _ _ _
      rw [hctx]
      exact this
  refine ⟨he, htN, S, fx, fy, fx1, fy1, hv, ?_⟩
  rintro x X ⟨Y, hXY, hxX⟩
  rw [hctx] at hxX
  subst hXY
  refine ⟨hxX.ms, hxX.comps, hxX.power, fun hpw hb => ?_, fun lev l0 l1 hlev => ?_⟩
  · change Y.power = 1 at hpw
    change ∀ q ∈ C.qs.head?, 2 * lsbBound v.e.mt.N (C.qs.take Y.level).tail.reverse Y.noise < q at hb
    obtain ⟨Φ, s7, s8, s9⟩ := hxX.phase
    have s4 := hxX.pos
    have s5 := hxX.le
    obtain ⟨k1, k2, k3⟩ := hk Y.level s4 s5
    obtain ⟨m0, rest, hq0⟩ := List.exists_cons_of_ne_nil hne
    have htake : c.qs.take Y.level = m0 :: rest.take (Y.level - 1) := by
      rw [hq0]
      conv_lhs => rw [show Y.level = Y.level - 1 + 1 by omega, List.take_succ_cons]
    have k1 : (k Y.level).ms = m0 :: rest.take (Y.level - 1) := k1.trans htake
    have hkne : (k Y.level).ms ≠ [] := by rw [k1]; simp
    obtain ⟨p, p1, p2, p3, -, -⟩ := c55_decrypt k3.good hkne k3.key (by rw [hxX.ms, htake, k1])
      (by rw [hxX.power, hpw]; rfl) hxX.cne s7
    have hhead : m0.N ∈ C.qs.head? := by rw [← hqs, hq0]; rfl
    rw [k1] at p2
    have hdrop : (C.qs.take Y.level).tail.reverse = dropOrder (m0 :: rest.take (Y.level - 1)) := by
      rw [← hqs, ← List.map_take, htake]
      rfl
    have hsmall : ∀ i, 2 * lsbBound c.t (dropOrder (m0 :: rest.take (Y.level - 1))) |(Φ i : ℚ)| < m0.N := fun i => by
      have h1 := hb m0.N hhead
      rw [hdrop] at h1
      rw [ht, ← htN]
      have h2 := lsbBound_mono (t := v.e.mt.N) (dropOrder (m0 :: rest.take (Y.level - 1))) (s9 i)
      linarith
    have hfirst : c.t ≤ m0.N := by rw [ht]; exact (hC.first _ hhead).1.le
    show (k Y.level).decryptBgv _ _ = _ ∧ _
    refine ⟨?_, Y.value, fun i => rfl, ?_⟩
    · rw [p3]
      have hdec := c50_decode_bgv (e := v.e) he (by rw [hctx]; exact htake) (by rw [hctx]; exact hfirst) p2
        (by rw [hctx]; exact hsmall)
      show ffDecodeBgv v.e p (k Y.level).ms = _
      rw [k1, hdec]
      congr 1
      congr 1
      funext i
      show _ = ZMod.val (toVec _ Y.value i)
      rw [← funext s8, vec_int]
    · show (k Y.level).decryptBgv _ _ = _
      rw [p3]
      have hdec := c48_decode hc htake hfirst p2 hsmall
      show decodeBgv c p (k Y.level).ms = _
      rw [k1, hdec]
      congr 1
      congr 1
      funext i
      haveI : NeZero v.e.mt.N := ⟨he.mt.prime.ne_zero⟩
      have hpos := he.mt.prime.pos
      rw [← s8 i, ht, ← htN]
      have h1 : ((Φ i % v.e.mt.N).toNat : ℤ) = Φ i % v.e.mt.N := Int.toNat_of_nonneg (Int.emod_nonneg _ (by omega))
      have h2 := ZMod.val_intCast (n := v.e.mt.N) (Φ i)
      omega
  · obtain ⟨k1, k2, k3⟩ := hk lev l0 (by omega)
    obtain ⟨b, bs, hb, -, hb'⟩ := hxX.first
    refine (c55_decrypt_rejects (k lev) _ x (n := C.l) (by unfold RCt.logN; rw [hb, ← hb']; rfl) ?_).1
    rcases hlev with hl | hl
    · right; right
      rw [hxX.len, k1, List.length_take]
      change lev ≠ Y.level at hl
      omega
    · left
      rw [hxX.power]
      exact_mod_cast hl

/-- **C99.** For every choice of parameters, every generator and all vectors of messages: if the library delivers a
context, an encoder, keys and encryptions, then there is a `2n`-th root of unity `zeta` modulo `t` such that every program
that encodes vectors and polynomials, copies ciphertexts, calls their members, new or in place, and applies relinearization
and Galois keys, in any order and with calls that fail among them, gets the statuses of the machine on vectors of slots, in
particular no call is undefined; a call that fails changes nothing, and every ciphertext the program holds at the end has
the moduli, components and power of the machine's.  If its power is 1 and its noise, as the machine bounds it, is small
enough, the key for its moduli decrypts it with the finite field encoder to the machine's vector, and with the coefficient
encoder to the polynomial with these slots; the keys for other moduli, and all keys if its power is not 1, reject it. -/
theorem c99_program (hG : Words G) (hC : C.Valid) (h : BgvSession G Gp fuel est C c k pk (slotEnv v) m m') :
    ∃ zeta : ZMod C.t, zeta ^ 2 ^ C.l = -1 ∧ ∀ prog : List RnsSlotStore.Call,
    let f : (ℕ → List ℕ) → ℕ → Fin (2 ^ C.l) → ZMod C.t := fun m i j => ((m i).getD j 0 : ℕ)
    SlotProgram C.params zeta (f m) (f m') ⟨[], []⟩ prog →
    let real := RnsSlotStore.runAll v ⟨[], []⟩ prog
    let ideal := idealSlotRun C.params zeta (f m) (f m') ⟨[], []⟩ prog
    real.1 = ideal.1 ∧ real.2.pts.length = ideal.2.pts.length ∧ real.2.cts.length = ideal.2.cts.length ∧
      ∀ (a : ℕ) (x : RCt) (X : IdealBgvCt C.l C.t), real.2.cts[a]? = some x → ideal.2.cts[a]? = some X →
        x.ms = c.qs.take X.level ∧ x.c.length = X.comps ∧ x.power = X.power ∧
        (X.power = 1 → (∀ q ∈ C.qs.head?, 2 * lsbBound C.t (C.qs.take X.level).tail.reverse X.noise < q) →
          (k X.level).decryptBgv (finiteFieldEncoder est v.e) x = .ok (List.ofFn fun i => (X.value i).val) ∧
          ∃ F : Fin (2 ^ C.l) → ZMod C.t, (∀ i : Fin (2 ^ C.l), slotValue zeta C.l F i = X.value i) ∧
            (k X.level).decryptBgv (coefficientEncoder est c) x = .ok (List.ofFn fun i => (F i).val)) ∧
        ∀ lev, 0 < lev → lev ≤ C.qs.length → lev ≠ X.level ∨ X.power ≠ 1 →
          (k lev).decryptBgv (finiteFieldEncoder est v.e) x = .err .invalidArgument := by
  obtain ⟨he, htN, S, fx, fy, fx1, fy1, hv, hd⟩ := SlotStore.session_ok hG hC h
  rw [← htN]
  refine ⟨nttRoot C.l v.e.mt, (root_of he).1, fun prog => ?_⟩
  intro f hp real ideal
  have hfx : f m = fun i => toVec (nttRoot C.l v.e.mt) (fx i) := funext fun i => (fx1 i).symm
  have hfy : f m' = fun i => toVec (nttRoot C.l v.e.mt) (fy i) := funext fun i => (fy1 i).symm
  obtain ⟨r1, M', r2, r3⟩ := SlotStore.run_ok he hv prog (m := ⟨[], []⟩) (M := ⟨[], []⟩) ⟨.nil, .nil⟩
    (by rw [← hfx, ← hfy]; exact hp)
  rw [← hfx, ← hfy] at r1 r2
  change ideal.2 = _ at r2
  rw [r2]
  refine ⟨r1, by rw [r3.pts.length_eq]; simp [mapMem], by rw [r3.cts.length_eq]; simp [mapMem], fun a x X hx hX => hd x X ?_⟩
  have hX' : (M'.cts.map (mapCt (nttRoot C.l v.e.mt)))[a]? = some X := hX
  rw [List.getElem?_map] at hX'
  obtain ⟨Y, hY, hY'⟩ := Option.map_eq_some_iff.mp hX'
  obtain ⟨x', X', e1, e2, e3⟩ := forall₂_object r3.cts (List.getElem?_eq_some_iff.mp hY).1
  unfold rd at e1
  unfold bgvObject at e2
  rw [hx] at e1
  rw [hY] at e2
  obtain rfl := Outcome.ok.inj e1
  obtain rfl := Except.ok.inj e2
  exact ⟨Y, hY'.symm, e3⟩

end Shell
