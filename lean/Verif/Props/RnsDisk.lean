import Verif.Lemmas.RnsDisk
import Verif.Props.RnsBfvSlotStore
/-!
# Properties C101 and C102: saving, loading and crashes do not change what programs on RNS ciphertexts compute
-/

namespace Shell
open Spec Rns Rns.Res
open RnsCtStore (Mem)
open SlotStore (toVec)
variable {σ τ : Type} {G : Gen σ} {Gp : Gen τ} {fuel : ℕ} {est : Estimate} {ε : ℚ} {C : SchemeChoice} {c : Rns.Ctx}
  {k : ℕ → RKey} {pk : RPub} {m m' : ℕ → List ℕ}

namespace Disk
variable {w l t : ℕ} {S : Fin (2 ^ l) → ℤ}

theorem bgv_sim {P : LParams} {v : RnsCtStore.Given} {f g : ℕ → Fin (2 ^ l) → ZMod t} (hw : w ≤ 128) (hw8 : 8 ≤ w)
    (hv : BgvStore.GivenOk w l t S P v f g) :
    Sim (bgvMachine P f g) (fun m c => c.run v m) v.c.qs (BgvStore.PtOk l v.c t) (BgvStore.CtOk l v.c t S) where
  levels := by show P.qs.length = _; rw [hv.qs, List.length_map]
  empty := ⟨rfl, rfl⟩
  addPt _ _ := ⟨rfl, rfl⟩
  addCt _ _ := ⟨rfl, rfl⟩
  pt h := by
    obtain ⟨F, h1, -⟩ := h.repr
    exact poly_ok hv.ctx.qs hw hw8 h.pos h.le (wellFormed_of_represents h1)
  ct h := by
    obtain ⟨Φ, ⟨_, Cs, h1, _⟩, _⟩ := h.phase
    exact ct_ok hv.ctx.qs hw hw8 h.pos h.le h.ms h.cne h1
  step := by
    intro m M c h1 h2 hp
    have h := BgvStore.call_ok hv ⟨h1, h2⟩ hp
    cases hi : (bgvMachine P f g).call M c with
    | ok M' =>
      change idealBgvCall P f g M c = _ at hi; rw [hi] at h
      obtain ⟨m', e, hm⟩ := h
      exact ⟨m', e, hm.pts, hm.cts⟩
    | error e => change idealBgvCall P f g M c = _ at hi; rw [hi] at h; exact h

theorem bfv_sim {P : VParams} {v : RnsCtStore.Given} {f g : ℕ → Fin (2 ^ l) → ZMod t} (hw : w ≤ 128) (hw8 : 8 ≤ w)
    (hv : BfvStore.GivenOk w l t S ε est P v f g) :
    Sim (bfvMachine P f g) (fun m c => c.run est v m) v.c.qs (BfvStore.PtOk l v.c t) (BfvStore.CtOk l v.c t S) where
  levels := by show P.qs.length = _; rw [hv.qs, List.length_map]
  empty := ⟨rfl, rfl⟩
  addPt _ _ := ⟨rfl, rfl⟩
  addCt _ _ := ⟨rfl, rfl⟩
  pt h := by
    obtain ⟨F, _, h1, -⟩ := h.repr
    exact poly_ok hv.ctx.qs hw hw8 h.pos h.le (wellFormed_of_represents h1)
  ct h := by
    obtain ⟨b, val, h'⟩ := h.form
    obtain ⟨Φ, ⟨_, Cs, h1, _⟩, _⟩ := h'.phase
    exact ct_ok hv.ctx.qs hw hw8 h.pos h.le h.ms h.cne h1
  step := by
    intro m M c h1 h2 hp
    have h := BfvStore.call_ok hv ⟨h1, h2⟩ hp
    cases hi : (bfvMachine P f g).call M c with
    | ok M' =>
      change idealBfvCall P f g M c = _ at hi; rw [hi] at h
      obtain ⟨m', e, hm⟩ := h
      exact ⟨m', e, hm.pts, hm.cts⟩
    | error e => change idealBfvCall P f g M c = _ at hi; rw [hi] at h; exact h

theorem slot_sim {P : LParams} {v : RnsSlotStore.Given} {f g : ℕ → Fin (2 ^ l) → ZMod v.e.mt.N} (hw : w ≤ 128)
    (hw8 : 8 ≤ w) (he : GoodEncoder w l v.e) (hv : BgvStore.GivenOk w l v.e.mt.N S P v.base f g) :
    Sim (slotMachine P (nttRoot l v.e.mt) (fun i => toVec (nttRoot l v.e.mt) (f i))
        (fun i => toVec (nttRoot l v.e.mt) (g i))) (fun m c => c.run v m) v.e.ctx.qs
      (fun p X => ∃ Y, X = SlotStore.mapPt (nttRoot l v.e.mt) Y ∧ BgvStore.PtOk l v.e.ctx v.e.mt.N p Y)
      (fun x X => ∃ Y, X = SlotStore.mapCt (nttRoot l v.e.mt) Y ∧ BgvStore.CtOk l v.e.ctx v.e.mt.N S x Y) where
  levels := (bgv_sim hw hw8 hv).levels
  empty := ⟨rfl, rfl⟩
  addPt _ _ := ⟨rfl, rfl⟩
  addCt _ _ := ⟨rfl, rfl⟩
  pt h := by
    obtain ⟨Y, rfl, h⟩ := h
    exact (bgv_sim hw hw8 hv).pt (F := Y) h
  ct h := by
    obtain ⟨Y, rfl, h⟩ := h
    exact (bgv_sim hw hw8 hv).ct (X := Y) h
  step := by
    intro m M c h1 h2 hp
    obtain ⟨Ps, e1, k1⟩ := forall₂_image h1
    obtain ⟨Cs, e2, k2⟩ := forall₂_image h2
    obtain rfl : M = SlotStore.mapMem (nttRoot l v.e.mt) ⟨Ps, Cs⟩ := by
      obtain ⟨a, b⟩ := M
      change a = _ at e1
      change b = _ at e2
      rw [e1, e2]
      rfl
    have h := SlotStore.call_ok he hv (M := ⟨Ps, Cs⟩) ⟨k1, k2⟩ hp
    cases hi : (slotMachine P (nttRoot l v.e.mt) (fun i => toVec (nttRoot l v.e.mt) (f i))
      (fun i => toVec (nttRoot l v.e.mt) (g i))).call (SlotStore.mapMem (nttRoot l v.e.mt) ⟨Ps, Cs⟩) c with
    | ok M' =>
      change idealSlotCall P _ _ _ _ c = _ at hi; rw [hi] at h
      obtain ⟨m', M'', e, rfl, hm⟩ := h
      exact ⟨m', e, forall₂_map hm.pts, forall₂_map hm.cts⟩
    | error e => change idealSlotCall P _ _ _ _ c = _ at hi; rw [hi] at h; exact h

theorem bfvSlot_sim {P : VParams} {v : RnsSlotStore.Given} {f g : ℕ → Fin (2 ^ l) → ZMod v.e.mt.N} (hw : w ≤ 128)
    (hw8 : 8 ≤ w) (he : GoodEncoder w l v.e) (hv : BfvStore.GivenOk w l v.e.mt.N S ε est P v.base f g) :
    Sim (bfvSlotMachine P (nttRoot l v.e.mt) (fun i => toVec (nttRoot l v.e.mt) (f i))
        (fun i => toVec (nttRoot l v.e.mt) (g i))) (fun m c => c.run est v m) v.e.ctx.qs
      (fun p X => ∃ Y, X = BfvSlotStore.mapPt (nttRoot l v.e.mt) Y ∧ BfvStore.PtOk l v.e.ctx v.e.mt.N p Y)
      (fun x X => ∃ Y, X = SlotStore.mapCt (nttRoot l v.e.mt) Y ∧ BfvStore.CtOk l v.e.ctx v.e.mt.N S x Y) where
  levels := (bfv_sim hw hw8 hv).levels
  empty := ⟨rfl, rfl⟩
  addPt _ _ := ⟨rfl, rfl⟩
  addCt _ _ := ⟨rfl, rfl⟩
  pt h := by
    obtain ⟨Y, rfl, h⟩ := h
    exact (bfv_sim hw hw8 hv).pt (F := Y) h
  ct h := by
    obtain ⟨Y, rfl, h⟩ := h
    exact (bfv_sim hw hw8 hv).ct (X := Y) h
  step := by
    intro m M c h1 h2 hp
    obtain ⟨Ps, e1, k1⟩ := forall₂_image h1
    obtain ⟨Cs, e2, k2⟩ := forall₂_image h2
    obtain rfl : M = BfvSlotStore.mapMem (nttRoot l v.e.mt) ⟨Ps, Cs⟩ := by
      obtain ⟨a, b⟩ := M
      change a = _ at e1
      change b = _ at e2
      rw [e1, e2]
      rfl
    have h := BfvSlotStore.call_ok he hv (M := ⟨Ps, Cs⟩) ⟨k1, k2⟩ hp
    cases hi : (bfvSlotMachine P (nttRoot l v.e.mt) (fun i => toVec (nttRoot l v.e.mt) (f i))
      (fun i => toVec (nttRoot l v.e.mt) (g i))).call (BfvSlotStore.mapMem (nttRoot l v.e.mt) ⟨Ps, Cs⟩) c with
    | ok M' =>
      change idealBfvSlotCall P _ _ _ _ c = _ at hi; rw [hi] at h
      obtain ⟨m', M'', e, rfl, hm⟩ := h
      exact ⟨m', e, forall₂_map hm.pts, forall₂_map hm.cts⟩
    | error e => change idealBfvSlotCall P _ _ _ _ c = _ at hi; rw [hi] at h; exact h

end Disk

/-- **C101.** A program on RNS BGV ciphertexts as in C97 that also saves plaintexts and ciphertexts, loads what it saved,
any number of times, and crashes at any points, losing its objects and keeping what it saved, gets the statuses of the
machine on polynomials modulo `t` whose saves are snapshots: a ciphertext that it holds at the end, loaded or computed from
loaded ones, has the moduli, components and power of the machine's, and is decrypted to the machine's polynomial by the key
for its moduli if its power is 1 and its noise, as the machine bounds it, is small enough; the keys for other moduli reject
it.  An object is saved and loaded with its own moduli only. -/
theorem c101_program (hG : Words G) (hC : C.ValidPoly) (hw8 : 8 ≤ C.w) {v : RnsCtStore.Given}
    (h : BgvPolySession G Gp fuel est C k pk (givenEnv v) m m') (prog : List (RnsDisk.Call RnsCtStore.Call)) :
    let f : (ℕ → List ℕ) → ℕ → Fin (2 ^ C.l) → ZMod C.t := fun m i j => ((m i).getD j 0 : ℕ)
    let A := bgvMachine C.params (f m) (f m')
    A.diskProgram A.start prog →
    let real := RnsDisk.runAll (fun m c => c.run v m) v.c.qs ⟨⟨[], []⟩, [], []⟩ prog
    let ideal := A.diskRun A.start prog
    real.1 = ideal.1 ∧ (real.2.mem.pts.length = ideal.2.mem.pts.length ∧
      real.2.mem.cts.length = ideal.2.mem.cts.length ∧ real.2.pts.length = ideal.2.pts.length ∧
      real.2.cts.length = ideal.2.cts.length) ∧
      ∀ (a : ℕ) (x : RCt) (X : IdealBgvCt C.l C.t), real.2.mem.cts[a]? = some x → ideal.2.mem.cts[a]? = some X →
        x.ms = v.c.qs.take X.level ∧ x.c.length = X.comps ∧ x.power = X.power ∧
        (X.power = 1 → (∀ q ∈ C.qs.head?, 2 * lsbBound C.t (C.qs.take X.level).tail.reverse X.noise < q) →
          (k X.level).decryptBgv (coefficientEncoder est v.c) x = .ok (List.ofFn fun i => (X.value i).val)) ∧
        ∀ lev, 0 < lev → lev ≤ C.qs.length → lev ≠ X.level ∨ X.power ≠ 1 →
          (k lev).decryptBgv (coefficientEncoder est v.c) x = .err .invalidArgument := by
  intro f A hp real ideal
  obtain ⟨S, hv, hd⟩ := BgvStore.session_ok hG hC h
  obtain ⟨r1, r2, r3⟩ := Disk.program_ok (Disk.bgv_sim hC.word hw8 hv) prog hp
  exact ⟨r1, r2, fun a x X hx hX => hd x X (r3 a x X hx hX)⟩

/-- **C102, partial.** The same for programs on RNS BFV ciphertexts as in C98, with estimates with an error `ε` below one
half.  As there, programs do not multiply reduced ciphertexts in place by plaintexts for the same moduli. -/
theorem c102_program_partial (hG : Words G) (hest : EstimateWithin (max C.qs.length C.ps.length) ε est) (h0 : 0 ≤ ε)
    (hε : ε < 1 / 2) (hC : C.ValidPoly) (hw8 : 8 ≤ C.w) (ht1 : 1 < C.t) (hps : C.ps ≠ []) (hq : C.qs.length < 2 ^ C.w)
    (hpw : C.ps.length < 2 ^ C.w) {v : RnsCtStore.Given} (h : BfvPolySession G Gp fuel est C k pk (givenEnv v) m m')
    (prog : List (RnsDisk.Call RnsBfvStore.Call)) :
    let f : (ℕ → List ℕ) → ℕ → Fin (2 ^ C.l) → ZMod C.t := fun m i j => ((m i).getD j 0 : ℕ)
    let A := bfvMachine (C.bfvParams ε) (f m) (f m')
    A.diskProgram A.start prog →
    let real := RnsDisk.runAll (fun m c => c.run est v m) v.c.qs ⟨⟨[], []⟩, [], []⟩ prog
    let ideal := A.diskRun A.start prog
    real.1 = ideal.1 ∧ (real.2.mem.pts.length = ideal.2.mem.pts.length ∧
      real.2.mem.cts.length = ideal.2.mem.cts.length ∧ real.2.pts.length = ideal.2.pts.length ∧
      real.2.cts.length = ideal.2.cts.length) ∧
      ∀ (a : ℕ) (x : RCt) (X : IdealBgvCt C.l C.t), real.2.mem.cts[a]? = some x → ideal.2.mem.cts[a]? = some X →
        x.ms = v.c.qs.take X.level ∧ x.c.length = X.comps ∧ x.power = X.power ∧
        (X.power = 1 → X.noise < (1 / 2 - ε) * (C.qs.take X.level).prod →
          (k X.level).decryptBfv (coefficientEncoder est v.c) x = .ok (List.ofFn fun i => (X.value i).val)) ∧
        ∀ lev, 0 < lev → lev ≤ C.qs.length → lev ≠ X.level ∨ X.power ≠ 1 →
          (k lev).decryptBfv (coefficientEncoder est v.c) x = .err .invalidArgument := by
  intro f A hp real ideal
  obtain ⟨S, hv, hd⟩ := BfvStore.session_ok hG hest h0 hε hC ht1 hps hq hpw h
  obtain ⟨r1, r2, r3⟩ := Disk.program_ok (Disk.bfv_sim hC.word hw8 hv) prog hp
  exact ⟨r1, r2, fun a x X hx hX => hd x X (r3 a x X hx hX)⟩

/-- **C101.** The same for programs on packed RNS BGV ciphertexts as in C99, with the machine on vectors of slots. -/
theorem c101_slots (hG : Words G) (hC : C.Valid) (hw8 : 8 ≤ C.w) {v : RnsSlotStore.Given}
    (h : BgvSession G Gp fuel est C c k pk (slotEnv v) m m') :
    ∃ zeta : ZMod C.t, zeta ^ 2 ^ C.l = -1 ∧ ∀ prog : List (RnsDisk.Call RnsSlotStore.Call),
    let f : (ℕ → List ℕ) → ℕ → Fin (2 ^ C.l) → ZMod C.t := fun m i j => ((m i).getD j 0 : ℕ)
    let A := slotMachine C.params zeta (f m) (f m')
    A.diskProgram A.start prog →
    let real := RnsDisk.runAll (fun m c => c.run v m) c.qs ⟨⟨[], []⟩, [], []⟩ prog
    let ideal := A.diskRun A.start prog
    real.1 = ideal.1 ∧ (real.2.mem.pts.length = ideal.2.mem.pts.length ∧
      real.2.mem.cts.length = ideal.2.mem.cts.length ∧ real.2.pts.length = ideal.2.pts.length ∧
      real.2.cts.length = ideal.2.cts.length) ∧
      ∀ (a : ℕ) (x : RCt) (X : IdealBgvCt C.l C.t), real.2.mem.cts[a]? = some x → ideal.2.mem.cts[a]? = some X →
        x.ms = c.qs.take X.level ∧ x.c.length = X.comps ∧ x.power = X.power ∧
        (X.power = 1 → (∀ q ∈ C.qs.head?, 2 * lsbBound C.t (C.qs.take X.level).tail.reverse X.noise < q) →
          (k X.level).decryptBgv (finiteFieldEncoder est v.e) x = .ok (List.ofFn fun i => (X.value i).val) ∧
          ∃ F : Fin (2 ^ C.l) → ZMod C.t, (∀ i : Fin (2 ^ C.l), slotValue zeta C.l F i = X.value i) ∧
            (k X.level).decryptBgv (coefficientEncoder est c) x = .ok (List.ofFn fun i => (F i).val)) ∧
        ∀ lev, 0 < lev → lev ≤ C.qs.length → lev ≠ X.level ∨ X.power ≠ 1 →
          (k lev).decryptBgv (finiteFieldEncoder est v.e) x = .err .invalidArgument := by
  obtain ⟨he, htN, S, fx, fy, fx1, fy1, hv, hd⟩ := SlotStore.session_ok hG hC h
  have hctx : v.e.ctx = c := (h.keys.encoderOk (h.contextOk hC)).2.1
  rw [← htN]
  refine ⟨nttRoot C.l v.e.mt, (root_of he).1, fun prog => ?_⟩
  intro f A hp real ideal
  have hfx : f m = fun i => toVec (nttRoot C.l v.e.mt) (fx i) := funext fun i => (fx1 i).symm
  have hfy : f m' = fun i => toVec (nttRoot C.l v.e.mt) (fy i) := funext fun i => (fy1 i).symm
  have hsim := Disk.slot_sim hC.word hw8 he hv
  rw [← hfx, ← hfy, hctx] at hsim
  obtain ⟨r1, r2, r3⟩ := Disk.program_ok hsim prog hp
  exact ⟨r1, r2, fun a x X hx hX => hd x X (by rw [hctx]; exact r3 a x X hx hX)⟩

/-- **C102, partial.** The same for programs on packed RNS BFV ciphertexts as in C100, with estimates with an error `ε` below
one half.  As there, programs do not multiply reduced ciphertexts in place by plaintexts for the same moduli. -/
theorem c102_slots_partial (hG : Words G) (hest : EstimateWithin (max C.qs.length C.ps.length) ε est) (h0 : 0 ≤ ε)
    (hε : ε < 1 / 2) (hC : C.Valid) (hw8 : 8 ≤ C.w) (hps : C.ps ≠ []) (hq : C.qs.length < 2 ^ C.w)
    (hpw : C.ps.length < 2 ^ C.w) {v : RnsSlotStore.Given} (h : BfvSession G Gp fuel est C c k pk (slotEnv v) m m') :
    ∃ zeta : ZMod C.t, zeta ^ 2 ^ C.l = -1 ∧ ∀ prog : List (RnsDisk.Call RnsBfvSlotStore.Call),
    let f : (ℕ → List ℕ) → ℕ → Fin (2 ^ C.l) → ZMod C.t := fun m i j => ((m i).getD j 0 : ℕ)
    let A := bfvSlotMachine (C.bfvParams ε) zeta (f m) (f m')
    A.diskProgram A.start prog →
    let real := RnsDisk.runAll (fun m c => c.run est v m) c.qs ⟨⟨[], []⟩, [], []⟩ prog
    let ideal := A.diskRun A.start prog
    real.1 = ideal.1 ∧ (real.2.mem.pts.length = ideal.2.mem.pts.length ∧
      real.2.mem.cts.length = ideal.2.mem.cts.length ∧ real.2.pts.length = ideal.2.pts.length ∧
      real.2.cts.length = ideal.2.cts.length) ∧
      ∀ (a : ℕ) (x : RCt) (X : IdealBgvCt C.l C.t), real.2.mem.cts[a]? = some x → ideal.2.mem.cts[a]? = some X →
        x.ms = c.qs.take X.level ∧ x.c.length = X.comps ∧ x.power = X.power ∧
        (X.power = 1 → X.noise < (1 / 2 - ε) * (C.qs.take X.level).prod →
          (k X.level).decryptBfv (finiteFieldEncoder est v.e) x = .ok (List.ofFn fun i => (X.value i).val) ∧
          ∃ F : Fin (2 ^ C.l) → ZMod C.t, (∀ i : Fin (2 ^ C.l), slotValue zeta C.l F i = X.value i) ∧
            (k X.level).decryptBfv (coefficientEncoder est c) x = .ok (List.ofFn fun i => (F i).val)) ∧
        ∀ lev, 0 < lev → lev ≤ C.qs.length → lev ≠ X.level ∨ X.power ≠ 1 →
          (k lev).decryptBfv (finiteFieldEncoder est v.e) x = .err .invalidArgument := by
  obtain ⟨he, htN, S, fx, fy, fx1, fy1, hv, hd⟩ := BfvSlotStore.session_ok hG hest h0 hε hC hps hq hpw h
  have hctx : v.e.ctx = c := (h.keys.encoderOk (h.contextOk hC).1).2.1
  rw [← htN]
  refine ⟨nttRoot C.l v.e.mt, (root_of he).1, fun prog => ?_⟩
  intro f A hp real ideal
  have hfx : f m = fun i => toVec (nttRoot C.l v.e.mt) (fx i) := funext fun i => (fx1 i).symm
  have hfy : f m' = fun i => toVec (nttRoot C.l v.e.mt) (fy i) := funext fun i => (fy1 i).symm
  have hsim := Disk.bfvSlot_sim hC.word hw8 he hv
  rw [← hfx, ← hfy, hctx] at hsim
  obtain ⟨r1, r2, r3⟩ := Disk.program_ok hsim prog hp
  exact ⟨r1, r2, fun a x X hx hX => hd x X (by rw [hctx]; exact r3 a x X hx hX)⟩

end Shell
