import Verif.Spec.RnsWire
import Verif.Props.Available
import Verif.Props.RnsSerialize
/-!
# Property C86: RNS computations over the wire
-/

namespace Shell
open Spec Rns
variable {σ τ : Type} {G : Gen σ} {Gp : Gen τ} {start : List ℕ → τ} {fuel : ℕ} {est : Estimate} {C : SchemeChoice}
  {k : ℕ → RKey} {pk : RPub} {v : PEnv} {m m' : ℕ → List ℕ} {w l z : ℕ} {ε : ℚ}

theorem sendCt_ok {x : RCt} {S Φ : Fin (2 ^ l) → ℤ} (hg : ∀ m ∈ x.ms, GoodModulus w l m) (hne : x.ms ≠ []) (hw : w ≤ 128)
    (hw8 : 8 ≤ w) (hx : Encrypts l S x Φ) : sendCt x.ms x = .ok x := by
  obtain ⟨a, rest, ha⟩ := List.exists_cons_of_ne_nil hne
  obtain ⟨l0, l1⟩ := (hg a (by rw [ha]; exact List.mem_cons_self)).l15
  obtain ⟨_, Cs, hC, _⟩ := id hx
  have hc := components_comp hC
  obtain ⟨s, s1, s2⟩ := c60_ciphertext (l := l) (fun m hm => (hg m hm).create) hne hw hw8 l0 l1 (x := x) (fun c hmem => by
    obtain ⟨i, hi, rfl⟩ := List.mem_iff_getElem.mp hmem
    have := (List.forall₂_iff_get.mp hc).2 i hi (by rw [← hc.length_eq]; exact hi)
    exact wellFormed_of_represents this.2)
  unfold sendCt
  rw [s1, Outcome.bind_ok, s2]

/-- A Galois key that was created from a seed arrives unchanged. -/
theorem sendGalois_ok (hG : Words G) (hC : C.ValidPoly) {c : Rns.Ctx} (hc : GoodCtx C.w C.l c)
    (hqs : c.qs.map (·.N) = C.qs) (hw8 : 8 ≤ C.w) (hz : z < 2 ^ C.w) {S : Fin (2 ^ C.l) → ℤ}
    (hk : ∀ lev, 0 < lev → lev ≤ c.qs.length →
      (k lev).ms = c.qs.take lev ∧ (k lev).variance = C.v ∧ GoodKey C.w C.l (k lev) S) {a : ℕ × ℕ} (ha : a ∈ C.galois)
    {g : RGadget} (hg : C.Gadget c a.1 g) {prng : PrngType} {seed : List ℕ} {s : σ} {key : RGalois}
    (h : RGalois.create Gp G fuel (k a.1) a.2 C.v g prng z (start seed) s = .ok key) :
    sendGalois Gp start fuel seed prng g (c.qs.take a.1) key = .ok key := by
  have hmem : a.1 ∈ C.relins ∨ a.1 ∈ C.galois.map (·.1) := .inr (List.mem_map_of_mem ha)
  have hlq : c.qs.length = C.qs.length := by rw [← hqs, List.length_map]
  obtain ⟨l0, l1, l2, l3⟩ := hC.level a.1 hmem
  obtain ⟨Gs, hgad⟩ := gadget_ok hC hc hqs hmem hg
  obtain ⟨k1, k2, k3⟩ := hk a.1 l0 (by omega)
  obtain ⟨b, rest, hb⟩ := List.exists_cons_of_length_pos (l := c.qs) (by omega)
  obtain ⟨h1, h15⟩ := (hc.qs b (by rw [hb]; exact List.mem_cons_self)).l15
  have hne : (k a.1).ms ≠ [] := by
    rw [k1]
    intro hn
    have := congrArg List.length hn
    rw [List.length_take, List.length_nil] at this
    omega
  have hdim : g.dimension ≠ 0 := by
    obtain ⟨q, rq, hq⟩ := List.exists_cons_of_length_pos (l := C.logBs a.1) (by omega)
    have hb0 := (l3 q (by rw [hq]; exact List.mem_cons_self)).1
    have hsz : 0 < Nat.size b.N := Nat.size_pos.mpr (hc.qs b (by rw [hb]; exact List.mem_cons_self)).good.pos
    obtain ⟨hats, hatInvs, g1, g2, g3⟩ := hg
    obtain ⟨a', b', g', Gs', b1, b2, b3, b4, b5⟩ := c51_context hc hC.word h1 (level := a.1 - 1)
      (by omega) (logBs := C.logBs a.1) (by omega) l3
    rw [show ((a.1 - 1 : ℕ) : ℤ) = (a.1 : ℤ) - 1 by omega] at b1 b2
    obtain rfl := Outcome.ok.inj (g1.symm.trans b1)
    obtain rfl := Outcome.ok.inj (g2.symm.trans b2)
    rw [show a.1 - 1 + 1 = a.1 by omega] at b3 b4
    obtain rfl := Outcome.ok.inj (g3.symm.trans b3)
    unfold RGadget.dimension
    obtain ⟨n, hn⟩ : ∃ n, a.1 = n + 1 := ⟨a.1 - 1, by omega⟩
    rw [b4, hb, hq, hn, List.take_succ_cons, List.zipWith_cons_cons, List.sum_cons]
    have : 0 < (Nat.size b.N + (q - 1)) / q := Nat.div_pos (by omega) hb0
    omega
  obtain ⟨x, x1, x2⟩ := c60_galois_create Gp G hG k3 hne hC.word hw8 h1 h15 (by rw [k1]; exact hgad) hdim
    (by rw [← k2]; exact k3.variance) hz start seed h
  unfold sendGalois
  rw [x1, Outcome.bind_ok, ← k1, x2]

/-- What is received is what was sent. -/
theorem received (hG : Words G) (hC : C.ValidPoly) (hc : GoodCtx C.w C.l v.c) (hqs : v.c.qs.map (·.N) = C.qs) (hw8 : 8 ≤ C.w)
    (hz : z < 2 ^ C.w) {S : Fin (2 ^ C.l) → ℤ} (hk : ∀ lev, 0 < lev → lev ≤ v.c.qs.length →
      (k lev).ms = v.c.qs.take lev ∧ (k lev).variance = C.v ∧ GoodKey C.w C.l (k lev) S) (hne : v.c.qs ≠ [])
    (hx : ∀ i, (v.x i).ms = v.c.qs ∧ ∃ Φ, Encrypts C.l S (v.x i) Φ)
    (hy : ∀ i, (v.y i).ms = v.c.qs ∧ ∃ Φ, Encrypts C.l S (v.y i) Φ) :
    (Seeded G Gp start fuel C z k v → Received G Gp start fuel C z k v v) ∧
    ∀ v', Received G Gp start fuel C z k v v' → v'.c = v.c ∧ v'.x = v.x ∧ v'.y = v.y ∧ v'.relin = v.relin ∧
      ∀ a ∈ C.galois, v'.galois a.1 a.2 = v.galois a.1 a.2 := by
  have hct : ∀ x : RCt, (x.ms = v.c.qs ∧ ∃ Φ, Encrypts C.l S x Φ) → sendCt v.c.qs x = .ok x := by
    rintro x ⟨hms, Φ, hΦ⟩
    rw [← hms]
    exact sendCt_ok (by rw [hms]; exact hc.qs) (by rw [hms]; exact hne) hC.word hw8 hΦ
  refine ⟨fun hs => ⟨rfl, rfl, fun i => hct _ (hx i), fun i => hct _ (hy i), fun a ha => ?_⟩, fun v' h => ⟨h.context,
    funext fun i => ?_, funext fun i => ?_, h.relin, fun a ha => ?_⟩⟩
  · obtain ⟨g, prng, seed, s, h1, h2⟩ := hs a ha
    exact ⟨g, prng, seed, s, h1, h2, sendGalois_ok hG hC hc hqs hw8 hz hk ha h1 h2⟩
  · exact (Outcome.ok.inj ((hct _ (hx i)).symm.trans (h.x i))).symm
  · exact (Outcome.ok.inj ((hct _ (hy i)).symm.trans (h.y i))).symm
  · obtain ⟨g, prng, seed, s, h1, h2, h3⟩ := h.galois a ha
    exact (Outcome.ok.inj ((sendGalois_ok hG hC hc hqs hw8 hz hk ha h1 h2).symm.trans h3)).symm

theorem keyCalls_congr {c : Rns.Ctx} {relins : ℕ → RRelin} {galois galois' : ℕ → ℕ → RGalois}
    (h : KeyCalls G Gp fuel C z c k relins galois) (hg : ∀ a ∈ C.galois, galois' a.1 a.2 = galois a.1 a.2) :
    KeyCalls G Gp fuel C z c k relins galois' :=
  ⟨h.secret, h.reduced, h.relin, fun a ha => by rw [hg a ha]; exact h.galois a ha⟩

/-- **C86.** A BGV computation with a server: ciphertexts and Galois keys created from seeds can be serialized, sent and
deserialized; with what was received, the computation succeeds; its result can be serialized, sent and deserialized, and
decrypts to the value of the computation. -/
theorem c86_bgv (hG : Words G) (hC : C.ValidPoly) (hw : 8 ≤ C.w) (h : BgvPolySession G Gp fuel est C k pk v m m')
    (hs : Seeded G Gp start fuel C C.t k v) :
    (∃ v', Received G Gp start fuel C C.t k v v') ∧ ∀ v', Received G Gp start fuel C C.t k v v' →
    ∀ (u : PCircuit) (info : LInfo), u.analyse C.params = some info →
    (∀ q ∈ C.qs.head?, 2 * lsbBound C.t (C.qs.take info.level).tail.reverse info.noise < q) →
    ∃ r r', u.run v' = .ok r ∧ sendCt (v.c.qs.take info.level) r = .ok r' ∧
      (k info.level).decryptBgv (coefficientEncoder est v.c) r' =
      .ok (List.ofFn fun i : Fin (2 ^ C.l) => (u.eval (R := ZMod C.t) (fun i j => ((m i).getD j 0 : ℕ))
        (fun i j => ((m' i).getD j 0 : ℕ)) i).val) := by
  obtain ⟨hc, hqs, ht⟩ := h.contextOk hC
  obtain ⟨S, hv0, hS, hk⟩ := h.keys.secretOk hG hC hc hqs
  have hne : v.c.qs ≠ [] := by
    intro hn
    obtain ⟨s, s', hs⟩ := h.keys.secret
    unfold RKey.sample at hs
    rw [hn] at hs
    simp at hs
  have h0 : 0 < v.c.qs.length := List.length_pos_iff.mpr hne
  have hlq : C.qs.length = v.c.qs.length := by rw [← hqs, List.length_map]
  obtain ⟨t1, t2, t3⟩ := hk v.c.qs.length h0 le_rfl
  rw [List.take_length] at t1
  have hin := h.inputs hG hC t3 t1 t2 hv0 hS hne
  have hi : ∀ {x : RCt} {y : LInfo} {f}, y.level = C.qs.length → PSound C.l v.c S x y f →
      x.ms = v.c.qs ∧ ∃ Φ, Encrypts C.l S x Φ := by
    rintro x y f hl ⟨a1, -, -, -, -, -, Φ, a2, -⟩
    rw [hl, hlq, List.take_length] at a1
    exact ⟨a1, Φ, a2⟩
  obtain ⟨r1, r2⟩ := received (start := start) hG hC hc hqs hw hC.small hk hne (fun i => hi rfl (hin i).1)
    (fun i => hi rfl (hin i).2)
  refine ⟨⟨v, r1 hs⟩, fun v' hv u info hu hb => ?_⟩
  obtain ⟨e1, e2, e3, e4, e5⟩ := r2 v' hv
  obtain ⟨vc, vx, vy, vr, vg⟩ := v'
  dsimp only at e1 e2 e3 e4 e5
  subst e1 e2 e3 e4
  have hses : BgvPolySession G Gp fuel est C k pk ⟨v.c, v.x, v.y, v.relin, vg⟩ m m' :=
    ⟨h.context, keyCalls_congr h.keys e5, h.pub, h.messages, h.encrypt, h.receive⟩
  obtain ⟨r, q1, q2, q3, q4, S', Φ, q5⟩ := hses.circuit hG hC u hu hb
  refine ⟨r, r, q1, ?_, q2⟩
  rw [← q3]
  refine sendCt_ok (fun m hm => hc.qs m ?_) ?_ hC.word hw q5
  · rw [q3] at hm
    exact List.mem_of_mem_take hm
  · rw [q3]
    intro hn
    have := congrArg List.length hn
    rw [List.length_take, List.length_nil] at this
    dsimp only at this
    omega

/-- **C86.** The same for BFV. -/
theorem c86_bfv (hG : Words G) (hest : EstimateWithin (max C.qs.length C.ps.length) ε est) (h0 : 0 ≤ ε) (hε : ε < 1 / 2)
    (hC : C.ValidPoly) (ht1 : 1 < C.t) (hps : C.ps ≠ []) (hq : C.qs.length < 2 ^ C.w) (hp : C.ps.length < 2 ^ C.w)
    (hw : 8 ≤ C.w) (h : BfvPolySession G Gp fuel est C k pk v m m') (hs : Seeded G Gp start fuel C 1 k v) :
    (∃ v', Received G Gp start fuel C 1 k v v') ∧ ∀ v', Received G Gp start fuel C 1 k v v' →
    ∀ (u : QCircuit) (info : LInfo), u.analyse (C.bfvParams ε) = some info →
    info.noise < (1 / 2 - ε) * (C.qs.take info.level).prod →
    ∃ r r', u.run est v' = .ok r ∧ sendCt (v.c.qs.take info.level) r = .ok r' ∧
      (k info.level).decryptBfv (coefficientEncoder est v.c) r' =
      .ok (List.ofFn fun i : Fin (2 ^ C.l) => (u.eval (R := ZMod C.t) (fun i j => ((m i).getD j 0 : ℕ))
        (fun i j => ((m' i).getD j 0 : ℕ)) i).val) := by
  obtain ⟨hc, hqs, -, ht, -⟩ := h.contextOk hC ht1
  obtain ⟨S, hv0, hS, hk⟩ := h.keys.secretOk hG hC hc hqs
  have hne : v.c.qs ≠ [] := by
    intro hn
    obtain ⟨s, s', hs⟩ := h.keys.secret
    unfold RKey.sample at hs
    rw [hn] at hs
    simp at hs
  have h0q : 0 < v.c.qs.length := List.length_pos_iff.mpr hne
  have hlq : C.qs.length = v.c.qs.length := by rw [← hqs, List.length_map]
  obtain ⟨t1, t2, t3⟩ := hk v.c.qs.length h0q le_rfl
  rw [List.take_length] at t1
  have hin := h.inputs (ε := ε) hG hC ht1 t3 t1 t2 hv0 hS hne
  have hi : ∀ {x : RCt} {y : LInfo} {f}, y.level = C.qs.length → BSound C.l v.c S x y f →
      x.ms = v.c.qs ∧ ∃ Φ, Encrypts C.l S x Φ := by
    rintro x y f hl ⟨a1, -, -, -, -, -, M, a2, -⟩
    rw [hl, hlq, List.take_length] at a1
    exact ⟨a1, a2.imp fun _ h => h.1⟩
  have hone : 1 < 2 ^ C.w := lt_of_le_of_lt ht1.le hC.small
  obtain ⟨r1, r2⟩ := received (start := start) hG hC hc hqs hw hone hk hne (fun i => hi rfl (hin i).1)
    (fun i => hi rfl (hin i).2)
  refine ⟨⟨v, r1 hs⟩, fun v' hv u info hu hb => ?_⟩
  obtain ⟨e1, e2, e3, e4, e5⟩ := r2 v' hv
  obtain ⟨vc, vx, vy, vr, vg⟩ := v'
  dsimp only at e1 e2 e3 e4 e5
  subst e1 e2 e3 e4
  have hses : BfvPolySession G Gp fuel est C k pk ⟨v.c, v.x, v.y, v.relin, vg⟩ m m' :=
    ⟨h.context, keyCalls_congr h.keys e5, h.pub, h.messages, h.encrypt, h.receive⟩
  obtain ⟨r, q1, q2, q3, q4, S', Φ, q5⟩ := hses.circuit hG hest h0 hε hC ht1 hps hq hp u hu hb
  refine ⟨r, r, q1, ?_, q2⟩
  rw [← q3]
  refine sendCt_ok (fun m hm => hc.qs m ?_) ?_ hC.word hw q5
  · rw [q3] at hm
    exact List.mem_of_mem_take hm
  · rw [q3]
    intro hn
    have := congrArg List.length hn
    rw [List.length_take, List.length_nil] at this
    dsimp only at this
    omega

/-- The hypotheses are met: sessions whose Galois keys were created from seeds exist. -/
example : ∃ k pk v, BgvPolySession zeros zeros 1 est exPolyChoice k pk v (fun _ => [1, 2, 3, 4]) (fun _ => [5, 6]) ∧
    Seeded zeros zeros (fun _ => ()) 1 exPolyChoice exPolyChoice.t k v ∧ 8 ≤ exPolyChoice.w ∧ exPolyChoice.galois ≠ [] := by
  obtain ⟨k, pk, v, h⟩ := zeros_session (est := est) exPolyChoice_valid exPolyChoice_usable
    (m := fun _ => [1, 2, 3, 4]) (m' := fun _ => [5, 6]) fun _ => by decide
  refine ⟨k, pk, v, h, fun a ha => ?_, by decide, by decide⟩
  obtain ⟨g, prng, sp, s, h1, h2⟩ := h.keys.galois a ha
  exact ⟨g, prng, [], s, h1, h2⟩

example : ∃ k pk v, BfvPolySession zeros zeros 1 est exBfvPolyChoice k pk v (fun _ => [1, 2, 3, 4]) (fun _ => [5, 6]) ∧
    Seeded zeros zeros (fun _ => ()) 1 exBfvPolyChoice 1 k v ∧ 8 ≤ exBfvPolyChoice.w ∧ exBfvPolyChoice.galois ≠ [] := by
  obtain ⟨k, pk, v, h⟩ := zeros_session_bfv (est := est) exBfvPolyChoice_valid
    { qs := by decide, t := by decide, logN := by decide, moduli := by decide, variance := by decide, powers := by decide,
      odd := by decide, plain := by decide } (m := fun _ => [1, 2, 3, 4]) (m' := fun _ => [5, 6])
    fun _ => by unfold SchemeChoice.Messages; decide
  refine ⟨k, pk, v, h, fun a ha => ?_, by decide, by decide⟩
  obtain ⟨g, prng, sp, s, h1, h2⟩ := h.keys.galois a ha
  exact ⟨g, prng, [], s, h1, h2⟩

end Shell
