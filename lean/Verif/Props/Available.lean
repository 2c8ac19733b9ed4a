import Verif.Props.RnsPolySessionExample
import Verif.Lemmas.Available
import Verif.Props.RnsPolySession
import Verif.Props.RnsBfvPolySessionExample
/-!
# Property C85: calls with parameters in range succeed
-/

namespace Shell
open Spec Rns
variable {σ τ : Type} {G : Gen σ} {Gp : Gen τ} {fuel : ℕ} {est : Estimate} {C : SchemeChoice} {c : Rns.Ctx} {k : ℕ → RKey}

/-- **C85.** For parameters in range, `RnsContext::CreateForBgv` succeeds. -/
theorem c85_context (hC : C.ValidPoly) (hU : C.Usable) : ∃ c, createCtx C.w C.l C.qs C.ps C.t = .ok c := by
  obtain ⟨h1, h2, h3⟩ := hU.logN
  refine (c54_create_iff (fun q hq => hC.prime q (List.mem_append_left _ hq))
    (fun q hq => hC.prime q (List.mem_append_right _ hq))).1.mpr ⟨by omega, hU.t, fun q hq => ?_⟩
  obtain ⟨a1, a2, a3⟩ := hU.moduli q hq
  exact ⟨a1, a2, by omega, by omega, by omega, by simpa using a3⟩

/-- **C85.** The same for `CreateForBfv`. -/
theorem c85_context_bfv (hC : C.ValidPoly) (hU : C.UsableBfv) : ∃ c, createForBfv C.w C.l C.qs C.ps C.t = .ok c := by
  have hp := hC.prime
  obtain ⟨c, hc⟩ := c85_context hC hU.toUsable
  obtain ⟨p, hp'⟩ := ((c02_create C.w C.t).1).mpr ⟨hU.odd, hU.plain.2⟩
  exact (c54_bfv_total (fun q hq => hp q (List.mem_append_left _ hq)) (fun q hq => hp q (List.mem_append_right _ hq)) hc
    hp').1 fun q hq => ((hp q (List.mem_append_left _ hq)).coprime_iff_not_dvd).mpr (hC.other q (List.mem_append_left _ hq))

theorem ctx_ok (hC : C.ValidPoly) (hx : C.Context c) : GoodCtx C.w C.l c ∧ c.qs.map (·.N) = C.qs ∧ c.t = C.t := by
  have hp := hC.prime
  rcases hx with hx | hx
  · obtain ⟨h1, h2, h3, h4⟩ := c54_create (fun q hq => hp q (List.mem_append_left _ hq))
      (fun q hq => hp q (List.mem_append_right _ hq)) hC.small hx hC.distinct hC.other
    exact ⟨h1, h2, h4⟩
  · obtain ⟨h1, h2, h3, h4, -⟩ := c54_createForBfv (fun q hq => hp q (List.mem_append_left _ hq))
      (fun q hq => hp q (List.mem_append_right _ hq)) hC.small hx hC.distinct hC.other
    exact ⟨h1, h2, h4⟩

theorem qs_ne (hU : C.Usable) (hqs : c.qs.map (·.N) = C.qs) : c.qs ≠ [] := by
  intro h
  rw [h] at hqs
  exact hU.qs hqs.symm

/-- The sampled key at all levels. -/
theorem levels_ok (hG : Words G) (hC : C.ValidPoly) (hx : GoodCtx C.w C.l c) (hqs : c.qs.map (·.N) = C.qs)
    (h : KeyLevels G C c k) : ∃ S : Fin (2 ^ C.l) → ℤ, ∀ lev, 0 < lev → lev ≤ c.qs.length →
      (k lev).ms = c.qs.take lev ∧ (k lev).variance = C.v ∧ GoodKey C.w C.l (k lev) S := by
  have hC' : ({ C with relins := [], galois := [] } : SchemeChoice).ValidPoly :=
    ⟨hC.word, hC.prime, hC.distinct, hC.small, hC.first, hC.other, by simp⟩
  have hK : KeyCalls G G 0 { C with relins := [], galois := [] } 0 c k (fun _ => ⟨[], [], ⟨[], [], []⟩, 0, []⟩)
      (fun _ _ => ⟨[], [], ⟨[], [], []⟩, 0, []⟩) := ⟨h.secret, h.reduced, by simp, by simp⟩
  obtain ⟨S, -, -, hS⟩ := hK.secretOk hG hC' hx hqs
  exact ⟨S, hS⟩

/-- **C85.** Sampling a secret key succeeds, and the key can be reduced to every smaller number of moduli. -/
theorem c85_secret (hD : Delivers G) (hG : Words G) (hC : C.ValidPoly) (hU : C.Usable)
    (hx : C.Context c) (s : σ) :
    ∃ k₀ s', RKey.sample G C.l C.v c.qs s = .ok (k₀, s') ∧ ∃ k, k c.qs.length = k₀ ∧ KeyLevels G C c k := by
  obtain ⟨hc, hqs, ht⟩ := ctx_ok hC hx
  obtain ⟨l1, l2, l3⟩ := hU.logN
  have hne := qs_ne hU hqs
  have hv : ∀ a ∈ c.qs.head?, 2 * C.v ≤ a.N := by
    intro a ha
    refine (hC.first a.N ?_).2
    rw [← hqs, List.head?_map, Option.mem_def.mp ha]
    rfl
  obtain ⟨⟨x, s'⟩, h1⟩ := sampleErr_delivers hD hG hc.qs hne l1 l2 hU.variance.1 hU.variance.2 hv s
  have hs : RKey.sample G C.l C.v c.qs s = .ok (⟨x, c.qs, C.v⟩, s') := by
    unfold RKey.sample
    have := hU.variance.1
    rw [if_neg (by omega), if_neg (by omega), if_neg (by simpa using hne), h1]
    rfl
  obtain ⟨k1, k2, S, k3, k4⟩ := c55_key_sample G hG hc.qs hv hs
  refine ⟨_, _, hs, ?_⟩
  have main : ∀ d, d < c.qs.length → ∃ k : ℕ → RKey, k c.qs.length = ⟨x, c.qs, C.v⟩ ∧
      (∀ lev, c.qs.length - d ≤ lev → lev < c.qs.length → (k (lev + 1)).modReduce = .ok (k lev)) ∧
      (k (c.qs.length - d)).ms = c.qs.take (c.qs.length - d) ∧ KeyIs C.l (k (c.qs.length - d)) S := by
    intro d
    induction d with
    | zero =>
      intro _
      exact ⟨fun _ => ⟨x, c.qs, C.v⟩, rfl, fun lev h1 h2 => by omega, by simp, k3⟩
    | succ d ih =>
      intro hd
      obtain ⟨k, a1, a2, a3, a4⟩ := ih (by omega)
      set lev := c.qs.length - (d + 1) with hlev
      have e : c.qs.length - d = lev + 1 := by omega
      rw [e] at a3 a4
      have hlt : lev < c.qs.length := by omega
      have hms : (k (lev + 1)).ms = c.qs.take lev ++ [c.qs[lev]] := by
        rw [a3, List.take_add_one, List.getElem?_eq_getElem hlt]; rfl
      have hne' : c.qs.take lev ≠ [] := by
        intro hn
        have := congrArg List.length hn
        rw [List.length_take, List.length_nil] at this
        omega
      obtain ⟨k', b1, b2, b3, b4⟩ := c56_key_modReduce hne' hms a4
      refine ⟨Function.update k lev k', ?_, fun i hi hi' => ?_, ?_, ?_⟩
      · rw [Function.update_of_ne (by omega), a1]
      · by_cases h : i = lev
        · subst h
          rw [Function.update_self, Function.update_of_ne (by omega)]
          exact b1
        · rw [Function.update_of_ne h, Function.update_of_ne (by omega)]
          exact a2 i (by omega) hi'
      · rw [Function.update_self]; exact b2
      · rw [Function.update_self]; exact b4
  have hpos : 0 < c.qs.length := List.length_pos_iff.mpr hne
  obtain ⟨k, a1, a2, -⟩ := main (c.qs.length - 1) (by omega)
  exact ⟨k, a1, ⟨s, s', by rw [a1]; exact hs⟩, fun lev h0 h1 => a2 lev (by omega) h1⟩

/-- What the following theorems use. -/
theorem level_facts (hG : Words G) (hC : C.ValidPoly) (hU : C.Usable)
    (hx : C.Context c) (h : KeyLevels G C c k) {lev : ℕ} (h0 : 0 < lev) (hl : lev ≤ c.qs.length) :
    ∃ S : Fin (2 ^ C.l) → ℤ, GoodKey C.w C.l (k lev) S ∧ (k lev).ms = c.qs.take lev ∧ (k lev).variance = C.v ∧
      (k lev).ms ≠ [] ∧ (k lev).key.logN = C.l := by
  obtain ⟨hc, hqs, ht⟩ := ctx_ok hC hx
  obtain ⟨S, hS⟩ := levels_ok hG hC hc hqs h
  obtain ⟨a1, a2, a3⟩ := hS lev h0 hl
  refine ⟨S, a3, a1, a2, ?_, a3.key.2.1⟩
  intro hn
  rw [hn] at a1
  have := congrArg List.length a1
  rw [List.length_take, List.length_nil] at this
  omega

theorem accepts_take (hC : C.ValidPoly) (hc : GoodCtx C.w C.l c) {ρ : Type} {P : Gen ρ} (hP : Delivers P) (fuel lev : ℕ) :
    ∀ m ∈ c.qs.take lev, ∀ s, OkUnless (¬Accepts P fuel c.qs) (Sampler.importRandom P m.p fuel s) :=
  fun m hm => importRandom_okUnless hP hc.qs hC.word fuel m (List.mem_of_mem_take hm)

/-- **C85.** With a secret key for any number of moduli, encrypting and creating a public key succeed, unless rejection
sampling does not end; and encrypting with the public key succeeds. -/
theorem c85_encrypt (hD : Delivers G) (hG : Words G) (hDp : Delivers Gp) (hC : C.ValidPoly) (hU : C.Usable)
    (hx : C.Context c) (hk : KeyLevels G C c k) {lev : ℕ} (h0 : 0 < lev)
    (hl : lev ≤ c.qs.length) :
    (∀ msgs s, msgs.length ≤ 2 ^ C.l → OkUnless (¬Accepts G fuel c.qs)
      ((k lev).encryptBgv G fuel (coefficientEncoder est c) msgs s)) ∧
    (∀ z < 2 ^ C.w, ∀ sp s, OkUnless (¬Accepts Gp fuel c.qs) (RPub.create Gp G fuel (k lev) C.v z sp s)) ∧
    ∀ sp s pk, RPub.create Gp G fuel (k lev) C.v C.t sp s = .ok pk → ∀ msgs s, msgs.length ≤ 2 ^ C.l →
      ∃ x s', pk.encryptBgv G (coefficientEncoder est c) msgs s = .ok (x, s') := by
  obtain ⟨hc, hqs, ht⟩ := ctx_ok hC hx
  obtain ⟨S, hk3, hms, hvar, hne, hlog⟩ := level_facts hG hC hU hx hk h0 hl
  obtain ⟨l1, l2, l3⟩ := hU.logN
  obtain ⟨v1, v2⟩ := hU.variance
  have hEt : (coefficientEncoder est c).t = C.t := ht
  have hsub : ∀ m ∈ (k lev).ms, m ∈ c.qs := fun m hm => by rw [hms] at hm; exact List.mem_of_mem_take hm
  have hvv : ∀ m ∈ (k lev).ms.head?, 2 * C.v ≤ m.N := by rw [← hvar]; exact hk3.variance
  refine ⟨fun msgs s hmsgs => ?_, fun z hz sp s => ?_, fun sp s pk hpk msgs s' hmsgs => ?_⟩
  · obtain ⟨p, p1, p2, p3⟩ := c48_encode hc hne hsub hmsgs
    rcases sampleUniform_okUnless (l := C.l) (fun m hm => accepts_take hC hc hD fuel lev m (hms ▸ hm)) hne l1 l2 s with
      ⟨⟨a, s1⟩, ha⟩ | ⟨hd, ha⟩
    · obtain ⟨⟨e, s2⟩, he⟩ := sampleErr_delivers hD hG hk3.good hne l1 l2 (v := (k lev).variance) (by omega) (by omega)
        hk3.variance s1
      obtain ⟨x, R, x1, -⟩ := c55_encrypt_bgv G hG (E := coefficientEncoder est c) hk3 p1 p3
        (by rw [hEt]; exact hC.small) (by rw [hlog]; exact ha) (by rw [hlog]; exact he)
      exact .inl ⟨_, x1⟩
    · refine .inr ⟨hd, ?_⟩
      obtain ⟨q, q1, q2, q3⟩ := repr_toNtt hk3.good p3 p2
      unfold RKey.encryptBgv RKey.encryptPolynomialBgv
      have p1' : (coefficientEncoder est c).encodeBgv msgs (k lev).ms = .ok p := p1
      have q1' : plainNtt (k lev).ms p = .ok q := by unfold plainNtt; rw [p2]; exact q1
      rw [p1', Outcome.bind_ok, q1', Outcome.bind_ok]
      simp only [q2, Bool.not_true, Bool.false_eq_true, if_false]
      rw [hlog, ha]
      rfl
  · rcases sampleUniform_okUnless (l := C.l) (fun m hm => accepts_take hC hc hDp fuel lev m (hms ▸ hm)) hne l1 l2 sp with
      ⟨⟨a, s1⟩, ha⟩ | ⟨hd, ha⟩
    · obtain ⟨⟨e, s2⟩, he⟩ := sampleErr_delivers hD hG hk3.good hne l1 l2 v1 v2 hvv s
      obtain ⟨pk, q1, -⟩ := c55_public_key Gp G hG hk3 hvv hz v1 (by rw [hlog]; exact ha) (by rw [hlog]; exact he)
      exact .inl ⟨_, q1⟩
    · refine .inr ⟨hd, ?_⟩
      unfold RPub.create
      rw [if_neg (by omega), hlog, ha]
      rfl
  · have hpk' := hpk
    unfold RPub.create at hpk
    rw [if_neg (by omega)] at hpk
    obtain ⟨⟨a, sp1⟩, ha, hpk⟩ := Outcome.bind_eq_ok.mp hpk
    obtain ⟨⟨er, s1⟩, her, -⟩ := Outcome.bind_eq_ok.mp hpk
    obtain ⟨pk', q1, q2, q3, q4⟩ := c55_public_key Gp G hG hk3 hvv hC.small v1 ha her
    rw [hpk'] at q1
    obtain rfl := Outcome.ok.inj q1
    have hlp : pk.a.logN = C.l := by
      obtain ⟨ka, kb, A, B, Ek, hA, -⟩ := q4
      exact hA.1
    obtain ⟨p, p1, p2, p3⟩ := c48_encode hc hne hsub hmsgs
    have hgp : ∀ m ∈ pk.ms, GoodModulus C.w C.l m := by rw [q2]; exact hk3.good
    have hvp : ∀ m ∈ pk.ms.head?, 2 * pk.variance ≤ m.N := by rw [q2, q3]; exact hvv
    have hdr := fun s => sampleErr_delivers hD hG hgp (by rw [q2]; exact hne) l1 l2 (v := pk.variance) (by omega) (by omega) hvp s
    obtain ⟨⟨e0, s2⟩, he0⟩ := hdr s'
    obtain ⟨⟨e1, s3⟩, he1⟩ := hdr s2
    obtain ⟨⟨e2, s4⟩, he2⟩ := hdr s3
    obtain ⟨x, R, x1, -⟩ := c55_public_encrypt_bgv G hG (E := coefficientEncoder est c) (k := pk)
      hgp hvp (by omega) (by rw [hEt]; exact q4) (by rw [q2]; exact p1) (by rw [q2]; exact p3)
      (by rw [hEt]; exact hC.small) (by rw [hlp]; exact he0) (by rw [hlp]; exact he1) (by rw [hlp]; exact he2)
    exact ⟨_, _, x1⟩

/-- **C85.** The gadget of every level is created; and with it, relinearization keys of every degree and Galois keys
for every odd power are created, unless rejection sampling does not end. -/
theorem c85_switching (hD : Delivers G) (hG : Words G) (hDp : Delivers Gp) (hC : C.ValidPoly) (hU : C.Usable)
    (hx : C.Context c) (hk : KeyLevels G C c k) {lev : ℕ}
    (hlev : lev ∈ C.relins ∨ lev ∈ C.galois.map (·.1)) :
    ∃ g, C.Gadget c lev g ∧ ∀ z < 2 ^ C.w, ∀ prng ≠ PrngType.invalid, ∀ sp s,
      (∀ degree, 2 ≤ degree → OkUnless (¬Accepts Gp fuel c.qs)
        (RRelin.create Gp G fuel (k lev) degree C.v g prng z sp s)) ∧
      ∀ p : ℕ, p % 2 = 1 → p < 2 * 2 ^ C.l → OkUnless (¬Accepts Gp fuel c.qs)
        (RGalois.create Gp G fuel (k lev) p C.v g prng z sp s) := by
  obtain ⟨hc, hqs, ht⟩ := ctx_ok hC hx
  obtain ⟨h0, h1, h2, h3⟩ := hC.level lev hlev
  have hlq : c.qs.length = C.qs.length := by rw [← hqs, List.length_map]
  obtain ⟨S, hk3, hms, hvar, hne, hlog⟩ := level_facts hG hC hU hx hk h0 (by omega)
  obtain ⟨l1, l2, l3⟩ := hU.logN
  obtain ⟨v1, v2⟩ := hU.variance
  have hvv : ∀ m ∈ (k lev).ms.head?, 2 * C.v ≤ m.N := by rw [← hvar]; exact hk3.variance
  obtain ⟨a, b, g, Gs, b1, b2, b3, b4, b5⟩ := c51_context hc hC.word l1 (level := lev - 1)
    (by omega) (logBs := C.logBs lev) (by omega) h3
  rw [show lev - 1 + 1 = lev by omega] at b3 b4 b5
  rw [show ((lev - 1 : ℕ) : ℤ) = (lev : ℤ) - 1 by omega] at b1 b2
  rw [← hms] at b5
  have hdim : 0 < g.dimension := by
    obtain ⟨m, rest, hm⟩ := List.exists_cons_of_ne_nil hne
    obtain ⟨b, bs, hb⟩ := List.exists_cons_of_length_pos (l := C.logBs lev) (by omega)
    have hb0 := (h3 b (by rw [hb]; simp)).1
    have hN : 0 < m.N := (hk3.good m (by rw [hm]; simp)).good.pos
    have hsz : 0 < Nat.size m.N := Nat.size_pos.mpr hN
    unfold RGadget.dimension
    rw [b4, ← hms, hm, hb, List.zipWith_cons_cons, List.sum_cons]
    have : 0 < (Nat.size m.N + (b - 1)) / b := Nat.div_pos (by omega) hb0
    omega
  refine ⟨g, ⟨a, b, b1, b2, b3⟩, fun z hz prng hpr sp s => ?_⟩
  have hpads := fun n => samplePads_okUnless (l := C.l) (fun m hm => accepts_take hC hc hDp fuel lev m (hms ▸ hm)) hne l1 l2 n sp
  have hgs : g.gs.take g.dimension = g.gs := by rw [← b5.dim, List.take_length]
  refine ⟨fun degree hd => ?_, fun p hp1 hp2 => ?_⟩
  · unfold RRelin.create
    rw [if_neg (by omega), if_neg hpr]
    refine .bind ?_ fun pads hpads' => ?_
    · unfold RRelin.samplePad
      rw [if_neg (by omega), if_neg (by omega), if_neg (by omega), if_neg hpr, hlog]
      exact .bind (hpads _) fun a _ => .inl ⟨_, rfl⟩
    · refine .inl ?_
      unfold RRelin.samplePad at hpads'
      rw [if_neg (by omega), if_neg (by omega), if_neg (by omega), if_neg hpr, hlog] at hpads'
      obtain ⟨⟨as, s1⟩, e1, e2⟩ := Outcome.bind_eq_ok.mp hpads'
      obtain rfl := Outcome.ok.inj e2
      obtain ⟨p1, p2⟩ := samplePads_ok Gp hk3.good hk3.coprime e1
      obtain ⟨bs, hbs⟩ := relinBlocks_delivers hD hG hk3 hne l1 l2 v1 v2 hvv hz b5.comps (degree - 1).toNat
        (secret := (k lev).key) (pads := as) s hk3.key p2 (by
          rw [p1, b5.dim]
          have : ((g.dimension : ℤ) * (degree - 1)).toNat = (degree - 1).toNat * g.dimension := by
            obtain ⟨e, rfl⟩ : ∃ e : ℕ, degree = e + 1 := ⟨(degree - 1).toNat, by omega⟩
            simp only [add_sub_cancel_right, Int.toNat_natCast]
            rw [← Nat.cast_mul, Int.toNat_natCast, mul_comm]
          rw [this])
      unfold RRelin.createWithPad
      rw [if_neg (by omega), if_neg (by rw [b5.dim]; omega), Outcome.bind_ok, hgs, hbs, Outcome.bind_ok]
      exact ⟨_, rfl⟩
  · unfold RGalois.create
    rw [if_neg hpr, hlog]
    refine .bind (hpads _) fun ⟨as, s1⟩ e1 => ?_
    refine .inl ?_
    obtain ⟨p1, p2⟩ := samplePads_ok Gp hk3.good hk3.coprime e1
    obtain ⟨src, c1, c2, c3⟩ := repr_substitute (by omega) hk3.good hk3.key.2 hk3.key.1 hp1 hp2
    obtain ⟨bs, rest, s', d1, -⟩ := keyEntries_delivers hD hG hk3 hne l1 l2 v1 v2 hvv hz (source := src) ⟨c2, c3⟩ s
      b5.comps p2 (by rw [p1, b5.dim])
    have hpow : (2 : ℕ) ^ C.l ≤ 2 ^ 15 := Nat.pow_le_pow_right (by norm_num) l2
    dsimp only
    unfold RGalois.createWithPad shl1
    rw [hlog, if_pos (by omega), Outcome.bind_ok, if_neg, if_neg (by omega), if_neg, if_neg (by omega), if_neg hpr, c1,
      Outcome.bind_ok, if_neg (by rw [b5.dim]; omega), Outcome.bind_ok, hgs, d1, Outcome.bind_ok]
    · exact ⟨_, rfl⟩
    · have hp2' : (p : ℤ) < 2 * ((2 ^ C.l : ℕ) : ℤ) := by exact_mod_cast hp2
      omega
    · rw [Int.tmod_eq_emod_of_nonneg (by omega)]; omega

/-- The key-switching keys of all levels. -/
theorem switching_all (hD : Delivers G) (hG : Words G) (hDp : Delivers Gp) (hC : C.ValidPoly) (hU : C.Usable)
    (hx : C.Context c) (hk : KeyLevels G C c k) {z : ℕ} (hz : z < 2 ^ C.w) (s : σ) (sp : τ) (hA : Accepts Gp fuel c.qs) :
    ∃ r f, KeyCalls G Gp fuel C z c k r f := by
  have hok : ∀ {α : Type} {x : Outcome α} {d : Prop}, OkUnless (¬d) x → d → ∃ a, x = .ok a := fun h hd =>
    h.resolve_right fun h => h.1 hd
  have hsw := fun (lev : ℕ) hlev => c85_switching (fuel := fuel) hD hG hDp hC hU hx hk (lev := lev) hlev
  have hr : ∀ lev, ∃ r : RRelin, lev ∈ C.relins → ∃ g prng sp s, C.Gadget c lev g ∧
      RRelin.create Gp G fuel (k lev) 2 C.v g prng z sp s = .ok r := by
    intro lev
    by_cases hlev : lev ∈ C.relins
    · obtain ⟨g, g1, g2⟩ := hsw lev (.inl hlev)
      obtain ⟨r, hr⟩ := hok ((g2 z hz .hkdf (by decide) sp s).1 2 le_rfl) hA
      exact ⟨r, fun _ => ⟨g, .hkdf, sp, s, g1, hr⟩⟩
    · exact ⟨⟨[], [], ⟨[], [], []⟩, 0, []⟩, fun h => absurd h hlev⟩
  have hg : ∀ lev p, ∃ r : RGalois, (lev, p) ∈ C.galois → ∃ g prng sp s, C.Gadget c lev g ∧
      RGalois.create Gp G fuel (k lev) (p : ℕ) C.v g prng z sp s = .ok r := by
    intro lev p
    by_cases hlev : (lev, p) ∈ C.galois
    · obtain ⟨g, g1, g2⟩ := hsw lev (.inr (List.mem_map.mpr ⟨_, hlev, rfl⟩))
      obtain ⟨h1, h2⟩ := hU.powers _ hlev
      obtain ⟨r, hr⟩ := hok ((g2 z hz .hkdf (by decide) sp s).2 p h1 h2) hA
      exact ⟨r, fun _ => ⟨g, .hkdf, sp, s, g1, hr⟩⟩
    · exact ⟨⟨[], [], ⟨[], [], []⟩, 0, []⟩, fun h => absurd h hlev⟩
  choose r hr using hr
  choose f hf using hg
  exact ⟨r, f, hk.secret, hk.reduced, hr, fun a ha => hf a.1 a.2 ha⟩

/-- **C85.** Encrypting for BFV with the secret key, with one or two generators, succeeds, unless rejection sampling does
not end; and encrypting for BFV with the public key succeeds. -/
theorem c85_encrypt_bfv (hD : Delivers G) (hG : Words G) (hDp : Delivers Gp) (hC : C.ValidPoly) (hU : C.UsableBfv)
    (hx : createForBfv C.w C.l C.qs C.ps C.t = .ok c) (hk : KeyLevels G C c k) :
    (∀ msgs s sp, C.Messages msgs →
      OkUnless (¬Accepts G fuel c.qs) ((k c.qs.length).encryptBfv1 G fuel (coefficientEncoder est c) msgs s) ∧
      OkUnless (¬Accepts Gp fuel c.qs) ((k c.qs.length).encryptBfv G Gp fuel (coefficientEncoder est c) msgs s sp)) ∧
    ∀ sp s pk, RPub.create Gp G fuel (k c.qs.length) C.v 1 sp s = .ok pk → ∀ msgs s, C.Messages msgs →
      ∃ x s', pk.encryptBfv G (coefficientEncoder est c) msgs s = .ok (x, s') := by
  obtain ⟨hc, hqs, ht⟩ := ctx_ok hC (.inr hx)
  have hp := hC.prime
  obtain ⟨-, -, -, -, mt, m1, m2, m3⟩ := c54_createForBfv (fun q hq => hp q (List.mem_append_left _ hq))
    (fun q hq => hp q (List.mem_append_right _ hq)) hC.small hx hC.distinct hC.other
  have hq := qs_ne hU.toUsable hqs
  have hpos : 0 < c.qs.length := List.length_pos_iff.mpr hq
  obtain ⟨S, hk3, hms, hvar, hne, hlog⟩ := level_facts hG hC hU.toUsable (.inr hx) hk hpos le_rfl
  rw [List.take_length] at hms
  obtain ⟨l1, l2, l3⟩ := hU.logN
  obtain ⟨v1, v2⟩ := hU.variance
  have hvv : ∀ m ∈ (k c.qs.length).ms.head?, 2 * C.v ≤ m.N := by rw [← hvar]; exact hk3.variance
  have henc : ∀ msgs, C.Messages msgs → ∃ p, encodeBfv c msgs (k c.qs.length).ms true = .ok p ∧ p.ntt = true ∧
      ∃ F, Represents C.l (k c.qs.length).ms p F := by
    intro msgs hm
    obtain ⟨p, p1, p2, p3⟩ := c49_encode_scaled hc m3 m1 (m2.trans ht.symm) (by rw [ht]; exact hU.plain.1) hq hm.1 hm.2
    rw [hms]
    exact ⟨p, p1, p2, _, p3⟩
  have hacc : ∀ {ρ : Type} {P : Gen ρ}, Delivers P → ∀ m ∈ (k c.qs.length).ms, ∀ s,
      OkUnless (¬Accepts P fuel c.qs) (Sampler.importRandom P m.p fuel s) := fun hP m hm =>
    importRandom_okUnless hP hc.qs hC.word fuel m (hms ▸ hm)
  refine ⟨fun msgs s sp hm => ?_, fun sp s pk hpk msgs s' hm => ?_⟩
  · obtain ⟨p, p1, p2, F, p3⟩ := henc msgs hm
    obtain ⟨q1, q2⟩ := c55_encrypt_bfv G hG Gp (fuel := fuel) (E := coefficientEncoder est c) hk3 p1 p3
    have p1' : (coefficientEncoder est c).encodeBfv msgs (k c.qs.length).ms = .ok p := p1
    have p2' : plainNtt (k c.qs.length).ms p = .ok p := by unfold plainNtt; rw [p2]; rfl
    constructor
    · rcases sampleUniform_okUnless (l := C.l) (hacc hD) hne l1 l2 s with ⟨⟨a, s1⟩, ha⟩ | ⟨hd, ha⟩
      · obtain ⟨⟨e, s2⟩, he⟩ := sampleErr_delivers hD hG hk3.good hne l1 l2 (v := (k c.qs.length).variance) (by omega)
          (by omega) hk3.variance s1
        obtain ⟨x, R, x1, -⟩ := q1 (by rw [hlog]; exact ha) (by rw [hlog]; exact he)
        exact .inl ⟨_, x1⟩
      · refine .inr ⟨hd, ?_⟩
        unfold RKey.encryptBfv1
        rw [p1', Outcome.bind_ok, p2', Outcome.bind_ok, hlog, ha]
        rfl
    · rcases sampleUniform_okUnless (l := C.l) (hacc hDp) hne l1 l2 sp with ⟨⟨a, s1⟩, ha⟩ | ⟨hd, ha⟩
      · obtain ⟨⟨e, s2⟩, he⟩ := sampleErr_delivers hD hG hk3.good hne l1 l2 (v := (k c.qs.length).variance) (by omega)
          (by omega) hk3.variance s
        obtain ⟨x, R, x1, -⟩ := q2 (by rw [hlog]; exact ha) (by rw [hlog]; exact he)
        exact .inl ⟨_, x1⟩
      · refine .inr ⟨hd, ?_⟩
        unfold RKey.encryptBfv
        rw [p1', Outcome.bind_ok, p2', Outcome.bind_ok, hlog, ha]
        rfl
  · have hpk' := hpk
    unfold RPub.create at hpk
    rw [if_neg (by omega)] at hpk
    obtain ⟨⟨a, sp1⟩, ha, hpk⟩ := Outcome.bind_eq_ok.mp hpk
    obtain ⟨⟨er, s1⟩, her, -⟩ := Outcome.bind_eq_ok.mp hpk
    obtain ⟨pk', q1, q2, q3, q4⟩ := c55_public_key Gp G hG hk3 hvv (lt_of_le_of_lt hU.plain.1.le hC.small) v1 ha her
    rw [hpk'] at q1
    obtain rfl := Outcome.ok.inj q1
    have hlp : pk.a.logN = C.l := by
      obtain ⟨ka, kb, A, B, Ek, hA, -⟩ := q4
      exact hA.1
    obtain ⟨p, p1, p2, F, p3⟩ := henc msgs hm
    have hgp : ∀ m ∈ pk.ms, GoodModulus C.w C.l m := by rw [q2]; exact hk3.good
    have hvp : ∀ m ∈ pk.ms.head?, 2 * pk.variance ≤ m.N := by rw [q2, q3]; exact hvv
    have hdr := fun s => sampleErr_delivers hD hG hgp (by rw [q2]; exact hne) l1 l2 (v := pk.variance) (by omega) (by omega) hvp s
    obtain ⟨⟨e0, s2⟩, he0⟩ := hdr s'
    obtain ⟨⟨e1, s3⟩, he1⟩ := hdr s2
    obtain ⟨⟨e2, s4⟩, he2⟩ := hdr s3
    obtain ⟨x, R, x1, -⟩ := c55_public_encrypt_bfv G hG (E := coefficientEncoder est c) (k := pk)
      hgp hvp (by omega) q4 (by rw [q2]; exact p1) (by rw [q2]; exact p3)
      (by rw [hlp]; exact he0) (by rw [hlp]; exact he1) (by rw [hlp]; exact he2)
    exact ⟨_, _, x1⟩

/-- **C85.** If the generators answer and rejection sampling ends, everything that C78 assumes can be obtained from the
library: a context, keys of all kinds, and encryptions of all messages. -/
theorem c85_session (hD : Delivers G) (hG : Words G) (hDp : Delivers Gp) (hC : C.ValidPoly) (hU : C.Usable) {m m' : ℕ → List ℕ}
    (hm : ∀ i, (m i).length ≤ 2 ^ C.l ∧ (m' i).length ≤ 2 ^ C.l) (s : σ) (sp : τ)
    (hA : ∀ c, createCtx C.w C.l C.qs C.ps C.t = .ok c → Accepts G fuel c.qs ∧ Accepts Gp fuel c.qs) :
    ∃ k pk v, BgvPolySession G Gp fuel est C k pk v m m' := by
  obtain ⟨c, hx⟩ := c85_context hC hU
  obtain ⟨hc, hqs, ht⟩ := ctx_ok hC (.inl hx)
  obtain ⟨hA1, hA2⟩ := hA c hx
  have hok : ∀ {α : Type} {x : Outcome α} {d : Prop}, OkUnless (¬d) x → d → ∃ a, x = .ok a := fun h hd =>
    h.resolve_right fun h => h.1 hd
  have hpos : 0 < c.qs.length := List.length_pos_iff.mpr (qs_ne hU hqs)
  obtain ⟨-, -, -, k, -, hk⟩ := c85_secret hD hG hC hU (.inl hx) s
  obtain ⟨e1, e2, e3⟩ := c85_encrypt (fuel := fuel) (est := est) hD hG hDp hC hU (.inl hx) hk hpos le_rfl
  obtain ⟨pk, hpk⟩ := hok (e2 C.t hC.small sp s) hA2
  choose x hx1 using fun i => hok (e1 (m i) s (hm i).1) hA1
  choose y y' hy1 using fun i => e3 sp s pk hpk (m' i) s (hm i).2
  obtain ⟨r, f, hrf⟩ := switching_all (fuel := fuel) hD hG hDp hC hU (.inl hx) hk hC.small s sp hA2
  exact ⟨k, pk, ⟨c, fun i => (x i).1, y, r, f⟩, hx, hrf, ⟨sp, s, hpk⟩, hm, fun i => ⟨s, (x i).2, hx1 i⟩, fun i => ⟨s, y' i, hy1 i⟩⟩

/-- **C85.** The same for BFV and C79. -/
theorem c85_session_bfv (hD : Delivers G) (hG : Words G) (hDp : Delivers Gp) (hC : C.ValidPoly) (hU : C.UsableBfv)
    {m m' : ℕ → List ℕ} (hm : ∀ i, C.Messages (m i) ∧ C.Messages (m' i)) (s : σ) (sp : τ)
    (hA : ∀ c, createForBfv C.w C.l C.qs C.ps C.t = .ok c → Accepts G fuel c.qs ∧ Accepts Gp fuel c.qs) :
    ∃ k pk v, BfvPolySession G Gp fuel est C k pk v m m' := by
  obtain ⟨c, hx⟩ := c85_context_bfv hC hU
  obtain ⟨hc, hqs, ht⟩ := ctx_ok hC (.inr hx)
  obtain ⟨hA1, hA2⟩ := hA c hx
  have hok : ∀ {α : Type} {x : Outcome α} {d : Prop}, OkUnless (¬d) x → d → ∃ a, x = .ok a := fun h hd =>
    h.resolve_right fun h => h.1 hd
  have hpos : 0 < c.qs.length := List.length_pos_iff.mpr (qs_ne hU.toUsable hqs)
  have h1 : 1 < 2 ^ C.w := hU.plain.1.trans hC.small
  obtain ⟨-, -, -, k, -, hk⟩ := c85_secret hD hG hC hU.toUsable (.inr hx) s
  obtain ⟨-, e2, -⟩ := c85_encrypt (fuel := fuel) (est := est) hD hG hDp hC hU.toUsable (.inr hx) hk hpos le_rfl
  obtain ⟨e1, e3⟩ := c85_encrypt_bfv (fuel := fuel) (est := est) hD hG hDp hC hU hx hk
  obtain ⟨pk, hpk⟩ := hok (e2 1 h1 sp s) hA2
  choose x hx1 using fun i => hok (e1 (m i) s sp (hm i).1).1 hA1
  choose y y' hy1 using fun i => e3 sp s pk hpk (m' i) s (hm i).2
  obtain ⟨r, f, hrf⟩ := switching_all (fuel := fuel) hD hG hDp hC hU.toUsable (.inr hx) hk h1 s sp hA2
  exact ⟨k, pk, ⟨c, fun i => (x i).1, y, r, f⟩, hx, hrf, ⟨sp, s, hpk⟩, hm, fun i => .inl ⟨s, (x i).2, hx1 i⟩,
    fun i => ⟨s, y' i, hy1 i⟩⟩

/-! ### Calls that are rejected -/

/-- **C85.** Conversely, a dimension of one, no moduli, or a variance that is not in the range is rejected by all samplers
and by the constructors of keys. -/
theorem c85_rejects (G : Gen σ) (Gp : Gen τ) (fuel : ℕ) (s : σ) (sp : τ) (logN v : ℤ) (ms : List Modulus) (hl : logN ≤ 30) :
    (logN ≤ 0 ∨ ms = [] → sampleUniform G fuel logN ms s = .err .invalidArgument ∧
      sampleTernary G fuel logN ms s = .err .invalidArgument) ∧
    (logN ≤ 0 ∨ v ≤ 0 ∨ 256 < v ∨ ms = [] → sampleErr G logN v ms s = .err .invalidArgument ∧
      RKey.sample G logN v ms s = .err .invalidArgument) ∧
    (∀ (k : RKey) z, v ≤ 0 → RPub.create Gp G fuel k v z sp s = .err .invalidArgument) := by
  have hs : logN ≤ 0 ∨ v ≤ 0 ∨ 256 < v ∨ ms = [] → sampleErr G logN v ms s = .err .invalidArgument := by
    intro h
    unfold sampleErr
    by_cases h1 : logN ≤ 0
    · rw [if_pos h1]
    rw [if_neg h1]
    by_cases h2 : v ≤ 0
    · rw [if_pos h2]
    rw [if_neg h2]
    cases ms with
    | nil => rfl
    | cons m ms =>
      have h3 : 256 < v.toNat := by
        rcases h with h | h | h | h
        · omega
        · omega
        · omega
        · cases h
      unfold shl1
      dsimp only
      rw [if_pos (by omega), Outcome.bind_ok, c38_rejects G m.p _ _ s h3]
      rfl
  refine ⟨fun h => ⟨?_, ?_⟩, fun h => ⟨hs h, ?_⟩, fun k z h => ?_⟩
  · unfold sampleUniform
    by_cases h1 : logN ≤ 0
    · rw [if_pos h1]
    · rw [if_neg h1, if_pos (by simpa using h.resolve_left h1)]
  · unfold sampleTernary
    by_cases h1 : logN ≤ 0
    · rw [if_pos h1]
    · rw [if_neg h1, h.resolve_left h1]
  · unfold RKey.sample
    split_ifs
    · rfl
    · rfl
    · rfl
    · rw [hs h]
      rfl
  · unfold RPub.create
    rw [if_pos h]

/-- A generator whose answers are zero. -/
def zeros : Gen Unit := ⟨fun _ => .ok (0, ()), fun _ => .ok (0, ())⟩

theorem zeros_generate (w : ℕ) : ∀ fuel bits rand s r, Sampler.generateLoop zeros w fuel bits rand s = .ok r → rand = 0 →
    r.1 = 0 := by
  intro fuel
  induction fuel with
  | zero =>
    intro bits rand s r h h0
    unfold Sampler.generateLoop at h
    split_ifs at h
    obtain rfl := Outcome.ok.inj h
    exact h0
  | succ fuel ih =>
    intro bits rand s r h h0
    subst h0
    unfold Sampler.generateLoop at h
    split_ifs at h
    · obtain rfl := Outcome.ok.inj h
      rfl
    · simp only [zeros, Outcome.bind_ok] at h
      obtain ⟨m, -, h⟩ := Outcome.bind_eq_ok.mp h
      obtain ⟨hi, hh, h⟩ := Outcome.bind_eq_ok.mp h
      unfold Transcription.shl at hh
      split_ifs at hh
      obtain rfl := Outcome.ok.inj hh
      obtain rfl := Outcome.ok.inj h
      simp [trunc]
    · simp only [zeros, Outcome.bind_ok] at h
      obtain ⟨m, -, h⟩ := Outcome.bind_eq_ok.mp h
      obtain ⟨hi, hh, h⟩ := Outcome.bind_eq_ok.mp h
      unfold Transcription.shl at hh
      split_ifs at hh
      obtain rfl := Outcome.ok.inj hh
      refine ih _ _ _ _ h ?_
      simp [trunc]

theorem zeros_accepts {ms : List Modulus} {w l : ℕ} (hw : w ≤ 128) (hg : ∀ m ∈ ms, GoodModulus w l m) : Accepts zeros 1 ms := by
  intro m hm s
  have g := (hg m hm).good
  have hlog : m.p.logModulus ≤ w - 2 := (Lazy.logGood_of_create (hg m hm).create hw).le
  have h3 := g.pos
  have h4 := g.lt
  have hw2 : 2 < w := by
    by_contra hc
    have h5 : 2 ^ w ≤ 2 ^ 2 := Nat.pow_le_pow_right (by norm_num) (by omega)
    omega
  obtain ⟨r, hr⟩ := generateLoop_delivers (G := zeros) (fun s => ⟨⟨_, rfl⟩, ⟨_, rfl⟩⟩) (w := m.p.w)
    (le_refl m.p.logModulus) (by rw [g.hw]; omega) 0 s
  have h0 := zeros_generate _ _ _ _ _ _ hr rfl
  unfold Sampler.importRandom Sampler.generateRandomInt
  rw [hr, Outcome.bind_ok]
  dsimp only
  rw [if_neg (by rw [h0, g.hN]; omega)]
  exact ⟨_, rfl⟩

theorem zeros_delivers : Delivers zeros := fun _ => ⟨⟨_, rfl⟩, ⟨_, rfl⟩⟩

theorem zeros_words : Words zeros where
  byte := by
    intro s v s' h
    obtain rfl := (Prod.mk.inj (Outcome.ok.inj h)).1
    decide
  word := by
    intro s v s' h
    obtain rfl := (Prod.mk.inj (Outcome.ok.inj h)).1
    decide

/-- Valid parameters in the ranges have a session. -/
theorem zeros_session (hC : C.ValidPoly) (hU : C.Usable) {m m' : ℕ → List ℕ}
    (hm : ∀ i, (m i).length ≤ 2 ^ C.l ∧ (m' i).length ≤ 2 ^ C.l) :
    ∃ k pk v, BgvPolySession zeros zeros 1 est C k pk v m m' :=
  c85_session zeros_delivers zeros_words zeros_delivers hC hU hm () () fun c hx =>
    have hg := (ctx_ok hC (.inl hx)).1.qs
    ⟨zeros_accepts hC.word hg, zeros_accepts hC.word hg⟩

/-- The same for BFV. -/
theorem zeros_session_bfv (hC : C.ValidPoly) (hU : C.UsableBfv) {m m' : ℕ → List ℕ}
    (hm : ∀ i, C.Messages (m i) ∧ C.Messages (m' i)) : ∃ k pk v, BfvPolySession zeros zeros 1 est C k pk v m m' :=
  c85_session_bfv zeros_delivers zeros_words zeros_delivers hC hU hm () () fun c hx =>
    have hg := (ctx_ok hC (.inr hx)).1.qs
    ⟨zeros_accepts hC.word hg, zeros_accepts hC.word hg⟩

theorem exPolyChoice_usable : exPolyChoice.Usable where
  qs := by decide
  t := by decide
  logN := by decide
  moduli := by decide
  variance := by decide
  powers := by decide

/-- The hypotheses of the theorems above are met. -/
example : ∃ k pk v, BgvPolySession zeros zeros 1 est exPolyChoice k pk v (fun _ => [1, 2, 3, 4]) (fun _ => [5, 6]) :=
  zeros_session exPolyChoice_valid exPolyChoice_usable fun _ => by decide

example : ∃ k pk v, BfvPolySession zeros zeros 1 est exBfvPolyChoice k pk v (fun _ => [1, 2, 3, 4]) (fun _ => [5, 6]) :=
  zeros_session_bfv exBfvPolyChoice_valid
    { qs := by decide, t := by decide, logN := by decide, moduli := by decide, variance := by decide, powers := by decide,
      odd := by decide, plain := by decide } fun _ => by unfold SchemeChoice.Messages; decide

end Shell
