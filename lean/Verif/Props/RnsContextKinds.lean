import Verif.Props.RnsContext
/-!
# C54, contexts of the four kinds

Distinct primes not dividing `t` give a usable context from every constructor.
-/

namespace Shell
open Spec Rns

/-- **C54.** `Create` with distinct primes that do not divide `t`. -/
theorem c54_create {w l : ℕ} {qs ps : List ℕ} {t : ℕ} {c : Rns.Ctx} (hqs : ∀ q ∈ qs, q.Prime)
    (hps : ∀ p ∈ ps, p.Prime) (htw : t < 2 ^ w) (h : createCtx w l qs ps t = .ok c)
    (hnd : (qs ++ ps).Nodup) (hqt : ∀ q ∈ qs ++ ps, ¬ q ∣ t) :
    GoodCtx w l c ∧ c.qs.map (·.N) = qs ∧ c.ps.map (·.N) = ps ∧ c.t = t := by
  obtain ⟨gq, eq, gp, ep, et, hr⟩ := c54_residues hqs hps htw h
  obtain ⟨_, _, _, _, _, t0, _, hl, _⟩ := createCtx_ok hqs hps h
  have hi := c54_inverses_partial hqs hps htw h hnd hqt
  refine ⟨⟨hl, gq, gp, by rw [eq, ep]; exact hnd, by omega, by omega, fun m hm => ?_, hr, hi⟩, eq, ep, et⟩
  have hp : m.N.Prime := by
    rcases List.mem_append.mp hm with h | h
    · exact (gq m h).prime
    · exact (gp m h).prime
  rw [hp.coprime_iff_not_dvd, et]
  refine hqt _ (List.mem_append.mpr ?_)
  rw [← eq, ← ep]
  exact (List.mem_append.mp hm).imp (fun h => List.mem_map_of_mem h) fun h => List.mem_map_of_mem h

/-- A context that differs only in its constants modulo `t` is as good. -/
theorem Spec.GoodCtx.of_eq {w l : ℕ} {c c' : Rns.Ctx} (hc : GoodCtx w l c) (h1 : c'.qs = c.qs) (h2 : c'.ps = c.ps)
    (h3 : c'.t = c.t) (h4 : c'.logN = c.logN) (h5 : Residues c → Residues c')
    (h6 : Inverses c → Inverses c') : GoodCtx w l c' :=
  ⟨h4.trans hc.logN, h1 ▸ hc.qs, h2 ▸ hc.ps, by rw [h1, h2]; exact hc.nodup, h3 ▸ hc.pos, h3 ▸ hc.word,
    by rw [h1, h2, h3]; exact hc.coprime, h5 hc.residues, h6 hc.inverses⟩

/-- **C54.** `CreateForBfv` with distinct primes that do not divide `t`. -/
theorem c54_createForBfv {w l : ℕ} {qs ps : List ℕ} {t : ℕ} {c : Rns.Ctx} (hqs : ∀ q ∈ qs, q.Prime)
    (hps : ∀ p ∈ ps, p.Prime) (htw : t < 2 ^ w) (h : createForBfv w l qs ps t = .ok c)
    (hnd : (qs ++ ps).Nodup) (hqt : ∀ q ∈ qs ++ ps, ¬ q ∣ t) :
    GoodCtx w l c ∧ c.qs.map (·.N) = qs ∧ c.ps.map (·.N) = ps ∧ c.t = t ∧
      ∃ mt, MParams.create w mt.N = .ok mt.p ∧ mt.N = t ∧ BfvConstants c mt := by
  obtain ⟨c₀, mt, h0, hmt, hN, hb, e1, e2, e3, e4, e5, e6⟩ := c54_bfv h
  obtain ⟨g, a, b, d⟩ := c54_create hqs hps htw h0 hnd hqt
  exact ⟨g.of_eq e1 e2 e3 e4 e5 e6, by rw [e1, a], by rw [e2, b], by rw [e3, d],
    mt, by rw [hN]; exact hmt, hN, hb⟩

theorem finiteFieldConstants_ok {w l : ℕ} {c c' : Rns.Ctx} (hc : GoodCtx w l c) (ht : c.t.Prime)
    (h : finiteFieldConstants w c = .ok c') :
    GoodCtx w l c' ∧ c'.qs = c.qs ∧ c'.ps = c.ps ∧ c'.t = c.t ∧
      ∃ mt, GoodModulus w l mt ∧ mt.N = c.t ∧ c'.modT = some mt := by
  unfold finiteFieldConstants at h
  obtain ⟨m, h1, h⟩ := Outcome.bind_eq_ok.mp h
  have := Outcome.ok.inj h
  subst this
  rw [hc.logN] at h1
  obtain ⟨a, b⟩ := makeModulus_ok ht h1
  refine ⟨hc.of_eq rfl rfl rfl rfl ?_ ?_, rfl, rfl, rfl, m, a, b, rfl⟩
  · rintro ⟨_, _, _, _, _, _, _, _, _⟩
    constructor <;> assumption
  · rintro ⟨_, _, _, _, _, _, _⟩
    constructor <;> assumption

/-- **C54.** `CreateForBgvFiniteFieldEncoding` with distinct primes and a prime `t`. -/
theorem c54_createForBgvFF {w l : ℕ} {qs ps : List ℕ} {t : ℕ} {c : Rns.Ctx} (hqs : ∀ q ∈ qs, q.Prime)
    (hps : ∀ p ∈ ps, p.Prime) (htw : t < 2 ^ w) (ht : t.Prime)
    (h : createForBgvFiniteField w l qs ps t = .ok c)
    (hnd : (qs ++ ps).Nodup) (hqt : ∀ q ∈ qs ++ ps, ¬ q ∣ t) :
    GoodCtx w l c ∧ c.qs.map (·.N) = qs ∧ c.ps.map (·.N) = ps ∧ c.t = t ∧
      ∃ mt, GoodModulus w l mt ∧ mt.N = t ∧ c.modT = some mt := by
  unfold createForBgvFiniteField at h
  obtain ⟨_, h⟩ | ⟨_, h⟩ := ite_eq_iff.mp h
  · cases h
  obtain ⟨c₀, h0, h⟩ := Outcome.bind_eq_ok.mp h
  obtain ⟨g, a, b, d⟩ := c54_create hqs hps htw h0 hnd hqt
  obtain ⟨g', e1, e2, e3, mt, m1, m2, m3⟩ := finiteFieldConstants_ok g (by rw [d]; exact ht) h
  exact ⟨g', by rw [e1, a], by rw [e2, b], by rw [e3, d], mt, m1, by rw [m2, d], m3⟩

/-- **C54.** `CreateForBfvFiniteFieldEncoding` with distinct primes and a prime `t`. -/
theorem c54_createForBfvFF {w l : ℕ} {qs ps : List ℕ} {t : ℕ} {c : Rns.Ctx} (hqs : ∀ q ∈ qs, q.Prime)
    (hps : ∀ p ∈ ps, p.Prime) (htw : t < 2 ^ w) (ht : t.Prime)
    (h : createForBfvFiniteField w l qs ps t = .ok c)
    (hnd : (qs ++ ps).Nodup) (hqt : ∀ q ∈ qs ++ ps, ¬ q ∣ t) :
    GoodCtx w l c ∧ c.qs.map (·.N) = qs ∧ c.ps.map (·.N) = ps ∧ c.t = t ∧
      ∃ mt, GoodModulus w l mt ∧ mt.N = t ∧ BfvConstants c mt := by
  unfold createForBfvFiniteField at h
  obtain ⟨_, h⟩ | ⟨_, h⟩ := ite_eq_iff.mp h
  · cases h
  obtain ⟨c₀, h0, h⟩ := Outcome.bind_eq_ok.mp h
  obtain ⟨c₁, h1, h⟩ := Outcome.bind_eq_ok.mp h
  obtain ⟨g, a, b, d⟩ := c54_create hqs hps htw h0 hnd hqt
  obtain ⟨g', e1, e2, e3, mt, m1, m2, m3⟩ := finiteFieldConstants_ok g (by rw [d]; exact ht) h1
  obtain ⟨b1, f1, f2, f3, f4, f5, f6⟩ := bfvConstants_ok m1.good (by rw [e3, m2]) m3 h
  exact ⟨g'.of_eq f1 f2 f3 f4 f5 f6, by rw [f1, e1, a], by rw [f2, e2, b], by rw [f3, e3, d],
    mt, m1, by rw [m2, d], b1⟩

/-- **C54.** The BFV constructor succeeds when the BGV one does. -/
theorem c54_createForBfvFF_total {w l : ℕ} {qs ps : List ℕ} {t : ℕ} {c : Rns.Ctx} (hqs : ∀ q ∈ qs, q.Prime)
    (hps : ∀ p ∈ ps, p.Prime) (htw : t < 2 ^ w) (ht : t.Prime)
    (h : createForBgvFiniteField w l qs ps t = .ok c)
    (hnd : (qs ++ ps).Nodup) (hqt : ∀ q ∈ qs ++ ps, ¬ q ∣ t) :
    ∃ c', createForBfvFiniteField w l qs ps t = .ok c' := by
  obtain ⟨hc, _, _, hct, mt, hm, hN, hmt⟩ := c54_createForBgvFF hqs hps htw ht h hnd hqt
  unfold createForBgvFiniteField at h
  obtain ⟨_, h⟩ | ⟨h2, h⟩ := ite_eq_iff.mp h
  · cases h
  obtain ⟨c₀, h0, h⟩ := Outcome.bind_eq_ok.mp h
  unfold createForBfvFiniteField bfvConstants
  rw [if_neg h2, h0, Outcome.bind_ok, h, Outcome.bind_ok, hmt]
  dsimp only
  obtain ⟨r, hr⟩ := (bfvLoop_total hm.good c.qs (Mont.importOne mt.p)).1 fun m h4 => by
    rw [hN, ← hct]; exact hc.coprime m (List.mem_append_left _ h4)
  rw [hct, ← hN, hr]
  exact ⟨_, rfl⟩

/-- The finite field constructors reject an even plaintext modulus. -/
theorem c54_rejects_even (w : ℕ) (logN : ℤ) (qs ps : List ℕ) (t : ℕ) (h : t % 2 = 0) :
    createForBgvFiniteField w logN qs ps t = .err .invalidArgument ∧
    createForBfvFiniteField w logN qs ps t = .err .invalidArgument :=
  ⟨if_pos h, if_pos h⟩

/-- `97` and `193`, auxiliary `113` and `241`, and `t = 17` with transforms of length 4. -/
theorem exampleGoodCtxFF : ∃ c mt, createForBgvFiniteField 16 2 [97, 193] [113, 241] 17 = .ok c ∧
    GoodCtx 16 2 c ∧ c.qs.map (·.N) = [97, 193] ∧ c.t = 17 ∧ GoodModulus 16 2 mt ∧ mt.N = 17 ∧
    c.modT = some mt := by
  have : (match createForBgvFiniteField 16 2 [97, 193] [113, 241] 17 with
      | .ok _ => true | _ => false) = true := by decide +kernel
  cases h : createForBgvFiniteField 16 2 [97, 193] [113, 241] 17 with
  | err e => rw [h] at this; cases this
  | ub e => rw [h] at this; cases this
  | ok c =>
    obtain ⟨g, e, _, et, mt, m1, m2, m3⟩ := c54_createForBgvFF (l := 2) (by norm_num) (by norm_num) (by norm_num)
      (by norm_num) h (by decide) (by norm_num)
    exact ⟨c, mt, rfl, g, e, et, m1, m2, m3⟩

/-- What `Create` asks of one prime `q` for words of `w` bits and dimension `2^logN`: odd, two free bits in the
word, and a root of unity of order `2^(logN+1)`. -/
def UsablePrime (w : ℕ) (logN : ℤ) (q : ℕ) : Prop :=
  q % 2 = 1 ∧ q < 2 ^ (w - 2) ∧ 1 ≤ logN ∧ logN ≤ 15 ∧ logN + 1 < w ∧ q % 2 ^ (logN.toNat + 1) = 1

theorem makeModulus_iff {w q : ℕ} {logN : ℤ} (hq : q.Prime) :
    ((∃ m, makeModulus w logN q = .ok m) ↔ UsablePrime w logN q) ∧
    ((¬ ∃ m, makeModulus w logN q = .ok m) → makeModulus w logN q = .err .invalidArgument) := by
  obtain ⟨a1, a2, -⟩ := c02_create w q
  unfold makeModulus
  by_cases hc : ∃ p, MParams.create w q = .ok p
  · obtain ⟨p, hp⟩ := hc
    obtain ⟨b1, b2⟩ := c13_init_succeeds_iff hp hq logN
    obtain ⟨c1, c2⟩ := a1.mp ⟨p, hp⟩
    rw [hp, Outcome.bind_ok]
    by_cases hn : ∃ n, Ntt.initNtt p logN = .ok n
    · obtain ⟨n, hn'⟩ := hn
      rw [hn', Outcome.bind_ok]
      exact ⟨⟨fun _ => ⟨c1, c2, b1.mp ⟨n, hn'⟩⟩, fun _ => ⟨_, rfl⟩⟩, fun h => absurd ⟨_, rfl⟩ h⟩
    · rw [b2 hn, Outcome.bind_err]
      exact ⟨⟨fun ⟨_, h⟩ => (nomatch h), fun h => absurd (b1.mpr h.2.2) hn⟩, fun _ => rfl⟩
  · rw [a2 hc, Outcome.bind_err]
    exact ⟨⟨fun ⟨_, h⟩ => (nomatch h), fun h => absurd (a1.mpr ⟨h.1, h.2.1⟩) hc⟩, fun _ => rfl⟩

theorem mapM_makeModulus_iff {w : ℕ} {logN : ℤ} : ∀ {qs : List ℕ}, (∀ q ∈ qs, q.Prime) →
    ((∃ ms, qs.mapM (makeModulus w logN) = .ok ms) ↔ ∀ q ∈ qs, UsablePrime w logN q) ∧
    ((¬ ∃ ms, qs.mapM (makeModulus w logN) = .ok ms) →
      qs.mapM (makeModulus w logN) = .err .invalidArgument)
  | [], _ => ⟨⟨fun _ _ h => (nomatch h), fun _ => ⟨[], rfl⟩⟩, fun h => absurd ⟨[], rfl⟩ h⟩
  | q :: qs, hq => by
    obtain ⟨a1, a2⟩ := makeModulus_iff (w := w) (logN := logN) (hq q List.mem_cons_self)
    obtain ⟨b1, b2⟩ := mapM_makeModulus_iff (w := w) (logN := logN) (qs := qs)
      fun r hr => hq r (List.mem_cons_of_mem _ hr)
    rw [List.mapM_cons, List.forall_mem_cons]
    by_cases h1 : ∃ m, makeModulus w logN q = .ok m
    · obtain ⟨m, hm⟩ := h1
      rw [hm, Outcome.bind_ok]
      by_cases h2 : ∃ ms, qs.mapM (makeModulus w logN) = .ok ms
      · obtain ⟨ms, hms⟩ := h2
        rw [hms, Outcome.bind_ok]
        exact ⟨⟨fun _ => ⟨a1.mp ⟨m, hm⟩, b1.mp ⟨ms, hms⟩⟩, fun _ => ⟨_, rfl⟩⟩, fun h => absurd ⟨_, rfl⟩ h⟩
      · rw [b2 h2, Outcome.bind_err]
        exact ⟨⟨fun ⟨_, h⟩ => (nomatch h), fun h => absurd (b1.mpr h.2) h2⟩, fun _ => rfl⟩
    · rw [a2 h1, Outcome.bind_err]
      exact ⟨⟨fun ⟨_, h⟩ => (nomatch h), fun h => absurd (a1.mpr h.1) h1⟩, fun _ => rfl⟩

/-- **C54.** `Create` accepts exactly: a positive `log_n`, a positive plaintext modulus, and main and auxiliary
primes that are all usable; anything else is an invalid argument. -/
theorem c54_create_iff {w : ℕ} {logN : ℤ} {qs ps : List ℕ} {t : ℕ} (hqs : ∀ q ∈ qs, q.Prime)
    (hps : ∀ p ∈ ps, p.Prime) :
    ((∃ c, createCtx w logN qs ps t = .ok c) ↔
      0 < logN ∧ 0 < t ∧ ∀ q ∈ qs ++ ps, UsablePrime w logN q) ∧
    ((¬ ∃ c, createCtx w logN qs ps t = .ok c) → createCtx w logN qs ps t = .err .invalidArgument) := by
  obtain ⟨a1, a2⟩ := mapM_makeModulus_iff (w := w) (logN := logN) hqs
  obtain ⟨b1, b2⟩ := mapM_makeModulus_iff (w := w) (logN := logN) hps
  rw [List.forall_mem_append]
  unfold createCtx
  by_cases h1 : logN ≤ 0
  · rw [if_pos h1]
    exact ⟨⟨fun ⟨_, h⟩ => (nomatch h), fun h => by omega⟩, fun _ => rfl⟩
  by_cases h2 : t = 0
  · rw [if_neg h1, if_pos h2]
    exact ⟨⟨fun ⟨_, h⟩ => (nomatch h), fun h => by omega⟩, fun _ => rfl⟩
  rw [if_neg h1, if_neg h2]
  by_cases h3 : ∃ ms, qs.mapM (makeModulus w logN) = .ok ms
  · obtain ⟨ms, hms⟩ := h3
    rw [hms, Outcome.bind_ok]
    by_cases h4 : ∃ ms, ps.mapM (makeModulus w logN) = .ok ms
    · obtain ⟨ms', hms'⟩ := h4
      rw [hms', Outcome.bind_ok]
      exact ⟨⟨fun _ => ⟨by omega, by omega, a1.mp ⟨ms, hms⟩, b1.mp ⟨ms', hms'⟩⟩, fun _ => ⟨_, rfl⟩⟩,
        fun h => absurd ⟨_, rfl⟩ h⟩
    · rw [b2 h4, Outcome.bind_err]
      exact ⟨⟨fun ⟨_, h⟩ => (nomatch h), fun h => absurd (b1.mpr h.2.2.2) h4⟩, fun _ => rfl⟩
  · rw [a2 h3, Outcome.bind_err]
    exact ⟨⟨fun ⟨_, h⟩ => (nomatch h), fun h => absurd (a1.mpr h.2.2.1) h3⟩, fun _ => rfl⟩

/-- **C54.** `CreateForBgvFiniteFieldEncoding` accepts exactly what `Create` accepts when in addition the prime
plaintext modulus is usable itself; anything else is an invalid argument. -/
theorem c54_createForBgvFF_iff {w : ℕ} {logN : ℤ} {qs ps : List ℕ} {t : ℕ} (hqs : ∀ q ∈ qs, q.Prime)
    (hps : ∀ p ∈ ps, p.Prime) (ht : t.Prime) :
    ((∃ c, createForBgvFiniteField w logN qs ps t = .ok c) ↔
      UsablePrime w logN t ∧ ∀ q ∈ qs ++ ps, UsablePrime w logN q) ∧
    ((¬ ∃ c, createForBgvFiniteField w logN qs ps t = .ok c) →
      createForBgvFiniteField w logN qs ps t = .err .invalidArgument) := by
  obtain ⟨a1, a2⟩ := c54_create_iff (w := w) (logN := logN) (t := t) hqs hps
  obtain ⟨b1, b2⟩ := makeModulus_iff (w := w) (logN := logN) ht
  unfold createForBgvFiniteField
  by_cases h1 : t % 2 = 0
  · rw [if_pos h1]
    refine ⟨⟨fun ⟨_, h⟩ => (nomatch h), fun h => ?_⟩, fun _ => rfl⟩
    have := h.1.1
    omega
  rw [if_neg h1]
  by_cases h2 : ∃ c, createCtx w logN qs ps t = .ok c
  · obtain ⟨c, hc⟩ := h2
    have hl : c.logN = logN ∧ c.t = t := by
      unfold createCtx at hc
      obtain ⟨_, hc⟩ | ⟨_, hc⟩ := ite_eq_iff.mp hc
      · cases hc
      obtain ⟨_, hc⟩ | ⟨_, hc⟩ := ite_eq_iff.mp hc
      · cases hc
      obtain ⟨_, _, hc⟩ := Outcome.bind_eq_ok.mp hc
      obtain ⟨_, _, hc⟩ := Outcome.bind_eq_ok.mp hc
      cases hc
      exact ⟨rfl, rfl⟩
    rw [hc, Outcome.bind_ok]
    unfold finiteFieldConstants
    rw [hl.1, hl.2]
    by_cases h3 : ∃ m, makeModulus w logN t = .ok m
    · obtain ⟨m, hm⟩ := h3
      rw [hm, Outcome.bind_ok]
      exact ⟨⟨fun _ => ⟨b1.mp ⟨m, hm⟩, (a1.mp ⟨c, hc⟩).2.2⟩, fun _ => ⟨_, rfl⟩⟩, fun h => absurd ⟨_, rfl⟩ h⟩
    · rw [b2 h3, Outcome.bind_err]
      exact ⟨⟨fun ⟨_, h⟩ => (nomatch h), fun h => absurd (b1.mpr h.1) h3⟩, fun _ => rfl⟩
  · rw [a2 h2, Outcome.bind_err]
    refine ⟨⟨fun ⟨_, h⟩ => (nomatch h), fun h => absurd (a1.mpr ⟨?_, ht.pos, h.2⟩) h2⟩, fun _ => rfl⟩
    have := h.1.2.2.1
    omega

/-- The conditions are met by two primes at dimension four. -/
example : ∃ c, createForBgvFiniteField 16 2 [97, 193] [257] 17 = .ok c :=
  ((c54_createForBgvFF_iff (by norm_num) (by norm_num) (by norm_num)).1).mpr (by
    simp only [UsablePrime]; decide)

/-- At dimension sixteen the plaintext modulus 17 has no root of unity. -/
example : createForBgvFiniteField 16 4 [97, 193] [257] 17 = .err .invalidArgument :=
  ((c54_createForBgvFF_iff (by norm_num) (by norm_num) (by norm_num)).2) (by
    rw [(c54_createForBgvFF_iff (by norm_num) (by norm_num) (by norm_num)).1]
    simp only [UsablePrime]; decide)

end Shell
