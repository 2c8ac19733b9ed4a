import Verif.Lemmas.RnsContext
import Verif.Props.RnsPolynomial
/-!
# C54: the constants of an `RnsContext`

A user of the library passes the constants of a context to the operations on RNS polynomials.  Those that
are residues are right for every context; those that are inverses are right when the primes are distinct
and none divides the plaintext modulus.  `Create` checks neither (`c54_duplicates`).
-/

namespace Shell
open Spec Rns

/-- What a successful `Create` did. -/
theorem createCtx_ok {w l : ℕ} {qs ps : List ℕ} {t : ℕ} {c : Rns.Ctx} (hqs : ∀ q ∈ qs, q.Prime)
    (hps : ∀ p ∈ ps, p.Prime) (h : createCtx w l qs ps t = .ok c) :
    (∀ m ∈ c.qs, GoodModulus w l m) ∧ c.qs.map (·.N) = qs ∧
    (∀ m ∈ c.ps, GoodModulus w l m) ∧ c.ps.map (·.N) = ps ∧ c.t = t ∧ 0 < t ∧ 0 < l ∧ c.logN = l ∧
    c.primeQs = primeQs c.qs ∧ c.primeQInvs = primeQInvs c.qs ∧
    c.primeQInvModPs = primeQInvModPs c.qs c.ps ∧ c.leveledQModPs = leveledQModPs c.qs c.ps ∧
    c.primePHatInvs = primePHatInvs c.ps ∧ c.primePHatModQs = primePHatModQs c.qs c.ps ∧
    c.pModQs = pModQs c.qs c.ps ∧ c.pInvModQs = pInvModQs c.qs c.ps ∧
    c.qModT = prodModT w t c.qs ∧ c.pModT = prodModT w t c.ps ∧
    c.tModQs = (c.qs.map fun m => Mont.importInt m.p t) ∧
    c.tInvModQs = (c.qs.map fun m => Mont.multiplicativeInverse m.p (Mont.importInt m.p t)) ∧
    c.tInvModPs = (c.ps.map fun m => Mont.multiplicativeInverse m.p (Mont.importInt m.p t)) ∧
    c.modT = none := by
  unfold createCtx at h
  obtain ⟨_, h⟩ | ⟨hl, h⟩ := ite_eq_iff.mp h
  · cases h
  obtain ⟨_, h⟩ | ⟨ht, h⟩ := ite_eq_iff.mp h
  · cases h
  obtain ⟨ms, h1, h⟩ := Outcome.bind_eq_ok.mp h
  obtain ⟨aux, h2, h⟩ := Outcome.bind_eq_ok.mp h
  have := Outcome.ok.inj h
  subst this
  obtain ⟨a1, a2⟩ := mapM_makeModulus hqs h1
  obtain ⟨b1, b2⟩ := mapM_makeModulus hps h2
  exact ⟨a1, a2, b1, b2, rfl, by omega, by omega, rfl, rfl, rfl, rfl, rfl, rfl, rfl, rfl, rfl, rfl, rfl,
    rfl, rfl, rfl, rfl⟩

/-- **C54.** Whatever primes it was created with, the moduli of a context are those primes with parameters
that the RNS operations can use, and the constants that are residues are right. -/
theorem c54_residues {w l : ℕ} {qs ps : List ℕ} {t : ℕ} {c : Rns.Ctx} (hqs : ∀ q ∈ qs, q.Prime)
    (hps : ∀ p ∈ ps, p.Prime) (htw : t < 2 ^ w) (h : createCtx w l qs ps t = .ok c) :
    (∀ m ∈ c.qs, GoodModulus w l m) ∧ c.qs.map (·.N) = qs ∧
    (∀ m ∈ c.ps, GoodModulus w l m) ∧ c.ps.map (·.N) = ps ∧ c.t = t ∧ Residues c := by
  obtain ⟨gq, eq, gp, ep, et, _, _, _, e1, e2, e3, e4, e5, e6, e7, e8, e9, e10, e11, e12, e13, _⟩ :=
    createCtx_ok hqs hps h
  refine ⟨gq, eq, gp, ep, et, ⟨?_, fun level hl => ?_, fun level hl => ?_, fun level hl => ?_, ?_, ?_, ?_,
    fun ht => ?_, fun ht => ?_⟩⟩
  · rw [e1]; exact primeQs_ok gq
  · unfold Ctx.complements; rw [e1]; exact complements_ok gq hl
  · unfold Ctx.complementResidues
    rw [if_neg (by omega)]
    exact ⟨_, rfl, complementResidues_ok gq gp hl⟩
  · obtain ⟨a, a1, a2⟩ := leveled_ok gq gp level hl
    unfold Ctx.leveledAuxResidues
    rw [if_neg (by omega), e4]
    exact ⟨a, rd_some (by simpa using a1), a2⟩
  · rw [e6]; exact hatResidues_ok gq gp
  · rw [e7]; exact pModQs_ok gq gp
  · rw [e11]
    refine forall₂_map _ _ fun m hm => ?_
    obtain ⟨h1, h2⟩ := import_spec (gq m hm).good htw
    exact ⟨h1, export_of_res (gq m hm).good h1 (by rw [h2, et, Int.cast_natCast])⟩
  · rw [et] at ht ⊢
    rw [e9, prodModT_ok ht htw (fun m hm => lt_word (gq m hm).good) (by omega)]
  · rw [et] at ht ⊢
    rw [e10, prodModT_ok ht htw (fun m hm => lt_word (gp m hm).good) (by omega)]

/-- **C54 (partial).** If moreover the primes, main and auxiliary together, are distinct and none of them
divides the plaintext modulus, the constants that are inverses are right.  Missing: contexts with repeated
primes or a prime dividing `t`, which `Create` accepts and for which it is false (`c54_duplicates`). -/
theorem c54_inverses_partial {w l : ℕ} {qs ps : List ℕ} {t : ℕ} {c : Rns.Ctx} (hqs : ∀ q ∈ qs, q.Prime)
    (hps : ∀ p ∈ ps, p.Prime) (htw : t < 2 ^ w) (h : createCtx w l qs ps t = .ok c)
    (hnd : (qs ++ ps).Nodup) (hqt : ∀ q ∈ qs ++ ps, ¬ q ∣ t) : Inverses c := by
  obtain ⟨gq, eq, gp, ep, et, _, _, _, e1, e2, e3, e4, e5, e6, e7, e8, e9, e10, e11, e12, e13, _⟩ :=
    createCtx_ok hqs hps h
  obtain ⟨n1, n2, n3⟩ := List.nodup_append.mp hnd
  have hnq : (c.qs.map (·.N)).Nodup := by rw [eq]; exact n1
  have hnp : (c.ps.map (·.N)).Nodup := by rw [ep]; exact n2
  have mq : ∀ m ∈ c.qs, m.N ∈ qs := fun m hm => by rw [← eq]; exact List.mem_map_of_mem hm
  have mp : ∀ m ∈ c.ps, m.N ∈ ps := fun m hm => by rw [← ep]; exact List.mem_map_of_mem hm
  have hc : ∀ q ∈ c.qs, ∀ p ∈ c.ps, Nat.Coprime q.N p.N := fun q hq p hp =>
    (Nat.coprime_primes (gq q hq).prime (gp p hp).prime).mpr (n3 _ (mq q hq) _ (mp p hp))
  have inv : ∀ ms : List Modulus, (∀ m ∈ ms, GoodModulus w l m) → (∀ m ∈ ms, m.N ∈ qs ++ ps) →
      InverseIs ms (ms.map fun m => Mont.multiplicativeInverse m.p (Mont.importInt m.p t)) t := by
    intro ms gm hm
    refine forall₂_map _ _ fun m hm' => ?_
    obtain ⟨h1, h2⟩ := inv_spec (gm m hm').good (gm m hm').prime htw
      (((gm m hm').prime.coprime_iff_not_dvd.mpr (hqt _ (hm m hm'))).symm)
    exact ⟨h1, inverse_of_res (gm m hm').good h1 (by rw [Int.cast_natCast]; exact h2)⟩
  refine ⟨fun level m hm => ?_, ?_, fun level hl => ?_, ?_, ?_, ?_, ?_⟩
  · rw [e2]; exact primeQInvs_ok hnq gq hm
  · rw [e3]; exact invRows_ok gq gp hc
  · unfold Ctx.crtFactors; rw [e2]; exact crtFactors_ok hnq gq hl
  · rw [e5]; exact primePHatInvs_ok hnp gp
  · rw [e8]; exact pInvModQs_ok gq gp hc
  · rw [e12, et]; exact inv _ gq fun m hm => List.mem_append_left _ (mq m hm)
  · rw [e13, et]; exact inv _ gp fun m hm => List.mem_append_right _ (mp m hm)

/-- The BFV constants of a context to which they were added. -/
theorem bfvConstants_ok {w : ℕ} {c c' : Rns.Ctx} {mt : Modulus} (g : Good mt.p w mt.N) (ht : c.t = mt.N)
    (hm : c.modT = some mt) (h : bfvConstants c = .ok c') :
    BfvConstants c' mt ∧ c'.qs = c.qs ∧ c'.ps = c.ps ∧ c'.t = c.t ∧ c'.logN = c.logN ∧
      (Residues c → Residues c') ∧ (Inverses c → Inverses c') := by
  unfold bfvConstants at h
  rw [hm] at h
  obtain ⟨r, hr, h⟩ := Outcome.bind_eq_ok.mp h
  have := Outcome.ok.inj h
  subst this
  rw [ht] at hr
  obtain ⟨a, b, d⟩ := bfvLoop_ok g c.qs (Mont.importOne mt.p) 1 r (importOne_lt g).le
    (by rw [res_one g]; simp) hr
  refine ⟨⟨rfl, ?_, ?_, fun level hl => ?_⟩, rfl, rfl, rfl, rfl, ?_, ?_⟩
  · exact a.imp fun m x hx => ⟨hx.1, export_of_res g hx.1 (by rw [hx.2, Int.cast_natCast])⟩
  · exact b.imp fun m x hx => ⟨hx.1, inverse_of_res g hx.1 (by rw [Int.cast_natCast]; exact hx.2)⟩
  · obtain ⟨x, x1, x2, x3⟩ := d level hl
    exact ⟨x, x1, x2, inverse_of_res g x2 (by rw [Int.cast_natCast]; rw [one_mul] at x3; exact x3)⟩
  · rintro ⟨_, _, _, _, _, _, _, _, _⟩
    constructor <;> assumption
  · rintro ⟨_, _, _, _, _, _, _⟩
    constructor <;> assumption

/-- **C54.** A context created for BFV has the moduli and constants of one created by `Create`, and its
constants modulo `t` are right, whatever the primes. -/
theorem c54_bfv {w l : ℕ} {qs ps : List ℕ} {t : ℕ} {c : Rns.Ctx} (h : createForBfv w l qs ps t = .ok c) :
    ∃ c₀ mt, createCtx w l qs ps t = .ok c₀ ∧ MParams.create w t = .ok mt.p ∧ mt.N = t ∧
      BfvConstants c mt ∧ c.qs = c₀.qs ∧ c.ps = c₀.ps ∧ c.t = c₀.t ∧ c.logN = c₀.logN ∧
      (Residues c₀ → Residues c) ∧ (Inverses c₀ → Inverses c) := by
  unfold createForBfv at h
  obtain ⟨c₀, h1, h⟩ := Outcome.bind_eq_ok.mp h
  obtain ⟨p, h2, h⟩ := Outcome.bind_eq_ok.mp h
  have g := good_of_create h2
  have ht : c₀.t = t := by
    unfold createCtx at h1
    obtain ⟨_, h1⟩ | ⟨_, h1⟩ := ite_eq_iff.mp h1
    · cases h1
    obtain ⟨_, h1⟩ | ⟨_, h1⟩ := ite_eq_iff.mp h1
    · cases h1
    obtain ⟨_, _, h1⟩ := Outcome.bind_eq_ok.mp h1
    obtain ⟨_, _, h1⟩ := Outcome.bind_eq_ok.mp h1
    have := Outcome.ok.inj h1
    subst this
    rfl
  have hN : p.modulus = t := g.hN
  obtain ⟨b1, b2, b3, b4, b4', b5, b6⟩ := bfvConstants_ok (w := w) (mt := ⟨p, noNtt⟩)
    (by show Good p w p.modulus; rw [hN]; exact g)
    (by show c₀.t = p.modulus; rw [ht, hN]) rfl h
  refine ⟨c₀, ⟨p, noNtt⟩, h1, h2, hN, b1, b2, b3, b4, b4', fun hr => b5 ?_, fun hr => b6 ?_⟩
  · obtain ⟨_, _, _, _, _, _, _, _, _⟩ := hr
    constructor <;> assumption
  · obtain ⟨_, _, _, _, _, _, _⟩ := hr
    constructor <;> assumption

/-- **C54.** A level outside the chain of main moduli is rejected, as are a non-positive `log_n` and a zero
plaintext modulus. -/
theorem c54_rejects (c : Rns.Ctx) (level : ℤ) (h : level < 0 ∨ level ≥ c.qs.length) :
    c.complements level = .err .invalidArgument ∧ c.crtFactors level = .err .invalidArgument ∧
    c.complementResidues level = .err .invalidArgument ∧
    c.leveledAuxResidues level = .err .invalidArgument := by
  refine ⟨if_pos h, if_pos h, if_pos h, if_pos h⟩

theorem c54_rejects_create (w : ℕ) (logN : ℤ) (qs ps : List ℕ) (t : ℕ) (h : logN ≤ 0 ∨ t = 0) :
    createCtx w logN qs ps t = .err .invalidArgument := by
  unfold createCtx
  by_cases hl : logN ≤ 0
  · rw [if_pos hl]
  · rw [if_neg hl, if_pos (by omega)]

/-- **C54.** `CreateForBfv` accepts a plaintext modulus exactly when it is coprime to every main prime (and
Montgomery parameters exist for it). -/
theorem c54_bfv_total {w l : ℕ} {qs ps : List ℕ} {t : ℕ} {c₀ : Rns.Ctx} {p : MParams}
    (hqs : ∀ q ∈ qs, q.Prime) (hps : ∀ q ∈ ps, q.Prime)
    (h : createCtx w l qs ps t = .ok c₀) (hp : MParams.create w t = .ok p) :
    ((∀ q ∈ qs, Nat.Coprime q t) → ∃ c, createForBfv w l qs ps t = .ok c) ∧
    ((∃ q ∈ qs, ¬ Nat.Coprime q t) → createForBfv w l qs ps t = .err .invalidArgument) := by
  obtain ⟨_, eq, _, _, et, _⟩ := createCtx_ok hqs hps h
  have g := good_of_create hp
  have hN : (⟨p, noNtt⟩ : Modulus).N = t := g.hN
  have key := bfvLoop_total (w := w) (mt := ⟨p, noNtt⟩) (by rw [hN]; exact g) c₀.qs (Mont.importOne p)
  rw [hN] at key
  have hm : ∀ m ∈ c₀.qs, m.N ∈ qs := fun m hm => by rw [← eq]; exact List.mem_map_of_mem hm
  unfold createForBfv bfvConstants
  rw [h, Outcome.bind_ok, hp, Outcome.bind_ok]
  dsimp only
  rw [et]
  refine ⟨fun hc => ?_, fun ⟨q, hq, hc⟩ => ?_⟩
  · obtain ⟨r, hr⟩ := key.1 fun m hm' => hc _ (hm m hm')
    exact ⟨_, by rw [hr]; rfl⟩
  · rw [← eq] at hq
    obtain ⟨m, hm1, hm2⟩ := List.mem_map.mp hq
    rw [key.2 ⟨m, hm1, by rw [hm2]; exact hc⟩]
    rfl

/-- The example context exists. -/
theorem exampleCtx : ∃ c : Rns.Ctx, createCtx 16 2 [97, 193] [113, 241] 5 = .ok c := by
  have : (match createCtx 16 2 [97, 193] [113, 241] 5 with | .ok _ => true | _ => false) = true := by
    decide +kernel
  cases h : createCtx 16 2 [97, 193] [113, 241] 5 with
  | ok c => exact ⟨c, rfl⟩
  | err e => rw [h] at this; cases this
  | ub e => rw [h] at this; cases this

/-- The hypotheses are met: a context with two main and two auxiliary primes, for BFV too. -/
example : ∃ c c' : Rns.Ctx, createCtx 16 2 [97, 193] [113, 241] 5 = .ok c ∧
    createForBfv 16 2 [97, 193] [113, 241] 5 = .ok c' ∧ Residues c' ∧ Inverses c' ∧ c.qs.length = 2 ∧
    modulusProd (c.qs.take 2) = 18721 := by
  obtain ⟨c, hc⟩ := exampleCtx
  have hq : ∀ q ∈ [97, 193], q.Prime := by norm_num
  have hp : ∀ q ∈ [113, 241], q.Prime := by norm_num
  obtain ⟨c', hc'⟩ := (c54_bfv_total hq hp hc (p := MParams.make 16 5) (by decide +kernel)).1 (by decide)
  obtain ⟨c₀, mt, h1, _, _, _, _, _, _, _, h2, h3⟩ := c54_bfv hc'
  have hcc := Outcome.ok.inj (hc.symm.trans h1)
  subst hcc
  obtain ⟨_, a1, _, _, _, a2⟩ := c54_residues hq hp (by norm_num) hc
  refine ⟨c, c', hc, hc', h2 a2, h3 (c54_inverses_partial hq hp (by norm_num) hc (by decide) (by decide)),
    ?_, ?_⟩
  · rw [← List.length_map (f := fun m : Modulus => m.N), a1]; rfl
  · unfold modulusProd
    rw [List.map_take, a1]; rfl

/-- **C54, violation.** `Create` accepts a repeated prime, and a prime that divides the plaintext modulus; the
constants documented as `q_1^-1 mod q_0` and `t^-1 mod q_0` then are no inverses. -/
theorem c54_duplicates :
    (∃ c : Rns.Ctx, createCtx 16 2 [97, 97] [] 5 = .ok c ∧ ¬ Inverses c) ∧
    ∃ c : Rns.Ctx, createCtx 16 2 [97, 193] [] 194 = .ok c ∧ ¬ Inverses c := by
  refine ⟨?_, ?_⟩
  · have : (match createCtx 16 2 [97, 97] [] 5 with | .ok _ => true | _ => false) = true := by
      decide +kernel
    cases h : createCtx 16 2 [97, 97] [] 5 with
    | err e => rw [h] at this; cases this
    | ub e => rw [h] at this; cases this
    | ok c =>
      obtain ⟨_, e, _⟩ := createCtx_ok (l := 2) (by norm_num) (by norm_num) h
      refine ⟨c, rfl, fun hi => ?_⟩
      obtain ⟨a, as, hc, ha, e⟩ := List.map_eq_cons_iff.mp e
      obtain ⟨b, bs, hc', hb, e⟩ := List.map_eq_cons_iff.mp e
      subst hc'
      obtain ⟨row, _, hr⟩ := hi.primeQInvs 1 b (by rw [hc]; rfl)
      rw [hc] at hr
      generalize row.take 1 = r at hr
      cases hr with
      | cons hd _ =>
        obtain ⟨-, hd⟩ := hd
        rw [ha, hb] at hd
        omega
  · have : (match createCtx 16 2 [97, 193] [] 194 with | .ok _ => true | _ => false) = true := by
      decide +kernel
    cases h : createCtx 16 2 [97, 193] [] 194 with
    | err e => rw [h] at this; cases this
    | ub e => rw [h] at this; cases this
    | ok c =>
      obtain ⟨_, e, _, _, et, _⟩ := createCtx_ok (l := 2) (by norm_num) (by norm_num) h
      refine ⟨c, rfl, fun hi => ?_⟩
      obtain ⟨a, as, hc, ha, e⟩ := List.map_eq_cons_iff.mp e
      have hr := hi.tInvModQs
      rw [hc] at hr
      generalize c.tInvModQs = cs at hr
      cases hr with
      | cons hd _ =>
        obtain ⟨-, hd⟩ := hd
        rw [ha, et] at hd
        omega

end Shell
