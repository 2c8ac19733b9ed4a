import Verif.Spec.BfvLevelProgram
import Verif.Props.BfvLevelNoise
import Verif.Props.LevelProgram
/-!
# Property C108 for BFV: programs with modulus reductions in between
-/

namespace Shell
open Spec Rns RnsErrorTrack NttRing Real
variable {τ ι κ ν : Type} {w l : ℕ} {S : Fin (2 ^ l) → ℤ} {k : RKey}

/-- A run of the program succeeds and keeps `BfvRunOk` true, for the moduli of its level. -/
theorem bfv_level_ok (hl : l ≤ 15) (h1 : 1 ≤ l) {ctx : Rns.Ctx} (hc : GoodCtx w l ctx) {top : ℕ} (htop : top ≤ ctx.qs.length)
    {N : ℕ} {zeta : ZMod N} (hz : zeta ^ 2 ^ l = -1) (P : RErrorParams) (est : Estimate) {t : ℕ}
    {x : ι → RTracked} {f : ι → Fin (2 ^ l) → ZMod N} {m : RPoly → Fin (2 ^ l) → ZMod N} {M : RPoly → Fin (2 ^ l) → ℤ}
    {ρ : RPoly → ℝ} {galois : κ → RGalois} {power : κ → ℕ}
    (hstart : ∀ u : BfvSwitchProgram ι κ, u.Linear P l t (ctx.qs.take top) M ρ →
      ∃ r, u.run P est ctx x galois = .ok r ∧ BfvRunOk l S (ctx.qs.take top) t zeta (u.eval f m power) (u.lacking P ρ) r)
    {low : ν → RGalois} {level lowPower : ν → ℕ} (hq : ∀ j, QuietGalois l S P 1 (low j))
    (hqm : ∀ j, (low j).ms = ctx.qs.take (level j)) (hqp : ∀ j, (low j).power = lowPower j) (hodd : ∀ j, lowPower j % 2 = 1)
    (hlt : ∀ j, lowPower j < 2 * 2 ^ l) (u : BfvLevelProgram ι κ ν) {lev : ℕ} (hv : u.AtLevel top level lev)
    (hu : u.Linear P l t (ctx.qs.take top) M ρ) (hw : u.Noisy (norm1 S) P ρ est ctx x galois low) :
    ∃ r, u.run P est ctx x galois low = .ok r ∧
      BfvRunOk l S (ctx.qs.take lev) t zeta (u.eval f m power lowPower) (u.lacking P ρ) r := by
  haveI : NeZero (2 ^ l) := ⟨by positivity⟩
  have hg : ∀ lev, ∀ m ∈ ctx.qs.take lev, GoodModulus w l m := fun lev m hm => hc.qs m (List.mem_of_mem_take hm)
  have hne : ∀ {y : RTracked}, y.ct.c.length = 2 → y.ct.c ≠ [] := fun h => List.length_pos_iff.mp (by omega)
  have htops : ∀ {a : BfvLevelProgram ι κ ν} {n : ℕ}, a.AtLevel top level n → n ≤ top := by
    intro a
    induction a with
    | start u => intro n h; exact le_of_eq h
    | reduce a ih => intro n h; have := ih h.2; omega
    | rotate j a ih => intro n h; exact ih h.2
    | neg a ih => intro n h; exact ih h
    | add a b ia ib => intro n h; exact ia h.1
    | sub a b ia ib => intro n h; exact ia h.1
  induction u generalizing lev with
  | start u =>
    cases hv
    exact hstart u hu
  | reduce a ih =>
    obtain ⟨y, y1, y2, y3, y4, Φ, G, y5, y6, y7⟩ := ih hv.2 hu hw.1
    obtain ⟨z, Ψ, z1, z2, z3, z4, z5, z6, z7⟩ := c108_bfv_reduce (M := G) (t := t) (s := a.lacking P ρ) hc hv.1 1
      ((htops hv.2).trans htop) y2 y5 (fun i => by exact_mod_cast y6 i) (by
        rw [y4, Finset.sum_range_succ, Finset.sum_range_one, pow_zero, pow_one]
        exact hw.2 y y1)
    refine ⟨z, ?_, z2, z3.trans y3, z4.trans y4, Ψ, G, z6, fun i => by exact_mod_cast z7 i, y7⟩
    simp only [BfvLevelProgram.run, y1, Outcome.bind_ok]
    unfold reduceTimesBfv at z1
    obtain ⟨z', z8, z1⟩ := Outcome.bind_eq_ok.mp z1
    cases z1
    exact z8
  | rotate j a ih =>
    obtain ⟨y, y1, y2, y3, y4, Φ, G, y5, y6, y7⟩ := ih hv.2 hu hw
    have hlt' := hlt j
    have hqm' : ∀ j, level j = lev → (low j).ms = ctx.qs.take lev := fun j h => h ▸ hqm j
    have h16 : 2 ^ l ≤ 2 ^ 15 := Nat.pow_le_pow_right (by norm_num) hl
    obtain ⟨z, z1, z2, z3, z4, z5⟩ := c56_substitute_partial hl (by rw [y2]; exact hg lev) (hne y4) (lowPower j) (hodd j) hlt'
      (by rw [y3]; omega) y5
    obtain ⟨r, R, r1, r2, r3, r4, r5, r6⟩ := hq j ⟨z, y.error⟩ (substPow (lowPower j) Φ) (z2.trans (y2.trans (hqm' j hv.1).symm))
      (by show z.power = _; rw [z3, y3, hqp, one_mul]; exact Int.emod_eq_of_lt (by positivity) (by exact_mod_cast hlt'))
      (z4.trans y4) z5
    refine ⟨r, ?_, r2.trans (hqm' j hv.1), r3, r4, _, substPow (lowPower j) G, r5, fun i => ?_, fun i => ?_⟩
    · simp only [BfvLevelProgram.run, y1, Outcome.bind_ok, RTracked.substitute, hqp, z1]
      exact r1
    · have h2 := substPow_abs_real (hodd j) y6 i
      have h3 := r6 i
      have e : (t : ℤ) * (substPow (lowPower j) Φ i + (1 : ℕ) * R i) - modulusProd (ctx.qs.take lev) * substPow (lowPower j) G i =
          substPow (lowPower j) (fun i => (t : ℤ) * Φ i - modulusProd (ctx.qs.take lev) * G i) i + t * R i := by
        have e1 := congrFun (substPow_lin l (lowPower j) (t : ℤ) (-(modulusProd (ctx.qs.take lev) : ℤ)) Φ G) i
        rw [show (fun i => (t : ℤ) * Φ i - modulusProd (ctx.qs.take lev) * G i) =
          fun i => (t : ℤ) * Φ i + -(modulusProd (ctx.qs.take lev) : ℤ) * G i from funext fun i => by ring, e1]
        push_cast
        ring
      rw [e]
      have h4 := abs_add_le ((substPow (lowPower j) (fun i => (t : ℤ) * Φ i - modulusProd (ctx.qs.take lev) * G i) i : ℤ) : ℝ)
        ((t * R i : ℤ) : ℝ)
      have h5 : |((t * R i : ℤ) : ℝ)| ≤ t * (r.error - y.error) := by
        push_cast at h3 ⊢
        rw [one_mul] at h3
        rw [abs_mul, Nat.abs_cast]
        exact mul_le_mul_of_nonneg_left h3 (Nat.cast_nonneg t)
      show _ ≤ t * (r.error + a.lacking P ρ)
      push_cast at h2 h4 h5 ⊢
      linarith
    · show _ = a.eval _ _ _ _ (slotSource l (lowPower j) i)
      rw [← y7]
      exact slots_subst hz h1 G (lowPower j) (SlotStore.source_spec h1 (hodd j) i).symm
  | neg a ih =>
    obtain ⟨y, y1, y2, y3, y4, Φ, G, y5, y6, y7⟩ := ih hv hu hw
    obtain ⟨z, c1, c2, c3, c4⟩ := c53_negate (by rw [y2]; exact hg lev) y5
    refine ⟨⟨z, y.error⟩, ?_, c2.1.trans y2, c2.2.trans y3, c3.trans y4, _, -G, c4, fun i => ?_, fun i => ?_⟩
    · simp only [BfvLevelProgram.run, y1, Outcome.bind_ok, RTracked.negate, c1]
      rfl
    · have h2 := y6 i
      rw [← abs_neg] at h2
      refine le_trans (le_of_eq ?_) h2
      congr 1
      simp only [Pi.neg_apply]
      push_cast
      ring
    · show _ = -a.eval _ _ _ _ i
      rw [← y7]
      exact bslots_evalPoly hz h1 (fun _ : Unit => G) M i (.neg (.input ()))
  | add a b ia ib =>
    obtain ⟨y, y1, y2, y3, y4, Φ, G, y5, y6, y7⟩ := ia hv.1 hu.1 hw.1
    obtain ⟨z, z1, z2, z3, z4, Ψ, H, z5, z6, z7⟩ := ib hv.2 hu.2 hw.2
    obtain ⟨v, c1, c2, c3, c4⟩ := c53_add (by rw [y2]; exact hg lev) (z2.trans y2.symm) (z3.trans y3.symm)
      (z4.trans y4.symm) y5 z5
    refine ⟨⟨v, y.error + z.error⟩, ?_, c2.1.trans y2, c2.2.trans y3, c3.trans y4, _, G + H, c4, fun i => ?_, fun i => ?_⟩
    · simp only [BfvLevelProgram.run, y1, z1, Outcome.bind_ok, RTracked.add, c1]
      rfl
    · have h5 := abs_add_le ((t * Φ i - modulusProd (ctx.qs.take lev) * G i : ℤ) : ℝ) ((t * Ψ i - modulusProd (ctx.qs.take lev) * H i : ℤ) : ℝ)
      have h6 := y6 i
      have h7 := z6 i
      have e : (t : ℤ) * (Φ + Ψ) i - modulusProd (ctx.qs.take lev) * (G + H) i =
          (t * Φ i - modulusProd (ctx.qs.take lev) * G i) + (t * Ψ i - modulusProd (ctx.qs.take lev) * H i) := by
        simp only [Pi.add_apply]; ring
      rw [e, Int.cast_add]
      show _ ≤ (t : ℝ) * (y.error + z.error + (a.lacking P ρ + b.lacking P ρ))
      linarith
    · show _ = a.eval _ _ _ _ i + b.eval _ _ _ _ i
      rw [← y7, ← z7]
      exact bslots_evalPoly hz h1 (fun c : Bool => if c then G else H) M i (.add (.input true) (.input false))
  | sub a b ia ib =>
    obtain ⟨y, y1, y2, y3, y4, Φ, G, y5, y6, y7⟩ := ia hv.1 hu.1 hw.1
    obtain ⟨z, z1, z2, z3, z4, Ψ, H, z5, z6, z7⟩ := ib hv.2 hu.2 hw.2
    obtain ⟨v, c1, c2, c3, c4⟩ := c53_sub (by rw [y2]; exact hg lev) (z2.trans y2.symm) (z3.trans y3.symm)
      (z4.trans y4.symm) y5 z5
    refine ⟨⟨v, y.error + z.error⟩, ?_, c2.1.trans y2, c2.2.trans y3, c3.trans y4, _, G - H, c4, fun i => ?_, fun i => ?_⟩
    · simp only [BfvLevelProgram.run, y1, z1, Outcome.bind_ok, RTracked.sub, c1]
      rfl
    · have h5 := abs_sub ((t * Φ i - modulusProd (ctx.qs.take lev) * G i : ℤ) : ℝ) ((t * Ψ i - modulusProd (ctx.qs.take lev) * H i : ℤ) : ℝ)
      have h6 := y6 i
      have h7 := z6 i
      have e : (t : ℤ) * (Φ - Ψ) i - modulusProd (ctx.qs.take lev) * (G - H) i =
          (t * Φ i - modulusProd (ctx.qs.take lev) * G i) - (t * Ψ i - modulusProd (ctx.qs.take lev) * H i) := by
        simp only [Pi.sub_apply]; ring
      rw [e, Int.cast_sub]
      show _ ≤ (t : ℝ) * (y.error + z.error + (a.lacking P ρ + b.lacking P ρ))
      linarith
    · show _ = a.eval _ _ _ _ i - b.eval _ _ _ _ i
      rw [← y7, ← z7]
      exact bslots_evalPoly hz h1 (fun c : Bool => if c then G else H) M i (.sub (.input true) (.input false))

/-- **C108.** BFV programs with reductions in between: with Galois keys that stay within the estimates, ciphertexts within
their estimates, and an `Error()` of at least `1 + |s|_1` before every reduction, every program succeeds; if `t` times the
`Error()` of its result is below `1/2 - ε` times the product of the moduli that are left, it decrypts, under the secret key
reduced as often, to what the program computes in the slots. -/
theorem c108_bfv_levels {ε : ℚ} {est : Estimate} {e : FFEncoder} (he : GoodEncoder w l e) (hb : BfvConstants e.ctx e.mt)
    (hl : l ≤ 15) {top : ℕ} (htop : top ≤ e.ctx.qs.length) (hms : k.ms = e.ctx.qs.take top)
    (hk : KeyIs l k S) (hε : ε < 1 / 2)
    (P : RErrorParams) {x : ι → RTracked} {F : ι → Fin (2 ^ l) → ℤ} {M : RPoly → Fin (2 ^ l) → ℤ} {ρ : RPoly → ℝ}
    (hx : ∀ i, Fresh k (x i).ct ∧ BfvEstimated l S e.ctx.t (x i) (F i) 0)
    {galois : κ → RGalois} {power : κ → ℕ} (hq : ∀ j, QuietGalois l S P 1 (galois j))
    (hqm : ∀ j, (galois j).ms = k.ms) (hqp : ∀ j, (galois j).power = power j) (hodd : ∀ j, power j % 2 = 1)
    (hlt : ∀ j, power j < 2 * 2 ^ l) {low : ν → RGalois} {level lowPower : ν → ℕ}
    (hlq : ∀ j, QuietGalois l S P 1 (low j)) (hlm : ∀ j, (low j).ms = e.ctx.qs.take (level j))
    (hlp : ∀ j, (low j).power = lowPower j) (hlodd : ∀ j, lowPower j % 2 = 1) (hllt : ∀ j, lowPower j < 2 * 2 ^ l)
    (u : BfvLevelProgram ι κ ν) {lev n : ℕ} (hlev : 0 < lev) (htn : lev + n = top) (hest : EstimateWithin lev ε est)
    (hlen : lev < 2 ^ w) (hv : u.AtLevel top level lev) (hu : u.Linear P l e.ctx.t k.ms M ρ)
    (hw : u.Noisy (norm1 S) P ρ est e.ctx x galois low) :
    ∃ k' r, reduceKey n k = .ok k' ∧ u.run P est e.ctx x galois low = .ok r ∧
      (e.ctx.t * (r.error + u.lacking P ρ) < (1 / 2 - ε) * modulusProd (e.ctx.qs.take lev) →
        k'.decryptBfv (finiteFieldEncoder est e) r.ct =
          .ok (List.ofFn fun i : Fin (2 ^ l) => (u.eval (fun j i => slotsOf (nttRoot l e.mt) l (F j) i)
            (fun p i => slotsOf (nttRoot l e.mt) l (M p) i) power lowPower i).val)) := by
  obtain ⟨psi, tb⟩ := he.mt.tables
  have hz : nttRoot l e.mt ^ 2 ^ l = -1 := by
    rw [nttRoot_eq he.mt tb]; exact tb.root
  obtain ⟨k', k1, k2, k3⟩ := reduceKey_ok (ctx := e.ctx) hlev n (by omega) (by rw [htn]; exact hms) hk
  have hg : ∀ m ∈ k.ms, GoodModulus w l m := fun m hm => he.ctx.qs m (by rw [hms] at hm; exact List.mem_of_mem_take hm)
  obtain ⟨r, r0, r1, r2, r3, Φ, G, r4, r5, r6⟩ := bfv_level_ok hl tb.l1 he.ctx htop hz P est (t := e.ctx.t) (M := M) (ρ := ρ)
    (fun v v1 => by
      rw [← hms] at v1 ⊢
      exact bfv_run_ok hl tb.l1 hg hz P est e.ctx
        (fun i => ⟨(hx i).1.1, (hx i).1.2.1, (hx i).1.2.2, (hx i).2⟩) hq hqm hqp hodd hlt v v1)
    hlq hlm hlp hlodd hllt u hv (by rw [← hms]; exact hu) hw
  refine ⟨k', r, k1, r0, fun hB => ?_⟩
  have hkl : k'.ms.length = lev := by rw [k2, List.length_take]; omega
  have hne : k'.ms ≠ [] := List.length_pos_iff.mp (by omega)
  have h := (c57_decrypt (by rw [hkl]; exact hest) hε he.ctx hb he.mt.create he.N k2 hne (by rw [hkl]; exact hlen) k3
    (r1.trans k2.symm) (List.length_pos_iff.mp (by omega)) r2 (M := G)
    (v := (⌊e.ctx.t * (r.error + u.lacking P ρ)⌋ : ℤ)) ⟨Φ, r4, fun i => ?_⟩ ?_).2 e he rfl rfl
  · rw [h]
    congr 2
    funext i
    rw [r6]
  · have h4 : |(e.ctx.t : ℤ) * Φ i - modulusProd r.ct.ms * G i| ≤ ⌊e.ctx.t * (r.error + u.lacking P ρ)⌋ := by
      rw [Int.le_floor, r1]
      exact_mod_cast r5 i
    exact_mod_cast h4
  · have h5 := Int.floor_le (e.ctx.t * (r.error + u.lacking P ρ))
    have h6 : (((⌊e.ctx.t * (r.error + u.lacking P ρ)⌋ : ℤ) : ℚ) : ℝ) < (((1 / 2 - ε) * modulusProd k'.ms : ℚ) : ℝ) := by
      push_cast
      rw [k2]
      exact h5.trans_lt hB
    exact Rat.cast_lt.mp h6

/-- **C108.** As `c105_bfv_program`, for programs with reductions in between, and Galois keys made from reduced secret keys as
well: messages are encrypted and keys are made with independent tapes of uniformly distributed bytes. This bounds the
probability that all keys and ciphertexts are returned, and that there is any program that reduces only ciphertexts with an
`Error()` of at least `1 + |s|_1`, and fails, or returns a ciphertext with `t` times its `Error()` below `1/2 - ε` times the
product of the moduli that are left that does not decrypt, under the secret key reduced as often, to what the program computes
on the messages. -/
theorem c108_bfv_level_program [Fintype κ] [Fintype ν] (Gp : Gen τ) {ε : ℚ} {est : Estimate} {e : FFEncoder}
    (he : GoodEncoder w l e) (hb : BfvConstants e.ctx e.mt) (hl : l ≤ 15) (hk : RoomyKey w l k S) (hkm : k.ms = e.ctx.qs)
    (hε : ε < 1 / 2) (hlen : k.ms.length < 2 ^ w) (hw : 0 < w) {P : RErrorParams}
    (hP : ParamsFor P l k.variance) {g : RGadget} (hg : SmallGadget l k.ms g)
    {level reduced : ν → ℕ} (hlv : ∀ j, 0 < level j ∧ level j + reduced j = k.ms.length) {lowKey : ν → RKey}
    (hlk : ∀ j, reduceKey (reduced j) k = .ok (lowKey j)) {lowGadget : ν → RGadget}
    (hlg : ∀ j, SmallGadget l (lowKey j).ms (lowGadget j)) {mss : List (List ℕ)}
    (hmsg : ∀ msgs ∈ mss, (∀ a ∈ msgs, a < 2 ^ w) ∧ msgs.length ≤ 2 ^ l ∧
      ∀ F : Fin (2 ^ l) → ℕ, (∀ j, F j < e.ctx.t) →
        (∀ i < 2 ^ l, slotsOf (nttRoot l e.mt) l (fun j => (F j : ℤ)) i = ((msgs.getD i 0 : ℕ) : ZMod e.mt.N)) →
        SizeAtMost (fun j => e.ctx.t * ⌈(modulusProd k.ms * F j : ℚ) / e.ctx.t⌉ - modulusProd k.ms * F j)
          (e.ctx.t * P.bPlaintext))
    (fuel : ℕ) (prng : PrngType) (power : κ → ℕ) (lowPower : ν → ℕ) (spg : κ → τ) (spl : ν → τ) (L : Option (κ ⊕ ν) → ℕ) :
    tapesProbability L (fun t => ∃ xs s galois low,
      inSequence (mss.map fun msgs => RnsErrorTrack.encryptBfv1 P bytesSource fuel k (finiteFieldEncoder est e) msgs)
        (t none) = .ok (xs, s) ∧
      (∀ j, RGalois.create Gp bytesSource fuel k (power j) k.variance g prng 1 (spg j) (t (some (.inl j))) =
        .ok (galois j)) ∧
      (∀ j, RGalois.create Gp bytesSource fuel (lowKey j) (lowPower j) k.variance (lowGadget j) prng 1 (spl j)
        (t (some (.inr j))) = .ok (low j)) ∧
      ∃ (u : BfvLevelProgram (Fin mss.length) κ ν) (M : RPoly → Fin (2 ^ l) → ℤ) (ρ : RPoly → ℝ) (lev n : ℕ),
        u.Linear P l e.ctx.t k.ms M ρ ∧ 0 < lev ∧ lev + n = k.ms.length ∧ EstimateWithin lev ε est ∧
        u.AtLevel k.ms.length level lev ∧
        u.Noisy (norm1 S) P ρ est e.ctx (fun i : Fin mss.length => xs.getD i ⟨⟨[], [], 0⟩, 0⟩) galois low ∧
        ¬ ∃ k' r, reduceKey n k = .ok k' ∧
          u.run P est e.ctx (fun i : Fin mss.length => xs.getD i ⟨⟨[], [], 0⟩, 0⟩) galois low = .ok r ∧
          (e.ctx.t * (r.error + u.lacking P ρ) < (1 / 2 - ε) * modulusProd (e.ctx.qs.take lev) →
            k'.decryptBfv (finiteFieldEncoder est e) r.ct =
              .ok (List.ofFn fun i : Fin (2 ^ l) =>
                (u.eval (fun (j : Fin mss.length) i => (((mss.getD j []).getD i 0 : ℕ) : ZMod e.mt.N))
                  (fun p i => slotsOf (nttRoot l e.mt) l (M p) i) power lowPower i).val))) ≤
      mss.length * (8 * 2 ^ l * exp (-30)) + Fintype.card κ * exp (-(9 * 2 ^ l * g.dimension)) +
        ∑ j, exp (-(9 * 2 ^ l * (lowGadget j).dimension)) := by
  obtain ⟨F, hF, hfresh⟩ := bfv_fresh_all est he hb hk hkm hP hmsg fuel
  obtain ⟨Gs, hgad⟩ := hg.gadget
  choose lGs hlgad using fun j => (hlg j).gadget
  have hl31 : l < 31 := by omega
  have h1w : 1 < 2 ^ w := Nat.one_lt_two_pow (by omega)
  have h1P : ((1 : ℕ) : ℝ) ≤ P.exportT := by simpa using hP.one_le
  have hlenq : k.ms.length = e.ctx.qs.length := by rw [hkm]
  have hms : k.ms = e.ctx.qs.take k.ms.length := by rw [hlenq, List.take_length, hkm]
  have hlow : ∀ j, (lowKey j).ms = e.ctx.qs.take (level j) ∧ (lowKey j).variance = k.variance ∧
      RoomyKey w l (lowKey j) S := fun j => by
    obtain ⟨k', k1, k2, k3, k4⟩ := reduceKey_roomy (qs := e.ctx.qs) (hlv j).1 (reduced j) (by rw [(hlv j).2]; exact hlenq.le)
      (by rw [(hlv j).2]; exact hms) hk
    rw [hlk j] at k1
    cases k1
    exact ⟨k2, k3, k4⟩
  have hlroom : ∀ j, ∀ m ∈ (lowKey j).ms.head?, 4 * k.variance < m.N := fun j => by
    rw [← (hlow j).2.1]; exact (hlow j).2.2.room
  let B : Option (κ ⊕ ν) → List (Fin 256) → Prop
    | none => fun t => ∃ xs s,
        inSequence (mss.map fun msgs => RnsErrorTrack.encryptBfv1 P bytesSource fuel k (finiteFieldEncoder est e) msgs) t =
          .ok (xs, s) ∧ ¬ ∀ i : Fin mss.length, Fresh k (xs.getD i ⟨⟨[], [], 0⟩, 0⟩).ct ∧
            BfvEstimated l S e.ctx.t (xs.getD i ⟨⟨[], [], 0⟩, 0⟩) (fun j => (F i j : ℤ)) 0
    | some (.inl j) => fun t => ∃ key,
        RGalois.create Gp bytesSource fuel k (power j) k.variance g prng 1 (spg j) t = .ok key ∧
          ¬ QuietGalois l S P 1 key
    | some (.inr j) => fun t => ∃ key,
        RGalois.create Gp bytesSource fuel (lowKey j) (lowPower j) k.variance (lowGadget j) prng 1 (spl j) t = .ok key ∧
          ¬ QuietGalois l S P 1 key
  refine (tapesProbability_le L (B := B) ?_).trans ?_
  · rintro t ⟨xs, s, galois, low, h1, h3, h4, u, M, ρ, lev, n, hu, hlev, htn, hest, hv, hw, hbad⟩
    by_contra hc
    push Not at hc
    have b1 : ∀ i : Fin mss.length, Fresh k (xs.getD i ⟨⟨[], [], 0⟩, 0⟩).ct ∧
        BfvEstimated l S e.ctx.t (xs.getD i ⟨⟨[], [], 0⟩, 0⟩) (fun j => (F i j : ℤ)) 0 := by
      by_contra hn
      exact hc none ⟨xs, s, h1, hn⟩
    have b3 : ∀ j, QuietGalois l S P 1 (galois j) := fun j => by
      by_contra hn
      exact hc (some (.inl j)) ⟨galois j, h3 j, hn⟩
    have b4 : ∀ j, QuietGalois l S P 1 (low j) := fun j => by
      by_contra hn
      exact hc (some (.inr j)) ⟨low j, h4 j, hn⟩
    have q3 := fun j => galois_drawn Gp hk.good hk.nonempty hgad hk.atMost hk.room h1w (h3 j)
    have q4 := fun j => galois_drawn Gp (hlow j).2.2.good (hlow j).2.2.nonempty (hlgad j) hk.atMost (hlroom j) h1w (h4 j)
    obtain ⟨k', r, k1, r1, r2⟩ := c108_bfv_levels he hb hl hlenq.le hms hk.good.key hε P b1 b3 (fun j => (q3 j).2.1)
      (fun j => (q3 j).1) (fun j => by have := (q3 j).2.2.2.2.1; omega)
      (fun j => by have := (q3 j).2.2.2.2.2.1; exact_mod_cast this) b4 (fun j => (q4 j).2.1.trans (hlow j).1)
      (fun j => (q4 j).1) (fun j => by have := (q4 j).2.2.2.2.1; omega)
      (fun j => by have := (q4 j).2.2.2.2.2.1; exact_mod_cast this) u hlev htn hest (by omega) hv hu hw
    refine hbad ⟨k', r, k1, r1, fun hB => ?_⟩
    rw [r2 hB]
    congr 2
    funext i
    congr 2
    funext j i
    exact hF j j.2 i
  · rw [Fintype.sum_option, Fintype.sum_sum_type]
    have e1 := hfresh (L none)
    have e3 : ∑ j, bytesProbability (L (some (.inl j))) (B (some (.inl j))) ≤
        ∑ _j : κ, exp (-(9 * 2 ^ l * g.dimension : ℝ)) := Finset.sum_le_sum fun j _ =>
      c105_galois Gp hk.good hk.nonempty hl31 hg hk.atMost hk.room hP h1w h1P fuel (power j) prng (spg j) (L (some (.inl j)))
    have e4 : ∑ j, bytesProbability (L (some (.inr j))) (B (some (.inr j))) ≤
        ∑ j : ν, exp (-(9 * 2 ^ l * (lowGadget j).dimension : ℝ)) := Finset.sum_le_sum fun j _ =>
      c105_galois Gp (hlow j).2.2.good (hlow j).2.2.nonempty hl31 (hlg j) hk.atMost (hlroom j) hP h1w h1P fuel (lowPower j) prng
        (spl j) (L (some (.inr j)))
    rw [Finset.sum_const, Finset.card_univ, nsmul_eq_mul] at e3
    have e1' : bytesProbability (L none) (B none) ≤ mss.length * (8 * 2 ^ l * exp (-30)) := e1
    linarith

end Shell
