import Verif.Spec.LevelProgram
import Verif.Props.LevelNoise
/-!
# Property C108: programs with modulus reductions in between

Sums and rotations of reduced ciphertexts, with Galois keys for the moduli that are left.
-/

namespace Shell
open Spec Rns RnsErrorTrack NttRing Real
variable {σ τ ι κ ν : Type} {w l : ℕ} {S : Fin (2 ^ l) → ℤ} {k : RKey}

/-- A run of the program keeps `RunOk` true, for the moduli of its level. -/
theorem level_ok (hl : l ≤ 15) (h1 : 1 ≤ l) {ctx : Rns.Ctx} (hc : GoodCtx w l ctx) {top : ℕ} (htop : top ≤ ctx.qs.length)
    (hbig : ∀ m ∈ ctx.qs, 2 * ctx.t ≤ m.N) {N : ℕ} (hNt : N = ctx.t) {zeta : ZMod N} (hz : zeta ^ 2 ^ l = -1) (P : RErrorParams)
    {x : ι → RTracked} {f : ι → Fin (2 ^ l) → ZMod N} {m : RPoly → Fin (2 ^ l) → ZMod N} {M : RPoly → Fin (2 ^ l) → ℤ}
    {relin : RRelin} {galois : κ → RGalois} {power : κ → ℕ}
    (hstart : ∀ (u : SwitchProgram ι κ) r, u.PlainsOk w l (ctx.qs.take top) M → u.Within P M →
      u.run P x relin galois = .ok r → RunOk l S (ctx.qs.take top) zeta (u.eval f m power) r)
    {low : ν → RGalois} {level lowPower : ν → ℕ} (hq : ∀ j, QuietGalois l S P ctx.t (low j))
    (hqm : ∀ j, (low j).ms = ctx.qs.take (level j)) (hqp : ∀ j, (low j).power = lowPower j) (hodd : ∀ j, lowPower j % 2 = 1)
    (hlt : ∀ j, lowPower j < 2 * 2 ^ l) (u : LevelProgram ι κ ν) {lev : ℕ} (hv : u.AtLevel top level lev)
    (hu : u.PlainsOk w l (ctx.qs.take top) P M) (hw : u.Noisy (norm1 S) ctx P x relin galois low) {r : RTracked}
    (h : u.run ctx P x relin galois low = .ok r) :
    RunOk l S (ctx.qs.take lev) zeta (u.eval f m power lowPower) r := by
  subst hNt
  haveI : NeZero (2 ^ l) := ⟨by positivity⟩
  have hg : ∀ lev, ∀ m ∈ ctx.qs.take lev, GoodModulus w l m := fun lev m hm => hc.qs m (List.mem_of_mem_take hm)
  have htops : ∀ {a : LevelProgram ι κ ν} {n : ℕ}, a.AtLevel top level n → n ≤ top := by
    intro a
    induction a with
    | start u => intro n h; exact le_of_eq h
    | reduce a ih => intro n h; have := ih h.2; omega
    | rotate j a ih => intro n h; exact ih h.2
    | neg a ih => intro n h; exact ih h
    | add a b ia ib => intro n h; exact ia h.1
    | sub a b ia ib => intro n h; exact ia h.1
  induction u generalizing r lev with
  | start u =>
    cases hv
    exact hstart u r hu.1 hu.2 h
  | reduce a ih =>
    obtain ⟨y, y1, h⟩ := Outcome.bind_eq_ok.mp h
    obtain ⟨y2, y3, y4, Φ, y5, y6, y7⟩ := ih hv.2 hu hw.1 y1
    obtain ⟨row, z, Ψ, z0, z1, z2, z3, z4, z5, z6, z7, z8⟩ := reduce_step hc hv.1 ((htops hv.2).trans htop) y2 y5 y6
      (hw.2 y y1) hbig
    rw [z0, Outcome.bind_ok, z1] at h
    cases h
    choose R hR using z7
    have hR' : Ψ = fun i => Φ i + ctx.t * R i := funext fun i => by have := hR i; linarith
    refine ⟨z2, z3.trans y3, List.length_pos_iff.mp (by rw [z4]; exact List.length_pos_iff.mpr y4), Ψ, z6, z8, fun i => ?_⟩
    rw [hR', slots_noise]
    exact y7 i
  | rotate j a ih =>
    obtain ⟨y, y1, h⟩ := Outcome.bind_eq_ok.mp h
    obtain ⟨y2, y3, y4, Φ, y5, y6, y7⟩ := ih hv.2 hu hw y1
    obtain ⟨z, z1, h⟩ := Outcome.bind_eq_ok.mp h
    have hlt' := hlt j
    have hqm' : ∀ j, level j = lev → (low j).ms = ctx.qs.take lev := fun j h => h ▸ hqm j
    have h16 : 2 ^ l ≤ 2 ^ 15 := Nat.pow_le_pow_right (by norm_num) hl
    obtain ⟨c, c1, c2, c3, c4, c5⟩ := c56_substitute_partial hl (by rw [y2]; exact hg lev) y4 (lowPower j) (hodd j) hlt'
      (by rw [y3]; omega) y5
    unfold RTracked.substitute at z1
    rw [hqp, c1] at z1
    cases z1
    have hlen : c.c.length = 2 := by
      obtain ⟨d, hd, -⟩ := Outcome.bind_eq_ok.mp h
      unfold RGalois.applyTo at hd
      obtain ⟨_, hd, -⟩ := Outcome.bind_eq_ok.mp hd
      unfold RGalois.check at hd
      split_ifs at hd with d1 d2 d3
      simpa using d3
    obtain ⟨r', R, r1, r2, r3, r4, r5, r6⟩ := hq j ⟨c, y.error⟩ (substPow (lowPower j) Φ) (c2.trans (y2.trans (hqm' j hv.1).symm))
      (by show c.power = _; rw [c3, y3, hqp, one_mul]; exact Int.emod_eq_of_lt (by positivity) (by exact_mod_cast hlt'))
      hlen c5
    rw [h] at r1
    cases r1
    refine ⟨r2.trans (hqm' j hv.1), r3, List.length_pos_iff.mp (by omega), noisy (x := ⟨c, y.error⟩) r5 (fun i => ?_) r6
      fun i => ?_⟩
    · show _ ≤ y.error
      have h0 : 0 ≤ y.error := (abs_nonneg _).trans (y6 0)
      have h7 : ∀ i, |Φ i| ≤ (⌊y.error⌋₊ : ℕ) := fun i => by
        have h8 : ((|Φ i|.toNat : ℕ) : ℝ) ≤ y.error := by
          have h9 : ((|Φ i|.toNat : ℕ) : ℤ) = |Φ i| := Int.toNat_of_nonneg (abs_nonneg _)
          have h10 : ((|Φ i|.toNat : ℕ) : ℝ) = |(Φ i : ℝ)| := by exact_mod_cast congrArg (Int.cast (R := ℝ)) h9
          rw [h10]; exact y6 i
        have := Nat.le_floor h8
        omega
      have h8 := substPow_abs (hodd j) h7 i
      have h9 : |((substPow (lowPower j) Φ i : ℤ) : ℝ)| ≤ (⌊y.error⌋₊ : ℕ) := by exact_mod_cast h8
      exact h9.trans (Nat.floor_le h0)
    · show _ = a.eval _ _ _ _ (slotSource l (lowPower j) i)
      rw [← y7]
      exact slots_subst hz h1 Φ (lowPower j) (SlotStore.source_spec h1 (hodd j) i).symm
  | neg a ih =>
    obtain ⟨y, y1, h⟩ := Outcome.bind_eq_ok.mp h
    obtain ⟨y2, y3, y4, Φ, y5, y6, y7⟩ := ih hv hu hw y1
    obtain ⟨c, c1, c2, c3, c4⟩ := c53_negate (by rw [y2]; exact hg lev) y5
    unfold RTracked.negate at h
    rw [c1] at h
    cases h
    refine ⟨c2.1.trans y2, c2.2.trans y3, List.length_pos_iff.mp (by
      have := List.length_pos_iff.mpr y4
      show 0 < c.c.length
      omega), _, c4, fun i => by simpa using y6 i, fun i => ?_⟩
    show _ = -a.eval _ _ _ _ i
    rw [← y7]
    exact slots_evalPoly hz h1 (fun _ : Unit => Φ) M i (.neg (.input ()))
  | add a b ia ib =>
    obtain ⟨y, y1, h⟩ := Outcome.bind_eq_ok.mp h
    obtain ⟨z, z1, h⟩ := Outcome.bind_eq_ok.mp h
    obtain ⟨y2, y3, y4, Φ, y5, y6, y7⟩ := ia hv.1 hu.1 hw.1 y1
    obtain ⟨z2, z3, z4, Ψ, z5, z6, z7⟩ := ib hv.2 hu.2 hw.2 z1
    obtain ⟨c, hc, h⟩ := Outcome.bind_eq_ok.mp h
    cases h
    obtain ⟨c', c1, c2, c3, c4⟩ := c53_add (by rw [y2]; exact hg lev) (z2.trans y2.symm) (z3.trans y3.symm)
      (like_of_ok (.inl hc)).1 y5 z5
    rw [hc] at c1
    cases c1
    refine ⟨c2.1.trans y2, c2.2.trans y3, List.length_pos_iff.mp (by
      have := List.length_pos_iff.mpr y4
      show 0 < c.c.length
      omega), _, c4, fun i => ?_, fun i => ?_⟩
    · have h5 := abs_add_le (Φ i : ℝ) (Ψ i)
      have h6 := y6 i
      have h7 := z6 i
      show |(((Φ + Ψ) i : ℤ) : ℝ)| ≤ y.error + z.error
      rw [Pi.add_apply]
      push_cast
      linarith
    · show _ = a.eval _ _ _ _ i + b.eval _ _ _ _ i
      rw [← y7, ← z7]
      exact slots_evalPoly hz h1 (fun c : Bool => if c then Φ else Ψ) M i (.add (.input true) (.input false))
  | sub a b ia ib =>
    obtain ⟨y, y1, h⟩ := Outcome.bind_eq_ok.mp h
    obtain ⟨z, z1, h⟩ := Outcome.bind_eq_ok.mp h
    obtain ⟨y2, y3, y4, Φ, y5, y6, y7⟩ := ia hv.1 hu.1 hw.1 y1
    obtain ⟨z2, z3, z4, Ψ, z5, z6, z7⟩ := ib hv.2 hu.2 hw.2 z1
    obtain ⟨c, hc, h⟩ := Outcome.bind_eq_ok.mp h
    cases h
    obtain ⟨c', c1, c2, c3, c4⟩ := c53_sub (by rw [y2]; exact hg lev) (z2.trans y2.symm) (z3.trans y3.symm)
      (like_of_ok (.inr hc)).1 y5 z5
    rw [hc] at c1
    cases c1
    refine ⟨c2.1.trans y2, c2.2.trans y3, List.length_pos_iff.mp (by
      have := List.length_pos_iff.mpr y4
      show 0 < c.c.length
      omega), _, c4, fun i => ?_, fun i => ?_⟩
    · have h5 := abs_sub (Φ i : ℝ) (Ψ i)
      have h6 := y6 i
      have h7 := z6 i
      show |(((Φ - Ψ) i : ℤ) : ℝ)| ≤ y.error + z.error
      rw [Pi.sub_apply]
      push_cast
      linarith
    · show _ = a.eval _ _ _ _ i - b.eval _ _ _ _ i
      rw [← y7, ← z7]
      exact slots_evalPoly hz h1 (fun c : Bool => if c then Φ else Ψ) M i (.sub (.input true) (.input false))

/-- A ciphertext within its estimate at some level decrypts under the key with the moduli of that level. -/
theorem level_decrypt {W : ℕ} {e : FFEncoder} (he : GoodEncoder w l e) {lev : ℕ} (hlev : 0 < lev) (hn : lev ≤ e.ctx.qs.length)
    (hbig : ∀ m ∈ e.ctx.qs, 2 * e.ctx.t ≤ m.N) {k' : RKey} (k2 : k'.ms = e.ctx.qs.take lev) (k3 : KeyIs l k' S)
    (hW : ∀ m ∈ e.ctx.qs.take lev, modulusProd (e.ctx.qs.take lev) * m.N ≤ 2 ^ W) {hatInvs : List ℕ}
    (hi : HatInvs (e.ctx.qs.take lev) hatInvs) {y : RTracked} {f : Fin (2 ^ l) → ZMod e.mt.N}
    (hy : RunOk l S (e.ctx.qs.take lev) (nttRoot l e.mt) f y) (hB : 2 * y.error < modulusProd (e.ctx.qs.take lev)) :
    k'.decryptBgvWithCrt W e y.ct (modulusComplements W k'.ms) hatInvs =
      .ok (List.ofFn fun i : Fin (2 ^ l) => (f i).val) := by
  obtain ⟨y2, y3, y4, Φ, y6, y8, y9⟩ := hy
  have hne : k'.ms ≠ [] := by
    rw [k2]
    intro h
    have := congrArg List.length h
    rw [List.length_take, List.length_nil] at this
    omega
  have hsm : ∀ i, 2 * |Φ i| < (modulusProd k'.ms : ℤ) := fun i => by
    have h2 : (2 * |(Φ i : ℝ)|) < modulusProd k'.ms := by
      have := y8 i
      rw [k2]
      linarith
    exact_mod_cast h2
  have ht : e.ctx.t ≤ modulusProd k'.ms := by
    obtain ⟨m, hm⟩ := List.exists_mem_of_ne_nil _ hne
    have h1 : m ∈ e.ctx.qs := by rw [k2] at hm; exact List.mem_of_mem_take hm
    have h2 := hbig m h1
    have h3 : m.N ∣ modulusProd k'.ms := List.dvd_prod (List.mem_map_of_mem hm)
    have h4 := Nat.le_of_dvd (List.prod_pos fun a ha => by
      obtain ⟨q, q1, rfl⟩ := List.mem_map.mp ha
      rw [k2] at q1
      exact (he.ctx.qs q (List.mem_of_mem_take q1)).prime.pos) h3
    show e.ctx.t ≤ _
    unfold modulusProd at h4 ⊢
    omega
  have h := c53_bgv_crt (R := fun _ => 0) he k2.symm hne k3 (y2.trans k2.symm) y3 y4 (by simpa using y6)
    (by rw [k2]; exact hW) (by rw [k2]; exact hi) ht (fun i => by simpa using hsm i)
  rw [h]
  congr 2
  funext i
  rw [y9]

/-- **C108.** Programs with reductions in between: with keys that stay within the estimates, ciphertexts within their
estimates, and an `Error()` of at least `t (1 + |s|_1 + ..)` before every reduction, every program whose result has an
`Error()` below half of the product of the moduli that are left decrypts, under the secret key reduced as often, to what the
program computes in the slots. -/
theorem c108_levels {W : ℕ} {e : FFEncoder} (he : GoodEncoder w l e) {top : ℕ} (hl : l ≤ 15) (htop : top ≤ e.ctx.qs.length)
    (hms : k.ms = e.ctx.qs.take top) (hne : k.ms ≠ []) (hk : KeyIs l k S) (hbig : ∀ m ∈ e.ctx.qs, 2 * e.ctx.t ≤ m.N)
    (P : RErrorParams) {x : ι → RTracked} {F E : ι → Fin (2 ^ l) → ℤ} {M : RPoly → Fin (2 ^ l) → ℤ}
    (hx : ∀ i, Fresh k (x i).ct ∧ REstimated l S (x i) fun j => F i j + e.ctx.t * E i j)
    {relin : RRelin} (hr : QuietRelin l S P e.ctx.t relin) (hrm : relin.ms = k.ms) (hrd : relin.degree = 2)
    {galois : κ → RGalois} {power : κ → ℕ} (hq : ∀ j, QuietGalois l S P e.ctx.t (galois j))
    (hqm : ∀ j, (galois j).ms = k.ms) (hqp : ∀ j, (galois j).power = power j) (hodd : ∀ j, power j % 2 = 1)
    (hlt : ∀ j, power j < 2 * 2 ^ l) {low : ν → RGalois} {level lowPower : ν → ℕ}
    (hlq : ∀ j, QuietGalois l S P e.ctx.t (low j)) (hlm : ∀ j, (low j).ms = e.ctx.qs.take (level j))
    (hlp : ∀ j, (low j).power = lowPower j) (hlodd : ∀ j, lowPower j % 2 = 1) (hllt : ∀ j, lowPower j < 2 * 2 ^ l)
    (u : LevelProgram ι κ ν) {lev n : ℕ} (hlev : 0 < lev) (htn : lev + n = top) (hv : u.AtLevel top level lev)
    (hu : u.PlainsOk w l k.ms P M) (hw : u.Noisy (norm1 S) e.ctx P x relin galois low)
    (hW : ∀ m ∈ e.ctx.qs.take lev, modulusProd (e.ctx.qs.take lev) * m.N ≤ 2 ^ W) {hatInvs : List ℕ}
    (hi : HatInvs (e.ctx.qs.take lev) hatInvs) {r : RTracked} (h : u.run e.ctx P x relin galois low = .ok r)
    (hB : 2 * r.error < modulusProd (e.ctx.qs.take lev)) :
    ∃ k', reduceKey n k = .ok k' ∧ k'.decryptBgvWithCrt W e r.ct (modulusComplements W k'.ms) hatInvs =
      .ok (List.ofFn fun i : Fin (2 ^ l) => (u.eval (fun j i => slotsOf (nttRoot l e.mt) l (F j) i)
        (fun p i => slotsOf (nttRoot l e.mt) l (M p) i) power lowPower i).val) := by
  obtain ⟨psi, tb⟩ := he.mt.tables
  have hz : nttRoot l e.mt ^ 2 ^ l = -1 := by
    rw [nttRoot_eq he.mt tb]; exact tb.root
  obtain ⟨k', k1, k2, k3⟩ := reduceKey_ok (ctx := e.ctx) hlev n (by omega) (by rw [htn]; exact hms) hk
  refine ⟨k', k1, level_decrypt he hlev (by omega) hbig k2 k3 hW hi ?_ hB⟩
  have hg : ∀ m ∈ k.ms, GoodModulus w l m := fun m hm => he.ctx.qs m (by rw [hms] at hm; exact List.mem_of_mem_take hm)
  refine level_ok hl tb.l1 he.ctx htop hbig he.N hz P (M := M) (fun v r v1 v2 v3 => ?_) (fun j => he.N ▸ hlq j) hlm hlp hlodd
    hllt u hv (by rw [← hms]; exact hu) hw h
  rw [← hms] at v1 ⊢
  rw [← he.N] at hr hq hx
  have := run_ok hl tb.l1 hg hne hz P (fun i => ⟨(hx i).1.1, (hx i).1.2.1, by
    have := (hx i).1.2.2
    exact List.length_pos_iff.mp (by omega), (hx i).2⟩) hr hrm hrd hq hqm hqp hodd hlt v v1 v2 v3
  simp only [slots_noise] at this
  exact this

/-- Reduced keys are as good as the key. -/
theorem reduceKey_roomy {qs : List Modulus} {lev : ℕ} (hlev : 0 < lev) (n : ℕ) (hn : lev + n ≤ qs.length) {k : RKey}
    (hms : k.ms = qs.take (lev + n)) (hk : RoomyKey w l k S) :
    ∃ k', reduceKey n k = .ok k' ∧ k'.ms = qs.take lev ∧ k'.variance = k.variance ∧ RoomyKey w l k' S := by
  induction n generalizing k with
  | zero => exact ⟨k, rfl, hms, rfl, hk⟩
  | succ n ih =>
    have hsplit : k.ms = qs.take (lev + n) ++ [qs[lev + n]] := by
      rw [hms, ← add_assoc, List.take_succ, List.getElem?_eq_getElem (by omega)]; rfl
    have hne : qs.take (lev + n) ≠ [] := by
      intro h0
      have := congrArg List.length h0
      rw [List.length_take, List.length_nil] at this
      omega
    obtain ⟨z, z1, z2, z3, z4⟩ := c56_key_modReduce hne hsplit hk.good.key
    have hhead : z.ms.head? = k.ms.head? := by
      rw [z2, hsplit, List.head?_append_of_ne_nil _ hne]
    have hsub : z.ms.Sublist k.ms := by
      rw [z2, hsplit]
      exact List.sublist_append_left _ _
    have hz : RoomyKey w l z S := ⟨⟨fun m hm => hk.good.good m (hsub.subset hm), hk.good.coprime.sublist (hsub.map _), z4,
      by rw [hhead, z3]; exact hk.good.variance⟩, hk.words, by rw [z2]; exact hne, by rw [z3]; exact hk.positive,
      by rw [z3]; exact hk.atMost, by rw [hhead, z3]; exact hk.room⟩
    obtain ⟨y, y1, y2, y3, y4⟩ := ih (by omega) z2 hz
    refine ⟨y, ?_, y2, y3.trans z3, y4⟩
    unfold reduceKey
    rw [z1, Outcome.bind_ok, y1]

/-- **C108.** As `c105_program`, for programs with reductions in between, and Galois keys made from reduced secret keys as
well: messages are encrypted and keys are made with independent tapes of uniformly distributed bytes. This bounds the
probability that all keys and ciphertexts are returned, and that there is any program that reduces only ciphertexts with an
`Error()` of at least `t (1 + |s|_1 + ..)`, whose result has an `Error()` below half of the product of the moduli that are left,
and does not decrypt, under the secret key reduced as often, to what the program computes on the messages. -/
theorem c108_level_program [Fintype κ] [Fintype ν] (Gp : Gen τ) (est : Estimate) {e : FFEncoder} (he : GoodEncoder w l e)
    {top : ℕ} (hl : l ≤ 15) (hk : RoomyKey w l k S) (htop : top ≤ e.ctx.qs.length) (hms : e.ctx.qs.take top = k.ms)
    (hbig : ∀ m ∈ e.ctx.qs, 2 * e.ctx.t ≤ m.N) {P : RErrorParams}
    (hP : ParamsFor P l k.variance) (htP : e.ctx.t ≤ P.exportT) {g : RGadget} (hg : SmallGadget l k.ms g)
    {level reduced : ν → ℕ} (hlv : ∀ j, 0 < level j ∧ level j + reduced j = top) {lowKey : ν → RKey}
    (hlk : ∀ j, reduceKey (reduced j) k = .ok (lowKey j)) {lowGadget : ν → RGadget}
    (hlg : ∀ j, SmallGadget l (lowKey j).ms (lowGadget j)) {mss : List (List ℕ)}
    (hmsg : ∀ msgs ∈ mss, (∀ a ∈ msgs, a < 2 ^ w) ∧ msgs.length ≤ 2 ^ l ∧
      ∀ F : Fin (2 ^ l) → ℤ, (∀ j, 2 * |F j| ≤ e.ctx.t) →
        (∀ i < 2 ^ l, slotsOf (nttRoot l e.mt) l F i = ((msgs.getD i 0 : ℕ) : ZMod e.mt.N)) → SizeAtMost F P.bPlaintext)
    (fuel : ℕ) (prng : PrngType) (power : κ → ℕ) (lowPower : ν → ℕ) (spr : τ) (spg : κ → τ) (spl : ν → τ)
    (L : Fin 2 ⊕ κ ⊕ ν → ℕ) :
    tapesProbability L (fun t => ∃ xs s relin galois low,
      inSequence (mss.map fun msgs => RnsErrorTrack.encryptBgv P bytesSource fuel k (finiteFieldEncoder est e) msgs)
        (t (.inl 0)) = .ok (xs, s) ∧
      RRelin.create Gp bytesSource fuel k 2 k.variance g prng e.ctx.t spr (t (.inl 1)) = .ok relin ∧
      (∀ j, RGalois.create Gp bytesSource fuel k (power j) k.variance g prng e.ctx.t (spg j) (t (.inr (.inl j))) =
        .ok (galois j)) ∧
      (∀ j, RGalois.create Gp bytesSource fuel (lowKey j) (lowPower j) k.variance (lowGadget j) prng e.ctx.t (spl j)
        (t (.inr (.inr j))) = .ok (low j)) ∧
      ∃ (u : LevelProgram (Fin mss.length) κ ν) (M : RPoly → Fin (2 ^ l) → ℤ) (r : RTracked) (lev n W : ℕ) (hatInvs : List ℕ),
        u.PlainsOk w l k.ms P M ∧ 0 < lev ∧ lev + n = top ∧ u.AtLevel top level lev ∧
        u.Noisy (norm1 S) e.ctx P (fun i : Fin mss.length => xs.getD i ⟨⟨[], [], 0⟩, 0⟩) relin galois low ∧
        u.run e.ctx P (fun i : Fin mss.length => xs.getD i ⟨⟨[], [], 0⟩, 0⟩) relin galois low = .ok r ∧
        HatInvs (e.ctx.qs.take lev) hatInvs ∧
        (∀ m ∈ e.ctx.qs.take lev, modulusProd (e.ctx.qs.take lev) * m.N ≤ 2 ^ W) ∧
        2 * r.error < modulusProd (e.ctx.qs.take lev) ∧
        ¬ ∃ k', reduceKey n k = .ok k' ∧ k'.decryptBgvWithCrt W e r.ct (modulusComplements W k'.ms) hatInvs =
          .ok (List.ofFn fun i : Fin (2 ^ l) =>
            (u.eval (fun (j : Fin mss.length) i => (((mss.getD j []).getD i 0 : ℕ) : ZMod e.mt.N))
              (fun p i => slotsOf (nttRoot l e.mt) l (M p) i) power lowPower i).val)) ≤
      mss.length * (8 * 2 ^ l * exp (-30)) + (Fintype.card κ + 1) * exp (-(9 * 2 ^ l * g.dimension)) +
        ∑ j, exp (-(9 * 2 ^ l * (lowGadget j).dimension)) := by
  have htw : e.ctx.t < 2 ^ w := he.ctx.word
  obtain ⟨F, hF, hfresh⟩ := fresh_all est he hk hms hP htP htw hmsg fuel
  obtain ⟨Gs, hgad⟩ := hg.gadget
  choose lGs hlgad using fun j => (hlg j).gadget
  have hl31 : l < 31 := by omega
  have hlow : ∀ j, (lowKey j).ms = e.ctx.qs.take (level j) ∧ (lowKey j).variance = k.variance ∧
      RoomyKey w l (lowKey j) S := fun j => by
    obtain ⟨k', k1, k2, k3, k4⟩ := reduceKey_roomy (qs := e.ctx.qs) (hlv j).1 (reduced j) (by rw [(hlv j).2]; exact htop)
      (by rw [(hlv j).2]; exact hms.symm) hk
    rw [hlk j] at k1
    cases k1
    exact ⟨k2, k3, k4⟩
  have hlroom : ∀ j, ∀ m ∈ (lowKey j).ms.head?, 4 * k.variance < m.N := fun j => by
    rw [← (hlow j).2.1]; exact (hlow j).2.2.room
  let B : Fin 2 ⊕ κ ⊕ ν → List (Fin 256) → Prop
    | .inl 0 => fun t => ∃ xs s,
        inSequence (mss.map fun msgs => RnsErrorTrack.encryptBgv P bytesSource fuel k (finiteFieldEncoder est e) msgs) t =
          .ok (xs, s) ∧ ¬ ∀ i : Fin mss.length, ∃ E : Fin (2 ^ l) → ℤ, Fresh k (xs.getD i ⟨⟨[], [], 0⟩, 0⟩).ct ∧
            REstimated l S (xs.getD i ⟨⟨[], [], 0⟩, 0⟩) fun j => F i j + e.ctx.t * E j
    | .inl 1 => fun t => ∃ key, RRelin.create Gp bytesSource fuel k 2 k.variance g prng e.ctx.t spr t = .ok key ∧
        ¬ QuietRelin l S P e.ctx.t key
    | .inr (.inl j) => fun t => ∃ key,
        RGalois.create Gp bytesSource fuel k (power j) k.variance g prng e.ctx.t (spg j) t = .ok key ∧
          ¬ QuietGalois l S P e.ctx.t key
    | .inr (.inr j) => fun t => ∃ key,
        RGalois.create Gp bytesSource fuel (lowKey j) (lowPower j) k.variance (lowGadget j) prng e.ctx.t (spl j) t = .ok key ∧
          ¬ QuietGalois l S P e.ctx.t key
  refine (tapesProbability_le L (B := B) ?_).trans ?_
  · rintro t ⟨xs, s, relin, galois, low, h1, h2, h3, h4, u, M, r, lev, n, W, hatInvs, hu, hlev, htn, hv, hw, hr, hi, hW, hB,
      hbad⟩
    by_contra hc
    push Not at hc
    have b1 : ∀ i : Fin mss.length, ∃ E : Fin (2 ^ l) → ℤ, Fresh k (xs.getD i ⟨⟨[], [], 0⟩, 0⟩).ct ∧
        REstimated l S (xs.getD i ⟨⟨[], [], 0⟩, 0⟩) fun j => F i j + e.ctx.t * E j := by
      by_contra hn
      exact hc (.inl 0) ⟨xs, s, h1, hn⟩
    have b2 : QuietRelin l S P e.ctx.t relin := by
      by_contra hn
      exact hc (.inl 1) ⟨relin, h2, hn⟩
    have b3 : ∀ j, QuietGalois l S P e.ctx.t (galois j) := fun j => by
      by_contra hn
      exact hc (.inr (.inl j)) ⟨galois j, h3 j, hn⟩
    have b4 : ∀ j, QuietGalois l S P e.ctx.t (low j) := fun j => by
      by_contra hn
      exact hc (.inr (.inr j)) ⟨low j, h4 j, hn⟩
    choose E hE using b1
    obtain ⟨q1, q2, -⟩ := relin_drawn Gp hk.good hk.nonempty hgad hk.atMost hk.room htw h2
    have q3 := fun j => galois_drawn Gp hk.good hk.nonempty hgad hk.atMost hk.room htw (h3 j)
    have q4 := fun j => galois_drawn Gp (hlow j).2.2.good (hlow j).2.2.nonempty (hlgad j) hk.atMost (hlroom j) htw (h4 j)
    obtain ⟨k', k1, k2⟩ := c108_levels he hl htop hms.symm hk.nonempty hk.good.key hbig P hE b2 q2 q1 b3 (fun j => (q3 j).2.1)
      (fun j => (q3 j).1) (fun j => by have := (q3 j).2.2.2.2.1; omega)
      (fun j => by have := (q3 j).2.2.2.2.2.1; exact_mod_cast this) b4 (fun j => (q4 j).2.1.trans (hlow j).1)
      (fun j => (q4 j).1) (fun j => by have := (q4 j).2.2.2.2.1; omega)
      (fun j => by have := (q4 j).2.2.2.2.2.1; exact_mod_cast this) u hlev htn hv hu hw hW hi hr hB
    refine hbad ⟨k', k1, ?_⟩
    rw [k2]
    congr 2
    funext i
    congr 2
    funext j i
    exact hF j j.2 i
  · rw [Fintype.sum_sum_type, Fin.sum_univ_two, Fintype.sum_sum_type]
    have e1 := hfresh (L (.inl 0))
    have e2 := c105_relin Gp hk.good hk.nonempty hl31 hg hk.atMost hk.room hP htw htP fuel 2 prng spr (L (.inl 1))
    have e3 : ∑ j, bytesProbability (L (.inr (.inl j))) (B (.inr (.inl j))) ≤
        ∑ _j : κ, exp (-(9 * 2 ^ l * g.dimension : ℝ)) := Finset.sum_le_sum fun j _ =>
      c105_galois Gp hk.good hk.nonempty hl31 hg hk.atMost hk.room hP htw htP fuel (power j) prng (spg j) (L (.inr (.inl j)))
    have e4 : ∑ j, bytesProbability (L (.inr (.inr j))) (B (.inr (.inr j))) ≤
        ∑ j : ν, exp (-(9 * 2 ^ l * (lowGadget j).dimension : ℝ)) := Finset.sum_le_sum fun j _ =>
      c105_galois Gp (hlow j).2.2.good (hlow j).2.2.nonempty hl31 (hlg j) hk.atMost (hlroom j) hP htw htP fuel (lowPower j) prng
        (spl j) (L (.inr (.inr j)))
    rw [Finset.sum_const, Finset.card_univ, nsmul_eq_mul] at e3
    have e1' : bytesProbability (L (.inl 0)) (B (.inl 0)) ≤ mss.length * (8 * 2 ^ l * exp (-30)) := e1
    have e2' : bytesProbability (L (.inl 1)) (B (.inl 1)) ≤ exp (-(9 * 2 ^ l * g.dimension)) := e2
    linarith

end Shell
