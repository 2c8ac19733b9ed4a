import Verif.Spec.BfvKeyNoise
import Verif.Props.KeyNoise
/-!
# Property C105 for BFV: key switching within the error estimates

The keys for BFV ciphertexts are made with the factor 1 in place of the plaintext modulus, so that there is no condition on
the plaintext modulus.
-/

namespace Shell
open Spec Rns RnsErrorTrack NttRing Real
variable {ι κ τ : Type} {w l : ℕ} {S : Fin (2 ^ l) → ℤ} {k : RKey}

/-- What a run of the program keeps true. -/
structure BfvRunOk (l : ℕ) (S : Fin (2 ^ l) → ℤ) (ms : List Modulus) (t : ℕ) {N : ℕ} (zeta : ZMod N)
    (f : Fin (2 ^ l) → ZMod N) (s : ℝ) (r : RTracked) : Prop where
  moduli : r.ct.ms = ms
  power : r.ct.power = 1
  length : r.ct.c.length = 2
  value : ∃ Φ M : Fin (2 ^ l) → ℤ, Encrypts l S r.ct Φ ∧
    (∀ i, |((t * Φ i - modulusProd ms * M i : ℤ) : ℝ)| ≤ t * (r.error + s)) ∧
    ∀ i : Fin (2 ^ l), slotsOf zeta l M i = f i

theorem substPow_abs_real {p : ℕ} (hp : p % 2 = 1) {F : Fin (2 ^ l) → ℤ} {B : ℝ} (h : ∀ i, |(F i : ℝ)| ≤ B)
    (i : Fin (2 ^ l)) : |((substPow p F i : ℤ) : ℝ)| ≤ B := by
  haveI : NeZero (2 ^ l) := ⟨by positivity⟩
  have h0 : 0 ≤ B := (abs_nonneg _).trans (h 0)
  have h7 : ∀ i, |F i| ≤ (⌊B⌋₊ : ℕ) := fun i => by
    have h8 : ((|F i|.toNat : ℕ) : ℝ) ≤ B := by
      have h9 : ((|F i|.toNat : ℕ) : ℤ) = |F i| := Int.toNat_of_nonneg (abs_nonneg _)
      have h10 : ((|F i|.toNat : ℕ) : ℝ) = |(F i : ℝ)| := by exact_mod_cast congrArg (Int.cast (R := ℝ)) h9
      rw [h10]; exact h i
    have := Nat.le_floor h8
    omega
  have h8 := substPow_abs hp h7 i
  have h9 : |((substPow p F i : ℤ) : ℝ)| ≤ (⌊B⌋₊ : ℕ) := by exact_mod_cast h8
  exact h9.trans (Nat.floor_le h0)

theorem bfv_run_ok {ms : List Modulus} (hl : l ≤ 15) (h1 : 1 ≤ l) (hg : ∀ m ∈ ms, GoodModulus w l m)
    {N : ℕ} {zeta : ZMod N} (hz : zeta ^ 2 ^ l = -1) (P : RErrorParams) (est : Estimate) (c : Rns.Ctx) {t : ℕ}
    {x : ι → RTracked} {F : ι → Fin (2 ^ l) → ℤ} {M : RPoly → Fin (2 ^ l) → ℤ} {ρ : RPoly → ℝ}
    (hx : ∀ i, (x i).ct.ms = ms ∧ (x i).ct.power = 1 ∧ (x i).ct.c.length = 2 ∧ BfvEstimated l S t (x i) (F i) 0)
    {galois : κ → RGalois} {power : κ → ℕ} (hq : ∀ j, QuietGalois l S P 1 (galois j)) (hqm : ∀ j, (galois j).ms = ms)
    (hqp : ∀ j, (galois j).power = power j) (hodd : ∀ j, power j % 2 = 1) (hlt : ∀ j, power j < 2 * 2 ^ l)
    (u : BfvSwitchProgram ι κ) (hu : u.Linear P l t ms M ρ) :
    ∃ r, u.run P est c x galois = .ok r ∧ BfvRunOk l S ms t zeta
      (u.eval (fun j i => slotsOf zeta l (F j) i) (fun p i => slotsOf zeta l (M p) i) power) (u.lacking P ρ) r := by
  haveI : NeZero (2 ^ l) := ⟨by positivity⟩
  have hne : ∀ {y : RTracked}, y.ct.c.length = 2 → y.ct.c ≠ [] := fun h => List.length_pos_iff.mp (by omega)
  induction u with
  | compute u =>
    obtain ⟨r, r1, -, r3, r4, r5, Φ, r6, r7⟩ := c66_bfv_computation_partial hg (by norm_num) P est c hx u hu
    rw [r3] at r7
    exact ⟨r, r1, r3, r4, r5, Φ, _, r6, fun i => coeff_le_size r7 i, fun i => bslots_evalPoly hz h1 F M i u⟩
  | rotate j a ih =>
    obtain ⟨y, y1, y2, y3, y4, Φ, G, y5, y6, y7⟩ := ih hu
    have hlt' := hlt j
    have h16 : 2 ^ l ≤ 2 ^ 15 := Nat.pow_le_pow_right (by norm_num) hl
    obtain ⟨z, z1, z2, z3, z4, z5⟩ := c56_substitute_partial hl (by rw [y2]; exact hg) (hne y4) (power j) (hodd j) hlt'
      (by rw [y3]; omega) y5
    obtain ⟨r, R, r1, r2, r3, r4, r5, r6⟩ := hq j ⟨z, y.error⟩ (substPow (power j) Φ) (z2.trans (y2.trans (hqm j).symm))
      (by show z.power = _; rw [z3, y3, hqp, one_mul]; exact Int.emod_eq_of_lt (by positivity) (by exact_mod_cast hlt'))
      (z4.trans y4) z5
    refine ⟨r, ?_, r2.trans (hqm j), r3, r4, _, substPow (power j) G, r5, fun i => ?_, fun i => ?_⟩
    · simp only [BfvSwitchProgram.run, y1, Outcome.bind_ok, RTracked.substitute, hqp, z1]
      exact r1
    · have h2 := substPow_abs_real (hodd j) y6 i
      have h3 := r6 i
      have e : (t : ℤ) * (substPow (power j) Φ i + (1 : ℕ) * R i) - modulusProd ms * substPow (power j) G i =
          substPow (power j) (fun i => (t : ℤ) * Φ i - modulusProd ms * G i) i + t * R i := by
        have e1 := congrFun (substPow_lin l (power j) (t : ℤ) (-(modulusProd ms : ℤ)) Φ G) i
        rw [show (fun i => (t : ℤ) * Φ i - modulusProd ms * G i) =
          fun i => (t : ℤ) * Φ i + -(modulusProd ms : ℤ) * G i from funext fun i => by ring, e1]
        push_cast
        ring
      rw [e]
      have h4 := abs_add_le ((substPow (power j) (fun i => (t : ℤ) * Φ i - modulusProd ms * G i) i : ℤ) : ℝ)
        ((t * R i : ℤ) : ℝ)
      have h5 : |((t * R i : ℤ) : ℝ)| ≤ t * (r.error - y.error) := by
        push_cast at h3 ⊢
        rw [one_mul] at h3
        rw [abs_mul, Nat.abs_cast]
        exact mul_le_mul_of_nonneg_left h3 (Nat.cast_nonneg t)
      show _ ≤ t * (r.error + a.lacking P ρ)
      push_cast at h2 h4 h5 ⊢
      linarith
    · show _ = a.eval _ _ _ (slotSource l (power j) i)
      rw [← y7]
      exact slots_subst hz h1 G (power j) (SlotStore.source_spec h1 (hodd j) i).symm
  | neg a ih =>
    obtain ⟨y, y1, y2, y3, y4, Φ, G, y5, y6, y7⟩ := ih hu
    obtain ⟨z, c1, c2, c3, c4⟩ := c53_negate (by rw [y2]; exact hg) y5
    refine ⟨⟨z, y.error⟩, ?_, c2.1.trans y2, c2.2.trans y3, c3.trans y4, _, -G, c4, fun i => ?_, fun i => ?_⟩
    · simp only [BfvSwitchProgram.run, y1, Outcome.bind_ok, RTracked.negate, c1]
      rfl
    · have h2 := y6 i
      rw [← abs_neg] at h2
      refine le_trans (le_of_eq ?_) h2
      congr 1
      simp only [Pi.neg_apply]
      push_cast
      ring
    · show _ = -a.eval _ _ _ i
      rw [← y7]
      exact bslots_evalPoly hz h1 (fun _ : Unit => G) M i (.neg (.input ()))
  | add a b ia ib =>
    obtain ⟨y, y1, y2, y3, y4, Φ, G, y5, y6, y7⟩ := ia hu.1
    obtain ⟨z, z1, z2, z3, z4, Ψ, H, z5, z6, z7⟩ := ib hu.2
    obtain ⟨v, c1, c2, c3, c4⟩ := c53_add (by rw [y2]; exact hg) (z2.trans y2.symm) (z3.trans y3.symm)
      (z4.trans y4.symm) y5 z5
    refine ⟨⟨v, y.error + z.error⟩, ?_, c2.1.trans y2, c2.2.trans y3, c3.trans y4, _, G + H, c4, fun i => ?_, fun i => ?_⟩
    · simp only [BfvSwitchProgram.run, y1, z1, Outcome.bind_ok, RTracked.add, c1]
      rfl
    · have h5 := abs_add_le ((t * Φ i - modulusProd ms * G i : ℤ) : ℝ) ((t * Ψ i - modulusProd ms * H i : ℤ) : ℝ)
      have h6 := y6 i
      have h7 := z6 i
      have e : (t : ℤ) * (Φ + Ψ) i - modulusProd ms * (G + H) i =
          (t * Φ i - modulusProd ms * G i) + (t * Ψ i - modulusProd ms * H i) := by
        simp only [Pi.add_apply]; ring
      rw [e, Int.cast_add]
      show _ ≤ (t : ℝ) * (y.error + z.error + (a.lacking P ρ + b.lacking P ρ))
      linarith
    · show _ = a.eval _ _ _ i + b.eval _ _ _ i
      rw [← y7, ← z7]
      exact bslots_evalPoly hz h1 (fun c : Bool => if c then G else H) M i (.add (.input true) (.input false))
  | sub a b ia ib =>
    obtain ⟨y, y1, y2, y3, y4, Φ, G, y5, y6, y7⟩ := ia hu.1
    obtain ⟨z, z1, z2, z3, z4, Ψ, H, z5, z6, z7⟩ := ib hu.2
    obtain ⟨v, c1, c2, c3, c4⟩ := c53_sub (by rw [y2]; exact hg) (z2.trans y2.symm) (z3.trans y3.symm)
      (z4.trans y4.symm) y5 z5
    refine ⟨⟨v, y.error + z.error⟩, ?_, c2.1.trans y2, c2.2.trans y3, c3.trans y4, _, G - H, c4, fun i => ?_, fun i => ?_⟩
    · simp only [BfvSwitchProgram.run, y1, z1, Outcome.bind_ok, RTracked.sub, c1]
      rfl
    · have h5 := abs_sub ((t * Φ i - modulusProd ms * G i : ℤ) : ℝ) ((t * Ψ i - modulusProd ms * H i : ℤ) : ℝ)
      have h6 := y6 i
      have h7 := z6 i
      have e : (t : ℤ) * (Φ - Ψ) i - modulusProd ms * (G - H) i =
          (t * Φ i - modulusProd ms * G i) - (t * Ψ i - modulusProd ms * H i) := by
        simp only [Pi.sub_apply]; ring
      rw [e, Int.cast_sub]
      show _ ≤ (t : ℝ) * (y.error + z.error + (a.lacking P ρ + b.lacking P ρ))
      linarith
    · show _ = a.eval _ _ _ i - b.eval _ _ _ i
      rw [← y7, ← z7]
      exact bslots_evalPoly hz h1 (fun c : Bool => if c then G else H) M i (.sub (.input true) (.input false))

/-- C105: with Galois keys that stay within the estimates and BFV ciphertexts within their estimates, every program
succeeds; if `t` times the `Error()` of its result (and the noise of the encodings of the plaintexts that were added) is
below `(1/2 - ε) Q`, the result decrypts to what the program computes in the slots. -/
theorem c105_bfv_switching {ε : ℚ} {est : Estimate} {e : FFEncoder} (he : GoodEncoder w l e)
    (hb : BfvConstants e.ctx e.mt) (hl : l ≤ 15) {lev : ℕ} (hkm : k.ms = e.ctx.qs.take lev) (hne : k.ms ≠ [])
    (hk : KeyIs l k S) (hest : EstimateWithin k.ms.length ε est) (hε : ε < 1 / 2) (hlen : k.ms.length < 2 ^ w)
    (P : RErrorParams) {x : ι → RTracked} {F : ι → Fin (2 ^ l) → ℤ} {M : RPoly → Fin (2 ^ l) → ℤ} {ρ : RPoly → ℝ}
    (hx : ∀ i, Fresh k (x i).ct ∧ BfvEstimated l S e.ctx.t (x i) (F i) 0)
    {galois : κ → RGalois} {power : κ → ℕ} (hq : ∀ j, QuietGalois l S P 1 (galois j))
    (hqm : ∀ j, (galois j).ms = k.ms) (hqp : ∀ j, (galois j).power = power j) (hodd : ∀ j, power j % 2 = 1)
    (hlt : ∀ j, power j < 2 * 2 ^ l) (u : BfvSwitchProgram ι κ) (hu : u.Linear P l e.ctx.t k.ms M ρ) :
    ∃ r, u.run P est e.ctx x galois = .ok r ∧
      (e.ctx.t * (r.error + u.lacking P ρ) < (1 / 2 - ε) * modulusProd k.ms →
        k.decryptBfv (finiteFieldEncoder est e) r.ct =
          .ok (List.ofFn fun i : Fin (2 ^ l) => (u.eval (fun j i => slotsOf (nttRoot l e.mt) l (F j) i)
            (fun p i => slotsOf (nttRoot l e.mt) l (M p) i) power i).val)) := by
  have hg : ∀ q ∈ k.ms, GoodModulus w l q := fun q hq => by
    rw [hkm] at hq; exact he.ctx.qs q (List.mem_of_mem_take hq)
  obtain ⟨psi, tb⟩ := he.mt.tables
  have hz : nttRoot l e.mt ^ 2 ^ l = -1 := by
    rw [nttRoot_eq he.mt tb]; exact tb.root
  obtain ⟨r, r0, r1, r2, r3, Φ, G, r4, r5, r6⟩ := bfv_run_ok hl tb.l1 hg hz P est e.ctx
    (fun i => ⟨(hx i).1.1, (hx i).1.2.1, (hx i).1.2.2, (hx i).2⟩) hq hqm hqp hodd hlt u hu
  refine ⟨r, r0, fun hv => ?_⟩
  have h := (c57_decrypt hest hε he.ctx hb he.mt.create he.N hkm hne hlen hk r1 (List.length_pos_iff.mp (by omega)) r2
    (M := G) (v := (⌊e.ctx.t * (r.error + u.lacking P ρ)⌋ : ℤ)) ⟨Φ, r4, fun i => ?_⟩ ?_).2 e he rfl rfl
  · rw [h]
    congr 2
    funext i
    rw [r6]
  · have h4 : |(e.ctx.t : ℤ) * Φ i - modulusProd r.ct.ms * G i| ≤ ⌊e.ctx.t * (r.error + u.lacking P ρ)⌋ := by
      rw [Int.le_floor, r1]
      exact_mod_cast r5 i
    exact_mod_cast h4
  · have h5 := Int.floor_le (e.ctx.t * (r.error + u.lacking P ρ))
    have h6 : (((⌊e.ctx.t * (r.error + u.lacking P ρ)⌋ : ℤ) : ℚ) : ℝ) < (((1 / 2 - ε) * modulusProd k.ms : ℚ) : ℝ) := by
      push_cast
      exact h5.trans_lt hv
    exact Rat.cast_lt.mp h6

/-- Fresh BFV encryptions are within their estimates, up to a small probability. -/
theorem bfv_fresh_all (est : Estimate) {e : FFEncoder} (he : GoodEncoder w l e) (hb : BfvConstants e.ctx e.mt)
    (hk : RoomyKey w l k S) (hkm : k.ms = e.ctx.qs) {P : RErrorParams} (hP : ParamsFor P l k.variance) {mss : List (List ℕ)}
    (hmsg : ∀ msgs ∈ mss, (∀ a ∈ msgs, a < 2 ^ w) ∧ msgs.length ≤ 2 ^ l ∧
      ∀ F : Fin (2 ^ l) → ℕ, (∀ j, F j < e.ctx.t) →
        (∀ i < 2 ^ l, slotsOf (nttRoot l e.mt) l (fun j => (F j : ℤ)) i = ((msgs.getD i 0 : ℕ) : ZMod e.mt.N)) →
        SizeAtMost (fun j => e.ctx.t * ⌈(modulusProd k.ms * F j : ℚ) / e.ctx.t⌉ - modulusProd k.ms * F j)
          (e.ctx.t * P.bPlaintext)) (fuel : ℕ) :
    ∃ F : ℕ → Fin (2 ^ l) → ℕ, (∀ i < mss.length, ∀ j : Fin (2 ^ l),
        slotsOf (nttRoot l e.mt) l (fun j => (F i j : ℤ)) j = (((mss.getD i []).getD j 0 : ℕ) : ZMod e.mt.N)) ∧
      ∀ L, bytesProbability L (fun t => ∃ xs s,
        inSequence (mss.map fun msgs => RnsErrorTrack.encryptBfv1 P bytesSource fuel k (finiteFieldEncoder est e) msgs) t =
          .ok (xs, s) ∧ ¬ ∀ i : Fin mss.length, Fresh k (xs.getD i ⟨⟨[], [], 0⟩, 0⟩).ct ∧
            BfvEstimated l S e.ctx.t (xs.getD i ⟨⟨[], [], 0⟩, 0⟩) (fun j => (F i j : ℤ)) 0) ≤
        mss.length * (8 * 2 ^ l * exp (-30)) := by
  have hF' : ∀ i, ∃ (x : RPoly) (F : Fin (2 ^ l) → ℕ), i < mss.length →
      ffEncodeBfv e (mss.getD i []) k.ms true = .ok x ∧
      Represents l k.ms x (fun j => ⌈(modulusProd k.ms * F j : ℚ) / e.ctx.t⌉) ∧ (∀ j, F j < e.ctx.t) ∧
      ∀ j < 2 ^ l, slotsOf (nttRoot l e.mt) l (fun j => (F j : ℤ)) j =
        (((mss.getD i []).getD j 0 : ℕ) : ZMod e.mt.N) := by
    intro i
    by_cases h : i < mss.length
    · rw [List.getD_eq_getElem _ _ h, hkm]
      obtain ⟨h1, h2, -⟩ := hmsg mss[i] (List.getElem_mem _)
      obtain ⟨x, F, h1, -, h2⟩ := c50_encode_bfv he hb (by rw [← hkm]; exact hk.nonempty) h1 h2
      exact ⟨x, F, fun _ => ⟨h1, h2⟩⟩
    · exact ⟨⟨0, [], false⟩, 0, fun h' => absurd h' h⟩
  choose pts F hF' using hF'
  have hlen' : (mss.map fun msgs =>
      RnsErrorTrack.encryptBfv1 P bytesSource fuel k (finiteFieldEncoder est e) msgs).length = mss.length := by simp
  refine ⟨F, fun i hi j => (hF' i hi).2.2.2 j j.2, fun L => ?_⟩
  refine ((many_draws_tail hk ⟨⟨[], [], 0⟩, 0⟩
    (Φ := fun i j => ⌈(modulusProd k.ms * F i j : ℚ) / e.ctx.t⌉) (B := P.bSecretKey) (c := 1) (fuel := fuel)
    (fun i hi => ?_) (good := fun xs => ∀ i : Fin mss.length, Fresh k (xs.getD i ⟨⟨[], [], 0⟩, 0⟩).ct ∧
      BfvEstimated l S e.ctx.t (xs.getD i ⟨⟨[], [], 0⟩, 0⟩) (fun j => (F i j : ℤ)) 0) ?_ L).trans
      (le_of_eq (by rw [hlen'])))
  · rw [hlen'] at hi
    obtain ⟨h1, h2, -⟩ := hF' i hi
    rw [List.getD_eq_getElem _ _ hi] at h1
    rw [List.getElem_map]
    exact bfv_draws hk.good (enc := finiteFieldEncoder est e) h1 h2 P fuel
  · intro xs hxs i
    obtain ⟨c1, c2, E, c3, c4, -⟩ := hxs i (by rw [hlen']; exact i.2)
    refine ⟨c1, _, c3, ?_⟩
    obtain ⟨-, -, f3, f4⟩ := hF' i i.2
    have h1 := (hmsg (mss.getD i []) (by rw [List.getD_eq_getElem _ _ i.2]; exact List.getElem_mem _)).2.2 _ f3 f4
    have h2 := h1.add ((hP.size c4).smul (e.ctx.t : ℤ))
    rw [c1.1]
    have h3 : ((fun j => (e.ctx.t : ℤ) * ⌈(modulusProd k.ms * F i j : ℚ) / e.ctx.t⌉ - modulusProd k.ms * F i j) +
        fun j => (e.ctx.t : ℤ) * E j) = fun j => (e.ctx.t : ℤ) *
          (⌈(modulusProd k.ms * F i j : ℚ) / e.ctx.t⌉ + (1 : ℕ) * E j) - modulusProd k.ms * (F i j : ℤ) := by
      funext j
      simp only [Pi.add_apply]
      push_cast
      ring
    rw [h3] at h2
    refine h2.mono ?_
    rw [c2, bSecretKey_eq, Int.cast_natCast, Nat.abs_cast, ← mul_add, add_zero]
    refine mul_le_mul_of_nonneg_left (add_le_add_right ?_ _) (Nat.cast_nonneg _)
    have h4 := hP.one_le
    have h5 : 0 ≤ 6 * P.sigma * √P.dim := by have := hP.sigma_nonneg; positivity
    nlinarith

/-- C105: Galois keys and the BFV encryptions of lists of messages are made with independent tapes of uniformly distributed
bytes. This bounds the probability that all of them are returned, and that there is any program of absorptions, additions of
plaintexts, rotations, negations, additions and subtractions that fails, or returns a ciphertext with `t` times its `Error()`
(and the noise of the encodings of the plaintexts that were added) below `(1/2 - ε) Q` which does not decrypt to what the
program computes on the messages. -/
theorem c105_bfv_program [Fintype κ] (Gp : Gen τ) {ε : ℚ} {est : Estimate} {e : FFEncoder} (he : GoodEncoder w l e)
    (hb : BfvConstants e.ctx e.mt) (hl : l ≤ 15) (hk : RoomyKey w l k S) (hkm : k.ms = e.ctx.qs)
    (hest : EstimateWithin k.ms.length ε est) (hε : ε < 1 / 2) (hlen : k.ms.length < 2 ^ w) (hw : 0 < w) {P : RErrorParams}
    (hP : ParamsFor P l k.variance) {g : RGadget} (hg : SmallGadget l k.ms g) {mss : List (List ℕ)}
    (hmsg : ∀ msgs ∈ mss, (∀ a ∈ msgs, a < 2 ^ w) ∧ msgs.length ≤ 2 ^ l ∧
      ∀ F : Fin (2 ^ l) → ℕ, (∀ j, F j < e.ctx.t) →
        (∀ i < 2 ^ l, slotsOf (nttRoot l e.mt) l (fun j => (F j : ℤ)) i = ((msgs.getD i 0 : ℕ) : ZMod e.mt.N)) →
        SizeAtMost (fun j => e.ctx.t * ⌈(modulusProd k.ms * F j : ℚ) / e.ctx.t⌉ - modulusProd k.ms * F j)
          (e.ctx.t * P.bPlaintext))
    (fuel : ℕ) (prng : PrngType) (power : κ → ℕ) (spg : κ → τ) (L : Option κ → ℕ) :
    tapesProbability L (fun t => ∃ xs s galois,
      inSequence (mss.map fun msgs => RnsErrorTrack.encryptBfv1 P bytesSource fuel k (finiteFieldEncoder est e) msgs)
        (t none) = .ok (xs, s) ∧
      (∀ j, RGalois.create Gp bytesSource fuel k (power j) k.variance g prng 1 (spg j) (t (some j)) = .ok (galois j)) ∧
      ∃ (u : BfvSwitchProgram (Fin mss.length) κ) (M : RPoly → Fin (2 ^ l) → ℤ) (ρ : RPoly → ℝ),
        u.Linear P l e.ctx.t k.ms M ρ ∧
        ¬ ∃ r, u.run P est e.ctx (fun i : Fin mss.length => xs.getD i ⟨⟨[], [], 0⟩, 0⟩) galois = .ok r ∧
          (e.ctx.t * (r.error + u.lacking P ρ) < (1 / 2 - ε) * modulusProd k.ms →
            k.decryptBfv (finiteFieldEncoder est e) r.ct =
              .ok (List.ofFn fun i : Fin (2 ^ l) =>
                (u.eval (fun (j : Fin mss.length) i => (((mss.getD j []).getD i 0 : ℕ) : ZMod e.mt.N))
                  (fun p i => slotsOf (nttRoot l e.mt) l (M p) i) power i).val))) ≤
      mss.length * (8 * 2 ^ l * exp (-30)) + Fintype.card κ * exp (-(9 * 2 ^ l * g.dimension)) := by
  obtain ⟨F, hF, hfresh⟩ := bfv_fresh_all est he hb hk hkm hP hmsg fuel
  obtain ⟨Gs, hgad⟩ := hg.gadget
  have hl31 : l < 31 := by omega
  have h1w : 1 < 2 ^ w := Nat.one_lt_two_pow (by omega)
  have h1P : ((1 : ℕ) : ℝ) ≤ P.exportT := by simpa using hP.one_le
  let B : Option κ → List (Fin 256) → Prop
    | none => fun t => ∃ xs s,
        inSequence (mss.map fun msgs => RnsErrorTrack.encryptBfv1 P bytesSource fuel k (finiteFieldEncoder est e) msgs) t =
          .ok (xs, s) ∧ ¬ ∀ i : Fin mss.length, Fresh k (xs.getD i ⟨⟨[], [], 0⟩, 0⟩).ct ∧
            BfvEstimated l S e.ctx.t (xs.getD i ⟨⟨[], [], 0⟩, 0⟩) (fun j => (F i j : ℤ)) 0
    | some j => fun t => ∃ key,
        RGalois.create Gp bytesSource fuel k (power j) k.variance g prng 1 (spg j) t = .ok key ∧
          ¬ QuietGalois l S P 1 key
  refine (tapesProbability_le L (B := B) ?_).trans ?_
  · rintro t ⟨xs, s, galois, h1, h3, u, M, ρ, hu, hbad⟩
    by_contra hc
    push Not at hc
    have b1 : ∀ i : Fin mss.length, Fresh k (xs.getD i ⟨⟨[], [], 0⟩, 0⟩).ct ∧
        BfvEstimated l S e.ctx.t (xs.getD i ⟨⟨[], [], 0⟩, 0⟩) (fun j => (F i j : ℤ)) 0 := by
      by_contra hn
      exact hc none ⟨xs, s, h1, hn⟩
    have b3 : ∀ j, QuietGalois l S P 1 (galois j) := fun j => by
      by_contra hn
      exact hc (some j) ⟨galois j, h3 j, hn⟩
    have q3 := fun j => galois_drawn Gp hk.good hk.nonempty hgad hk.atMost hk.room h1w (h3 j)
    obtain ⟨r, r1, r2⟩ := c105_bfv_switching (lev := e.ctx.qs.length) he hb hl (by rw [hkm, List.take_length]) hk.nonempty
      hk.good.key hest hε hlen P b1 b3 (fun j => (q3 j).2.1) (fun j => (q3 j).1)
      (fun j => by have := (q3 j).2.2.2.2.1; omega)
      (fun j => by have := (q3 j).2.2.2.2.2.1; exact_mod_cast this) u hu
    refine hbad ⟨r, r1, fun hv => ?_⟩
    rw [r2 hv]
    congr 2
    funext i
    congr 2
    funext j i
    exact hF j j.2 i
  · rw [Fintype.sum_option]
    have e1 := hfresh (L none)
    have e3 : ∑ j, bytesProbability (L (some j)) (B (some j)) ≤
        ∑ _j : κ, exp (-(9 * 2 ^ l * g.dimension : ℝ)) := Finset.sum_le_sum fun j _ =>
      c105_galois Gp hk.good hk.nonempty hl31 hg hk.atMost hk.room hP h1w h1P fuel (power j) prng (spg j) (L (some j))
    rw [Finset.sum_const, Finset.card_univ, nsmul_eq_mul] at e3
    have e1' : bytesProbability (L none) (B none) ≤ mss.length * (8 * 2 ^ l * exp (-30)) := e1
    linarith

end Shell
