import Verif.Props.BfvKeyNoise
import Verif.Props.KeyNoiseExample
/-! The hypotheses of C105 for BFV are met. -/

namespace Shell
open Spec Rns RnsErrorTrack NttRing Real
variable {τ : Type}

/-- `c105_bfv_program` with keys for the powers 5 and 7, and any messages. -/
example (Gp : Gen τ) (spg : Bool → τ) : ∃ e k S g, k.ms = exMs3 ∧ RoomyKey 16 2 k S ∧ GoodEncoder 16 2 e ∧
    ∀ mss : List (List ℕ), (∀ msgs ∈ mss, (∀ a ∈ msgs, a < 2 ^ 16) ∧ msgs.length ≤ 4) → ∀ L : Option Bool → ℕ,
    tapesProbability L (fun t => ∃ xs s galois,
      inSequence (mss.map fun msgs =>
        RnsErrorTrack.encryptBfv1 ⟨2, 5, 1⟩ bytesSource 100 k (finiteFieldEncoder exactEstimate e) msgs) (t none) =
          .ok (xs, s) ∧
      (∀ j, RGalois.create Gp bytesSource 100 k ((if j then 5 else 7 : ℕ) : ℤ) k.variance g .hkdf 1 (spg j) (t (some j)) =
        .ok (galois j)) ∧
      ∃ (u : BfvSwitchProgram (Fin mss.length) Bool) (M : RPoly → Fin (2 ^ 2) → ℤ) (ρ : RPoly → ℝ),
        u.Linear ⟨2, 5, 1⟩ 2 e.ctx.t k.ms M ρ ∧
        ¬ ∃ r, u.run ⟨2, 5, 1⟩ exactEstimate e.ctx (fun i : Fin mss.length => xs.getD i ⟨⟨[], [], 0⟩, 0⟩) galois = .ok r ∧
          (e.ctx.t * (r.error + u.lacking ⟨2, 5, 1⟩ ρ) < (1 / 2 - (0 : ℚ)) * modulusProd k.ms →
            k.decryptBfv (finiteFieldEncoder exactEstimate e) r.ct =
              .ok (List.ofFn fun i : Fin (2 ^ 2) =>
                (u.eval (l := 2) (fun (j : Fin mss.length) i => (((mss.getD j []).getD i 0 : ℕ) : ZMod e.mt.N))
                  (fun p i => slotsOf (nttRoot 2 e.mt) 2 (M p) i) (fun j => if j then 5 else 7) i).val))) ≤
      mss.length * (8 * 2 ^ 2 * exp (-30)) + 2 * exp (-864) := by
  obtain ⟨e, he, hb, hq, -, ht⟩ := exBfvEncoder
  obtain ⟨k, S, hk, km, kv⟩ := exKey3_roomy
  obtain ⟨g, g1, -, g3⟩ := exGadget3
  rw [← km] at g3
  have hqs := exMs3_of he.ctx.qs hq
  refine ⟨e, k, S, g, km, hk, he, fun mss hm L => ?_⟩
  have hP : ParamsFor ⟨2, 5, 1⟩ 2 k.variance := by rw [kv]; exact exRErrorParams
  have e1 : exp (-(9 * 2 ^ 2 * (g.dimension : ℝ))) = exp (-864) := by rw [g1]; norm_num
  have e2 : ((Fintype.card Bool : ℕ) : ℝ) = 2 := by rw [Fintype.card_bool]; norm_num
  have hsize : ∀ F : Fin (2 ^ 2) → ℕ,
      SizeAtMost (fun j => e.ctx.t * ⌈(modulusProd k.ms * F j : ℚ) / e.ctx.t⌉ - modulusProd k.ms * F j)
        (e.ctx.t * (⟨2, 5, 1⟩ : RErrorParams).bPlaintext) := by
    intro F
    have hc := c57_encoding (l := 2) (Q := modulusProd k.ms) he.ctx.pos (fun j => (F j : ℤ))
    refine (size_of_coeff (B := 17) (by norm_num) (fun i => ?_)).mono ?_
    · have h1 := hc i
      rw [ht] at h1 ⊢
      simp only [Int.cast_natCast] at h1
      exact_mod_cast h1
    · have hdim : (⟨2, 5, 1⟩ : RErrorParams).dim = 4 := by unfold RErrorParams.dim; norm_num
      have h4 : √(4 : ℝ) = 2 := by rw [show (4 : ℝ) = 2 ^ 2 by norm_num]; exact Real.sqrt_sq (by norm_num)
      have h3 : (1.7 : ℝ) ≤ √(3 : ℝ) := by apply Real.le_sqrt_of_sq_le; norm_num
      rw [ht]
      unfold RErrorParams.bPlaintext RErrorParams.exportT
      rw [hdim, Real.sqrt_mul (by norm_num), h4]
      norm_num
      linarith
  have h := c105_bfv_program Gp he hb (by norm_num) hk (by rw [km, hqs]) (exactEstimate_within _) (by norm_num)
    (by rw [km]; decide) (by norm_num) hP g3 (mss := mss)
    (fun msgs h => ⟨(hm msgs h).1, (hm msgs h).2, fun F _ _ => hsize F⟩) 100 .hkdf (fun j => if j then 5 else 7) spg L
  rw [e1, e2] at h
  exact h

/-- Some tape leads to a Galois key for BFV. -/
example : (match (do
      let (k, _) ← RKey.sample listGen 2 1 exMs3 [1, 0, 0, 1, 1, 0, 1, 1]
      let g ← RGadget.create 2 [1, 1, 1] (exMs3.map fun m : Modulus => Mont.importInt m.p (modulusProd exMs3 / m.N))
        (exMs3.map fun m : Modulus => Mont.multiplicativeInverse m.p (Mont.importInt m.p (modulusProd exMs3 / m.N))) exMs3
      let tape := (List.range 200).map (Fin.ofNat 256)
      RGalois.create bytesSource bytesSource 100 k 5 1 g .hkdf 1 (List.replicate 1000 4) tape) with
    | .ok _ => true | _ => false) = true := by decide +kernel

/-- A program that meets the conditions of `c105_bfv_program`: the sum of two ciphertexts and its rotation. -/
example {k : RKey} {S : Fin (2 ^ 2) → ℤ} (hk : RoomyKey 16 2 k S) (km : k.ms = exMs3) {x y : RTracked} (hx : Fresh k x.ct)
    (hy : Fresh k y.ct) {F G : Fin (2 ^ 2) → ℤ} (ex : BfvEstimated 2 S 17 x F 0) (ey : BfvEstimated 2 S 17 y G 0)
    (e1 : x.error = (⟨2, 5, 1⟩ : RErrorParams).bSecretKey) (e2 : y.error = (⟨2, 5, 1⟩ : RErrorParams).bSecretKey)
    {galois : RGalois} (hq : QuietGalois 2 S ⟨2, 5, 1⟩ 1 galois) (qm : galois.ms = k.ms) (qp : galois.power = (5 : ℕ))
    (qd : galois.gadget.dimension = 24) (qb : logGadgetBase galois.gadget = .ok 1) (est : Estimate) (c : Rns.Ctx)
    (M : RPoly → Fin (2 ^ 2) → ℤ) (ρ : RPoly → ℝ) :
    (BfvSwitchProgram.rotate () (.compute (.add (.input true) (.input false)))).Linear ⟨2, 5, 1⟩ 2 17 k.ms M ρ ∧
    ∃ r, (BfvSwitchProgram.rotate () (.compute (.add (.input true) (.input false)))).run ⟨2, 5, 1⟩ est c
      (fun b => if b then x else y) (fun _ => galois) = .ok r ∧
      17 * (r.error + (BfvSwitchProgram.rotate () (.compute (.add (.input true) (.input false)))).lacking ⟨2, 5, 1⟩ ρ) <
        1 / 2 * modulusProd k.ms := by
  have hg := hk.good.good
  have hQ : modulusProd k.ms = 4811297 := by rw [km]; decide +kernel
  obtain ⟨Φ, ex, -⟩ := ex
  obtain ⟨Ψ, ey, -⟩ := ey
  obtain ⟨a, c1, c2, c3, c4⟩ := c53_add (by rw [hx.1]; exact hg) (hy.1.trans hx.1.symm)
    (hy.2.1.trans hx.2.1.symm) (hy.2.2.trans hx.2.2.symm) ex ey
  have ha : a.c.length = 2 := c3.trans hx.2.2
  have hp : a.power = 1 := c2.2.trans hx.2.1
  obtain ⟨s, s1, s2, s3, s4, s5⟩ := c56_substitute_partial (by norm_num) (by rw [c2.1, hx.1]; exact hg)
    (List.length_pos_iff.mp (by omega)) 5 (by norm_num) (by norm_num) (by rw [hp]; norm_num) c4
  obtain ⟨r, R', r1, r2, r3, r4, r5, -⟩ := hq ⟨s, x.error + y.error⟩ _ (s2.trans (c2.1.trans (hx.1.trans qm.symm)))
    (by show s.power = _; rw [s3, hp, qp]; norm_num) (s4.trans ha) s5
  refine ⟨⟨trivial, trivial⟩, r, ?_, ?_⟩
  · simp only [BfvSwitchProgram.run, BCircuit.runTracked, Outcome.bind_ok, if_true, Bool.false_eq_true, if_false,
      RTracked.add, c1, pure, RTracked.substitute, qp, s1]
    exact r1
  · have hr : r.error = x.error + y.error + 8 / √3 * 4800 := by
      obtain ⟨_, _, r1⟩ := Outcome.bind_eq_ok.mp r1
      have hb : (⟨2, 5, 1⟩ : RErrorParams).boundOnKeySwitching 1 1 24 = .ok (8 / √3 * 4800) := by
        unfold RErrorParams.boundOnKeySwitching RErrorParams.exportT shl1
        rw [if_pos (by norm_num), if_pos (by norm_num)]
        show Outcome.ok _ = _
        congr 1
        push_cast
        ring
      rw [qb, Outcome.bind_ok, qd, hb, Outcome.bind_ok] at r1
      cases r1
      rfl
    have hl : (BfvSwitchProgram.rotate () (.compute (.add (.input true) (.input false)))).lacking
        (⟨2, 5, 1⟩ : RErrorParams) ρ = 0 := by
      show (0 : ℝ) + 0 = 0
      norm_num
    have hdim : (⟨2, 5, 1⟩ : RErrorParams).dim = 4 := by unfold RErrorParams.dim; norm_num
    have h4 : √(4 : ℝ) = 2 := by rw [show (4 : ℝ) = 2 ^ 2 by norm_num]; exact Real.sqrt_sq (by norm_num)
    have h3 : √(3 : ℝ) ≤ 2 := by rw [Real.sqrt_le_left (by norm_num)]; norm_num
    have h3' : 1 ≤ √(3 : ℝ) := by rw [Real.one_le_sqrt]; norm_num
    have h8 : 8 / √(3 : ℝ) ≤ 8 := div_le_self (by norm_num) h3'
    have hB : (⟨2, 5, 1⟩ : RErrorParams).bSecretKey = 50 * √3 + 300 := by
      rw [bSecretKey_eq]
      unfold RErrorParams.bPlaintext RErrorParams.exportT
      rw [hdim, Real.sqrt_mul (by norm_num), h4]
      norm_num
      ring
    rw [hl, hr, e1, e2, hB, hQ]
    push_cast
    linarith

end Shell
