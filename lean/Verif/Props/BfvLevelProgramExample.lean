import Verif.Props.BfvLevelProgram
import Verif.Props.BfvKeyNoiseExample
import Verif.Props.LevelNoiseExample
/-! The hypotheses of C108 on BFV programs with reductions in between are met. -/

namespace Shell
open Spec Rns RnsErrorTrack NttRing Real
variable {τ ι : Type}

/-- `c108_bfv_level_program` with keys for the powers 5 and 7 and the moduli 97, 193 and 257, a key for the power 3 and the
moduli 97 and 193, and any messages. -/
example (Gp : Gen τ) (spg : Bool → τ) (spl : Unit → τ) : ∃ e k S g lowKey lowGadget, k.ms = exMs3 ∧ RoomyKey 16 2 k S ∧
    GoodEncoder 16 2 e ∧ reduceKey 1 k = .ok lowKey ∧ ∀ mss : List (List ℕ),
    (∀ msgs ∈ mss, (∀ a ∈ msgs, a < 2 ^ 16) ∧ msgs.length ≤ 4) → ∀ L : Option (Bool ⊕ Unit) → ℕ,
    tapesProbability L (fun t => ∃ xs s galois low,
      inSequence (mss.map fun msgs =>
        RnsErrorTrack.encryptBfv1 ⟨2, 5, 1⟩ bytesSource 100 k (finiteFieldEncoder exactEstimate e) msgs) (t none) =
          .ok (xs, s) ∧
      (∀ j, RGalois.create Gp bytesSource 100 k ((if j then 5 else 7 : ℕ) : ℤ) k.variance g .hkdf 1 (spg j)
        (t (some (.inl j))) = .ok (galois j)) ∧
      (∀ j, RGalois.create Gp bytesSource 100 lowKey (3 : ℕ) k.variance lowGadget .hkdf 1 (spl j)
        (t (some (.inr j))) = .ok (low j)) ∧
      ∃ (u : BfvLevelProgram (Fin mss.length) Bool Unit) (M : RPoly → Fin (2 ^ 2) → ℤ) (ρ : RPoly → ℝ) (lev n : ℕ),
        u.Linear ⟨2, 5, 1⟩ 2 e.ctx.t k.ms M ρ ∧ 0 < lev ∧ lev + n = k.ms.length ∧
        EstimateWithin lev (0 : ℚ) exactEstimate ∧ u.AtLevel k.ms.length (fun _ => 2) lev ∧
        u.Noisy (norm1 S) ⟨2, 5, 1⟩ ρ exactEstimate e.ctx (fun i : Fin mss.length => xs.getD i ⟨⟨[], [], 0⟩, 0⟩) galois low ∧
        ¬ ∃ k' r, reduceKey n k = .ok k' ∧
          u.run ⟨2, 5, 1⟩ exactEstimate e.ctx (fun i : Fin mss.length => xs.getD i ⟨⟨[], [], 0⟩, 0⟩) galois low = .ok r ∧
          (e.ctx.t * (r.error + u.lacking ⟨2, 5, 1⟩ ρ) < (1 / 2 - (0 : ℚ)) * modulusProd (e.ctx.qs.take lev) →
            k'.decryptBfv (finiteFieldEncoder exactEstimate e) r.ct =
              .ok (List.ofFn fun i : Fin (2 ^ 2) =>
                (u.eval (l := 2) (fun (j : Fin mss.length) i => (((mss.getD j []).getD i 0 : ℕ) : ZMod e.mt.N))
                  (fun p i => slotsOf (nttRoot 2 e.mt) 2 (M p) i) (fun j => if j then 5 else 7) (fun _ => 3) i).val))) ≤
      mss.length * (8 * 2 ^ 2 * exp (-30)) + 2 * exp (-864) + exp (-540) := by
  obtain ⟨e, he, hb, hq, -, ht⟩ := exBfvEncoder
  obtain ⟨k, S, hk, km, kv⟩ := exKey3_roomy
  obtain ⟨g, g1, -, g3⟩ := exGadget3
  rw [← km] at g3
  obtain ⟨hqs, -⟩ := exLevels he hq ht
  have hl : e.ctx.qs.length = 3 := by rw [hqs]; rfl
  have hlev : e.ctx.qs.take 3 = k.ms := by rw [List.take_of_length_le hl.le, hqs, km]
  obtain ⟨k', k1, k2, k3, k4⟩ := reduceKey_roomy (qs := e.ctx.qs) (lev := 2) (by norm_num) 1 (by omega) hlev.symm hk
  obtain ⟨hats, hatInvs, g', -, -, -, d1, d2, d3⟩ := c105_gadget he.ctx (by norm_num) (by norm_num) (level := 1)
    (by omega) (logBs := [1, 1]) rfl (by decide)
  have hd : g'.dimension = 15 := by
    unfold RGadget.dimension
    rw [d2, hqs]
    decide +kernel
  have hlen : k.ms.length = 3 := by rw [km]; rfl
  refine ⟨e, k, S, g, k', g', km, hk, he, k1, fun mss hm L => ?_⟩
  have hP : ParamsFor ⟨2, 5, 1⟩ 2 k.variance := by rw [kv]; exact exRErrorParams
  have e1 : exp (-(9 * 2 ^ 2 * (g.dimension : ℝ))) = exp (-864) := by rw [g1]; norm_num
  have e2 : ((Fintype.card Bool : ℕ) : ℝ) = 2 := by rw [Fintype.card_bool]; norm_num
  have e3 : ∑ _j : Unit, exp (-(9 * 2 ^ 2 * (g'.dimension : ℝ))) = exp (-540) := by
    rw [Fintype.sum_unique, hd]; norm_num
  have hsize : ∀ F : Fin (2 ^ 2) → ℕ,
      SizeAtMost (fun j => e.ctx.t * ⌈(modulusProd k.ms * F j : ℚ) / e.ctx.t⌉ - modulusProd k.ms * F j)
        (e.ctx.t * (⟨2, 5, 1⟩ : RErrorParams).bPlaintext) := by
    intro F
    have hc := c57_encoding (l := 2) (Q := modulusProd k.ms) he.ctx.pos (fun j => (F j : ℤ))
    refine (size_of_coeff (B := 17) (by norm_num) (fun i => ?_)).mono ?_
    · have h1 := hc i
      rw [ht] at h1 ⊢
      simp only [Int.cast_natCast] at h1
      exact_mod_cast h1
    · have hdim : (⟨2, 5, 1⟩ : RErrorParams).dim = 4 := by unfold RErrorParams.dim; norm_num
      have h4 : √(4 : ℝ) = 2 := by rw [show (4 : ℝ) = 2 ^ 2 by norm_num]; exact Real.sqrt_sq (by norm_num)
      have h3 : (1.7 : ℝ) ≤ √(3 : ℝ) := by apply Real.le_sqrt_of_sq_le; norm_num
      rw [ht]
      unfold RErrorParams.bPlaintext RErrorParams.exportT
      rw [hdim, Real.sqrt_mul (by norm_num), h4]
      norm_num
      linarith
  have h := c108_bfv_level_program (ν := Unit) (ε := 0) (est := exactEstimate) Gp he hb (by norm_num) hk (by rw [km, hqs])
    (by norm_num) (by rw [hlen]; norm_num) (by norm_num) hP g3 (level := fun _ => 2) (reduced := fun _ => 1)
    (fun _ => by rw [hlen]; norm_num) (lowKey := fun _ => k') (fun _ => k1) (lowGadget := fun _ => g')
    (fun _ => by rw [k2]; exact d3) (mss := mss)
    (fun msgs h => ⟨(hm msgs h).1, (hm msgs h).2, fun F _ _ => hsize F⟩) 100 .hkdf (fun j => if j then 5 else 7) (fun _ => 3)
    spg spl L
  rw [e1, e2, e3] at h
  exact h

/-- A program that meets the conditions of `c108_bfv_levels`: a rotation, a reduction, and a rotation with the key for the
moduli that are left. -/
example {S : Fin (2 ^ 2) → ℤ} (hS : (norm1 S : ℝ) ≤ 8 / √3 * √(1 : ℤ) * 2 ^ 2) (est : Estimate) (ctx : Rns.Ctx)
    (x : ι → RTracked) (i : ι) (hx0 : 0 ≤ (x i).error) (galois : Bool → RGalois)
    (low : Unit → RGalois) (hg : SmallGadget 2 exMs3 (galois true).gadget) (hb : ∀ b ∈ (galois true).gadget.logBs, 0 < b)
    (hd : 0 < (galois true).gadget.dimension) (M : RPoly → Fin (2 ^ 2) → ℤ) :
    let u : BfvLevelProgram ι Bool Unit := .rotate () (.reduce (.start (.rotate true (.compute (.input i)))))
    u.AtLevel 3 (fun _ => 2) 2 ∧ u.Linear ⟨2, 5, 1⟩ 2 17 exMs3 M (fun _ => 0) ∧
      u.Noisy (norm1 S) ⟨2, 5, 1⟩ (fun _ => 0) est ctx x galois low := by
  refine ⟨⟨rfl, by norm_num, rfl⟩, trivial, trivial, fun y h => ?_⟩
  obtain ⟨a, ha, h⟩ := Outcome.bind_eq_ok.mp h
  cases ha
  obtain ⟨b, hb', h⟩ := Outcome.bind_eq_ok.mp h
  have hb0 : b.error = (x i).error := by
    obtain ⟨c, -, e⟩ := Outcome.bind_eq_ok.mp hb'
    cases e
    rfl
  have h2 := c108_rotated (v := 1) (t := 1) (by simpa using exRErrorParams) one_pos (by norm_num) hg hb hd hS
    (by unfold RErrorParams.exportT; norm_num) (by rw [hb0]; exact hx0) h
  rw [Finset.sum_range_succ, Finset.sum_range_one, pow_zero, pow_one, Nat.cast_one, one_mul] at h2
  show 1 + (norm1 S : ℝ) ≤ y.error + 0
  linarith

end Shell
