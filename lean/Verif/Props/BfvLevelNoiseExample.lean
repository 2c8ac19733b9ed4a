import Verif.Props.BfvLevelNoise
import Verif.Props.BfvKeyNoiseExample
import Verif.Props.LevelNoiseExample
/-! The hypotheses of C108 for BFV are met. -/

namespace Shell
open Spec Rns RnsErrorTrack NttRing Real
variable {τ : Type}

/-- `c108_bfv_program` with keys for the powers 5 and 7, and any messages. -/
example (Gp : Gen τ) (spg : Bool → τ) : ∃ e k S g, k.ms = exMs3 ∧ RoomyKey 16 2 k S ∧ GoodEncoder 16 2 e ∧
    ∀ mss : List (List ℕ), (∀ msgs ∈ mss, (∀ a ∈ msgs, a < 2 ^ 16) ∧ msgs.length ≤ 4) → ∀ L : Option Bool → ℕ,
    tapesProbability L (fun t => ∃ xs s galois,
      inSequence (mss.map fun msgs =>
        RnsErrorTrack.encryptBfv1 ⟨2, 5, 1⟩ bytesSource 100 k (finiteFieldEncoder exactEstimate e) msgs) (t none) =
          .ok (xs, s) ∧
      (∀ j, RGalois.create Gp bytesSource 100 k ((if j then 5 else 7 : ℕ) : ℤ) k.variance g .hkdf 1 (spg j) (t (some j)) =
        .ok (galois j)) ∧
      ∃ (u : BfvSwitchProgram (Fin mss.length) Bool) (M : RPoly → Fin (2 ^ 2) → ℤ) (ρ : RPoly → ℝ),
        u.Linear ⟨2, 5, 1⟩ 2 e.ctx.t k.ms M ρ ∧ ∃ lev n, 0 < lev ∧ lev + n = k.ms.length ∧ EstimateWithin lev (0 : ℚ) exactEstimate ∧
        ¬ ∃ r, u.run ⟨2, 5, 1⟩ exactEstimate e.ctx (fun i : Fin mss.length => xs.getD i ⟨⟨[], [], 0⟩, 0⟩) galois = .ok r ∧
          (∑ j ∈ Finset.range r.ct.c.length, (norm1 S : ℝ) ^ j ≤ r.error + u.lacking ⟨2, 5, 1⟩ ρ →
            ∃ k' y, reduceKey n k = .ok k' ∧ reduceTimesBfv e.ctx n r = .ok y ∧ y.error = r.error ∧
              (e.ctx.t * (y.error + u.lacking ⟨2, 5, 1⟩ ρ) < (1 / 2 - (0 : ℚ)) * modulusProd (e.ctx.qs.take lev) →
                k'.decryptBfv (finiteFieldEncoder exactEstimate e) y.ct =
                  .ok (List.ofFn fun i : Fin (2 ^ 2) =>
                    (u.eval (l := 2) (fun (j : Fin mss.length) i => (((mss.getD j []).getD i 0 : ℕ) : ZMod e.mt.N))
                      (fun p i => slotsOf (nttRoot 2 e.mt) 2 (M p) i) (fun j => if j then 5 else 7) i).val)))) ≤
      mss.length * (8 * 2 ^ 2 * exp (-30)) + 2 * exp (-864) := by
  obtain ⟨e, he, hb, hq, -, ht⟩ := exBfvEncoder
  obtain ⟨k, S, hk, km, kv⟩ := exKey3_roomy
  obtain ⟨g, g1, -, g3⟩ := exGadget3
  rw [← km] at g3
  have hqs := exMs3_of he.ctx.qs hq
  refine ⟨e, k, S, g, km, hk, he, fun mss hm L => ?_⟩
  have hP : ParamsFor ⟨2, 5, 1⟩ 2 k.variance := by rw [kv]; exact exRErrorParams
  have e1 : exp (-(9 * 2 ^ 2 * (g.dimension : ℝ))) = exp (-864) := by rw [g1]; norm_num
  have e2 : ((Fintype.card Bool : ℕ) : ℝ) = 2 := by rw [Fintype.card_bool]; norm_num
  have hsize : ∀ F : Fin (2 ^ 2) → ℕ,
      SizeAtMost (fun j => e.ctx.t * ⌈(modulusProd k.ms * F j : ℚ) / e.ctx.t⌉ - modulusProd k.ms * F j)
        (e.ctx.t * (⟨2, 5, 1⟩ : RErrorParams).bPlaintext) := by
    intro F
    have hc := c57_encoding (l := 2) (Q := modulusProd k.ms) he.ctx.pos (fun j => (F j : ℤ))
    refine (size_of_coeff (B := 17) (by norm_num) (fun i => ?_)).mono ?_
    · have h1 := hc i
      rw [ht] at h1 ⊢
      simp only [Int.cast_natCast] at h1
      exact_mod_cast h1
    · have hdim : (⟨2, 5, 1⟩ : RErrorParams).dim = 4 := by unfold RErrorParams.dim; norm_num
      have h4 : √(4 : ℝ) = 2 := by rw [show (4 : ℝ) = 2 ^ 2 by norm_num]; exact Real.sqrt_sq (by norm_num)
      have h3 : (1.7 : ℝ) ≤ √(3 : ℝ) := by apply Real.le_sqrt_of_sq_le; norm_num
      rw [ht]
      unfold RErrorParams.bPlaintext RErrorParams.exportT
      rw [hdim, Real.sqrt_mul (by norm_num), h4]
      norm_num
      linarith
  have h := c108_bfv_program (ε := 0) (est := exactEstimate) Gp he hb (by norm_num) hk (by rw [km, hqs]) (by norm_num)
    (by rw [km]; decide) (by norm_num) hP g3 (mss := mss)
    (fun msgs h => ⟨(hm msgs h).1, (hm msgs h).2, fun F _ _ => hsize F⟩) 100 .hkdf (fun j => if j then 5 else 7) spg L
  rw [e1, e2] at h
  exact h

/-- `c108_bfv_decrypt` for a fresh ciphertext, which is already noisy enough here: it can be reduced to the moduli 97 and 193,
and decrypts there. -/
example : ∃ e k S, GoodEncoder 16 2 e ∧ k.ms = exMs3 ∧ GoodKey 16 2 k S ∧ ∀ (x : RTracked) (F : Fin (2 ^ 2) → ℤ), Fresh k x.ct →
    BfvEstimated 2 S e.ctx.t x F 0 → x.error = (⟨2, 5, 1⟩ : RErrorParams).bSecretKey →
    ∃ k' y, reduceKey 1 k = .ok k' ∧ reduceTimesBfv e.ctx 1 x = .ok y ∧
      k'.decryptBfv (finiteFieldEncoder exactEstimate e) y.ct =
        .ok (List.ofFn fun i : Fin (2 ^ 2) => (slotsOf (nttRoot 2 e.mt) 2 F i).val) := by
  obtain ⟨e, he, hc, hq, -, ht⟩ := exBfvEncoder
  obtain ⟨k, S, -, hk, km, kv, hS⟩ := exKey3
  obtain ⟨hqs, -⟩ := exLevels he hq ht
  have hl : e.ctx.qs.length = 3 := by rw [hqs]; rfl
  have hQ : modulusProd (e.ctx.qs.take 2) = 18721 := by rw [hqs]; decide +kernel
  refine ⟨e, k, S, he, km, hk, fun x F hx hF e1 => ?_⟩
  obtain ⟨Φ, f1, f2⟩ := hF
  haveI : NeZero (2 ^ 2) := ⟨by norm_num⟩
  have hdim : (⟨2, 5, 1⟩ : RErrorParams).dim = 4 := by unfold RErrorParams.dim; norm_num
  have h4 : √(4 : ℝ) = 2 := by rw [show (4 : ℝ) = 2 ^ 2 by norm_num]; exact Real.sqrt_sq (by norm_num)
  have h3 : √(3 : ℝ) ≤ 2 := by rw [Real.sqrt_le_left (by norm_num)]; norm_num
  have h3' : 0 ≤ √(3 : ℝ) := Real.sqrt_nonneg _
  have hB : (⟨2, 5, 1⟩ : RErrorParams).bSecretKey = 50 * √3 + 300 := by
    rw [bSecretKey_eq]
    unfold RErrorParams.bPlaintext RErrorParams.exportT
    rw [hdim, Real.sqrt_mul (by norm_num), h4]
    norm_num
    ring
  have hn : (norm1 S : ℝ) ≤ 8 := by
    have : norm1 S ≤ 8 := by
      unfold norm1
      refine (Finset.sum_le_card_nsmul _ _ 2 fun i _ => hS i).trans ?_
      simp
    exact_mod_cast this
  obtain ⟨k', y, y1, y2, y3, y4⟩ := c108_bfv_decrypt (lev := 2) (ε := 0) (M := F) (s := 0) he hc (by norm_num) 1 (by omega)
    (by rw [km, hqs]; rfl) hk.key (exactEstimate_within 2) (by norm_num) (by norm_num) hx.1 hx.2.1
    (List.length_pos_iff.mp (by have := hx.2.2; omega)) f1 (fun i => by
      have := coeff_le_size f2 i
      rw [hx.1] at this
      exact_mod_cast this) (by
      rw [hx.2.2, Finset.sum_range_succ, Finset.sum_range_one, pow_zero, pow_one, e1, hB]
      linarith)
  refine ⟨k', y, y1, y2, y4 ?_⟩
  rw [y3, e1, hB, hQ, ht]
  push_cast
  linarith

end Shell
