import Verif.Props.LevelNoise
import Verif.Props.KeyNoiseExample
/-! The hypotheses of C108 are met. -/

namespace Shell
open Spec Rns RnsErrorTrack NttRing Real
variable {τ : Type}

/-- `c108_key` for the moduli 97, 193 and 257 and variance 1. -/
example (L : ℕ) : bytesProbability L (fun s => ∃ k s', RKey.sample bytesSource (2 : ℕ) 1 exMs3 s = .ok (k, s') ∧
    ¬ ∃ S, KeyIs 2 k S ∧ (norm1 S : ℝ) ≤ 8 / √3 * √(1 : ℤ) * 2 ^ 2) ≤ exp (-(9 * 2 ^ 2)) := by
  obtain ⟨k, S, hk, km, kv⟩ := exKey3_roomy
  refine c108_key (w := 16) (by rw [← km]; exact hk.good.good) (by rw [← km]; exact hk.nonempty) one_pos (by norm_num) ?_ L
  rw [← km]
  exact kv ▸ hk.room

/-- A tape that leads to a key. -/
example : (match RKey.sample bytesSource (2 : ℕ) 1 exMs3 ((List.range 200).map (Fin.ofNat 256)) with
    | .ok _ => true | _ => false) = true := by decide +kernel

theorem exLevels {e : FFEncoder} (he : GoodEncoder 16 2 e) (hq : e.ctx.qs.map (·.N) = [97, 193, 257]) (ht : e.ctx.t = 17) :
    e.ctx.qs = exMs3 ∧ ∀ m ∈ e.ctx.qs, 2 * e.ctx.t ≤ m.N := by
  have hqs := exMs3_of he.ctx.qs hq
  refine ⟨hqs, fun m hm => ?_⟩
  have : m.N ∈ [97, 193, 257] := by rw [← hq]; exact List.mem_map_of_mem hm
  rw [ht]
  simp at this
  omega

/-- `c108_decrypt` for a fresh ciphertext, which is already noisy enough here: it can be reduced to the moduli 97 and 193,
and decrypts there. -/
example : ∃ e k S, GoodEncoder 16 2 e ∧ k.ms = exMs3 ∧ GoodKey 16 2 k S ∧ ∀ (x : RTracked) (F : Fin (2 ^ 2) → ℤ), Fresh k x.ct →
    Encrypts 2 S x.ct F → x.error = (⟨2, 5, 1⟩ : RErrorParams).bSecretKey → (∀ i, |(F i : ℝ)| ≤ x.error) →
    ∃ hatInvs k' y, reduceKey 1 k = .ok k' ∧ reduceTimes e.ctx 1 x = .ok y ∧
      k'.decryptBgvWithCrt 32 e y.ct (modulusComplements 32 k'.ms) hatInvs =
        .ok (List.ofFn fun i : Fin (2 ^ 2) => (slotsOf (nttRoot 2 e.mt) 2 F i).val) := by
  obtain ⟨e, he, -, hq, -, ht⟩ := exBfvEncoder
  obtain ⟨k, S, -, hk, km, kv, hS⟩ := exKey3
  obtain ⟨hqs, hbig⟩ := exLevels he hq ht
  have hl : e.ctx.qs.length = 3 := by rw [hqs]; rfl
  obtain ⟨⟨a, -, ha⟩, -⟩ := level_consts he.ctx (k := 2) (by norm_num) (by omega)
  have hQ : modulusProd (e.ctx.qs.take 2) = 18721 := by rw [hqs]; decide +kernel
  refine ⟨e, k, S, he, km, hk, fun x F hx hF e1 hb => ?_⟩
  have h2 : ∀ m ∈ e.ctx.qs.take 2, modulusProd (e.ctx.qs.take 2) * m.N ≤ 2 ^ 32 := by
    intro m hm
    have : m.N ∈ [97, 193, 257] := by rw [← hq]; exact List.mem_map_of_mem (List.mem_of_mem_take hm)
    have : m.N ≤ 257 := by simp at this; omega
    rw [hQ]; omega
  have hdim : (⟨2, 5, 1⟩ : RErrorParams).dim = 4 := by unfold RErrorParams.dim; norm_num
  have h4 : √(4 : ℝ) = 2 := by rw [show (4 : ℝ) = 2 ^ 2 by norm_num]; exact Real.sqrt_sq (by norm_num)
  have h3 : √(3 : ℝ) ≤ 2 := by rw [Real.sqrt_le_left (by norm_num)]; norm_num
  have h3' : 0 ≤ √(3 : ℝ) := Real.sqrt_nonneg _
  have hB : (⟨2, 5, 1⟩ : RErrorParams).bSecretKey = 50 * √3 + 300 := by
    rw [bSecretKey_eq]
    unfold RErrorParams.bPlaintext RErrorParams.exportT
    rw [hdim, Real.sqrt_mul (by norm_num), h4]
    norm_num
    ring
  have hn : (norm1 S : ℝ) ≤ 8 := by
    have : norm1 S ≤ 8 := by
      unfold norm1
      refine (Finset.sum_le_card_nsmul _ _ 2 fun i _ => hS i).trans ?_
      simp
    exact_mod_cast this
  obtain ⟨k', y, y1, y2, y3, y4⟩ := c108_decrypt (lev := 2) he (by norm_num) hbig 1 (by omega)
    (by rw [km, hqs]; rfl) hk.key h2 ha hx.1 hx.2.1 (List.length_pos_iff.mp (by have := hx.2.2; omega)) hF hb (by
      rw [hx.2.2, Finset.sum_range_succ, Finset.sum_range_one, pow_zero, pow_one, e1, hB, ht]
      push_cast
      linarith)
  refine ⟨a, k', y, y1, y2, y4 ?_⟩
  rw [y3, e1, hB, hQ]
  push_cast
  linarith

/-- `c108_program` with one relinearization key, keys for the powers 5 and 7, and any messages. -/
example (Gp : Gen τ) (spr : τ) (spg : Bool → τ) (est : Estimate) : ∃ e k S g, k.ms = exMs3 ∧ RoomyKey 16 2 k S ∧
    GoodEncoder 16 2 e ∧ ∀ mss : List (List ℕ), (∀ msgs ∈ mss, (∀ a ∈ msgs, a < 2 ^ 16) ∧ msgs.length ≤ 4) → ∀ L : Fin 2 ⊕ Bool → ℕ,
    tapesProbability L (fun t => ∃ xs s relin galois,
      inSequence (mss.map fun msgs =>
        RnsErrorTrack.encryptBgv ⟨2, 5, 1⟩ bytesSource 100 k (finiteFieldEncoder est e) msgs) (t (.inl 0)) = .ok (xs, s) ∧
      RRelin.create Gp bytesSource 100 k 2 k.variance g .hkdf e.ctx.t spr (t (.inl 1)) = .ok relin ∧
      (∀ j, RGalois.create Gp bytesSource 100 k ((if j then 5 else 7 : ℕ) : ℤ) k.variance g .hkdf e.ctx.t (spg j)
        (t (.inr j)) = .ok (galois j)) ∧
      ∃ (u : SwitchProgram (Fin mss.length) Bool) (M : RPoly → Fin (2 ^ 2) → ℤ) (r : RTracked), u.PlainsOk 16 2 k.ms M ∧
        u.Within ⟨2, 5, 1⟩ M ∧
        u.run ⟨2, 5, 1⟩ (fun i : Fin mss.length => xs.getD i ⟨⟨[], [], 0⟩, 0⟩) relin galois = .ok r ∧
        e.ctx.t * ∑ j ∈ Finset.range r.ct.c.length, (norm1 S : ℝ) ^ j ≤ r.error ∧
        ∃ (lev n W : ℕ) (hatInvs : List ℕ), 0 < lev ∧ lev + n = 3 ∧ HatInvs (e.ctx.qs.take lev) hatInvs ∧
          (∀ m ∈ e.ctx.qs.take lev, modulusProd (e.ctx.qs.take lev) * m.N ≤ 2 ^ W) ∧
          ¬ ∃ k' y, reduceKey n k = .ok k' ∧ reduceTimes e.ctx n r = .ok y ∧ y.error = r.error ∧
            (2 * y.error < modulusProd (e.ctx.qs.take lev) →
              k'.decryptBgvWithCrt W e y.ct (modulusComplements W k'.ms) hatInvs =
                .ok (List.ofFn fun i : Fin (2 ^ 2) =>
                  (u.eval (l := 2) (fun (j : Fin mss.length) i => (((mss.getD j []).getD i 0 : ℕ) : ZMod e.mt.N))
                    (fun p i => slotsOf (nttRoot 2 e.mt) 2 (M p) i) (fun j => if j then 5 else 7) i).val))) ≤
      mss.length * (8 * 2 ^ 2 * exp (-30)) + 3 * exp (-864) := by
  obtain ⟨e, he, -, hq, -, ht⟩ := exBfvEncoder
  obtain ⟨k, S, hk, km, kv⟩ := exKey3_roomy
  obtain ⟨g, g1, -, g3⟩ := exGadget3
  rw [← km] at g3
  obtain ⟨hqs, hbig⟩ := exLevels he hq ht
  have hl : e.ctx.qs.length = 3 := by rw [hqs]; rfl
  refine ⟨e, k, S, g, km, hk, he, fun mss hm L => ?_⟩
  have h1 : (e.ctx.t : ℝ) ≤ (⟨2, 5, 1⟩ : RErrorParams).exportT := by
    rw [ht]; unfold RErrorParams.exportT; norm_num
  have h3 : ∀ F : Fin (2 ^ 2) → ℤ, (∀ j, 2 * |F j| ≤ e.ctx.t) → SizeAtMost F (⟨2, 5, 1⟩ : RErrorParams).bPlaintext := by
    intro F h1
    refine exPlaintext fun i => ?_
    have := h1 i
    rw [ht] at this
    push_cast at this
    omega
  have hP : ParamsFor ⟨2, 5, 1⟩ 2 k.variance := by rw [kv]; exact exRErrorParams
  have hlev : e.ctx.qs.take 3 = k.ms := by rw [List.take_of_length_le hl.le, hqs, km]
  have e1 : exp (-(9 * 2 ^ 2 * (g.dimension : ℝ))) = exp (-864) := by rw [g1]; norm_num
  have e2 : ((Fintype.card Bool : ℕ) : ℝ) + 1 = 3 := by rw [Fintype.card_bool]; norm_num
  have h := c108_program Gp est he (by norm_num) hk hl.ge hlev hbig hP h1 g3
    (mss := mss) (fun msgs h => ⟨(hm msgs h).1, (hm msgs h).2, fun F h1 _ => h3 F h1⟩) 100 .hkdf
    (fun j => if j then 5 else 7) spr spg L
  rw [e1, e2] at h
  exact h

/-- `c108_rotated` and `c108_relinearized`: the conditions on the gadget and on the secret key are met. -/
example : (∃ g, SmallGadget 2 exMs3 g ∧ 0 < g.dimension ∧ ∀ b ∈ g.logBs, 0 < b) ∧
    ∃ k S, GoodKey 16 2 k S ∧ (norm1 S : ℝ) ≤ 8 / √3 * √(1 : ℤ) * 2 ^ 2 := by
  constructor
  · obtain ⟨e, he, -, hq, -, -⟩ := exBfvEncoder
    have hqs := exMs3_of he.ctx.qs hq
    have hl : e.ctx.qs.length = 3 := by rw [hqs]; rfl
    obtain ⟨hats, hatInvs, g, -, -, -, h1, h2, h3⟩ := c105_gadget he.ctx (by norm_num) (by norm_num) (level := 2)
      (by omega) (logBs := [1, 1, 1]) rfl (by decide)
    rw [List.take_of_length_le hl.le, hqs] at h2 h3
    refine ⟨g, h3, ?_, by rw [h1]; decide⟩
    unfold RGadget.dimension
    rw [h2]
    decide +kernel
  · obtain ⟨k, S, -, hk, -, -, hS⟩ := exKey3
    refine ⟨k, S, hk, ?_⟩
    have h1 : norm1 S ≤ 8 := by
      unfold norm1
      refine (Finset.sum_le_card_nsmul _ _ 2 fun i _ => hS i).trans ?_
      simp
    have h2 : (norm1 S : ℝ) ≤ 8 := by exact_mod_cast h1
    have h3 : √(3 : ℝ) ≤ 2 := by rw [Real.sqrt_le_left (by norm_num)]; norm_num
    have h3' : 0 < √(3 : ℝ) := by positivity
    have h4 : 4 ≤ 8 / √(3 : ℝ) := by rw [le_div_iff₀ h3']; linarith
    rw [Int.cast_one, Real.sqrt_one]
    linarith

end Shell
