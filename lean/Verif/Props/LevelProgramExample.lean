import Verif.Props.LevelProgram
import Verif.Props.LevelNoiseExample
/-! The hypotheses of C108 on programs with reductions in between are met. -/

namespace Shell
open Spec Rns RnsErrorTrack NttRing Real
variable {τ ι : Type}

/-- `c108_level_program` with keys for the powers 5 and 7 and the moduli 97, 193 and 257, a key for the power 3 and the moduli
97 and 193, and any messages. -/
example (Gp : Gen τ) (spr : τ) (spg : Bool → τ) (spl : Unit → τ) (est : Estimate) : ∃ e k S g lowKey lowGadget, k.ms = exMs3 ∧
    RoomyKey 16 2 k S ∧ GoodEncoder 16 2 e ∧ reduceKey 1 k = .ok lowKey ∧ ∀ mss : List (List ℕ),
    (∀ msgs ∈ mss, (∀ a ∈ msgs, a < 2 ^ 16) ∧ msgs.length ≤ 4) → ∀ L : Fin 2 ⊕ Bool ⊕ Unit → ℕ,
    tapesProbability L (fun t => ∃ xs s relin galois low,
      inSequence (mss.map fun msgs => RnsErrorTrack.encryptBgv ⟨2, 5, 1⟩ bytesSource 100 k (finiteFieldEncoder est e) msgs)
        (t (.inl 0)) = .ok (xs, s) ∧
      RRelin.create Gp bytesSource 100 k 2 k.variance g .hkdf e.ctx.t spr (t (.inl 1)) = .ok relin ∧
      (∀ j, RGalois.create Gp bytesSource 100 k ((if j then 5 else 7 : ℕ) : ℤ) k.variance g .hkdf e.ctx.t (spg j)
        (t (.inr (.inl j))) = .ok (galois j)) ∧
      (∀ j, RGalois.create Gp bytesSource 100 lowKey (3 : ℕ) k.variance lowGadget .hkdf e.ctx.t (spl j)
        (t (.inr (.inr j))) = .ok (low j)) ∧
      ∃ (u : LevelProgram (Fin mss.length) Bool Unit) (M : RPoly → Fin (2 ^ 2) → ℤ) (r : RTracked) (lev n W : ℕ)
        (hatInvs : List ℕ),
        u.PlainsOk 16 2 k.ms ⟨2, 5, 1⟩ M ∧ 0 < lev ∧ lev + n = 3 ∧ u.AtLevel 3 (fun _ => 2) lev ∧
        u.Noisy (norm1 S) e.ctx ⟨2, 5, 1⟩ (fun i : Fin mss.length => xs.getD i ⟨⟨[], [], 0⟩, 0⟩) relin galois low ∧
        u.run e.ctx ⟨2, 5, 1⟩ (fun i : Fin mss.length => xs.getD i ⟨⟨[], [], 0⟩, 0⟩) relin galois low = .ok r ∧
        HatInvs (e.ctx.qs.take lev) hatInvs ∧
        (∀ m ∈ e.ctx.qs.take lev, modulusProd (e.ctx.qs.take lev) * m.N ≤ 2 ^ W) ∧
        2 * r.error < modulusProd (e.ctx.qs.take lev) ∧
        ¬ ∃ k', reduceKey n k = .ok k' ∧ k'.decryptBgvWithCrt W e r.ct (modulusComplements W k'.ms) hatInvs =
          .ok (List.ofFn fun i : Fin (2 ^ 2) =>
            (u.eval (l := 2) (fun (j : Fin mss.length) i => (((mss.getD j []).getD i 0 : ℕ) : ZMod e.mt.N))
              (fun p i => slotsOf (nttRoot 2 e.mt) 2 (M p) i) (fun j => if j then 5 else 7) (fun _ => 3) i).val)) ≤
      mss.length * (8 * 2 ^ 2 * exp (-30)) + 3 * exp (-864) + exp (-540) := by
  obtain ⟨e, he, -, hq, -, ht⟩ := exBfvEncoder
  obtain ⟨k, S, hk, km, kv⟩ := exKey3_roomy
  obtain ⟨g, g1, -, g3⟩ := exGadget3
  rw [← km] at g3
  obtain ⟨hqs, hbig⟩ := exLevels he hq ht
  have hl : e.ctx.qs.length = 3 := by rw [hqs]; rfl
  have hlev : e.ctx.qs.take 3 = k.ms := by rw [List.take_of_length_le hl.le, hqs, km]
  obtain ⟨k', k1, k2, k3, k4⟩ := reduceKey_roomy (qs := e.ctx.qs) (lev := 2) (by norm_num) 1 (by omega) hlev.symm hk
  obtain ⟨hats, hatInvs, g', -, -, -, d1, d2, d3⟩ := c105_gadget he.ctx (by norm_num) (by norm_num) (level := 1)
    (by omega) (logBs := [1, 1]) rfl (by decide)
  have hd : g'.dimension = 15 := by
    unfold RGadget.dimension
    rw [d2, hqs]
    decide +kernel
  refine ⟨e, k, S, g, k', g', km, hk, he, k1, fun mss hm L => ?_⟩
  have h1 : (e.ctx.t : ℝ) ≤ (⟨2, 5, 1⟩ : RErrorParams).exportT := by
    rw [ht]; unfold RErrorParams.exportT; norm_num
  have h3 : ∀ F : Fin (2 ^ 2) → ℤ, (∀ j, 2 * |F j| ≤ e.ctx.t) → SizeAtMost F (⟨2, 5, 1⟩ : RErrorParams).bPlaintext := by
    intro F h1
    refine exPlaintext fun i => ?_
    have := h1 i
    rw [ht] at this
    push_cast at this
    omega
  have hP : ParamsFor ⟨2, 5, 1⟩ 2 k.variance := by rw [kv]; exact exRErrorParams
  have e1 : exp (-(9 * 2 ^ 2 * (g.dimension : ℝ))) = exp (-864) := by rw [g1]; norm_num
  have e2 : ((Fintype.card Bool : ℕ) : ℝ) + 1 = 3 := by rw [Fintype.card_bool]; norm_num
  have e3 : ∑ _j : Unit, exp (-(9 * 2 ^ 2 * (g'.dimension : ℝ))) = exp (-540) := by
    rw [Fintype.sum_unique, hd]; norm_num
  have h := c108_level_program (ν := Unit) Gp est he (by norm_num) hk hl.ge hlev hbig hP h1 g3 (level := fun _ => 2)
    (reduced := fun _ => 1) (fun _ => by norm_num) (lowKey := fun _ => k') (fun _ => k1) (lowGadget := fun _ => g')
    (fun _ => by rw [k2]; exact d3)
    (mss := mss) (fun msgs h => ⟨(hm msgs h).1, (hm msgs h).2, fun F h1 _ => h3 F h1⟩) 100 .hkdf
    (fun j => if j then 5 else 7) (fun _ => 3) spr spg spl L
  rw [e1, e2, e3] at h
  exact h

/-- A program that meets the conditions of `c108_levels`: a rotation, a reduction, and a rotation with the key for the moduli
that are left. -/
example {S : Fin (2 ^ 2) → ℤ} (hS : (norm1 S : ℝ) ≤ 8 / √3 * √(1 : ℤ) * 2 ^ 2) (ctx : Rns.Ctx) (ht : ctx.t = 17)
    (x : ι → RTracked) (i : ι) (hx0 : 0 ≤ (x i).error) (relin : RRelin) (galois : Bool → RGalois)
    (low : Unit → RGalois) (hg : SmallGadget 2 exMs3 (galois true).gadget) (hb : ∀ b ∈ (galois true).gadget.logBs, 0 < b)
    (hd : 0 < (galois true).gadget.dimension) (M : RPoly → Fin (2 ^ 2) → ℤ) :
    let u : LevelProgram ι Bool Unit := .rotate () (.reduce (.start (.rotate true (.compute (.input i)))))
    u.AtLevel 3 (fun _ => 2) 2 ∧ u.PlainsOk 16 2 exMs3 ⟨2, 5, 1⟩ M ∧
      u.Noisy (norm1 S) ctx ⟨2, 5, 1⟩ x relin galois low := by
  refine ⟨⟨rfl, by norm_num, rfl⟩, ⟨trivial, trivial⟩, trivial, fun y h => ?_⟩
  obtain ⟨a, ha, h⟩ := Outcome.bind_eq_ok.mp h
  cases ha
  obtain ⟨b, hb', h⟩ := Outcome.bind_eq_ok.mp h
  have hb0 : b.error = (x i).error := by
    obtain ⟨c, -, e⟩ := Outcome.bind_eq_ok.mp hb'
    cases e
    rfl
  have hc : y.ct.c.length = 2 := by
    obtain ⟨c, c1, c2⟩ := Outcome.bind_eq_ok.mp h
    obtain ⟨_, -, c2⟩ := Outcome.bind_eq_ok.mp c2
    obtain ⟨_, -, c2⟩ := Outcome.bind_eq_ok.mp c2
    cases c2
    unfold RGalois.applyTo at c1
    obtain ⟨_, -, c1⟩ := Outcome.bind_eq_ok.mp c1
    obtain ⟨_, -, c1⟩ := Outcome.bind_eq_ok.mp c1
    obtain ⟨_, -, c1⟩ := Outcome.bind_eq_ok.mp c1
    obtain ⟨_, -, c1⟩ := Outcome.bind_eq_ok.mp c1
    obtain ⟨_, -, c1⟩ := Outcome.bind_eq_ok.mp c1
    obtain ⟨_, -, c1⟩ := Outcome.bind_eq_ok.mp c1
    obtain ⟨_, -, c1⟩ := Outcome.bind_eq_ok.mp c1
    obtain ⟨_, -, c1⟩ := Outcome.bind_eq_ok.mp c1
    obtain ⟨_, -, c1⟩ := Outcome.bind_eq_ok.mp c1
    obtain ⟨_, -, c1⟩ := Outcome.bind_eq_ok.mp c1
    obtain ⟨_, -, c1⟩ := Outcome.bind_eq_ok.mp c1
    obtain ⟨_, -, c1⟩ := Outcome.bind_eq_ok.mp c1
    obtain ⟨_, -, c1⟩ := Outcome.bind_eq_ok.mp c1
    cases c1
    rfl
  rw [hc, ht]
  exact c108_rotated (v := 1) (by simpa using exRErrorParams) one_pos (by norm_num) hg hb hd hS
    (by unfold RErrorParams.exportT; norm_num) (by rw [hb0]; exact hx0) h

end Shell
