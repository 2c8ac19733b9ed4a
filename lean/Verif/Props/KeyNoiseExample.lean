import Verif.Props.KeyNoise
/-! The hypotheses of C105 are met. -/

namespace Shell
open Spec Rns RnsErrorTrack NttRing Real
variable {τ : Type}

/-- A gadget for the moduli 97, 193 and 257 with base 2: 24 digits. -/
theorem exGadget3 : ∃ g, g.dimension = 24 ∧ logGadgetBase g = .ok 1 ∧ SmallGadget 2 exMs3 g := by
  obtain ⟨e, he, -, hq, -, -⟩ := exBfvEncoder
  have hqs := exMs3_of he.ctx.qs hq
  have hl : e.ctx.qs.length = 3 := by rw [hqs]; rfl
  obtain ⟨hats, hatInvs, g, -, -, -, h1, h2, h3⟩ := c105_gadget he.ctx (by norm_num) (by norm_num) (level := 2)
    (by omega) (logBs := [1, 1, 1]) rfl (by decide)
  rw [List.take_of_length_le hl.le, hqs] at h2 h3
  refine ⟨g, ?_, ?_, h3⟩
  · unfold RGadget.dimension
    rw [h2]
    decide +kernel
  · unfold logGadgetBase
    rw [h1]
    rfl

theorem exKey3_roomy : ∃ k S, RoomyKey 16 2 k S ∧ k.ms = exMs3 ∧ k.variance = 1 := by
  obtain ⟨k, S, -, hk, km, kv, -⟩ := exKey3
  refine ⟨k, S, ⟨hk, by norm_num, by rw [km]; simp [exMs3], by rw [kv]; norm_num, by rw [kv]; norm_num, ?_⟩, km, kv⟩
  rw [km, kv]
  decide +kernel

/-- `c105_galois` and `c105_relin`: the probability is at most `exp (-864)`, although `n = 4` is tiny. -/
example (Gp : Gen τ) (sp : τ) (fuel : ℕ) (prng : PrngType) (L : ℕ) : ∃ k S g, k.ms = exMs3 ∧ RoomyKey 16 2 k S ∧
    (∀ power, bytesProbability L (fun s => ∃ key,
      RGalois.create Gp bytesSource fuel k power 1 g prng 17 sp s = .ok key ∧ ¬ QuietGalois 2 S ⟨2, 5, 1⟩ 17 key) ≤
        exp (-864)) ∧
    bytesProbability L (fun s => ∃ key,
      RRelin.create Gp bytesSource fuel k 2 1 g prng 17 sp s = .ok key ∧ ¬ QuietRelin 2 S ⟨2, 5, 1⟩ 17 key) ≤
        exp (-864) := by
  obtain ⟨k, S, hk, km, kv⟩ := exKey3_roomy
  obtain ⟨g, g1, -, g3⟩ := exGadget3
  rw [← km] at g3
  have hN : ∀ m ∈ k.ms.head?, 4 * (1 : ℤ) < m.N := kv ▸ hk.room
  have h17 : ((17 : ℕ) : ℝ) ≤ (⟨2, 5, 1⟩ : RErrorParams).exportT := by unfold RErrorParams.exportT; norm_num
  have hP : ParamsFor ⟨2, 5, 1⟩ 2 (1 : ℤ) := by simpa using exRErrorParams
  have e : exp (-(9 * 2 ^ 2 * (g.dimension : ℝ))) = exp (-864) := by rw [g1]; norm_num
  refine ⟨k, S, g, km, hk, fun power => ?_, ?_⟩
  · rw [← e]
    exact c105_galois Gp hk.good hk.nonempty (by norm_num) g3 (by norm_num) hN hP (by norm_num) h17 fuel power prng sp L
  · rw [← e]
    exact c105_relin Gp hk.good hk.nonempty (by norm_num) g3 (by norm_num) hN hP (by norm_num) h17 fuel 2 prng sp L

/-- Some tape leads to keys, and to fresh ciphertexts. -/
example : (match (do
      let (k, _) ← RKey.sample listGen 2 1 exMs3 [1, 0, 0, 1, 1, 0, 1, 1]
      let g ← RGadget.create 2 [1, 1, 1] (exMs3.map fun m : Modulus => Mont.importInt m.p (modulusProd exMs3 / m.N))
        (exMs3.map fun m : Modulus => Mont.multiplicativeInverse m.p (Mont.importInt m.p (modulusProd exMs3 / m.N))) exMs3
      let tape := (List.range 200).map (Fin.ofNat 256)
      let _ ← RGalois.create bytesSource bytesSource 100 k 5 1 g .hkdf 17 (List.replicate 1000 4) tape
      RRelin.create bytesSource bytesSource 100 k 2 1 g .hkdf 17 (List.replicate 1000 4) tape) with
    | .ok _ => true | _ => false) = true := by decide +kernel

/-- `c105_program` with one relinearization key, keys for the powers 5 and 7, and any messages. -/
example (Gp : Gen τ) (spr : τ) (spg : Bool → τ) (est : Estimate) : ∃ e k S g hatInvs, k.ms = exMs3 ∧ RoomyKey 16 2 k S ∧
    GoodEncoder 16 2 e ∧ ∀ mss : List (List ℕ), (∀ msgs ∈ mss, (∀ a ∈ msgs, a < 2 ^ 16) ∧ msgs.length ≤ 4) → ∀ L : Fin 2 ⊕ Bool → ℕ,
    tapesProbability L (fun t => ∃ xs s relin galois,
      inSequence (mss.map fun msgs =>
        RnsErrorTrack.encryptBgv ⟨2, 5, 1⟩ bytesSource 100 k (finiteFieldEncoder est e) msgs) (t (.inl 0)) = .ok (xs, s) ∧
      RRelin.create Gp bytesSource 100 k 2 k.variance g .hkdf e.ctx.t spr (t (.inl 1)) = .ok relin ∧
      (∀ j, RGalois.create Gp bytesSource 100 k ((if j then 5 else 7 : ℕ) : ℤ) k.variance g .hkdf e.ctx.t (spg j)
        (t (.inr j)) = .ok (galois j)) ∧
      ∃ (u : SwitchProgram (Fin mss.length) Bool) (M : RPoly → Fin (2 ^ 2) → ℤ) (r : RTracked), u.PlainsOk 16 2 k.ms M ∧
        u.Within ⟨2, 5, 1⟩ M ∧
        u.run ⟨2, 5, 1⟩ (fun i : Fin mss.length => xs.getD i ⟨⟨[], [], 0⟩, 0⟩) relin galois = .ok r ∧
        2 * r.error < modulusProd k.ms ∧
        k.decryptBgvWithCrt 32 e r.ct (modulusComplements 32 k.ms) hatInvs ≠
          .ok (List.ofFn fun i : Fin (2 ^ 2) =>
            (u.eval (l := 2) (fun (j : Fin mss.length) i => (((mss.getD j []).getD i 0 : ℕ) : ZMod e.mt.N))
              (fun p i => slotsOf (nttRoot 2 e.mt) 2 (M p) i) (fun j => if j then 5 else 7) i).val)) ≤
      mss.length * (8 * 2 ^ 2 * exp (-30)) + 3 * exp (-864) := by
  obtain ⟨e, he, -, hq, -, ht⟩ := exBfvEncoder
  obtain ⟨k, S, hk, km, kv⟩ := exKey3_roomy
  obtain ⟨g, g1, -, g3⟩ := exGadget3
  rw [← km] at g3
  have hqs := exMs3_of he.ctx.qs hq
  have hl : e.ctx.qs.length = 3 := by rw [hqs]; rfl
  obtain ⟨⟨a, -, ha⟩, -⟩ := level_consts he.ctx (k := 3) (by norm_num) hl.ge
  rw [List.take_of_length_le hl.le, hqs, ← km] at ha
  have hQ : modulusProd k.ms = 4811297 := by unfold modulusProd; rw [km, ← hqs, hq]; rfl
  refine ⟨e, k, S, g, a, km, hk, he, fun mss hm L => ?_⟩
  have h1 : (e.ctx.t : ℝ) ≤ (⟨2, 5, 1⟩ : RErrorParams).exportT := by
    rw [ht]; unfold RErrorParams.exportT; norm_num
  have h2 : ∀ m ∈ k.ms, modulusProd k.ms * m.N ≤ 2 ^ 32 := by
    intro m hm
    have : m.N ∈ [97, 193, 257] := by rw [← hq, hqs, ← km]; exact List.mem_map_of_mem hm
    have : m.N ≤ 257 := by simp at this; omega
    rw [hQ]; omega
  have h3 : ∀ F : Fin (2 ^ 2) → ℤ, (∀ j, 2 * |F j| ≤ e.ctx.t) → SizeAtMost F (⟨2, 5, 1⟩ : RErrorParams).bPlaintext := by
    intro F h1
    refine exPlaintext fun i => ?_
    have := h1 i
    rw [ht] at this
    push_cast at this
    omega
  have hP : ParamsFor ⟨2, 5, 1⟩ 2 k.variance := by rw [kv]; exact exRErrorParams
  have hlev : e.ctx.qs.take 3 = k.ms := by rw [List.take_of_length_le hl.le, hqs, km]
  have e1 : exp (-(9 * 2 ^ 2 * (g.dimension : ℝ))) = exp (-864) := by rw [g1]; norm_num
  have e2 : ((Fintype.card Bool : ℕ) : ℝ) + 1 = 3 := by rw [Fintype.card_bool]; norm_num
  have h := c105_program Gp est he (by norm_num) hk hlev hP h1 (by rw [ht]; norm_num) (by rw [ht, hQ]; norm_num) h2 ha g3
    (mss := mss) (fun msgs h => ⟨(hm msgs h).1, (hm msgs h).2, fun F h1 _ => h3 F h1⟩) 100 .hkdf
    (fun j => if j then 5 else 7) spr spg L
  rw [e1, e2] at h
  exact h

/-- A program that meets the conditions of `c105_program`: the product of two ciphertexts, relinearized and rotated. -/
example {k : RKey} {S : Fin (2 ^ 2) → ℤ} (hk : RoomyKey 16 2 k S) (km : k.ms = exMs3) {x y : RTracked} (hx : Fresh k x.ct)
    (hy : Fresh k y.ct) {F G : Fin (2 ^ 2) → ℤ} (ex : Encrypts 2 S x.ct F) (ey : Encrypts 2 S y.ct G)
    (e1 : x.error = (⟨2, 5, 1⟩ : RErrorParams).bSecretKey) (e2 : y.error = (⟨2, 5, 1⟩ : RErrorParams).bSecretKey)
    {relin : RRelin} {galois : RGalois} (hr : QuietRelin 2 S ⟨2, 5, 1⟩ 17 relin) (hq : QuietGalois 2 S ⟨2, 5, 1⟩ 17 galois)
    (rm : relin.ms = k.ms) (qm : galois.ms = k.ms) (qp : galois.power = (5 : ℕ))
    (rd : relin.gadget.dimension = 24) (rb : logGadgetBase relin.gadget = .ok 1)
    (qd : galois.gadget.dimension = 24) (qb : logGadgetBase galois.gadget = .ok 1) :
    ∃ r, (SwitchProgram.rotate () (.relinearize (.compute (.mul (.input true) (.input false))))).run ⟨2, 5, 1⟩
      (fun b => if b then x else y) relin (fun _ => galois) = .ok r ∧ 2 * r.error < modulusProd k.ms := by
  have hg := hk.good.good
  have hQ : modulusProd k.ms = 4811297 := by rw [km]; decide +kernel
  obtain ⟨c, c1, c2, c3, c4⟩ := c53_mul (by rw [hx.1]; exact hg) (by rw [hx.1]; exact hk.nonempty) (hy.1.trans hx.1.symm)
    (hy.2.1.trans hx.2.1.symm) (List.length_pos_iff.mp (by have := hx.2.2; omega)) ex ey
  have hc3 : c.c.length = 3 := by rw [c3, hx.2.2, hy.2.2]
  obtain ⟨u, R, u1, u2, u3, u4, u5, -⟩ := hr ⟨c, x.error * y.error⟩ _ (c2.1.trans (hx.1.trans rm.symm))
    (c2.2.trans hx.2.1) (by show 2 ≤ c.c.length; omega) (by show c.c.length ≤ 3; omega) c4
  obtain ⟨s, s1, s2, s3, s4, s5⟩ := c56_substitute_partial (by norm_num) (by rw [u2, rm]; exact hg)
    (List.length_pos_iff.mp (by omega)) 5 (by norm_num) (by norm_num) (by rw [u3]; norm_num) u5
  obtain ⟨r, R', r1, r2, r3, r4, r5, -⟩ := hq ⟨s, u.error⟩ _ (s2.trans (u2.trans (rm.trans qm.symm)))
    (by show s.power = _; rw [s3, u3, qp]; norm_num) (s4.trans u4) s5
  refine ⟨r, ?_, ?_⟩
  · simp only [SwitchProgram.run, RCircuit.runTracked, Outcome.bind_ok, if_true, Bool.false_eq_true, if_false,
      RTracked.mul, c1, pure, u1, RTracked.substitute, qp, s1]
    exact r1
  · have hb : ∀ n, (⟨2, 5, 1⟩ : RErrorParams).boundOnKeySwitching n 1 24 = .ok (8 / √3 * 4800 * n) := by
      intro n
      unfold RErrorParams.boundOnKeySwitching RErrorParams.exportT shl1
      rw [if_pos (by norm_num), if_pos (by norm_num)]
      show Outcome.ok _ = _
      congr 1
      push_cast
      ring
    have hu : u.error = x.error * y.error + 8 / √3 * 4800 * 1 := by
      obtain ⟨_, _, u1⟩ := Outcome.bind_eq_ok.mp u1
      rw [rb, Outcome.bind_ok, rd, hb, Outcome.bind_ok] at u1
      cases u1
      show x.error * y.error + 8 / √3 * 4800 * ((c.c.length - 2 : ℕ) : ℝ) = _
      rw [hc3]
      norm_num
    have hr : r.error = u.error + 8 / √3 * 4800 * 1 := by
      obtain ⟨_, _, r1⟩ := Outcome.bind_eq_ok.mp r1
      rw [qb, Outcome.bind_ok, qd, hb, Outcome.bind_ok] at r1
      cases r1
      show u.error + 8 / √3 * 4800 * ((1 : ℕ) : ℝ) = _
      norm_num
    have hdim : (⟨2, 5, 1⟩ : RErrorParams).dim = 4 := by unfold RErrorParams.dim; norm_num
    have h4 : √(4 : ℝ) = 2 := by rw [show (4 : ℝ) = 2 ^ 2 by norm_num]; exact Real.sqrt_sq (by norm_num)
    have h3 : √(3 : ℝ) ≤ 2 := by rw [Real.sqrt_le_left (by norm_num)]; norm_num
    have h3' : 1 ≤ √(3 : ℝ) := by rw [Real.one_le_sqrt]; norm_num
    have h8 : 8 / √(3 : ℝ) ≤ 8 := div_le_self (by norm_num) h3'
    have hB : (⟨2, 5, 1⟩ : RErrorParams).bSecretKey = 50 * √3 + 300 := by
      rw [bSecretKey_eq]
      unfold RErrorParams.bPlaintext RErrorParams.exportT
      rw [hdim, Real.sqrt_mul (by norm_num), h4]
      norm_num
      ring
    rw [hr, hu, e1, e2, hB, hQ]
    have h9 : (50 * √3 + 300) * (50 * √3 + 300) ≤ (400 : ℝ) * 400 := by
      refine mul_le_mul ?_ ?_ ?_ ?_ <;> linarith
    push_cast
    linarith

end Shell
