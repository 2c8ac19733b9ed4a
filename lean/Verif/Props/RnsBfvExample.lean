import Verif.Props.RnsBfvMul
import Verif.Props.RnsSchemeExample
/-!
# Property C57: a concrete case

The main moduli are `97, 193, 257`, the auxiliary ones `113, 241, 337`, `t = 17`, four coefficients.
-/

namespace Shell
open Spec Rns

theorem exBfvEncoder : ∃ e, GoodEncoder 16 2 e ∧ BfvConstants e.ctx e.mt ∧
    e.ctx.qs.map (·.N) = [97, 193, 257] ∧ e.ctx.ps.map (·.N) = [113, 241, 337] ∧ e.ctx.t = 17 := by
  have : (match createForBfvFiniteField 16 2 [97, 193, 257] [113, 241, 337] 17 with
      | .ok _ => true | _ => false) = true := by decide +kernel
  cases h : createForBfvFiniteField 16 2 [97, 193, 257] [113, 241, 337] 17 with
  | err e => rw [h] at this; cases this
  | ub e => rw [h] at this; cases this
  | ok c =>
    obtain ⟨hc, hq, hp, ht, mt, hm, hN, hb⟩ := c54_createForBfvFF (l := 2) (by norm_num) (by norm_num)
      (by norm_num) (by norm_num) h (by decide) (by norm_num)
    obtain ⟨e, _, e1, e2, e3⟩ := c50_create hc hb.modT hm (by rw [hN, ht]) (by norm_num)
    exact ⟨e, e3, by rw [e1, e2]; exact hb, by rw [e1, hq], by rw [e1, hp], by rw [e1, ht]⟩

theorem exBfvModulus : GoodModulus 16 2 (exampleModulus 16 2 257) := by
  exact exampleModulus_of (by norm_num) (by decide +kernel) (by decide +kernel)

def exMs3 : List Modulus := [exampleModulus 16 2 97, exampleModulus 16 2 193, exampleModulus 16 2 257]

theorem exMs3_good : ∀ m ∈ exMs3, GoodModulus 16 2 m := by
  simp [exMs3, exampleModulus_good, exBfvModulus]

theorem exMs3_of {ms : List Modulus} (hg : ∀ m ∈ ms, GoodModulus 16 2 m) (h : ms.map (·.N) = [97, 193, 257]) :
    ms = exMs3 := by
  obtain ⟨m0, ms', rfl, h2, h⟩ := List.map_eq_cons_iff.mp h
  obtain ⟨m1, ms', rfl, h3, h⟩ := List.map_eq_cons_iff.mp h
  obtain ⟨m2, ms', rfl, h4, h⟩ := List.map_eq_cons_iff.mp h
  obtain rfl := List.map_eq_nil_iff.mp h
  have e1 := goodModulus_unique (hg m0 (by simp)) exampleModulus_good.1 (by rw [h2]; decide +kernel)
  have e2 := goodModulus_unique (hg m1 (by simp)) exampleModulus_good.2 (by rw [h3]; decide +kernel)
  have e3 := goodModulus_unique (hg m2 (by simp)) exBfvModulus (by rw [h4]; decide +kernel)
  rw [e1, e2, e3]; rfl

/-- A secret key sampled with the bytes `1 0 0 1 1 0 1 1`. -/
theorem exKey3 : ∃ k S, RKey.sample listGen 2 1 exMs3 [1, 0, 0, 1, 1, 0, 1, 1] = .ok (k, []) ∧
    GoodKey 16 2 k S ∧ k.ms = exMs3 ∧ k.variance = 1 ∧ ∀ i, |S i| ≤ 2 := by
  have : (match RKey.sample listGen 2 1 exMs3 [1, 0, 0, 1, 1, 0, 1, 1] with
    | .ok (_, s) => s.isEmpty | _ => false) = true := by decide +kernel
  cases h : RKey.sample listGen 2 1 exMs3 [1, 0, 0, 1, 1, 0, 1, 1] with
  | err e => rw [h] at this; cases this
  | ub e => rw [h] at this; cases this
  | ok r =>
    obtain ⟨k, s⟩ := r
    rw [h] at this
    have hs : s = [] := List.isEmpty_iff.mp this
    subst hs
    have hv : ∀ m ∈ exMs3.head?, 2 * (1 : ℤ) ≤ m.N := by
      intro m hm
      have : m = exampleModulus 16 2 97 := by simpa [exMs3] using hm.symm
      subst this
      decide +kernel
    obtain ⟨k1, k2, S, k3, k4⟩ := c55_key_sample listGen listGen_words exMs3_good hv h
    refine ⟨k, S, rfl, ⟨by rw [k1]; exact exMs3_good, by rw [k1]; decide +kernel, k3, ?_⟩, k1, k2, by simpa using k4⟩
    rw [k1, k2]; exact hv

def exBytes : List ℕ := [5, 70, 12, 9, 3, 1, 150, 66, 7, 200, 31, 4, 1, 0, 1, 1]

/-- The samples of an encryption. -/
theorem exSamples3 : ∃ a s1 e s2, sampleUniform listGen 100 2 exMs3 exBytes = .ok (a, s1) ∧
    sampleErr listGen 2 1 exMs3 s1 = .ok (e, s2) := by
  have : (match sampleUniform listGen 100 2 exMs3 exBytes with
    | .ok (_, s1) => (match sampleErr listGen 2 1 exMs3 s1 with | .ok _ => true | _ => false)
    | _ => false) = true := by decide +kernel
  cases h : sampleUniform listGen 100 2 exMs3 exBytes with
  | err e => rw [h] at this; cases this
  | ub e => rw [h] at this; cases this
  | ok r =>
    obtain ⟨a, s1⟩ := r
    rw [h] at this
    dsimp only at this
    cases h' : sampleErr listGen 2 1 exMs3 s1 with
    | err e => rw [h'] at this; cases this
    | ub e => rw [h'] at this; cases this
    | ok r' => exact ⟨a, s1, r'.1, r'.2, rfl, h'⟩

/-- The product of BFV encryptions of any two lists of four messages, less the second encryption times itself,
decrypts to the products of the slots. -/
example : ∃ e k S, GoodEncoder 16 2 e ∧ GoodKey 16 2 k S ∧
    ∀ as bs : List ℕ, (∀ a ∈ as, a < 2 ^ 16) → (∀ b ∈ bs, b < 2 ^ 16) → as.length = 4 → bs.length = 4 →
      ∃ x y s s' r ds, k.encryptBfv1 listGen 100 (finiteFieldEncoder exactEstimate e) as exBytes = .ok (x, s) ∧
        k.encryptBfv1 listGen 100 (finiteFieldEncoder exactEstimate e) bs exBytes = .ok (y, s') ∧
        (BCircuit.sub (.mul (.input true) (.input false)) (.mul (.input false) (.input false))).run exactEstimate
          e.ctx (fun b => if b then x else y) = .ok r ∧
        k.decryptBfv (finiteFieldEncoder exactEstimate e) r = .ok ds ∧
        ∀ i < 4, ((ds.getD i 0 : ℕ) : ZMod e.mt.N) = as.getD i 0 * bs.getD i 0 - bs.getD i 0 * bs.getD i 0 := by
  obtain ⟨e, he, hb, hq, hp, ht⟩ := exBfvEncoder
  obtain ⟨k, S, _, hk, km, kv, hS⟩ := exKey3
  obtain ⟨pa, s1, er, s2, ha, her⟩ := exSamples3
  have hqs := exMs3_of he.ctx.qs hq
  have hkm : k.ms = e.ctx.qs := by rw [km, hqs]
  refine ⟨e, k, S, he, hk, fun as bs hwa hwb hla hlb => ?_⟩
  have hlog : k.key.logN = 2 := hk.key.2.1
  have hne : e.ctx.qs ≠ [] := by intro h0; rw [h0] at hq; cases hq
  have hnp : e.ctx.ps ≠ [] := by intro h0; rw [h0] at hp; cases hp
  have hlq : e.ctx.qs.length = 3 := by
    have := congrArg List.length hq
    simpa using this
  have hlp : e.ctx.ps.length = 3 := by
    have := congrArg List.length hp
    simpa using this
  have hQ : modulusProd e.ctx.qs = 4811297 := by unfold modulusProd; rw [hq]; norm_num
  have hP : modulusProd e.ctx.ps = 9177521 := by unfold modulusProd; rw [hp]; norm_num
  have fresh : ∀ ms : List ℕ, (∀ a ∈ ms, a < 2 ^ 16) → ms.length = 4 → ∃ x M,
      k.encryptBfv1 listGen 100 (finiteFieldEncoder exactEstimate e) ms exBytes = .ok (x, s2) ∧ x.ms = e.ctx.qs ∧
      x.power = 1 ∧ x.c.length = 2 ∧ BfvEncrypts 2 S e.ctx.t x M (e.ctx.t * 3) ∧
      ∀ i < 4, slotsOf (nttRoot 2 e.mt) 2 M i = ms.getD i 0 := by
    intro ms hw hl
    obtain ⟨p, F, p1, p2, p3, p4, p5⟩ := c50_encode_bfv he hb hne hw (by rw [hl]; norm_num)
    obtain ⟨x, R, x1, ⟨x2, x3, x4⟩, x5, x6⟩ := (c55_encrypt_bfv (fuel := 100) listGen listGen_words listGen hk
      (E := finiteFieldEncoder exactEstimate e) (msgs := ms) (by rw [hkm]; exact p1) (by rw [hkm]; exact p3)).1
      (by rw [km, hlog]; exact ha) (by rw [km, hlog, kv]; exact her)
    have := c57_fresh (x := x) he.ctx.pos (F := fun j => (F j : ℤ)) (R := R) (B := 2)
      (by rw [x2, hkm]; exact x5) (fun i => by have := x6 i; rw [kv] at this; exact this)
    refine ⟨x, _, x1, by rw [x2, hkm], x3, x4, ?_, p5⟩
    convert this using 2
    norm_num
  obtain ⟨x, M, x1, x2, x3, x4, x5, x6⟩ := fresh as hwa hla
  obtain ⟨y, N, y1, y2, y3, y4, y5, y6⟩ := fresh bs hwb hlb
  have hg : ∀ d, keyGrowth S d ≤ ∑ j ∈ Finset.range d, (8 : ℚ) ^ j := fun d => by
    refine Finset.sum_le_sum fun j _ => pow_le_pow_left₀ (Finset.sum_nonneg fun _ _ => abs_nonneg _) ?_ j
    have : ∀ i, |(S i : ℚ)| ≤ 2 := fun i => by exact_mod_cast hS i
    refine (Finset.sum_le_sum fun i _ => this i).trans ?_
    norm_num
  have hg0 : ∀ d, 0 ≤ keyGrowth S d := fun d =>
    Finset.sum_nonneg fun j _ => pow_nonneg (Finset.sum_nonneg fun _ _ => abs_nonneg _) j
  have g2 : keyGrowth S 2 ≤ 9 := (hg 2).trans (by norm_num [Finset.sum_range_succ])
  have g3 : keyGrowth S 3 ≤ 73 := (hg 3).trans (by norm_num [Finset.sum_range_succ])
  obtain ⟨r, r1, r2⟩ := c57_slots (exactEstimate_within _) (by norm_num) he hb hne hnp (by rw [hlq]; norm_num)
    (by rw [hlp]; norm_num) hkm hk.key (x := fun b => if b then x else y) (M := fun b => if b then M else N)
    (v := fun _ => e.ctx.t * 3) (N := fun _ => 0) (b := fun _ => 0)
    (fun b => by
      cases b
      · exact ⟨y2, y3, List.length_pos_iff.mp (by simp [y4]), y5⟩
      · exact ⟨x2, x3, List.length_pos_iff.mp (by simp [x4]), x5⟩)
    (BCircuit.sub (.mul (.input true) (.input false)) (.mul (.input false) (.input false)))
    ⟨⟨trivial, trivial⟩, trivial, trivial⟩ (d := 3) (by simp [BCircuit.comps, x4, y4])
    (by
      simp only [BCircuit.noise, BCircuit.comps, x4, y4, Option.getD_some, if_true, Bool.false_eq_true, if_false,
        hQ, hP, ht]
      have mono : bfvMulNoise (2 ^ 2) 17 4811297 9177521 (1 / 2 + 0) (keyGrowth S 2) (keyGrowth S 2)
          (keyGrowth S (2 + 2 - 1)) (((17 : ℕ) : ℚ) * 3) (((17 : ℕ) : ℚ) * 3) ≤
          bfvMulNoise (2 ^ 2) 17 4811297 9177521 (1 / 2 + 0) 9 9 73 (17 * 3) (17 * 3) := by
        unfold bfvMulNoise
        have := hg0 2
        gcongr <;> first | exact g2 | exact g3 | norm_num
      refine (add_le_add mono mono).trans_lt ?_
      unfold bfvMulNoise
      norm_num)
  refine ⟨x, y, s2, s2, r, _, x1, y1, r1, r2, fun i hi => ?_⟩
  haveI : NeZero e.mt.N := ⟨he.mt.prime.ne_zero⟩
  simp only [BCircuit.eval, if_true, Bool.false_eq_true, if_false]
  have h1 := x6 i hi
  have h2 := y6 i hi
  rw [List.getD_eq_getElem?_getD, List.getElem?_ofFn]
  rw [dif_pos (show i < 2 ^ 2 from hi), Option.getD_some, ZMod.natCast_val, ZMod.cast_id]
  simp only [h1, h2]

end Shell
