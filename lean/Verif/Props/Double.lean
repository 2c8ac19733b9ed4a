import Verif.Lemmas.Int256
import Verif.Lemmas.Double
import Verif.Props.RnsBfvSessionExample
import Verif.Props.RnsBfvPolySessionExample

/-! # C80: basis conversions with `double` arithmetic

The theorems on basis conversions, BFV decoding and BFV products hold for every estimate whose error is bounded.  Here the
estimate is the one the code computes, in IEEE 754 double precision. -/

namespace Shell

open MParams Rns Spec Double

section
variable {cast : ℕ → ℚ}

/-- **C80.** The modelled operations are those of IEEE 754: the result has 53 significant bits, and no number with 53
significant bits is nearer to the exact value; so the relative error is at most `2^-53`. -/
theorem c80_rounding {K : Type} [Field K] [LinearOrder K] [IsStrictOrderedRing K] [FloorRing K] (x : K) :
    IsDouble (rnd x) ∧ (∀ y : K, IsDouble y → |rnd x - x| ≤ |y - x|) ∧
    |rnd x - x| ≤ |x| / 2 ^ 53 :=
  ⟨rnd_isDouble x, fun _ hy => rnd_best hy, rnd_error x⟩

/-- **C80.** Conversions of integers: to the nearest `double`, and in two halves. -/
theorem c80_cast : Faithful castNearest ∧ ∀ b, Faithful (castHalves b) := ⟨castNearest_faithful, castHalves_faithful⟩

/-- **C80.** A 256-bit integer converts to a `double` with relative error at most `2^-51`, and exactly if its halves and
itself have at most 53 significant bits. -/
theorem c80_uint256 (a : U256) (ha : a.WF) : |ofUint256 a - a.val| ≤ a.val / 2 ^ 51 ∧
    (IsDouble (a.hi : ℚ) → IsDouble (a.lo : ℚ) → IsDouble (a.val : ℚ) → ofUint256 a = a.val) := by
  constructor
  · have h := castHalves_faithful 128 a.val
    have e1 : a.val % 2 ^ 128 = a.lo := by
      have := ha.2
      unfold U256.val; omega
    have e2 : a.val / 2 ^ 128 = a.hi := by
      have := ha.2
      unfold U256.val; omega
    unfold castHalves at h
    rw [e1, e2] at h
    exact h
  · intro h1 h2 h3
    unfold ofUint256
    rw [rnd_exact h1, rnd_exact h2]
    have e : (a.lo : ℚ) + a.hi * 2 ^ 128 = a.val := by
      unfold U256.val; push_cast; ring
    rw [e, rnd_exact h3]

/-- **C80.** The number the code computes for `k` quotients differs from the exact sum by at most `1/2`, for the
rounding, and `k (k + 15) / 2^53`. -/
theorem c80_within (h : Faithful cast) {k : ℕ} (hk : k * (k + 15) ≤ 2 ^ 53) :
    EstimateWithin k (doubleError k) (estimate cast) := estimate_within h hk

/-- **C80.** With `w`-bit moduli all the values which occur are zero or between `2^-(w+1)` and `2^(w+1) + k + 1`: there is
neither overflow nor underflow. -/
theorem c80_range (h : Faithful cast) {w : ℕ} {c : List (ℕ × ℕ)} (hc : ∀ xq ∈ c, xq.1 < xq.2 ∧ xq.2 < 2 ^ w)
    (hk : c.length * (c.length + 15) ≤ 2 ^ 53) :
    (∀ xq ∈ c, (cast xq.1 = 0 ∨ 1 / 2 ≤ cast xq.1) ∧ cast xq.1 ≤ 2 ^ (w + 1) ∧
      1 / 2 ≤ cast xq.2 ∧ cast xq.2 ≤ 2 ^ (w + 1) ∧
      (rnd (cast xq.1 / cast xq.2) = 0 ∨ 1 / 2 ^ (w + 1) ≤ rnd (cast xq.1 / cast xq.2)) ∧
      rnd (cast xq.1 / cast xq.2) ≤ 2) ∧
    (Double.sum cast c = 0 ∨ 1 / 2 ^ (w + 1) ≤ Double.sum cast c) ∧ Double.sum cast c ≤ c.length + 1 := by
  refine ⟨fun xq hx => ?_, fold_range h c hc (Or.inl rfl), ?_⟩
  · obtain ⟨h1, h2⟩ := hc xq hx
    obtain ⟨a1, a2⟩ := cast_range h xq.1
    obtain ⟨b1, b2⟩ := cast_range h xq.2
    obtain ⟨q1, q2⟩ := quot_range h h1 h2
    have e1 : (xq.1 : ℚ) ≤ 2 ^ w := by exact_mod_cast (h1.trans h2).le
    have e2 : (xq.2 : ℚ) ≤ 2 ^ w := by exact_mod_cast h2.le
    have e3 : (2 : ℚ) ^ (w + 1) = 2 * 2 ^ w := by ring
    refine ⟨a1.imp_left And.right, by linarith, ?_, by linarith, q1, q2⟩
    rcases b1 with b1 | b1
    · omega
    · exact b1
  · have hc' := fun xq hx => (hc xq hx).1
    have hk' : (c.length : ℚ) * (c.length + 15) ≤ 2 ^ 53 := by exact_mod_cast hk
    have h1 := (abs_le.mp (sum_bounds h hc' hk').2).2
    have h2 := quots_le c hc'
    have h3 : doubleError c.length ≤ 1 := by
      unfold doubleError
      rw [div_le_one (by norm_num)]
      exact hk'
    linarith

theorem error_half {k : ℕ} (hk : k * (k + 15) < 2 ^ 52) : 0 ≤ doubleError k ∧ doubleError k < 1 / 2 := by
  have hk' : (k : ℚ) * (k + 15) < 2 ^ 52 := by exact_mod_cast hk
  unfold doubleError
  constructor
  · positivity
  · norm_num at hk' ⊢
    linarith

/-- **C80.** The margin is needed: with the modulus `2^60 + 1` the exact sum `2^59 / (2^60 + 1)` rounds to `0`, the code
computes `1`. -/
theorem c80_margin_witness : estimate castNearest [(2 ^ 59, 2 ^ 60 + 1)] = 1 ∧
    (2 : ℚ) ^ 59 / (2 ^ 60 + 1) < 1 / 2 := by
  refine ⟨by decide +kernel, by norm_num⟩

/-- **C80.** `SwitchRnsBasis` with `double` arithmetic (C47). -/
theorem c80_switch {w l : ℕ} {ms outs : List Modulus} {x : RPoly} {F : Fin (2 ^ l) → ℤ}
    {hatInv qMod : List ℕ} {hatMod : List (List ℕ)} (hcast : Faithful cast)
    (hm : ∀ m ∈ ms, MParams.create w m.N = .ok m.p)
    (ho : ∀ p ∈ outs, MParams.create w p.N = .ok p.p)
    (hcop : (ms.map (·.N)).Pairwise Nat.Coprime) (hne : ms ≠ []) (hno : outs ≠ []) (hl : l ≤ 30)
    (hx : Represents l ms x F) (hb : x.ntt = false) (hi : HatInvs ms (hatInv.take ms.length))
    (ht : HatResidues ms outs (hatMod.take ms.length)) (hq : RnsIntIs outs qMod (modulusProd ms))
    (hk : ms.length * (ms.length + 15) < 2 ^ 52) (hw : ms.length < 2 ^ w) :
    ∃ r, ∃ G : Fin (2 ^ l) → ℤ, switchBasis (estimate cast) ms outs hatInv hatMod qMod x = .ok r ∧
      r.ntt = false ∧ Represents l outs r G ∧
      ∀ i, (modulusProd ms : ℤ) ∣ G i - F i ∧
        (|G i| : ℚ) ≤ (1 / 2 + doubleError ms.length) * modulusProd ms ∧
        ((|F i| : ℚ) < (1 / 2 - doubleError ms.length) * modulusProd ms → G i = F i) :=
  c47_switch hm ho hcop hne hno hl hx hb hi ht hq (c80_within hcast (by omega)) (error_half hk).2 hw

/-- **C80.** `DecodeBfv` at any level with `double` arithmetic returns `M` modulo `t`, if `t F / Q` is within
`1/2 - k (k + 15) / 2^53` of `M`, `k` the number of moduli (C49). -/
theorem c80_decode {w l : ℕ} {c : Rns.Ctx} {mt : Modulus} (hcast : Faithful cast) (hc : GoodCtx w l c)
    (hb : BfvConstants c mt) (hcr : MParams.create w mt.N = .ok mt.p) (hN : mt.N = c.t) {ms : List Modulus} {k : ℕ}
    (hms : c.qs.take k = ms) (hne : ms ≠ []) {x : RPoly} {F M : Fin (2 ^ l) → ℤ}
    (hx : Represents l ms x F) (hk : ms.length * (ms.length + 15) < 2 ^ 52) (hw : ms.length < 2 ^ w)
    (hM : ∀ i, |(c.t : ℚ) * F i - modulusProd ms * M i| <
      (1 / 2 - doubleError ms.length) * modulusProd ms) :
    decodeBfv (estimate cast) c x ms = .ok (List.ofFn fun i => (M i % c.t).toNat) :=
  c49_decode hc hb hcr hN hms hne hx (c80_within hcast (by omega)) (error_half hk).2 hw hM

end

section
variable {σ τ : Type} {G : Gen σ} {Gp : Gen τ} {fuel : ℕ} {cast : ℕ → ℚ} {C : SchemeChoice}

/-- **C80.** Levelled BFV computations on encrypted vectors, from key generation to decryption (C76), with `double`
arithmetic: nothing is assumed about the floating-point estimates. -/
theorem c80_circuit {c : Rns.Ctx} {k : ℕ → RKey} {pk : RPub} {v : LEnv} {m m' : ℕ → List ℕ}
    (hcast : Faithful cast) (hG : Words G) (hC : C.Valid) (hps : C.ps ≠ []) (hq : C.qs.length < 2 ^ C.w)
    (hp : C.ps.length < 2 ^ C.w) {n : ℕ} (hn : n = max C.qs.length C.ps.length) (hk : n * (n + 15) < 2 ^ 52)
    (h : BfvSession G Gp fuel (estimate cast) C c k pk v m m') (u : VCircuit) {info : LInfo}
    (hu : u.analyse (C.bfvParams (doubleError n)) = some info)
    (hb : info.noise < (1 / 2 - doubleError n) * (C.qs.take info.level).prod) :
    ∃ r, u.run (estimate cast) C.l v = .ok r ∧
      (k info.level).decryptBfv (finiteFieldEncoder (estimate cast) v.e) r =
      .ok (List.ofFn fun i : Fin (2 ^ C.l) => (u.eval (R := ZMod C.t) C.l (fun i j => ((m i).getD j 0 : ℕ))
        (fun i j => ((m' i).getD j 0 : ℕ)) i).val) :=
  c76_circuit hG (hn ▸ c80_within hcast (by omega)) (error_half hk).1 (error_half hk).2 hC hps hq hp h u hu hb

/-- **C80.** The same for computations on encrypted polynomials (C79). -/
theorem c80_poly_circuit {k : ℕ → RKey} {pk : RPub} {v : PEnv} {m m' : ℕ → List ℕ}
    (hcast : Faithful cast) (hG : Words G) (hC : C.ValidPoly) (ht1 : 1 < C.t) (hps : C.ps ≠ [])
    (hq : C.qs.length < 2 ^ C.w) (hp : C.ps.length < 2 ^ C.w) {n : ℕ} (hn : n = max C.qs.length C.ps.length)
    (hk : n * (n + 15) < 2 ^ 52)
    (h : BfvPolySession G Gp fuel (estimate cast) C k pk v m m') (u : QCircuit) {info : LInfo}
    (hu : u.analyse (C.bfvParams (doubleError n)) = some info)
    (hb : info.noise < (1 / 2 - doubleError n) * (C.qs.take info.level).prod) :
    ∃ r, u.run (estimate cast) v = .ok r ∧
      (k info.level).decryptBfv (coefficientEncoder (estimate cast) v.c) r =
      .ok (List.ofFn fun i : Fin (2 ^ C.l) => (u.eval (R := ZMod C.t) (fun i j => ((m i).getD j 0 : ℕ))
        (fun i j => ((m' i).getD j 0 : ℕ)) i).val) :=
  c79_circuit hG (hn ▸ c80_within hcast (by omega)) (error_half hk).1 (error_half hk).2 hC ht1 hps hq hp h u hu hb

end

/-- The hypotheses of `c80_circuit` are met by the session of the example of C76, with `double` arithmetic. -/
example : ∃ c k pk v, BfvSession lcg lcg 100 (estimate castNearest) exBfvChoice c k pk v (fun _ => [1, 2, 3, 4])
      (fun _ => [5, 6]) ∧
    ∃ r, exBfvComputation.run (estimate castNearest) 2 v = .ok r ∧
      (k 1).decryptBfv (finiteFieldEncoder (estimate castNearest) v.e) r = .ok [14, 12, 0, 0] := by
  obtain ⟨c, k, pk, v, h⟩ := exBfvSession_ok (estimate castNearest)
  refine ⟨c, k, pk, v, h, ?_⟩
  have hu : (match exBfvComputation.analyse (exBfvChoice.bfvParams (doubleError 2)) with
    | some x => x.level == 1 && decide (x.noise < (1 / 2 - doubleError 2) * 65537)
    | none => false) = true := by decide +kernel
  cases hx : exBfvComputation.analyse (exBfvChoice.bfvParams (doubleError 2)) with
  | none => rw [hx] at hu; cases hu
  | some x =>
    rw [hx] at hu
    obtain ⟨h1, h2⟩ : x.level = 1 ∧ x.noise < (1 / 2 - doubleError 2) * 65537 := by
      rw [Bool.and_eq_true, beq_iff_eq, decide_eq_true_eq] at hu
      exact hu
    obtain ⟨r, r1, r2⟩ := c80_circuit c80_cast.1 lcg_words exBfvChoice_valid (by decide)
      (by decide) (by decide) (n := 2) (by decide) (by decide) h exBfvComputation hx (by
        rw [h1]
        have : (([65537, 40961] : List ℕ).take 1).prod = 65537 := by decide
        show x.noise < (1 / 2 - doubleError 2) * ((([65537, 40961] : List ℕ).take 1).prod : ℕ)
        rw [this]
        exact h2)
    refine ⟨r, r1, ?_⟩
    rw [h1] at r2
    rw [r2]
    decide +kernel

/-- The hypotheses of `c80_poly_circuit` are met by the session of the example of C79, with `double` arithmetic. -/
example : ∃ k pk v, BfvPolySession lcg lcg 100 (estimate (castHalves 64)) exBfvPolyChoice k pk v (fun _ => [1, 2, 3, 4])
      (fun _ => [5, 6]) ∧
    ∃ r, exBfvPolyComputation.run (estimate (castHalves 64)) v = .ok r ∧
      (k 1).decryptBfv (coefficientEncoder (estimate (castHalves 64)) v.c) r = .ok [1, 12, 12, 2] := by
  obtain ⟨k, pk, v, h⟩ := exBfvPolySession_ok (estimate (castHalves 64))
  refine ⟨k, pk, v, h, ?_⟩
  have hu : (match exBfvPolyComputation.analyse (exBfvPolyChoice.bfvParams (doubleError 2)) with
    | some x => x.level == 1 && decide (x.noise < (1 / 2 - doubleError 2) * 65537)
    | none => false) = true := by decide +kernel
  cases hx : exBfvPolyComputation.analyse (exBfvPolyChoice.bfvParams (doubleError 2)) with
  | none => rw [hx] at hu; cases hu
  | some x =>
    rw [hx] at hu
    obtain ⟨h1, h2⟩ : x.level = 1 ∧ x.noise < (1 / 2 - doubleError 2) * 65537 := by
      rw [Bool.and_eq_true, beq_iff_eq, decide_eq_true_eq] at hu
      exact hu
    obtain ⟨r, r1, r2⟩ := c80_poly_circuit (c80_cast.2 64) lcg_words exBfvPolyChoice_valid (by decide) (by decide)
      (by decide) (by decide) (n := 2) (by decide) (by decide) h exBfvPolyComputation hx (by
        rw [h1]
        have : (([65537, 40961] : List ℕ).take 1).prod = 65537 := by decide
        show x.noise < (1 / 2 - doubleError 2) * ((([65537, 40961] : List ℕ).take 1).prod : ℕ)
        rw [this]
        exact h2)
    refine ⟨r, r1, ?_⟩
    rw [h1] at r2
    rw [r2]
    decide +kernel

/-- The hypotheses of `c80_range` for two 60-bit moduli. -/
example : ∀ xq ∈ [(2 ^ 59, 2 ^ 60 + 1), (5, 2 ^ 59 + 21)], xq.1 < xq.2 ∧ xq.2 < 2 ^ 64 := by decide

/-- 33 million moduli satisfy the condition on their number. -/
example : 2 ^ 25 * (2 ^ 25 + 15) < 2 ^ 52 := by norm_num

/-- The conversions of the example of C47, with `double` arithmetic (the hypotheses of `c80_switch` are those of C47). -/
example :
    let ms := [exampleModulus 16 2 97, exampleModulus 16 2 193]
    let outs := [exampleModulus 16 2 113]
    let a := Mont.importInt (make 16 97)
    let b := Mont.importInt (make 16 193)
    let c := Mont.importInt (make 16 113)
    let x : RPoly := ⟨2, [[91, 30, 7, 21].map a, [186, 35, 7, 71].map b], false⟩
    let out := fun (r : RPoly) => r.coeffs.map (·.map (Mont.exportInt (make 16 113)))
    (do let r ← switchBasis (estimate castNearest) ms outs [a 96, b 2] [[c 80], [c 97]] [c 76] x
        return out r : Outcome (List (List ℕ))) = .ok [[26, 96, 7, 40]] ∧
    (do let r ← scaleAndSwitchBasis (estimate castNearest) ms outs [a 96, b 2] [[c 7, c 89]] [a 16, b 113] x
        return out r : Outcome (List (List ℕ))) = .ok [[112, 6, 0, 59]] := by
  refine ⟨by decide +kernel, by decide +kernel⟩

/-- The second part of `c80_uint256` for `5·2^128 + 2^127`. -/
example : (⟨5, 2 ^ 127⟩ : U256).WF ∧ IsDouble ((5 : ℕ) : ℚ) ∧ IsDouble ((2 ^ 127 : ℕ) : ℚ) ∧
    IsDouble ((⟨5, 2 ^ 127⟩ : U256).val : ℚ) :=
  ⟨by unfold U256.WF; decide, ⟨5, 0, by norm_num, by norm_num⟩, ⟨1, 127, by norm_num, by norm_num⟩,
    ⟨11, 127, by norm_num, by norm_num [U256.val]⟩⟩

end Shell
