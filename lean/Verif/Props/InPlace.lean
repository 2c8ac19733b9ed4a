import Verif.Lemmas.InPlaceCalls
import Verif.Props.RnsBfvMul
import Verif.Props.RnsBfvExample
/-!
# Property C67: calls that return an error leave the object unchanged

The in-place operations on RNS polynomials and ciphertexts, with the contents of the object after a failure.
The values computed by the same operations when they succeed are the subject of C42–C60.
-/

namespace Shell
open Spec Rns Res

variable {w l k : ℕ} {f : Bool} {ms auxMs : List Modulus} {x : LCt} {op : Call} {ops : List Call}

/-- The operations with the object's state have the results of the operations without it. -/
theorem c67_refines (w : ℕ) (x : LCt) (op : Call) : (op.run w x).value = op.result w x := Call.value_run w x op

/-- C67, ciphertexts.  A call that returns an error has no effect, and a successful one leaves an object on which the
next call can be made.  *Partial*: the components must have the same form and dimension, which `SetPadComponent` does
not ensure (`c67_mixed_violated`), and `RnsBfvCiphertext::AbsorbInPlace` is not among the calls
(`c67_bfv_level_violated`, `c67_bfv_absorb_partial`). -/
theorem c67_unchanged_partial (hu : Usable w l x) (hf : Fits l x op) :
    Unchanged x (op.run w x) ∧ ((op.run w x).2 = .ok () → Usable w l (op.run w x).1) := by
  obtain ⟨P, h⟩ := Call.run_settled hu hf
  exact ⟨h.unchanged, h.post⟩

/-- C67, histories.  After any history of calls, some of which returned errors, the object is the one computed by the
successful calls alone.  *Partial*: as `c67_unchanged_partial`. -/
theorem c67_history_partial (hu : Usable w l x) (hp : Proper w l x ops) :
    allResults w x (accepted w x ops) = .ok (afterAll w x ops) ∧ Usable w l (afterAll w x ops) := by
  induction ops generalizing x with
  | nil => exact ⟨rfl, hu⟩
  | cons op ops ih =>
    obtain ⟨hf, hub, hp⟩ := hp
    obtain ⟨h1, h2⟩ := c67_unchanged_partial hu hf
    have hv := c67_refines w x op
    unfold accepted afterAll
    cases hr : (op.run w x).2 with
    | err e => rw [h1 e hr] at hp ⊢; exact ih hu hp
    | ub u => exact absurd hr (hub u)
    | ok _ =>
      refine ⟨?_, (ih (h2 hr) hp).2⟩
      dsimp only
      unfold allResults
      rw [← hv, Res.value, hr]
      exact (ih (h2 hr) hp).1

/-- C67, polynomials.  `x` has `2^l` coefficients, the other polynomials any dimension, form and number of moduli.
*Partial*: the conversions and the modulus reductions need moduli of dimension `2^l` (`c67_longer_violated`), the
auxiliary part of an approximate modulus reduction the dimension of `x` (`c67_approx_violated`), and
`ScaleAndReduceRnsBasisInPlace` is missing (`c67_scale_violated`). -/
theorem c67_polynomial_partial {x y z aux : RPoly} (hx : Shape l k f x) (hy : Rectangular y) (hz : Rectangular z) :
    Unchanged x (addIn ms x y) ∧ Unchanged x (subIn ms x y) ∧ Unchanged x (mulIn ms x y) ∧
    Unchanged x (fusedMulAddIn ms x y z) ∧ Unchanged x (negateIn ms x) ∧
    (∀ c, Unchanged x (mulIntIn ms x c)) ∧ (∀ c, Unchanged x (mulRnsIn ms x c)) ∧
    (∀ est auxMs hatInv hatMod qMod, Unchanged x (extendBasisIn est ms auxMs hatInv hatMod qMod x)) ∧
    ((∀ m ∈ ms, GoodModulus w l m) →
      Unchanged x (toNttIn ms x) ∧ Unchanged x (toCoeffIn ms x) ∧
      (∀ t qlInv, Unchanged x (modReduceLsbIn t qlInv ms x)) ∧ (∀ qlInv, Unchanged x (modReduceMsbIn qlInv ms x)) ∧
      (aux.logN = l → ∀ auxMs pInv hatInv hatMod,
        (∀ tInv pModT t, Unchanged x (approxModReduceLsbIn aux ms auxMs pInv hatInv hatMod tInv pModT t x)) ∧
        Unchanged x (approxModReduceMsbIn aux ms auxMs pInv hatInv hatMod x))) := by
  obtain ⟨_, _, _, hy⟩ := hy
  obtain ⟨_, _, _, hz⟩ := hz
  refine ⟨(addIn_decides hx hy).unchanged, (subIn_decides hx hy).unchanged, (mulIn_decides hx hy).unchanged,
    (fusedMulAddIn_decides hx hy hz).unchanged, (negateIn_decides hx).unchanged,
    fun c => (mulIntIn_decides c hx).unchanged, fun c => (mulRnsIn_decides c hx).unchanged, ?_, fun hg => ⟨?_, ?_,
    fun t q => (modReduceLsbIn_decides t q hg hx).unchanged, fun q => (modReduceMsbIn_decides q hg hx).unchanged, ?_⟩⟩
  · intro est auxMs hatInv hatMod qMod e he
    unfold extendBasisIn withTemp at he ⊢
    split at he <;> simp_all
  · exact (toNttIn_decides hg hx).unchanged
  · exact (toCoeffIn_decides hg hx).unchanged
  · intro ha auxMs pInv hatInv hatMod
    refine ⟨fun tInv pModT t => ?_, ?_⟩
    · obtain ⟨P, h⟩ := approxModReduceLsbIn_settled (auxMs := auxMs) pInv hatInv hatMod tInv pModT t hg hx ha
      exact h.unchanged
    · obtain ⟨P, h⟩ := approxModReduceMsbIn_settled (auxMs := auxMs) pInv hatInv hatMod hg hx ha
      exact h.unchanged

/-- C67, `RnsBfvCiphertext::AbsorbInPlace` on an encryption at the top level: it succeeds, or the plaintext is not in
NTT form and the ciphertext is unchanged.  *Partial*: at lower levels see `c67_bfv_level_violated`. -/
theorem c67_bfv_absorb_partial {ε : ℚ} {est : Estimate} {c : Rns.Ctx} {x : RCt} {pt : RPoly} {S M : Fin (2 ^ l) → ℤ} {vx : ℚ}
    (hc : GoodCtx w l c) (hne : c.qs ≠ []) (hnp : c.ps ≠ [])
    (he : EstimateWithin (max c.qs.length c.ps.length) ε est)
    (hε : ε < 1 / 2) (hwq : c.qs.length < 2 ^ w) (hwp : c.ps.length < 2 ^ w) (hx : x.ms = c.qs)
    {G N : Fin (2 ^ l) → ℤ} {vy : ℚ} (hpt : pt.ntt = true → Represents l c.qs pt G)
    (h1 : BfvEncrypts l S c.t x M vx) (h2 : BfvNear c.t (modulusProd c.qs) G N vy) :
    Unchanged x (x.absorbBfvIn est c pt) := by
  intro e hr
  cases hn : pt.ntt with
  | true =>
    obtain ⟨r, h, -⟩ := c57_absorb hc hne hnp he hε hwq hwp hx hn (hpt hn) h1 h2
    rw [← RCt.value_absorbBfvIn, Res.value, hr] at h
    cases h
  | false =>
    unfold RCt.absorbBfvIn
    rw [if_pos (by simp [hn])]
    rfl

/-! ### Failures that do change the object -/

private theorem res_of_value {α : Type} {r : Res α} {y : α} (h : r.value = .ok y) : r = (y, .ok ()) := by
  obtain ⟨z, o⟩ := r
  cases o with
  | ok u => cases h; rfl
  | err e => cases h
  | ub e => cases h

/-- `SetPadComponent` accepts a pad in coefficient form.  `AbsorbInPlace` then fails, but the first component has
been multiplied by the plaintext. -/
theorem c67_mixed_violated {x : RCt} {c0 c1 a pt c0' : RPoly} (hx : x.c = [c0, c1]) (ha : a.ntt = false)
    (hl : a.coeffs.length = c0.coeffs.length) (hm : Rns.mul x.ms c0 pt = .ok c0') :
    x.setPadIn a = ({ x with c := [c0, a] }, .ok ()) ∧
    RCt.absorbIn { x with c := [c0, a] } pt = ({ x with c := [c0', a] }, .err .invalidArgument) := by
  constructor
  · unfold RCt.setPadIn
    rw [hx, if_neg (by simp), if_pos (by simp)]
    rfl
  · have h0 := res_of_value ((value_mulIn x.ms c0 pt).trans hm)
    have hc : ¬ pt.coeffs.length ≠ c0.coeffs.length ∧ ¬ x.ms.length ≠ c0.coeffs.length := by
      refine ⟨fun h => ?_, fun h => ?_⟩
      · unfold mulIn at h0; rw [if_pos h] at h0; cases h0
      · unfold mulIn at h0
        by_cases h' : pt.coeffs.length ≠ c0.coeffs.length
        · rw [if_pos h'] at h0; cases h0
        · rw [if_neg h', if_pos h] at h0; cases h0
    have h1 : mulIn x.ms a pt = (a, .err .invalidArgument) := by
      unfold mulIn
      rw [hl, if_neg hc.1, if_neg hc.2, if_pos (by simp [ha])]
      rfl
    unfold RCt.absorbIn RCt.onComponents
    simp [Res.all, h0, h1]

/-- `ScaleAndReduceRnsBasisInPlace` multiplies the polynomial by `t` before it looks at the auxiliary polynomial. -/
theorem c67_scale_violated {x y aux : RPoly} (est : Estimate) (t : ℕ) (hatInv : List ℕ) (hatMod : List (List ℕ))
    (pMod pInv : List ℕ) (hy : mulInt ms x t = .ok y) (ha : auxMs.length ≠ aux.coeffs.length) :
    scaleAndReduceBasisIn est aux t ms auxMs hatInv hatMod pMod pInv x = (y, .err .invalidArgument) := by
  unfold scaleAndReduceBasisIn
  rw [res_of_value ((value_mulIntIn ms x t).trans hy)]
  have : mulInt auxMs aux t = .err .invalidArgument := by
    unfold mulInt; rw [if_pos ha]
  simp [andThen, withTemp, this]

/-- `RnsBfvCiphertext::AbsorbInPlace` below the top level fails and leaves the first component, which was in NTT form,
in coefficient form. -/
theorem c67_bfv_level_violated {ε : ℚ} {est : Estimate} {c : Rns.Ctx} {x : RCt} {pt c0 : RPoly} {cs : List RPoly}
    (hc : GoodCtx w l c) (h0 : 0 < k) (hk : k < c.qs.length) (hnp : c.ps ≠ [])
    (he : EstimateWithin (max c.qs.length c.ps.length) ε est) (hε : ε < 1 / 2) (hwq : c.qs.length < 2 ^ w)
    (hx : x.ms = c.qs.take k) (hx0 : x.c = c0 :: cs) {Cs : List (Fin (2 ^ l) → ℤ)} (h1 : Components l x Cs)
    {G : Fin (2 ^ l) → ℤ} (hn : pt.ntt = true) (hpt : Represents l (c.qs.take k) pt G) :
    ∃ c0', c0.ntt = true ∧ c0'.ntt = false ∧
      x.absorbBfvIn est c pt = ({ x with c := c0' :: cs }, .err .invalidArgument) := by
  have hg : ∀ m ∈ c.qs.take k, GoodModulus w l m := fun m hm => hc.qs m (List.mem_of_mem_take hm)
  have lk : (c.qs.take k).length = k := by rw [List.length_take]; omega
  have hne : c.qs.take k ≠ [] := by
    intro h; rw [h] at lk; simp at lk; omega
  obtain ⟨⟨hi, i1, i2⟩, ⟨hr, r1, r2⟩, ⟨qm, q1, q2⟩⟩ := level_consts hc h0 hk.le
  have h1' : List.Forall₂ (Comp l (c.qs.take k)) x.c Cs := by rw [← hx]; exact h1
  rw [hx0] at h1'
  obtain ⟨C, Cs', rfl⟩ : ∃ C Cs', Cs = C :: Cs' := by
    cases h1' with
    | cons _ _ => exact ⟨_, _, rfl⟩
  obtain ⟨hc0, -⟩ := List.forall₂_cons.1 h1'
  obtain ⟨v, v1, v2, v3⟩ := repr_toCoeff hg hc0.2 hc0.1
  have hs := scaleToAux_level hc h0 hk hnp he hε hwq i2 v2 v3
  obtain ⟨p, p1, p2, p3⟩ := repr_toCoeff hg hpt hn
  obtain ⟨a, Y, a1, a2, a3, a4⟩ := c47_switch (fun m hm => (hg m hm).create)
    (fun m hm => (hc.ps m hm).create) ((ctx_coprime hc).1.sublist ((List.take_sublist k c.qs).map _)) hne hnp
    (by have := (hg _ (List.head_mem hne)).l15; omega) p3 p2
    (by rw [List.take_of_length_le (l := hi) (by rw [← List.Forall₂.length_eq i2])]; exact i2)
    (by rw [List.take_of_length_le (l := hr) (by rw [← List.Forall₂.length_eq r2])]; exact r2) q2 (within_mono he (by rw [lk]; omega)) hε (by omega)
  obtain ⟨b, b1, -⟩ := repr_toNtt hc.ps a3 a2
  refine ⟨v, hc0.1, v2, ?_⟩
  have hstep : RCt.absorbBfvStepIn est c (c.qs.take k) hi pt b c0 = (v, .err .invalidArgument) := by
    unfold RCt.absorbBfvStepIn
    rw [if_pos hc0.1, res_of_value ((value_toCoeffIn _ c0).trans v1)]
    dsimp only [andThen]
    rw [hs]
    rfl
  unfold RCt.absorbBfvIn
  rw [if_neg (by simp [hn]), hx, lk]
  dsimp only
  rw [i1, r1, q1]
  dsimp only [withTemp]
  rw [p1]
  dsimp only
  rw [a1]
  dsimp only
  rw [b1]
  dsimp only
  rw [hx0]
  unfold RCt.onComponents
  simp [Res.all, hstep, hx]

/-- `ConvertToCoeffForm` on a polynomial with more coefficients than the moduli are for (`CreateZero` and `Create` do
not compare them) fails after it has changed the vector. -/
theorem c67_longer_violated :
    Shape 3 1 true ⟨3, [[1, 2, 3, 4, 5, 6, 7, 8]], true⟩ ∧
    toCoeffIn [exampleModulus 16 2 97] ⟨3, [[1, 2, 3, 4, 5, 6, 7, 8]], true⟩ =
      (⟨3, [[3, 50, 7, 64, 11, 22, 15, 1]], true⟩, .err .invalidArgument) :=
  ⟨⟨rfl, rfl, by decide, rfl⟩, by decide +kernel⟩

/-- `ApproxModReduceMsb` with an auxiliary polynomial of half the dimension fails after it has converted the
polynomial to NTT form. -/
theorem c67_approx_violated :
    ∃ x aux y : RPoly, Shape 2 1 false x ∧ Shape 1 1 false aux ∧ y.ntt = true ∧
      approxModReduceMsbIn aux [exampleModulus 16 2 97] [exampleModulus 16 2 193] [1] [1] [[1]] x =
        (y, .err .invalidArgument) :=
  ⟨⟨2, [[1, 2, 3, 4]], false⟩, ⟨1, [[5, 6]], false⟩, ⟨2, [[7, 30, 0, 64]], true⟩, ⟨rfl, rfl, by decide, rfl⟩,
    ⟨rfl, rfl, by decide, rfl⟩, rfl, by decide +kernel⟩

/-! ### Concrete cases -/

/-- A polynomial with four coefficients modulo 97 and 193. -/
def exPoly (ntt : Bool) : RPoly := ⟨2, [[1, 2, 3, 4], [5, 6, 7, 8]], ntt⟩

theorem exPoly_shape (f : Bool) : Shape 2 2 f (exPoly f) := ⟨rfl, rfl, by cases f <;> decide, rfl⟩

/-- A ciphertext with two such components. -/
def exInPlaceCt : RCt := ⟨[exPoly true, exPoly true], exMs, 1⟩

def exObject : LCt := ⟨exInPlaceCt, []⟩

theorem exObject_usable : Usable 16 2 exObject :=
  ⟨exMs_good, ⟨2, true, by
    intro c hc
    have : c = exPoly true := by simpa [exObject, exInPlaceCt] using hc
    rw [this]; exact exPoly_shape true⟩, by decide, by simp [exObject]⟩

/-- Nine calls, of which the first, third and last return errors. -/
def exHistory : List Call :=
  [.absorb (exPoly false), .add exInPlaceCt, .toNtt, .fusedAbsorbLazily exInPlaceCt (exPoly true), .merge,
    .absorb (exPoly true), .modReduceBgv 17 [1], .toCoeff, .add exInPlaceCt]

private theorem not_ub_of {o : Outcome Unit} (h : (match o with | .ub _ => false | _ => true) = true) (u : UB) :
    o ≠ .ub u := by
  rintro rfl; cases h

theorem exHistory_proper : Proper 16 2 exObject exHistory := by
  have hc : Uniform 2 exInPlaceCt := exObject_usable.uniform
  have hw : ∀ f, Rectangular (exPoly f) := fun f => ⟨2, 2, f, exPoly_shape f⟩
  unfold exHistory
  refine ⟨hw false, ?_, ⟨2, hc⟩, ?_, trivial, ?_, ⟨hc, hw true⟩, ?_, trivial, ?_, hw true, ?_, trivial, ?_, trivial, ?_,
    ⟨2, hc⟩, ?_, trivial⟩ <;>
  · refine not_ub_of ?_
    decide +kernel

example : allResults 16 exObject (accepted 16 exObject exHistory) = .ok (afterAll 16 exObject exHistory) :=
  (c67_history_partial exObject_usable exHistory_proper).1

example : (accepted 16 exObject exHistory).length = 6 ∧
    (afterAll 16 exObject exHistory).ct.c ≠ exObject.ct.c := by decide +kernel

example : Unchanged exObject (Call.run 16 exObject (.absorb (exPoly false))) ∧
    (Call.run 16 exObject (.absorb (exPoly false))).2 = .err .invalidArgument :=
  ⟨(c67_unchanged_partial (op := .absorb (exPoly false)) exObject_usable ⟨2, 2, false, exPoly_shape false⟩).1, by decide +kernel⟩

/-- The hypotheses of `c67_mixed_violated`, and the first component does change. -/
example : ∃ c0', Rns.mul exInPlaceCt.ms (exPoly true) (exPoly true) = .ok c0' ∧ c0' ≠ exPoly true ∧
    exInPlaceCt.c = [exPoly true, exPoly true] ∧ (exPoly false).ntt = false ∧
    (exPoly false).coeffs.length = (exPoly true).coeffs.length := by
  have : (match Rns.mul exInPlaceCt.ms (exPoly true) (exPoly true) with
    | .ok c => decide (c ≠ exPoly true) | _ => false) = true := by decide +kernel
  cases h : Rns.mul exInPlaceCt.ms (exPoly true) (exPoly true) with
  | ok c => rw [h] at this; exact ⟨c, rfl, of_decide_eq_true this, rfl, rfl, rfl⟩
  | err e => rw [h] at this; cases this
  | ub e => rw [h] at this; cases this

/-- The hypotheses of `c67_scale_violated`. -/
example : ∃ y, mulInt exMs (exPoly true) 17 = .ok y ∧ y ≠ exPoly true ∧
    [exampleModulus 16 2 97].length ≠ (exPoly true).coeffs.length := by
  have : (match mulInt exMs (exPoly true) 17 with | .ok c => decide (c ≠ exPoly true) | _ => false) = true := by
    decide +kernel
  cases h : mulInt exMs (exPoly true) 17 with
  | ok c => rw [h] at this; exact ⟨c, rfl, of_decide_eq_true this, by decide⟩
  | err e => rw [h] at this; cases this
  | ub e => rw [h] at this; cases this

/-- The hypotheses of `c67_bfv_level_violated` and of `c67_bfv_absorb_partial`: zero ciphertexts with two components
at the second of three levels and at the top. -/
example : ∃ c : Rns.Ctx, GoodCtx 16 2 c ∧ c.qs.length = 3 ∧
    (∃ (x : RCt) (pt : RPoly), x.ms = c.qs.take 2 ∧ x.c.length = 2 ∧
      (x.absorbBfvIn exactEstimate c pt).2 = .err .invalidArgument ∧
      (x.absorbBfvIn exactEstimate c pt).1.c ≠ x.c) ∧
    ∃ (x : RCt) (pt : RPoly), x.ms = c.qs ∧ x.c.length = 2 ∧ Unchanged x (x.absorbBfvIn exactEstimate c pt) := by
  obtain ⟨e, he, hb, hq, hp, ht⟩ := exBfvEncoder
  have hlq : e.ctx.qs.length = 3 := by simpa using congrArg List.length hq
  have hlp : e.ctx.ps.length = 3 := by simpa using congrArg List.length hp
  have hnp : e.ctx.ps ≠ [] := by intro h0; rw [h0] at hp; cases hp
  have hne : e.ctx.qs ≠ [] := by intro h0; rw [h0] at hq; cases hq
  have hne2 : e.ctx.qs.take 2 ≠ [] := by
    intro h0; have := congrArg List.length h0; rw [List.length_take, hlq] at this; cases this
  obtain ⟨z, -, z2, z3⟩ := repr_createZero (l := 2) (fun m hm => he.ctx.qs m (List.mem_of_mem_take hm)) hne2 true
  obtain ⟨y, -, y2, y3⟩ := repr_createZero (l := 2) he.ctx.qs hne true
  refine ⟨e.ctx, he.ctx, hlq, ⟨⟨[z, z], e.ctx.qs.take 2, 1⟩, z, rfl, rfl, ?_⟩,
    ⟨⟨[y, y], e.ctx.qs, 1⟩, y, rfl, rfl, ?_⟩⟩
  · obtain ⟨c0', h1, h2, h3⟩ := c67_bfv_level_violated (x := ⟨[z, z], e.ctx.qs.take 2, 1⟩) (k := 2) he.ctx (by norm_num)
      (by rw [hlq]; norm_num) hnp (exactEstimate_within _) (by norm_num) (by rw [hlq]; norm_num) rfl rfl
      (Cs := [0, 0]) (.cons ⟨z2, z3⟩ (.cons ⟨z2, z3⟩ .nil)) z2 z3
    rw [h3]
    refine ⟨rfl, fun h => ?_⟩
    have : c0' = z := by simpa using h
    rw [this, z2] at h2
    cases h2
  · refine c67_bfv_absorb_partial (S := 0) (M := 0) (vx := 0) (G := 0) (N := 0) (vy := 0) he.ctx hne hnp
      (exactEstimate_within _) (by norm_num) (by rw [hlq]; norm_num) (by rw [hlp]; norm_num) rfl (fun _ => y3) ?_ ?_
    · refine ⟨0, ⟨by norm_num, [0, 0], .cons ⟨y2, y3⟩ (.cons ⟨y2, y3⟩ .nil), ?_⟩, ?_⟩
      · intro i
        have : innerProduct (substPow 1 (0 : Fin (2 ^ 2) → ℤ)) [0, 0] = 0 := by
          have h0 : ∀ S : Fin (2 ^ 2) → ℤ, negMul S (0 : Fin (2 ^ 2) → ℤ) = 0 := fun S => negMul_zero S
          simp [innerProduct, h0]
        exact ⟨0, by rw [show (1 : ℤ).toNat = 1 from rfl, this]; simp⟩
      · intro i; simp
    · intro i; simp

end Shell
