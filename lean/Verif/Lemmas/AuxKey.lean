import Verif.Model.AuxKey
import Verif.Lemmas.Relin
import Verif.Lemmas.Convert
import Mathlib.FieldTheory.Finite.Basic
/-! Key switching with an auxiliary modulus. -/

namespace Shell.AuxKey
open Spec Finset Sym NttRing Relin
variable {C : Ctx} {p : ℕ} {psi : ZMod p}

theorem inv_mul {q : ℕ} (hq : q.Prime) {x : ZMod q} (hx : x ≠ 0) : inv x * x = 1 := by
  haveI := Fact.mk hq
  haveI : NeZero q := ⟨hq.ne_zero⟩
  unfold inv
  rw [Nat.cast_pow, ZMod.natCast_zmod_val, ← pow_succ, show q - 2 + 1 = q - 1 by have := hq.two_le; omega]
  exact ZMod.pow_card_sub_one_eq_one hx

/-- The integers the coefficients of an NTT-form polynomial stand for. -/
def lift (C : Ctx) (f : C.Poly) : Fin C.n → ℤ := fun i => centered C.q (C.fromNtt f i)

theorem toNtt_lift (h : C.Ok) (f : C.Poly) : C.toNtt (modq C.q (lift C f)) = f := by
  haveI := h.neZero
  rw [show modq C.q (lift C f) = C.fromNtt f from ?_, toNtt_fromNtt h]
  funext i; simp only [modq, lift]; rw [centered_cast]

theorem toAux_eq (h : C.Ok) (f : C.Poly) :
    toAux psi f = (aux C p psi).toNtt (modq p (lift C f)) := by
  haveI := h.neZero
  unfold toAux
  rw [balancedRes_eq]; rfl

theorem toMain_eq (hD : (aux C p psi).Ok) (f : (aux C p psi).Poly) :
    toMain psi f = C.toNtt (modq C.q (lift (aux C p psi) f)) := by
  haveI : NeZero p := hD.neZero
  unfold toMain
  rw [balancedRes_eq]; rfl

theorem lift_bound (h : C.Ok) (f : C.Poly) (i : Fin C.n) : |lift C f i| ≤ C.q / 2 := by
  haveI := h.neZero
  have := centered_bound C.q (C.fromNtt f i)
  unfold lift
  rw [abs_le]; constructor <;> omega

variable (psi) in
theorem createComps_spec (k : Key C) (sAux : (aux C p psi).Poly) (base : C.Poly) (same : Bool)
    (tAux pm : ZMod C.q) (tA : ZMod p) (padsMain : ℕ → C.Poly) (padsAux : ℕ → (aux C p psi).Poly)
    (errs : ℕ → C.Poly) (d : Comp C p) (cnt i : ℕ) (sp : C.Poly)
    (hsp : sp = scalarMul pm (base ^ (if i = 0 then 1 else (if same then 1 else 0) + i))) :
    (createComps psi k sAux base same tA padsMain padsAux errs cnt i sp).length = cnt ∧
    ∀ u < cnt, (createComps psi k sAux base same tA padsMain padsAux errs cnt i sp).getD u d =
      Comp.create psi k.key sAux (scalarMul pm (base ^ ((if same then 2 else 1) + i + u)))
        k.tUnderQ tA (padsMain (i + u)) (padsAux (i + u)) (errs (i + u)) := by
  induction cnt generalizing i sp with
  | zero => exact ⟨rfl, fun u hu => by omega⟩
  | succ cnt ih =>
    have hsp' : (if same || decide (i > 0) then sp * base else sp) =
        scalarMul pm (base ^ ((if same then 2 else 1) + i)) := by
      rw [hsp]
      simp only [scalarMul_eq]
      cases same <;> rcases Nat.eq_zero_or_pos i with hi | hi
      · subst hi; simp
      · rw [if_pos (by simp [hi]), if_neg (by omega)]
        simp only [Bool.false_eq_true, if_false]
        rw [show 1 + i = (0 + i) + 1 by omega, pow_succ]; ring
      · subst hi; simp; ring
      · rw [if_pos (by simp), if_neg (by omega)]
        simp only [if_true]
        rw [show 2 + i = (1 + i) + 1 by omega, pow_succ]; ring
    rw [createComps, hsp']
    obtain ⟨h1, h2⟩ := ih (i + 1) (scalarMul pm (base ^ ((if same then 2 else 1) + i))) (by
      rw [if_neg (Nat.succ_ne_zero i)]
      congr 2
      cases same <;> simp <;> omega)
    refine ⟨by rw [List.length_cons, h1], fun u hu => ?_⟩
    cases u with
    | zero => rw [List.getD_cons_zero]; rfl
    | succ u =>
      rw [List.getD_cons_succ, h2 u (by omega), show i + 1 + u = i + (u + 1) by omega]
      rw [show (if same then 2 else 1) + (i + 1) + u = (if same then 2 else 1) + i + (u + 1) by omega]

/-- A key component is an encryption of its source modulo `q`, and of zero modulo `p`. -/
theorem comp_phase (h : C.Ok) (sAux : (aux C p psi).Poly) (src : C.Poly) (s : C.Poly)
    (tq : ZMod C.q) (tA : ZMod p) (a : C.Poly) (aA : (aux C p psi).Poly) (E : Fin C.n → ℤ)
    (hE : ∀ i, 2 * |E i| < C.q) :
    let c := Comp.create psi s sAux src tq tA a aA (modq C.q E)
    c.bMain + c.aMain * s = scalarMul tq (C.toNtt (modq C.q E)) + src ∧
    c.bAux + c.aAux * sAux = scalarMul tA ((aux C p psi).toNtt (modq p E)) := by
  haveI := h.neZero
  intro c
  constructor
  · simp only [c, Comp.create]; ring
  · simp only [c, Comp.create]
    rw [balancedRes_modq C.q p E hE]; ring

/-- The accumulated values. -/
theorem apply_loop (ak : AKey C p) (x : Ct C) (first K : ℕ) (hx : x.c.length = first + K)
    (hk : ak.keys.length = K) (c0 c1 : C.Poly) (d : Comp C p) :
    loop K (applyStep psi ak x first) (⟨c0, c1, 0, 0⟩ : Acc C p) = .ok
      (⟨c0 + ∑ u ∈ range K, (ak.keys.getD u d).bMain * x.c.getD (first + u) 0,
        c1 + ∑ u ∈ range K, (ak.keys.getD u d).aMain * x.c.getD (first + u) 0,
        ∑ u ∈ range K, (ak.keys.getD u d).bAux * toAux psi (x.c.getD (first + u) 0),
        ∑ u ∈ range K, (ak.keys.getD u d).aAux * toAux psi (x.c.getD (first + u) 0)⟩ : Acc C p) := by
  obtain ⟨s, h1, h2⟩ := loop_ok (f := applyStep psi ak x first) (n := K)
    (s := (⟨c0, c1, 0, 0⟩ : Acc C p))
    (fun i (s : Acc C p) => s =
      (⟨c0 + ∑ u ∈ range i, (ak.keys.getD u d).bMain * x.c.getD (first + u) 0,
        c1 + ∑ u ∈ range i, (ak.keys.getD u d).aMain * x.c.getD (first + u) 0,
        ∑ u ∈ range i, (ak.keys.getD u d).bAux * toAux psi (x.c.getD (first + u) 0),
        ∑ u ∈ range i, (ak.keys.getD u d).aAux * toAux psi (x.c.getD (first + u) 0)⟩ : Acc C p))
    (by simp) (by
      intro i hi s hs
      refine ⟨_, ?_, rfl⟩
      unfold applyStep
      dsimp only
      rw [component_ok x (by omega), Outcome.bind_ok, Nat.add_sub_cancel_left,
        rd_getD d (by omega), Outcome.bind_ok, hs]
      simp only [sum_range_succ, Outcome.pure_eq, add_assoc])
  rw [h1, h2]

/-- The ring identity behind `ConvertToMainModulus`. -/
theorem convert_phase (h : C.Ok) (hD : (aux C p psi).Ok) (hpq : p ≠ C.q) (s : C.Poly) (ak : AKey C p)
    (ht : ((ak.t : ℕ) : ZMod p) ≠ 0) (acc : Acc C p) (X : C.Poly) (W : Fin C.n → ℤ)
    (hm : acc.c0 + acc.c1 * s = scalarMul (p : ZMod C.q) X +
      scalarMul (ak.t : ZMod C.q) (C.toNtt (modq C.q W)))
    (ha : acc.c0Aux + acc.c1Aux * toAux psi s =
      scalarMul (ak.t : ZMod p) ((aux C p psi).toNtt (modq p W))) :
    let r := convertToMain psi ak (p : ZMod C.q) acc
    ∃ V U0 U1 : Fin C.n → ℤ,
      (∀ i, (p : ℤ) * V i = W i - U0 i - negMul (lift C s) U1 i) ∧
      (∀ i, |U0 i| ≤ p / 2) ∧ (∀ i, |U1 i| ≤ p / 2) ∧
      r.1 + r.2 * s = X + scalarMul (ak.t : ZMod C.q) (C.toNtt (modq C.q V)) := by
  intro r
  haveI := h.neZero
  haveI : NeZero p := hD.neZero
  have hp : p.Prime := hD.prime
  set D := aux C p psi with hDdef
  let f0 : D.Poly := scalarMul (inv (ak.t : ZMod p)) acc.c0Aux
  let f1 : D.Poly := scalarMul (inv (ak.t : ZMod p)) acc.c1Aux
  let U0 : Fin C.n → ℤ := lift D f0
  let U1 : Fin C.n → ℤ := lift D f1
  have hU0 : D.toNtt (modq p U0) = f0 := toNtt_lift hD f0
  have hU1 : D.toNtt (modq p U1) = f1 := toNtt_lift hD f1
  have hinv := inv_mul hp ht
  have hpinv : inv (p : ZMod C.q) * (p : ZMod C.q) = 1 := by
    apply inv_mul h.prime
    intro hc
    rw [ZMod.natCast_eq_zero_iff] at hc
    exact hpq ((Nat.prime_dvd_prime_iff_eq h.prime hp).mp hc).symm
  -- modulo `p` the rounding terms agree with the noise
  have hmodp : modq p (U0 + negMul (lift C s) U1) = modq p W := by
    have hsA : toAux psi s = D.toNtt (modq p (lift C s)) := toAux_eq h s
    apply toNtt_inj hD
    rw [modq_add, modq_negMul]
    have e1 : D.toNtt (modq p U0 + negMul (modq p (lift C s)) (modq p U1)) =
        D.toNtt (modq p U0) + D.toNtt (modq p (lift C s)) * D.toNtt (modq p U1) := by
      rw [toNtt_add, toNtt_negMul hD]
    have e2 : f0 + D.toNtt (modq p (lift C s)) * f1 =
        (fun _ => inv (ak.t : ZMod p) : D.Poly) * (acc.c0Aux + acc.c1Aux * toAux psi s) := by
      rw [hsA]
      simp only [f0, f1, scalarMul_eq]
      change (fun _ => inv (ak.t : ZMod p) : D.Poly) * (acc.c0Aux : D.Poly) +
        D.toNtt (modq p (lift C s)) * ((fun _ => inv (ak.t : ZMod p) : D.Poly) * (acc.c1Aux : D.Poly)) = _
      ring
    refine e1.trans ?_
    rw [hU0, hU1, e2, ha]
    change (fun _ => inv (ak.t : ZMod p) : D.Poly) *
      ((fun _ => (ak.t : ZMod p) : D.Poly) * D.toNtt (modq p W)) = _
    rw [← mul_assoc]
    have : ((fun _ => inv (ak.t : ZMod p) : D.Poly) * (fun _ => (ak.t : ZMod p) : D.Poly)) = 1 := by
      funext i; exact hinv
    rw [this, one_mul]
  have hdvd : ∀ i, (p : ℤ) ∣ W i - U0 i - negMul (lift C s) U1 i := by
    intro i
    have := congrFun hmodp i
    simp only [modq, Pi.add_apply] at this
    rw [ZMod.intCast_eq_intCast_iff] at this
    have h2 := this.dvd
    rw [sub_sub]; exact h2
  choose V hV using hdvd
  refine ⟨V, U0, U1, fun i => (hV i).symm, fun i => lift_bound hD f0 i, fun i => lift_bound hD f1 i, ?_⟩
  have hr1 : r.1 = scalarMul (inv (p : ZMod C.q)) (acc.c0 - scalarMul (ak.t : ZMod C.q)
      (C.toNtt (modq C.q U0))) := by
    simp only [r, convertToMain]; rw [toMain_eq hD]
  have hr2 : r.2 = scalarMul (inv (p : ZMod C.q)) (acc.c1 - scalarMul (ak.t : ZMod C.q)
      (C.toNtt (modq C.q U1))) := by
    simp only [r, convertToMain]; rw [toMain_eq hD]
  have hs := toNtt_lift h s
  have hW : C.toNtt (modq C.q W) - C.toNtt (modq C.q U0) - s * C.toNtt (modq C.q U1) =
      (fun _ => (p : ZMod C.q) : C.Poly) * C.toNtt (modq C.q V) := by
    rw [← scalarMul_eq, ← toNtt_smul]
    have : scalarMul (p : ZMod C.q) (modq C.q V) = modq C.q (W - U0 - negMul (lift C s) U1) := by
      rw [show (W - U0 - negMul (lift C s) U1) = fun i => (p : ℤ) * V i from funext fun i => hV i, modq_smul]
      simp
    rw [this, modq_sub, modq_sub, modq_negMul, toNtt_sub, toNtt_sub, toNtt_negMul h, hs]
  have hone : (fun _ => inv (p : ZMod C.q) : C.Poly) * (fun _ => (p : ZMod C.q) : C.Poly) = 1 := by
    funext i; exact hpinv
  rw [hr1, hr2]
  simp only [scalarMul_eq] at hm ⊢
  linear_combination (fun _ => inv (p : ZMod C.q) : C.Poly) * hm +
    (fun _ => inv (p : ZMod C.q) : C.Poly) * (fun _ => (ak.t : ZMod C.q) : C.Poly) * hW +
    (X + (fun _ => (ak.t : ZMod C.q) : C.Poly) * C.toNtt (modq C.q V)) * hone

end Shell.AuxKey
