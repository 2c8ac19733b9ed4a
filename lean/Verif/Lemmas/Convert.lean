import Verif.Model.Convert
import Verif.Spec.Convert
import Verif.Lemmas.Residue
import Verif.Lemmas.Rlwe
import Verif.Lemmas.Polynomial
/-! Balanced modulus conversion. -/

namespace Shell
open Spec Convert

theorem balanced_val {q : ℕ} (x : ZMod q) : balanced q x.val = centered q x := rfl

theorem half_iff {q : ℕ} (x : ℕ) : x > q >>> 1 ↔ ¬ 2 * x ≤ q := by
  rw [Nat.shiftRight_one]; omega

theorem balancedRes_eq {n : ℕ} (q p : ℕ) [NeZero q] (f : Fin n → ZMod q) :
    balancedRes q p f = modq p fun i => centered q (f i) := by
  funext i
  simp only [balancedRes, modq, centered]
  by_cases e : q = p
  · subst e
    rw [if_pos rfl]
    split_ifs <;> simp
  · rw [if_neg e]
    by_cases hp : p > q
    · rw [if_pos hp]
      by_cases hx : 2 * (f i).val ≤ q
      · rw [if_pos hx, if_neg (by rw [half_iff]; omega)]; simp
      · rw [if_neg hx, if_pos (by rw [half_iff]; omega), Nat.cast_sub hp.le]
        push_cast
        rw [ZMod.natCast_self]; ring
    · rw [if_neg hp]
      by_cases hx : 2 * (f i).val ≤ q
      · rw [if_pos hx, if_neg (by rw [half_iff]; omega)]; simp
      · rw [if_neg hx, if_pos (by rw [half_iff]; omega), Nat.cast_sub (by omega)]
        push_cast
        rw [ZMod.natCast_self]; ring

theorem balancedRes_modq {n : ℕ} (q p : ℕ) [NeZero q] (f : Fin n → ℤ)
    (hf : ∀ i, 2 * |f i| < q) : balancedRes q p (modq q f) = modq p f := by
  rw [balancedRes_eq]
  funext i
  simp only [modq]
  rw [centered_eq q (f i)]
  · have := hf i; have := neg_abs_le (f i); omega
  · have := hf i; have := le_abs_self (f i); omega

variable {pq pp : MParams} {w q p : ℕ}

theorem res_int_eq (g : Good pp w p) {a : ℕ} (ha : a ≤ p) {z : ℤ} (h : res pp p a = (z : ZMod p)) :
    (Mont.exportInt pp a : ℤ) = z % p := by
  have hp := g.pos
  haveI : NeZero p := ⟨by omega⟩
  unfold Mont.exportInt
  rw [export_eq_val g ha, h, ZMod.val_intCast]

theorem balancedCoeff_spec (gq : Good pq w q) (gp : Good pp w p) (hne : q ≠ p) {v : ℕ} (hv : v ≤ q) :
    let diff := if pq.modulus > pp.modulus then trunc pp.w ((pq.modulus : ℤ) - pp.modulus)
      else trunc pp.w ((pp.modulus : ℤ) - pq.modulus)
    balancedCoeff pq pp (Mont.importInt pp diff) v ≤ p ∧
    res pp p (balancedCoeff pq pp (Mont.importInt pp diff) v) =
      (balanced q (Mont.exportInt pq v) : ZMod p) := by
  intro diff
  have h4q := gq.lt
  have h4p := gp.lt
  have hx : Mont.exportInt pq v < q := exportInt_lt gq v (by omega) (Or.inr hv)
  have hd : diff < 2 ^ w ∧ diff = if q > p then q - p else p - q := by
    simp only [diff]
    rw [gq.hN, gp.hN, gp.hw]
    split_ifs
    · rw [trunc_eq w _ (q - p) (by omega) (by omega)]; omega
    · rw [trunc_eq w _ (p - q) (by omega) (by omega)]; omega
  have hil := importInt_lt gp (Mont.exportInt pq v) (by omega)
  have hdl := importInt_lt gp diff hd.1
  have rx := res_import gp (n := Mont.exportInt pq v) (by omega)
  have rd := res_import gp hd.1
  have hdc := hd.2
  clear_value diff
  unfold balancedCoeff balanced
  dsimp only
  rw [gq.hN, gp.hN]
  by_cases hx2 : 2 * Mont.exportInt pq v ≤ q
  · simp only [if_pos hx2, if_neg (show ¬ Mont.exportInt pq v > q >>> 1 by rw [half_iff]; omega)]
    rw [ite_self]
    exact ⟨hil.le, by rw [rx]; simp⟩
  · rw [if_neg hx2]
    have hx3 : Mont.exportInt pq v > q >>> 1 := by rw [half_iff]; omega
    by_cases hpq : p > q
    · rw [if_pos hpq, if_pos hx3]
      rw [if_neg (by omega)] at hdc
      refine ⟨(add_lt gp (by omega)).le, ?_⟩
      rw [res_add gp (by omega), rx, rd, hdc, Nat.cast_sub hpq.le]
      push_cast
      rw [ZMod.natCast_self]; ring
    · rw [if_neg hpq, if_pos hx3]
      rw [if_pos (by omega)] at hdc
      refine ⟨(sub_lt gp hdl.le (by omega)).le, ?_⟩
      rw [res_sub gp hdl.le (by omega), rx, rd, hdc, Nat.cast_sub (by omega)]
      push_cast
      rw [ZMod.natCast_self]; ring

theorem convertBalanced_spec (gq : Good pq w q) (gp : Good pp w p) (hp : q = p → pq = pp) (v : List ℕ)
    (hv : ∀ x ∈ v, x ≤ q) :
    (convertModulusBalanced v pq pp).length = v.length ∧ ∀ i < v.length,
      (convertModulusBalanced v pq pp).getD i 0 ≤ p ∧
      res pp p ((convertModulusBalanced v pq pp).getD i 0) =
        (balanced q (Mont.exportInt pq (v.getD i 0)) : ZMod p) := by
  have hv' : ∀ i < v.length, v.getD i 0 ≤ q := fun i hi => by
    rw [List.getD_eq_getElem _ _ hi]; exact hv _ (List.getElem_mem hi)
  have h4q := gq.lt
  unfold convertModulusBalanced
  by_cases hne : q = p
  · obtain rfl := hp hne
    subst hne
    rw [if_pos rfl]
    refine ⟨rfl, fun i hi => ⟨hv' i hi, ?_⟩⟩
    have hq := gq.pos
    haveI : NeZero q := ⟨by omega⟩
    have := export_eq_val gq (hv' i hi)
    unfold Mont.exportInt
    rw [this, balanced_val, centered_cast]
  · rw [if_neg (by rw [gq.hN, gp.hN]; exact hne)]
    refine ⟨by simp, fun i hi => ?_⟩
    dsimp only
    rw [Poly.getD_map' _ hi]
    exact balancedCoeff_spec gq gp hne (hv' i hi)

end Shell
