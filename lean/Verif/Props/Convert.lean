import Verif.Lemmas.Convert
import Verif.Props.Montgomery
import Verif.Props.Polynomial
/-!
# Property C33: balanced modulus conversion
-/

namespace Shell
open Spec Convert MParams

/-- C33: converting any vector of residues modulo `q` to modulus `p` gives, coefficient by coefficient,
the residue modulo `p` of the representative in `(-q/2, q/2]`. -/
theorem c33_balanced {w q p : ℕ} {pq pp : MParams} (hq : create w q = .ok pq)
    (hp : create w p = .ok pp) (v : List ℕ) (hv : ∀ x ∈ v, x ≤ q) :
    let r := convertModulusBalanced v pq pp
    r.length = v.length ∧ ∀ i < v.length,
      r.getD i 0 ≤ p ∧
      (Mont.exportInt pp (r.getD i 0) : ℤ) = balanced q (Mont.exportInt pq (v.getD i 0)) % p := by
  have gq := good_of_create hq
  have gp := good_of_create hp
  obtain ⟨h1, h2⟩ := convertBalanced_spec gq gp
    (fun e => by subst e; rw [hq] at hp; exact Outcome.ok.inj hp) v hv
  exact ⟨h1, fun i hi => ⟨(h2 i hi).1, res_int_eq gp (h2 i hi).1 (h2 i hi).2⟩⟩

/-- C33: an integer vector small with respect to both moduli is preserved: residues of `z` modulo `q`
become residues of `z` modulo `p`. -/
theorem c33_small {w q p : ℕ} {pq pp : MParams} (hq : create w q = .ok pq)
    (hp : create w p = .ok pp) (v : List ℕ) (hv : ∀ x ∈ v, x ≤ q) (z : ℕ → ℤ)
    (hz : ∀ i < v.length, (Mont.exportInt pq (v.getD i 0) : ℤ) = z i % q ∧ 2 * |z i| < q) :
    ∀ i < v.length,
      (Mont.exportInt pp ((convertModulusBalanced v pq pp).getD i 0) : ℤ) = z i % p := by
  intro i hi
  rw [((c33_balanced hq hp v hv).2 i hi).2]
  obtain ⟨h1, h2⟩ := hz i hi
  have := abs_lt.mp (show |z i| < q by omega)
  congr 1
  unfold balanced
  have hq0 : (0 : ℤ) < q := by have := (good_of_create hq).pos; omega
  rcases le_or_gt 0 (z i) with h3 | h3
  · rw [abs_of_nonneg h3] at h2
    rw [Int.emod_eq_of_lt h3 (by omega)] at h1
    rw [if_pos (by omega), h1]
  · rw [abs_of_neg h3] at h2
    rw [← Int.add_emod_right, Int.emod_eq_of_lt (by omega) (by omega)] at h1
    rw [if_neg (by omega)]; omega

/-- C33: importing any unsigned values as balanced residues modulo `t`. -/
theorem c33_import {w p t : ℕ} {pp : MParams} (hp : create w p = .ok pp) (ht : 0 < t) (htw : t < 2 ^ w)
    (vs : List ℕ) :
    ∃ r, importBalanced vs t pp = .ok r ∧ r.length = vs.length ∧ ∀ i < vs.length,
      r.getD i 0 ≤ p ∧ (Mont.exportInt pp (r.getD i 0) : ℤ) = balanced t (vs.getD i 0 % t) % p := by
  have gp := good_of_create hp
  induction vs with
  | nil => exact ⟨[], rfl, rfl, by simp⟩
  | cons v vs ih =>
    obtain ⟨r, h1, h2, h3⟩ := ih
    have hlt := Nat.mod_lt v ht
    have key : ∀ u, (u ≤ p ∧ res pp p u = (balanced t (v % t) : ZMod p)) →
        (u :: r).length = (v :: vs).length ∧ ∀ i < (v :: vs).length,
          (u :: r).getD i 0 ≤ p ∧
          (Mont.exportInt pp ((u :: r).getD i 0) : ℤ) = balanced t ((v :: vs).getD i 0 % t) % p := by
      intro u hu
      refine ⟨by simp [h2], fun i hi => ?_⟩
      cases i with
      | zero => simp only [List.getD_cons_zero]; exact ⟨hu.1, res_int_eq gp hu.1 hu.2⟩
      | succ i => simp only [List.getD_cons_succ]; exact h3 i (by simpa using hi)
    unfold importBalanced at h1 ⊢
    rw [List.mapM_cons, h1]
    simp only [if_neg (show ¬ t = 0 by omega)]
    by_cases hx : 2 * (v % t) ≤ t
    · rw [if_neg (by rw [half_iff]; omega)]
      refine ⟨_, rfl, key _ ⟨(importInt_lt gp _ (by omega)).le, ?_⟩⟩
      rw [res_import gp (by omega), balanced, if_pos hx, Int.cast_natCast]
    · rw [if_pos (by rw [half_iff]; omega)]
      have htr : trunc pp.w ((t : ℤ) - (v % t : ℕ)) = t - v % t := by
        rw [gp.hw, trunc_eq w _ (t - v % t) (by omega) (by omega)]
      have hil := importInt_lt gp (t - v % t) (by omega)
      refine ⟨_, rfl, key _ ⟨?_, ?_⟩⟩
      · rw [htr]; exact negate_le gp hil.le
      · rw [htr, res_negate gp hil.le, res_import gp (by omega), balanced, if_neg hx,
          Nat.cast_sub hlt.le, Int.cast_sub, Int.cast_natCast, Int.cast_natCast]
        ring

/-- C33: plain conversion keeps the representative in `[0, q)`. -/
theorem c33_convert {w q p : ℕ} {pq pp : MParams} (hq : create w q = .ok pq)
    (hp : create w p = .ok pp) (v : List ℕ) (hv : ∀ x ∈ v, x ≤ q) :
    (convertModulus v pq pp).length = v.length ∧ ∀ i < v.length,
      Mont.exportInt pp ((convertModulus v pq pp).getD i 0) = Mont.exportInt pq (v.getD i 0) % p := by
  have gq := good_of_create hq
  have gp := good_of_create hp
  have h4q := gq.lt
  have hlt : ∀ i < v.length, Mont.exportInt pq (v.getD i 0) < q := fun i hi => by
    rw [List.getD_eq_getElem _ _ hi]
    have := hv _ (List.getElem_mem hi)
    exact exportInt_lt gq _ (by omega) (Or.inr this)
  unfold convertModulus
  by_cases hne : q = p
  · subst hne
    obtain rfl : pq = pp := by rw [hq] at hp; exact Outcome.ok.inj hp
    rw [if_pos rfl]
    exact ⟨rfl, fun i hi => (Nat.mod_eq_of_lt (hlt i hi)).symm⟩
  · rw [if_neg (by rw [gq.hN, gp.hN]; exact hne)]
    refine ⟨by simp, fun i hi => ?_⟩
    rw [List.getD_eq_getElem (l := List.map _ _) (hn := by simpa using hi), List.getElem_map]
    have := hlt i hi
    rw [List.getD_eq_getElem _ _ hi] at this ⊢
    exact export_import gp _ (by omega)

/-- The residue-level conversion used by the upper layers is the word-level one. -/
theorem c33_refines {w q p n : ℕ} {pq pp : MParams} (hq : create w q = .ok pq)
    (hp : create w p = .ok pp) (v : List ℕ) (f : Fin n → ZMod q) (hv : Poly.Rep pq q n v f) :
    Poly.Rep pp p n (convertModulusBalanced v pq pp) (balancedRes q p f) := by
  have gq := good_of_create hq
  have gp := good_of_create hp
  have hpos := gq.pos
  haveI : NeZero q := ⟨by omega⟩
  obtain ⟨h1, h2⟩ := convertBalanced_spec gq gp
    (fun e => by subst e; rw [hq] at hp; exact Outcome.ok.inj hp) v (by
      intro x hx
      obtain ⟨i, hi, rfl⟩ := List.mem_iff_getElem.mp hx
      have := hv.le i (by rw [← hv.len]; exact hi)
      rwa [List.getD_eq_getElem _ _ hi] at this)
  refine ⟨by rw [h1, hv.len], fun i hi => (h2 i (by rw [hv.len]; exact hi)).1, fun i => ?_⟩
  rw [(h2 i (by rw [hv.len]; exact i.2)).2, balancedRes_eq]
  unfold Mont.exportInt modq
  rw [export_eq_val gq (hv.le i i.2), balanced_val, hv.val]

example : create 16 97 = .ok (make 16 97) ∧ create 16 12289 = .ok (make 16 12289) ∧
    (convertModulusBalanced ([3, 95].map (Mont.importInt (make 16 97))) (make 16 97)
      (make 16 12289)).map (Mont.exportInt (make 16 12289)) = [3, 12287] ∧
    (do let r ← importBalanced [7, 3] 8 (make 16 97)
        return r.map (Mont.exportInt (make 16 97))) = .ok [96, 3] := by
  decide +kernel

end Shell
