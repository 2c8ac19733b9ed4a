import Verif.Lemmas.RnsScheme
import Verif.Lemmas.Expand
import Verif.Lemmas.SymSwitch
/-! Lemmas about the phase of RNS ciphertexts. -/

namespace Shell.NR
open Finset Spec NttRing
variable {n : ℕ}

theorem emb_substPow (k : ℕ) (f : Fin n → ℤ) :
    emb (substPow k f) = ev (fun i => AdjoinRoot.of _ (f i))
      (AdjoinRoot.root (Polynomial.X ^ n + 1 : Polynomial ℤ) ^ k) := by
  rw [emb_eq_ev, ← ev_substPow k _ _ root_pow]
  congr 1
  funext i
  simp only [substPow, map_sum]
  refine sum_congr rfl fun j _ => ?_
  split_ifs <;> simp

theorem substPow_negMul [NeZero n] (k : ℕ) (hk : k % 2 = 1) (f g : Fin n → ℤ) :
    substPow k (negMul f g) = negMul (substPow k f) (substPow k g) := by
  apply emb_inj
  have h1 : (AdjoinRoot.root (Polynomial.X ^ n + 1 : Polynomial ℤ) ^ k) ^ n = -1 := by
    rw [← pow_mul, mul_comm, pow_mul, root_pow, Odd.neg_one_pow (Nat.odd_iff.mpr hk)]
  rw [emb_mul, emb_substPow, emb_substPow, emb_substPow, map_negMul, ev_negMul _ _ _ h1]

end Shell.NR

namespace Shell.Rns
open Finset Spec NttRing
variable {w l : ℕ} {x y z : RCt} {S Φ Ψ M : Fin (2 ^ l) → ℤ}

theorem components_comp {Cs : List (Fin (2 ^ l) → ℤ)} (h : Components l x Cs) :
    List.Forall₂ (Comp l x.ms) x.c Cs := h

theorem innerProduct_eq_hphase {n : ℕ} (S : Fin n → ℤ) (Cs : List (Fin n → ℤ)) :
    innerProduct S Cs = hphase S Cs := by
  induction Cs with
  | nil => rfl
  | cons c Cs ih => rw [innerProduct, ih]; rfl

theorem innerProduct_bound {n : ℕ} (S : Fin n → ℤ) (M : ℤ) (hM : 0 ≤ M) (Cs : List (Fin n → ℤ))
    (hL : ∀ f ∈ Cs, ∀ i, |f i| ≤ M) (k : Fin n) :
    |innerProduct S Cs k| ≤ M * ∑ j ∈ range Cs.length, norm1 S ^ j := by
  rw [innerProduct_eq_hphase]; exact hphase_bound S M hM Cs hL k

theorem congMod_innerProduct {n Q : ℕ} {S T : Fin n → ℤ} (h : CongMod Q S T) (Cs : List (Fin n → ℤ)) :
    CongMod Q (innerProduct S Cs) (innerProduct T Cs) := by
  induction Cs with
  | nil => exact CongMod.refl _
  | cons c Cs ih => exact (CongMod.refl c).add (h.mul ih)

theorem phase_congr (h : Phase l S x Φ) (hc : CongMod (modulusProd x.ms) Φ Ψ) : Phase l S x Ψ := by
  obtain ⟨Cs, h1, h2⟩ := h
  exact ⟨Cs, h1, h2.trans hc⟩

theorem phase_congr_key {T : Fin (2 ^ l) → ℤ} (h : Phase l S x Φ) (hc : CongMod (modulusProd x.ms) S T) :
    Phase l T x Φ := by
  obtain ⟨Cs, h1, h2⟩ := h
  exact ⟨Cs, h1, (congMod_innerProduct hc.symm Cs).trans h2⟩

/-- Operations on every component. -/
theorem phase_map {f : RPoly → Outcome RPoly} {g : (Fin (2 ^ l) → ℤ) → Fin (2 ^ l) → ℤ}
    (hf : ∀ c C, Comp l x.ms c C → ∃ r, f c = .ok r ∧ Comp l x.ms r (g C))
    (hadd : ∀ a u x, g (a + negMul u x) = g a + negMul u (g x)) (h0 : g 0 = 0)
    (hcong : ∀ F G, CongMod (modulusProd x.ms) F G → CongMod (modulusProd x.ms) (g F) (g G))
    (h : Phase l S x Φ) :
    ∃ r, x.c.mapM f = .ok r ∧ r.length = x.c.length ∧ Phase l S { x with c := r } (g Φ) := by
  obtain ⟨Cs, h1, h2⟩ := h
  obtain ⟨r, r1, r2⟩ := mapM_rel (P := Comp l x.ms) (R := Comp l x.ms) hf h1
  refine ⟨r, r1, ?_, Cs.map g, r2, ?_⟩
  · rw [r2.length_eq, List.length_map, h1.length_eq]
  · rw [innerProduct_map S g hadd h0]; exact hcong _ _ h2

/-- Operations on pairs of components. -/
theorem phase_zip {f : RPoly × RPoly → Outcome RPoly}
    {g : (Fin (2 ^ l) → ℤ) → (Fin (2 ^ l) → ℤ) → Fin (2 ^ l) → ℤ}
    (hf : ∀ c d C D, Comp l x.ms c C → Comp l x.ms d D → ∃ r, f (c, d) = .ok r ∧ Comp l x.ms r (g C D))
    (hadd : ∀ a b u x y, g (a + negMul u x) (b + negMul u y) = g a b + negMul u (g x y)) (h0 : g 0 0 = 0)
    (hcong : ∀ F G F' G', CongMod (modulusProd x.ms) F G → CongMod (modulusProd x.ms) F' G' →
      CongMod (modulusProd x.ms) (g F F') (g G G'))
    (hms : y.ms = x.ms) (hlen : x.c.length = y.c.length) (h : Phase l S x Φ) (h' : Phase l S y Ψ) :
    ∃ r, (x.c.zip y.c).mapM f = .ok r ∧ r.length = x.c.length ∧ Phase l S { x with c := r } (g Φ Ψ) := by
  obtain ⟨Cs, h1, h2⟩ := h
  obtain ⟨Ds, h3, h4⟩ := h'
  have h3' : List.Forall₂ (Comp l x.ms) y.c Ds := by rw [← hms]; exact h3
  rw [hms] at h4
  obtain ⟨r, r1, r2⟩ := mapM_rel₂ (P := Comp l x.ms) (P' := Comp l x.ms) (R := Comp l x.ms) hf h1 h3' hlen
  have e1 := h1.length_eq
  have e2 := h3'.length_eq
  refine ⟨r, r1, ?_, List.zipWith g Cs Ds, r2, ?_⟩
  · rw [r2.length_eq, List.length_zipWith]; omega
  · rw [innerProduct_zip S g hadd h0 Cs Ds (by omega)]; exact hcong _ _ _ _ h2 h4

theorem phase_head (hx : Phase l S x Φ) (h0 : x.c ≠ []) {f : RPoly → Outcome RPoly}
    (hf : ∀ c C, Comp l x.ms c C → ∃ r, f c = .ok r ∧ Comp l x.ms r (C + M)) :
    ∃ c0 r, rd x.c 0 = .ok c0 ∧ f c0 = .ok r ∧ wr x.c 0 r = .ok (x.c.set 0 r) ∧
      Phase l S { x with c := x.c.set 0 r } (Φ + M) := by
  obtain ⟨Cs, h1, h2⟩ := hx
  obtain ⟨c, ms, p⟩ := x
  cases h1' : c with
  | nil => exact absurd h1' h0
  | cons c0 c =>
    subst h1'
    cases h1 with
    | cons hp hq =>
      obtain ⟨r, r1, r2⟩ := hf _ _ hp
      refine ⟨c0, r, rfl, r1, rfl, _ :: _, .cons r2 hq, ?_⟩
      rw [innerProduct] at h2 ⊢
      have h := h2.add (CongMod.refl M)
      rwa [add_right_comm] at h

end Shell.Rns
