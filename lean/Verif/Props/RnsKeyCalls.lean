import Verif.Spec.RnsPolySession
import Verif.Props.RnsLevelled
import Verif.Props.RnsGadget
import Verif.Props.RnsContextKinds
/-!
# C78, C79: what the key generation calls deliver
-/

namespace Shell
open Spec Rns
variable {σ τ : Type} {G : Gen σ} {Gp : Gen τ} {fuel : ℕ} {C : SchemeChoice} {c : Rns.Ctx} {k : ℕ → RKey} {z : ℕ}
  {relins : ℕ → RRelin} {galois : ℕ → ℕ → RGalois}

/-- The secret keys at all levels. -/
theorem Spec.KeyCalls.secretOk (hG : Words G) (hC : C.ValidPoly) (hx : GoodCtx C.w C.l c)
    (hqs : c.qs.map (·.N) = C.qs) (h : KeyCalls G Gp fuel C z c k relins galois) :
    ∃ S : Fin (2 ^ C.l) → ℤ, 0 < C.v ∧ (norm1 S ≤ 2 ^ C.l * (2 * C.v)) ∧ ∀ lev, 0 < lev → lev ≤ c.qs.length →
      (k lev).ms = c.qs.take lev ∧ (k lev).variance = C.v ∧ GoodKey C.w C.l (k lev) S := by
  obtain ⟨s, s', hs⟩ := h.secret
  have hv0 : 0 < C.v := by
    unfold RKey.sample at hs
    split_ifs at hs
    omega
  have hv : ∀ a ∈ c.qs.head?, 2 * C.v ≤ a.N := by
    intro a ha
    refine (hC.first a.N ?_).2
    rw [← hqs, List.head?_map, Option.mem_def.mp ha]
    rfl
  obtain ⟨k1, k2, S, k3, k4⟩ := c55_key_sample G hG hx.qs hv hs
  refine ⟨S, hv0, ?_, ?_⟩
  · unfold norm1
    refine (Finset.sum_le_sum fun i _ => k4 i).trans ?_
    simp
  · have main : ∀ d lev, d + lev = c.qs.length → 0 < lev → (k lev).ms = c.qs.take lev ∧
        (k lev).variance = C.v ∧ KeyIs C.l (k lev) S := by
      intro d
      induction d with
      | zero =>
        intro lev hl _
        have hl : lev = c.qs.length := by omega
        subst hl
        rw [List.take_length]
        exact ⟨k1, k2, k3⟩
      | succ d ih =>
        intro lev hl h0
        obtain ⟨a1, a2, a3⟩ := ih (lev + 1) (by omega) (by omega)
        have hlt : lev < c.qs.length := by omega
        have hms : (k (lev + 1)).ms = c.qs.take lev ++ [c.qs[lev]] := by
          rw [a1, List.take_add_one, List.getElem?_eq_getElem hlt]; rfl
        have hne : c.qs.take lev ≠ [] := by
          intro hn
          have := congrArg List.length hn
          rw [List.length_take, List.length_nil] at this
          omega
        obtain ⟨k', b1, b2, b3, b4⟩ := c56_key_modReduce hne hms a3
        rw [h.reduced lev h0 hlt] at b1
        obtain rfl := Outcome.ok.inj b1
        exact ⟨b2, b3.trans a2, b4⟩
    intro lev h0 hl
    obtain ⟨a1, a2, a3⟩ := main (c.qs.length - lev) lev (by omega) h0
    refine ⟨a1, a2, fun a ha => hx.qs a ?_, ?_, a3, ?_⟩
    · rw [a1] at ha; exact List.mem_of_mem_take ha
    · rw [a1, List.map_take, hqs]
      have hnd := (List.nodup_append.mp hC.distinct).1
      have hpr : ∀ q ∈ C.qs, q.Prime := fun q hq => hC.prime q (List.mem_append_left _ hq)
      refine List.Pairwise.sublist (List.take_sublist _ _) (List.Pairwise.imp_of_mem ?_ hnd)
      intro a b ha hb hab
      exact (Nat.coprime_primes (hpr a ha) (hpr b hb)).mpr hab
    · rw [a1, a2]
      intro a ha
      refine hv a ?_
      rw [List.head?_take, if_neg (by omega)] at ha
      exact ha

/-- The gadgets. -/
theorem gadget_ok (hC : C.ValidPoly) (hx : GoodCtx C.w C.l c) (hqs : c.qs.map (·.N) = C.qs) {lev : ℕ}
    (hl : lev ∈ C.relins ∨ lev ∈ C.galois.map (·.1)) {g : RGadget} (hg : C.Gadget c lev g) :
    ∃ Gs, GadgetFor C.l (c.qs.take lev) g Gs (gadgetLogs (C.qs.take lev) (C.logBs lev)) := by
  obtain ⟨l0, l1, l2, l3⟩ := hC.level lev hl
  have hlq : c.qs.length = C.qs.length := by rw [← hqs, List.length_map]
  obtain ⟨m, rest, hm⟩ := List.exists_cons_of_length_pos (l := c.qs) (by omega)
  have hl1 := ((hx.qs m (by rw [hm]; exact List.mem_cons_self)).l15).1
  obtain ⟨hats, hatInvs, g1, g2, g3⟩ := hg
  obtain ⟨a, b, g', Gs, b1, b2, b3, b4, b5⟩ := c51_context hx hC.word hl1 (level := lev - 1)
    (by omega) (logBs := C.logBs lev) (by omega) l3
  rw [show ((lev - 1 : ℕ) : ℤ) = (lev : ℤ) - 1 by omega] at b1 b2
  rw [g1] at b1
  rw [g2] at b2
  obtain rfl := Outcome.ok.inj b1
  obtain rfl := Outcome.ok.inj b2
  rw [show lev - 1 + 1 = lev by omega] at b3 b4 b5
  rw [g3] at b3
  obtain rfl := Outcome.ok.inj b3
  refine ⟨Gs, ?_⟩
  unfold gadgetLogs
  rw [← hqs, ← List.map_take, List.zipWith_map_left, ← b4]
  exact b5

/-- The relinearization keys. -/
theorem Spec.KeyCalls.relinOk (hG : Words G) (hC : C.ValidPoly) (hx : GoodCtx C.w C.l c)
    (hqs : c.qs.map (·.N) = C.qs) (h : KeyCalls G Gp fuel C z c k relins galois)
    (hz : z < 2 ^ C.w) {S : Fin (2 ^ C.l) → ℤ} (hv0 : 0 < C.v) (hk : ∀ lev, 0 < lev → lev ≤ c.qs.length →
      (k lev).ms = c.qs.take lev ∧ (k lev).variance = C.v ∧ GoodKey C.w C.l (k lev) S) {lev : ℕ}
    (hl : lev ∈ C.relins) : RelinOk C.l S z (c.qs.take lev) (digitNoise C.l z (2 * C.v) (gadgetLogs (C.qs.take lev) (C.logBs lev)))
      (relins lev) := by
  have hlq : c.qs.length = C.qs.length := by rw [← hqs, List.length_map]
  obtain ⟨l0, l1, -, -⟩ := hC.level lev (Or.inl hl)
  obtain ⟨g, prng, sp, s, hg, hr⟩ := h.relin lev hl
  obtain ⟨Gs, hgad⟩ := gadget_ok hC hx hqs (Or.inl hl) hg
  obtain ⟨k1, k2, k3⟩ := hk lev l0 (by omega)
  obtain ⟨-, r2, -, -, r5⟩ := c52_relin_create Gp G hG k3 (by rw [k1]; exact hgad) (by rw [← k2]; exact k3.variance)
    hz hr
  exact ⟨r2.trans k1, 2 * C.v, Gs, _, by omega, r5, by push_cast; exact le_rfl⟩

/-- The Galois keys. -/
theorem Spec.KeyCalls.galoisOk (hG : Words G) (hC : C.ValidPoly) (hx : GoodCtx C.w C.l c)
    (hqs : c.qs.map (·.N) = C.qs) (h : KeyCalls G Gp fuel C z c k relins galois)
    (hz : z < 2 ^ C.w) {S : Fin (2 ^ C.l) → ℤ} (hv0 : 0 < C.v) (hk : ∀ lev, 0 < lev → lev ≤ c.qs.length →
      (k lev).ms = c.qs.take lev ∧ (k lev).variance = C.v ∧ GoodKey C.w C.l (k lev) S) {a : ℕ × ℕ}
    (ha : a ∈ C.galois) : GaloisOk C.l S z (c.qs.take a.1) (digitNoise C.l z (2 * C.v) (gadgetLogs (C.qs.take a.1) (C.logBs a.1)))
      a.2 (galois a.1 a.2) := by
  have hlq : c.qs.length = C.qs.length := by rw [← hqs, List.length_map]
  have hmem : a.1 ∈ C.galois.map (·.1) := List.mem_map_of_mem ha
  obtain ⟨l0, l1, -, -⟩ := hC.level a.1 (Or.inr hmem)
  obtain ⟨g, prng, sp, s, hg, hr⟩ := h.galois a ha
  obtain ⟨Gs, hgad⟩ := gadget_ok hC hx hqs (Or.inr hmem) hg
  obtain ⟨k1, k2, k3⟩ := hk a.1 l0 (by omega)
  obtain ⟨r1, r2, r3, r4, -, r5⟩ := c52_galois_create Gp G hG k3 (by rw [k1]; exact hgad)
    (by rw [← k2]; exact k3.variance) hz hr
  exact ⟨r2.trans k1, r1, by omega, by exact_mod_cast r4, 2 * C.v, Gs, _, by omega, r5,
    by push_cast; exact le_rfl⟩

end Shell
