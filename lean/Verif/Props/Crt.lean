import Verif.Lemmas.CrtInterpolation
import Verif.Props.RnsContext
/-!
# C42: CRT interpolation

`W` is the width of the big integer type.
-/

namespace Shell
open Spec Rns

/-- **C42.** If the big integer type holds the product of `Q` and any modulus, interpolating the residues of
integers below `Q` returns those integers, with the complements that `RnsModulusComplements` computes and the
inverses of the complements (`MainPrimeModulusCrtFactors`). -/
theorem c42_crt {w W n : ℕ} {ms : List Modulus} {vs : List (List ℕ)} {hatInvs : List ℕ}
    (hm : ∀ m ∈ ms, MParams.create w m.N = .ok m.p) (h1 : ∀ m ∈ ms, 1 < m.N) (hne : ms ≠ [])
    (hW : ∀ m ∈ ms, modulusProd ms * m.N ≤ 2 ^ W) (hi : HatInvs ms hatInvs)
    (hcop : (ms.map (·.N)).Pairwise Nat.Coprime) (xs : Fin n → ℕ) (hx : ∀ j, xs j < modulusProd ms)
    (hv : List.Forall₂ (fun m v => CoeffsAre m n v fun j => (xs j : ℤ)) ms vs) :
    crtInterpolation W vs ms (modulusComplements W ms) hatInvs = .ok (List.ofFn xs) := by
  have hpos : ∀ m ∈ ms, 0 < m.N := fun m h => (good_of_create (hm m h)).pos
  have hpos' : ∀ n ∈ ms.map (·.N), 0 < n := by
    intro n hn
    obtain ⟨m, hm1, rfl⟩ := List.mem_map.mp hn
    exact hpos m hm1
  have hQ : 0 < modulusProd ms := List.prod_pos hpos'
  obtain ⟨m₀, hm₀⟩ := List.exists_mem_of_ne_nil ms hne
  have h3 : 3 ≤ m₀.N := by
    have g := good_of_create (hm m₀ hm₀)
    have := g.odd
    have := h1 m₀ hm₀
    omega
  have h2 : 2 * modulusProd ms ≤ 2 ^ W := by have := hW m₀ hm₀; nlinarith
  have hlt : modulusProd ms < 2 ^ W := by omega
  have hlen := hv.length_eq
  cases vs with
  | nil => rw [List.length_nil, List.length_eq_zero_iff] at hlen; exact absurd hlen hne
  | cons v vs =>
    have hvl : v.length = n := by
      cases ms with
      | nil => cases hv
      | cons m ms => exact (List.forall₂_cons.mp hv).1.1
    unfold crtInterpolation
    dsimp only
    rw [if_neg (by omega), if_neg (by rw [modulusComplements_eq hlt hpos]; simp; simpa using hlen),
      if_neg (by rw [← hi.length_eq]; omega), hvl, compositeModulus_eq hlt, modulusComplements_eq hlt hpos]
    obtain ⟨bs, b1, b2⟩ := mapM_range (f := fun j => interpolateAt W (modulusProd ms) j ms (v :: vs)
        (ms.map fun m => modulusProd ms / m.N) hatInvs 0)
      (P := fun j r => ∀ h : j < n, r = xs ⟨j, h⟩) (List.range n) (fun j hj => by
        have hj' := List.mem_range.mp hj
        obtain ⟨r, r1, r2, r3⟩ := interpolateAt_ok (w := w) (j := j) (xs ⟨j, hj'⟩ : ℤ) hQ h2 ms (v :: vs)
          (ms.map fun m => modulusProd ms / m.N) hatInvs 0 hQ
          (fun m h => ⟨hm m h, List.dvd_prod (List.mem_map_of_mem h), hW m h⟩)
          (hv.imp fun m u hu => by
            obtain ⟨u1, u2, u3⟩ := hu
            have hju : j < u.length := by omega
            refine ⟨u[j], rd_some (List.getElem?_eq_getElem hju), u2 _ (List.getElem_mem hju), ?_⟩
            have := u3 ⟨j, hj'⟩
            rwa [List.getD_eq_getElem _ _ hju] at this) rfl hi
        refine ⟨r, r1, fun _ => ?_⟩
        have h5 := crtSum_dvd hcop hpos' false (xs ⟨j, hj'⟩ : ℤ)
        unfold crtSum at h5
        have h6 : (modulusProd ms : ℤ) ∣ (r : ℤ) - xs ⟨j, hj'⟩ := by
          have := dvd_add r3 h5
          have e : modulusProd ms = (ms.map (·.N)).prod := rfl
          rw [← e] at this
          generalize ((ms.map (·.N)).map fun n =>
            rdigit false (modulusProd ms) n (xs ⟨j, hj'⟩) * (modulusProd ms / n : ℕ)).sum = S at this
          have e2 : (r : ℤ) - xs ⟨j, hj'⟩ = r - ((0 : ℕ) + S) + (S - xs ⟨j, hj'⟩) := by
            push_cast; ring
          rw [e2]
          exact this
        have h7 := (Nat.modEq_iff_dvd.mpr h6)
        unfold Nat.ModEq at h7
        rw [Nat.mod_eq_of_lt (hx _), Nat.mod_eq_of_lt r2] at h7
        exact h7.symm)
    rw [b1]
    congr 1
    apply List.ext_getElem
    · rw [← b2.length_eq]; simp
    · intro j h1 h2
      have hjn : j < n := by simpa using h2
      obtain ⟨y, y1, y2⟩ := forall₂_get b2 j j (by simp [hjn])
      rw [List.getElem_ofFn, List.getElem_eq_iff, y1, y2 hjn]

/-- **C42.** Lists of different lengths are rejected, as is an empty list of coefficient vectors. -/
theorem c42_rejects (W : ℕ) (vs : List (List ℕ)) (ms : List Modulus) (hats hatInvs : List ℕ)
    (h : vs = [] ∨ ms.length ≠ vs.length ∨ hats.length ≠ vs.length ∨ hatInvs.length ≠ vs.length) :
    crtInterpolation W vs ms hats hatInvs = .err .invalidArgument := by
  unfold crtInterpolation
  cases vs with
  | nil => rfl
  | cons v vs =>
    dsimp only
    split
    · rfl
    split
    · rfl
    split
    · rfl
    rename_i h1 h2 h3
    simp only [ne_eq, not_not] at h1 h2 h3
    rcases h with h | h | h | h
    · cases h
    · exact absurd h1 h
    · exact absurd h2 h
    · exact absurd h3 h

/-- The hypotheses are met: residues modulo 97 and 193 with 32-bit big integers, for a context. -/
example : ∃ c : Rns.Ctx, createCtx 16 2 [97, 193] [113, 241] 5 = .ok c ∧
    ∃ f, c.crtFactors (1 : ℕ) = .ok f ∧ HatInvs c.qs f ∧ (∀ m ∈ c.qs, modulusProd c.qs * m.N ≤ 2 ^ 32) ∧
    ∃ vs, crtInterpolation 32 vs c.qs (modulusComplements 32 c.qs) f = .ok [18720, 4242] := by
  obtain ⟨c, hc⟩ := exampleCtx
  have hq : ∀ q ∈ [97, 193], q.Prime := by norm_num
  have hp : ∀ q ∈ [113, 241], q.Prime := by norm_num
  obtain ⟨g, a1, _⟩ := c54_residues (l := 2) hq hp (by norm_num) hc
  have hi := c54_inverses_partial (l := 2) hq hp (by norm_num) hc (by decide) (by decide)
  have hlen : c.qs.length = 2 := by
    rw [← List.length_map (f := fun m : Modulus => m.N), a1]; rfl
  have hQ : modulusProd c.qs = 18721 := by unfold modulusProd; rw [a1]; rfl
  obtain ⟨f, f1, f2⟩ := hi.crtFactors 1 (by omega)
  rw [List.take_of_length_le (by omega)] at f2
  have hW : ∀ m ∈ c.qs, modulusProd c.qs * m.N ≤ 2 ^ 32 := by
    intro m hm
    have : m.N ∈ [97, 193] := by rw [← a1]; exact List.mem_map_of_mem hm
    have : m.N ≤ 193 := by simp at this; omega
    rw [hQ]; omega
  refine ⟨c, hc, f, f1, f2, hW, c.qs.map fun m => [Mont.importInt m.p 18720, Mont.importInt m.p 4242], ?_⟩
  have := c42_crt (n := 2) (vs := c.qs.map fun m => [Mont.importInt m.p 18720, Mont.importInt m.p 4242]) (fun m hm => (g m hm).create) (fun m hm => (g m hm).prime.one_lt)
    (by intro h; rw [h] at hlen; cases hlen) hW f2 (by rw [a1]; decide) ![18720, 4242]
    (by rw [hQ]; decide) (forall₂_map _ _ fun m hm => by
      have gm := (g m hm).good
      have hb : ∀ x < 2 ^ 16, (Mont.exportInt m.p (Mont.importInt m.p x) : ℤ) = (x : ℤ) % m.N := fun x hx => by
        exact_mod_cast export_import gm x hx
      refine ⟨rfl, ?_, ?_⟩
      · intro a ha
        simp only [List.mem_cons, List.not_mem_nil, or_false] at ha
        rcases ha with rfl | rfl
        · exact (importInt_lt gm _ (by norm_num)).le
        · exact (importInt_lt gm _ (by norm_num)).le
      · intro i
        fin_cases i
        · exact hb 18720 (by norm_num)
        · exact hb 4242 (by norm_num))
  rw [this]; rfl

/-- **C42, the bound is needed.** With 16-bit big integers `Q = 97 * 193` itself fits, but the interpolation of
the residues of 18720 does not return 18720. -/
theorem c42_narrow : ∃ ms hi vs, ms.map (·.N) = [97, 193] ∧ HatInvs ms hi ∧ modulusProd ms < 2 ^ 16 ∧
    List.Forall₂ (fun m v => CoeffsAre m 1 v fun _ => 18720) ms vs ∧
    ∃ r, crtInterpolation 16 vs ms (modulusComplements 16 ms) hi = .ok r ∧ r ≠ [18720] := by
  let ms := [exampleModulus 16 2 97, exampleModulus 16 2 193]
  let vs := ms.map fun m => [Mont.importInt m.p 18720]
  let hi := ms.map fun m => Mont.multiplicativeInverse m.p (Mont.importInt m.p (18721 / m.N))
  refine ⟨ms, hi, vs, by decide +kernel, .cons (by decide +kernel) (.cons (by decide +kernel) .nil),
    by decide +kernel, .cons ?_ (.cons ?_ .nil), ?_⟩
  · unfold CoeffsAre; decide +kernel
  · unfold CoeffsAre; decide +kernel
  · have : (match crtInterpolation 16 vs ms (modulusComplements 16 ms) hi with
      | .ok r => r != [18720] | _ => false) = true := by decide +kernel
    cases h : crtInterpolation 16 vs ms (modulusComplements 16 ms) hi with
    | ok r => rw [h] at this; exact ⟨r, rfl, by simpa using this⟩
    | err e => rw [h] at this; cases this
    | ub e => rw [h] at this; cases this

end Shell
