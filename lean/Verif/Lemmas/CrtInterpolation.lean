import Verif.Lemmas.RnsContext
/-! `CrtInterpolation` on big integers that are wide enough. -/

namespace Shell.Rns
open Spec Poly

variable {w : ℕ}

theorem fold_mod {W : ℕ} (f : Modulus → ℕ) (ms : List Modulus) (acc : ℕ) :
    ms.foldl (fun acc m => (acc * (f m % 2 ^ W)) % 2 ^ W) (acc % 2 ^ W) = acc * (ms.map f).prod % 2 ^ W := by
  induction ms generalizing acc with
  | nil => simp
  | cons m ms ih =>
    rw [List.foldl_cons, ← Nat.mul_mod, ih, List.map_cons, List.prod_cons, mul_assoc]

theorem compositeModulus_eq {W : ℕ} {ms : List Modulus} (h : modulusProd ms < 2 ^ W) :
    compositeModulus W ms = modulusProd ms := by
  unfold compositeModulus
  rw [fold_mod (fun m => m.N), one_mul]
  exact Nat.mod_eq_of_lt h

theorem fold_skip_all {W s k : ℕ} (hk : k < s) (ms : List Modulus) (acc : ℕ) :
    (ms.zipIdx s).foldl (fun acc mj => if mj.2 ≠ k then (acc * (mj.1.N % 2 ^ W)) % 2 ^ W else acc)
      (acc % 2 ^ W) = acc * modulusProd ms % 2 ^ W := by
  induction ms generalizing acc s with
  | nil => simp [modulusProd]
  | cons m ms ih =>
    rw [List.zipIdx_cons, List.foldl_cons]
    dsimp only
    rw [if_pos (by omega), ← Nat.mul_mod, ih (by omega), mul_assoc]
    simp [modulusProd]

theorem fold_skip {W s i : ℕ} (ms : List Modulus) (acc : ℕ) :
    (ms.zipIdx s).foldl (fun acc mj => if mj.2 ≠ s + i then (acc * (mj.1.N % 2 ^ W)) % 2 ^ W else acc)
      (acc % 2 ^ W) = acc * modulusProd (ms.eraseIdx i) % 2 ^ W := by
  induction ms generalizing acc s i with
  | nil => simp [modulusProd]
  | cons m ms ih =>
    rw [List.zipIdx_cons, List.foldl_cons]
    dsimp only
    cases i with
    | zero =>
      rw [if_neg (by simp), Nat.add_zero, List.eraseIdx_cons_zero]
      exact fold_skip_all (by omega) ms acc
    | succ i =>
      rw [if_pos (by omega), ← Nat.mul_mod, show s + (i + 1) = s + 1 + i by omega, ih, mul_assoc,
        List.eraseIdx_cons_succ]
      simp [modulusProd]

theorem modulusComplements_eq {W : ℕ} {ms : List Modulus} (h : modulusProd ms < 2 ^ W)
    (hpos : ∀ m ∈ ms, 0 < m.N) :
    modulusComplements W ms = ms.map fun m => modulusProd ms / m.N := by
  apply List.ext_getElem?
  intro i
  unfold modulusComplements
  rw [List.getElem?_mapIdx, List.getElem?_map]
  cases hi : ms[i]? with
  | none => rfl
  | some m =>
    rw [Option.map_some, Option.map_some, ← hat_eraseIdx hi (hpos m (List.mem_of_getElem? hi))]
    have := fold_skip (W := W) (s := 0) (i := i) ms 1
    rw [Nat.zero_add, one_mul] at this
    rw [this]
    congr 1
    refine Nat.mod_eq_of_lt (lt_of_le_of_lt ?_ h)
    rw [hat_eraseIdx hi (hpos m (List.mem_of_getElem? hi))]
    exact Nat.div_le_self _ _

theorem interpolateAt_ok {W Q j : ℕ} (x : ℤ) (hQ : 0 < Q) (h2 : 2 * Q ≤ 2 ^ W) :
    ∀ (ms : List Modulus) (vs : List (List ℕ)) (hats his : List ℕ) (acc : ℕ), acc < Q →
    (∀ m ∈ ms, MParams.create w m.N = .ok m.p ∧ m.N ∣ Q ∧ Q * m.N ≤ 2 ^ W) →
    List.Forall₂ (fun m v => ∃ a, rd v j = .ok a ∧ a ≤ m.N ∧ (Mont.exportInt m.p a : ℤ) = x % m.N) ms vs →
    hats = ms.map (fun m => Q / m.N) →
    List.Forall₂ (fun m a => a ≤ m.N ∧ (m.N : ℤ) ∣ Mont.exportInt m.p a * (Q / m.N : ℕ) - 1) ms his →
    ∃ r, interpolateAt W Q j ms vs hats his acc = .ok r ∧ r < Q ∧
      (Q : ℤ) ∣ r - (acc + ((ms.map (·.N)).map fun n => rdigit false Q n x * (Q / n : ℕ)).sum) := by
  intro ms
  induction ms with
  | nil =>
    intro vs hats his acc ha _ hv hh hi
    cases hv
    exact ⟨acc, by simp [interpolateAt], ha, by simp⟩
  | cons m ms ih =>
    intro vs hats his acc ha hm hv hh hi
    cases hv with
    | @cons _ v _ vs hv hvs =>
    cases hi with
    | @cons _ e _ his he hes =>
    rw [List.map_cons] at hh
    subst hh
    obtain ⟨a, a1, a2, a3⟩ := hv
    obtain ⟨e1, e2⟩ := he
    obtain ⟨hc, hd, hW⟩ := hm m List.mem_cons_self
    have g := good_of_create hc
    have hN := g.pos
    haveI : NeZero m.N := ⟨by omega⟩
    have l1 : Mont.exportInt m.p a < m.N := exportInt_lt g a (by have := g.lt; omega) (Or.inr a2)
    have l2 : Mont.exportInt m.p e < m.N := exportInt_lt g e (by have := g.lt; omega) (Or.inr e1)
    have hQN : Q / m.N * m.N = Q := Nat.div_mul_cancel hd
    have hQW : Q < 2 ^ W := by omega
    have hNQ : m.N ≤ Q := Nat.le_of_dvd hQ hd
    generalize hA : Mont.exportInt m.p a = A at *
    generalize hE : Mont.exportInt m.p e = E at *
    have hEW : E % 2 ^ W = E := Nat.mod_eq_of_lt (by omega)
    have hAW : A % 2 ^ W = A := Nat.mod_eq_of_lt (by omega)
    have hpos : 0 < Q / m.N := Nat.div_pos hNQ hN
    have f1 : E * (Q / m.N) < Q := by
      calc E * (Q / m.N) < m.N * (Q / m.N) := Nat.mul_lt_mul_of_pos_right l2 hpos
        _ = Q := by rw [mul_comm]; exact hQN
    have f2 : E * (Q / m.N) * A < 2 ^ W := by
      refine lt_of_lt_of_le ?_ hW
      exact Nat.mul_lt_mul'' f1 l1
    obtain ⟨r, r1, r2, r3⟩ := ih vs (ms.map fun m => Q / m.N) his
      ((acc + E * (Q / m.N) * A % Q) % Q) (Nat.mod_lt _ hQ)
      (fun m' hm' => hm m' (List.mem_cons_of_mem _ hm')) hvs rfl hes
    refine ⟨r, ?_, r2, ?_⟩
    · unfold interpolateAt
      rw [a1, Outcome.bind_ok, if_neg (by omega), hA, hE, hEW, hAW]
      dsimp only
      rw [Nat.mod_eq_of_lt (f1.trans hQW), Nat.mod_eq_of_lt f1, Nat.mod_eq_of_lt f2,
        Nat.mod_eq_of_lt (show acc + E * (Q / m.N) * A % Q < 2 ^ W by
          have := Nat.mod_lt (E * (Q / m.N) * A) hQ; omega)]
      exact r1
    · rw [List.map_cons, List.map_cons, List.sum_cons]
      -- the term is congruent to the digit times the complement
      have key : (Q : ℤ) ∣ (E * (Q / m.N) * A : ℕ) - rdigit false Q m.N x * (Q / m.N : ℕ) := by
        have hdig : (m.N : ℤ) ∣ E * A - rdigit false Q m.N x := by
          rw [← ZMod.intCast_eq_intCast_iff_dvd_sub, rdigit_cast]
          have hx : ((A : ℕ) : ZMod m.N) = (x : ZMod m.N) := by
            have : ((A : ℤ) : ZMod m.N) = ((x % m.N : ℤ) : ZMod m.N) := by rw [a3]
            rw [Int.cast_natCast] at this
            rw [this, ZMod.intCast_mod]
          have he' : ((E : ℕ) : ZMod m.N) * ((Q / m.N : ℕ) : ZMod m.N) = 1 := by
            have := (ZMod.intCast_zmod_eq_zero_iff_dvd _ _).mpr e2
            rw [Int.cast_sub, Int.cast_mul, Int.cast_natCast, Int.cast_natCast, Int.cast_one] at this
            exact sub_eq_zero.mp this
          have hu := ZMod.mul_inv_of_unit _ (IsUnit.of_mul_eq_one_right _ he')
          unfold digit
          rw [Int.cast_mul, Int.cast_natCast, Int.cast_natCast, hx]
          linear_combination (-(x : ZMod m.N) * (((Q / m.N : ℕ) : ZMod m.N))⁻¹) * he' +
            ((x : ZMod m.N) * (E : ZMod m.N)) * hu
        have h3 : ((Q : ℕ) : ℤ) = (m.N : ℤ) * (Q / m.N : ℕ) := by
          rw [← Nat.cast_mul, mul_comm, hQN]
        have h4 : ((E * (Q / m.N) * A : ℕ) : ℤ) - rdigit false Q m.N x * (Q / m.N : ℕ) =
            (E * A - rdigit false Q m.N x) * (Q / m.N : ℕ) := by
          rw [Nat.cast_mul, Nat.cast_mul]; ring
        rw [h3, h4]
        exact mul_dvd_mul_right hdig _
      have k2 : (Q : ℤ) ∣ ((acc + E * (Q / m.N) * A % Q) % Q : ℕ) - (acc + (E * (Q / m.N) * A : ℕ) : ℤ) := by
        rw [Nat.add_mod_mod, ← Nat.cast_add, Int.natCast_mod]
        rw [← ZMod.intCast_eq_intCast_iff_dvd_sub, ZMod.intCast_mod]
      have := dvd_add (dvd_add r3 key) k2
      generalize ((ms.map (·.N)).map fun n => rdigit false Q n x * (Q / n : ℕ)).sum = S at this ⊢
      generalize ((acc + E * (Q / m.N) * A % Q) % Q : ℕ) = y at this
      generalize (E * (Q / m.N) * A : ℕ) = y2 at this
      have e3 : (r : ℤ) - (acc + (rdigit false Q m.N x * (Q / m.N : ℕ) + S)) =
          r - (y + S) + (y2 - rdigit false Q m.N x * (Q / m.N : ℕ)) + (y - (acc + y2)) := by ring
      rw [e3]
      exact this

end Shell.Rns
