import Verif.Lemmas.RnsProgram
import Verif.Props.InPlace
/-!
# Property C90: programs on RNS polynomials compute in the ring
-/

namespace Shell
open Spec Rns Res MParams

variable {w l : ℕ} {ms : List Modulus} {invs : ℕ → List ℕ}

/-- C90.  Run a program of any length on RNS polynomials over a chain of prime moduli, and the same program on integer
polynomials.  The same calls succeed, the others return `InvalidArgument` and change nothing, and at the end every RNS
polynomial represents the integer polynomial, at the same level and in the same form. -/
theorem c90_program (hg : ∀ m ∈ ms, GoodModulus w l m) (hne : ms ≠ [])
    (hinv : ∀ k m, ms[k]? = some m → InverseIs (ms.take k) (invs k) m.N) {objs : List RPoly} {ids : List (IdealPoly l)}
    {cs : List RingCall} (hs : List.Forall₂ (Shows ms) objs ids) (hp : ProperAll w ms ids cs) :
    (runAll objs (cs.map (·.call l ms invs))).1 =
      (runIdeal ms ids cs).1.map (fun ok => if ok then .ok () else .err .invalidArgument) ∧
    List.Forall₂ (Shows ms) (runAll objs (cs.map (·.call l ms invs))).2 (runIdeal ms ids cs).2 := by
  induction cs generalizing objs ids with
  | nil => exact ⟨rfl, hs⟩
  | cons c cs ih =>
    obtain ⟨h1, h2⟩ := hp
    rcases follows hg hne hinv hs h1 with ⟨ids', objs', e1, e2, e3⟩ | ⟨e1, e2⟩
    · rw [e1] at h2
      obtain ⟨i1, i2⟩ := ih e3 h2
      simp only [List.map_cons, runAll, runIdeal, e1, e2, i1]
      exact ⟨rfl, i2⟩
    · rw [e1] at h2
      obtain ⟨i1, i2⟩ := ih hs h2
      simp only [List.map_cons, runAll, runIdeal, e1, e2, i1]
      exact ⟨rfl, i2⟩

/-- C90: an RNS polynomial determines the integer polynomial modulo the product of the moduli of its level. -/
theorem c90_determined (hg : ∀ m ∈ ms, GoodModulus w l m) (hc : (ms.map (·.N)).Pairwise Nat.Coprime) {x : RPoly}
    {y y' : IdealPoly l} (h : Shows ms x y) (h' : Shows ms x y') :
    y.level = y'.level ∧ y.ntt = y'.ntt ∧ ∀ i, (modulusProd (ms.take y.level) : ℤ) ∣ y.poly i - y'.poly i := by
  have hl : y.level = y'.level := h.len.symm.trans h'.len
  refine ⟨hl, h.2.1.symm.trans h'.2.1, fun i => ?_⟩
  refine repr_unique (fun m hm => hg m (List.mem_of_mem_take hm)) ?_ h.2.2 (hl ▸ h'.2.2) i
  rw [List.map_take]
  exact hc.sublist (List.take_sublist _ _)

/-- C90: the quotient of `ModReduceMsb` is the nearest integer. -/
theorem c90_nearestQuotient {q : ℕ} (hq : q % 2 = 1) (z : ℤ) : 2 * |z - q * nearestQuotient q z| < q := by
  have h1 := Int.le_bmod (x := z) (m := q) (by omega)
  have h2 := Int.bmod_lt (x := z) (m := q) (by omega)
  have h3 : (q : ℤ) * nearestQuotient q z = z - z.bmod q := Int.mul_ediv_cancel' (bmod_dvd _ _)
  rw [h3, sub_sub_cancel]
  have := abs_choice (z.bmod q)
  omega

/-- C90: the quotient of `ModReduceLsb` is congruent to `z` modulo `t`, and at most `((q mod t) |z| + t q / 2) / q`. -/
theorem c90_exactQuotient {t q : ℕ} (hq : q % 2 = 1) (hc : Nat.Coprime q t) (z : ℤ) :
    exactQuotient t q z % t = z % t ∧ 2 * q * |exactQuotient t q z| ≤ 2 * (q % t : ℕ) * |z| + t * q := by
  have h1 := Int.le_bmod (x := (q / t : ℕ) * z) (m := q) (by omega)
  have h2 := Int.bmod_lt (x := (q / t : ℕ) * z) (m := q) (by omega)
  have h3 : (q : ℤ) * exactQuotient t q z = (q % t : ℕ) * z + t * ((q / t : ℕ) * z).bmod q :=
    Int.mul_ediv_cancel' (exactQuotient_dvd z)
  have h4 : (q : ℤ) = t * (q / t : ℕ) + (q % t : ℕ) := by exact_mod_cast (Nat.div_add_mod q t).symm
  constructor
  · have h5 : (t : ℤ) ∣ (q : ℤ) * (exactQuotient t q z - z) := by
      have : (q : ℤ) * (exactQuotient t q z - z) = t * (((q / t : ℕ) * z).bmod q - (q / t : ℕ) * z) := by
        rw [mul_sub, h3]
        calc _ = (q % t : ℕ) * z + t * ((q / t : ℕ) * z).bmod q - (t * (q / t : ℕ) + (q % t : ℕ)) * z := by rw [← h4]
          _ = _ := by ring
      rw [this]; exact dvd_mul_right _ _
    exact Int.emod_eq_emod_iff_emod_sub_eq_zero.mpr
      (Int.emod_eq_zero_of_dvd ((Nat.isCoprime_iff_coprime.mpr hc.symm).dvd_of_dvd_mul_left h5))
  · have h5 : 2 * (q : ℤ) * |exactQuotient t q z| = |2 * ((q % t : ℕ) * z) + t * (2 * ((q / t : ℕ) * z).bmod q)| := by
      rw [← abs_of_nonneg (show (0 : ℤ) ≤ 2 * (q : ℤ) by positivity), ← abs_mul]
      congr 1
      rw [mul_assoc, h3]; ring
    rw [h5]
    refine (abs_add_le _ _).trans ?_
    have h6 : |2 * (((q % t : ℕ) : ℤ) * z)| = 2 * ((q % t : ℕ) : ℤ) * |z| := by
      rw [← mul_assoc, abs_mul, abs_of_nonneg (by positivity : (0 : ℤ) ≤ 2 * ((q % t : ℕ) : ℤ))]
    have h7 : |(t : ℤ) * (2 * ((q / t : ℕ) * z).bmod q)| ≤ t * q := by
      rw [abs_mul, abs_of_nonneg (by positivity : (0 : ℤ) ≤ t)]
      exact mul_le_mul_of_nonneg_left (abs_le.mpr ⟨by omega, by omega⟩) (by positivity)
    omega

/-! ### A concrete program -/

/-- The inverse of 193 modulo 97. -/
def exInvs (k : ℕ) : List ℕ := if k = 1 then [Mont.importInt (exampleModulus 16 2 97).p 96] else []

theorem exInvs_ok : ∀ k m, exMs[k]? = some m → InverseIs (exMs.take k) (exInvs k) m.N := by
  intro k m h
  match k, h with
  | 0, _ => exact .nil
  | 1, h =>
    cases h
    exact .cons (by decide +kernel) .nil
  | k + 2, h => simp [exMs] at h

/-- Thirteen calls; three of them are rejected. -/
def exRingProgram : List RingCall :=
  [.zero 2 true, .one 2, .mulInt 1 50 2, .add 0 1 2, .mul 0 1 2, .substitute 0 3 2, .add 0 1 1, .toNtt 0 2,
    .modReduceMsb 0 2, .sub 0 1 2, .detach 1, .sub 0 1 1, .modReduceLsb 2 5 2]

theorem exRingProgram_proper : ProperAll (l := 2) 16 exMs [] exRingProgram := by
  refine ⟨⟨by decide, by decide, trivial⟩, ⟨by decide, by decide, trivial⟩, ⟨by decide, by decide, by decide⟩,
    ⟨by decide, by decide, ?_⟩, ⟨by decide, by decide, trivial⟩, ⟨by decide, by decide, trivial⟩,
    ⟨by decide, by decide, ?_⟩, ⟨by decide, by decide, trivial⟩, ⟨by decide, by decide, trivial⟩,
    ⟨by decide, by decide, ?_⟩, ⟨by decide, by decide, trivial⟩, ⟨by decide, by decide, ?_⟩,
    ⟨by decide, by decide, by decide, by decide⟩, trivial⟩ <;>
  · intro x y hx hy
    cases hx
    cases hy
    rfl

example : (runAll [] (exRingProgram.map (·.call 2 exMs exInvs))).1 =
      ((runIdeal (l := 2) exMs [] exRingProgram).1.map fun ok => if ok then .ok () else .err .invalidArgument) ∧
    List.Forall₂ (Shows exMs) (runAll [] (exRingProgram.map (·.call 2 exMs exInvs))).2
      (runIdeal (l := 2) exMs [] exRingProgram).2 :=
  c90_program exMs_good (by simp [exMs]) exInvs_ok .nil exRingProgram_proper

/-- The values: 50 * 50 rounded to 13 at level 1, minus 50; 50; and 2500 reduced to a number congruent to it modulo 5. -/
example : (runIdeal (l := 2) exMs [] exRingProgram).1 =
      [true, true, true, true, true, true, false, false, true, false, true, true, true] ∧
    (runIdeal (l := 2) exMs [] exRingProgram).2.map (fun x => (x.level, x.poly 0)) = [(1, -37), (1, 50), (1, 40)] := by
  decide +kernel

end Shell
