import Verif.Lemmas.RnsReduce
import Verif.Props.RnsPolynomial
/-!
# Properties C45 and C46: modulus reduction of RNS polynomials
-/

namespace Shell
open Spec Rns MParams

theorem centered_dvd (q : ℕ) [NeZero q] (z : ℤ) : (q : ℤ) ∣ z - centered q (z : ZMod q) := by
  rw [← ZMod.intCast_eq_intCast_iff_dvd_sub, centered_cast]

/-- C45: for every integer polynomial `F` represented modulo `Q = q_0 ... q_l`, the result represents
modulo `Q / q_l` a polynomial that is congruent to `F` modulo `t` when `q_l` is invertible modulo `t`, and
whose coefficients are at most `((q_l mod t) |F_i| + t q_l / 2) / q_l`. -/
theorem c45_modReduceLsb {w l : ℕ} {red : List Modulus} {m : Modulus} {x : RPoly}
    {F : Fin (2 ^ l) → ℤ} {qlInv : List ℕ} (hg : ∀ m ∈ red, GoodModulus w l m)
    (hm : GoodModulus w l m) (hne : red ≠ []) (hx : Represents l (red ++ [m]) x F)
    (hinv : InverseIs red qlInv m.N) (t : ℕ) (ht : 0 < t) (htw : t < 2 ^ w) :
    ∃ r G, modReduceLsb t qlInv (red ++ [m]) x = .ok r ∧ r.ntt = x.ntt ∧ Represents l red r G ∧
      ∀ i, (Nat.Coprime m.N t → G i % t = F i % t) ∧
        2 * m.N * |G i| ≤ 2 * (m.N % t : ℕ) * |F i| + t * m.N := by
  haveI : NeZero m.N := ⟨hm.prime.ne_zero⟩
  obtain ⟨k, hk⟩ : ∃ k, (m.N - m.N % t) / t = k := ⟨_, rfl⟩
  obtain ⟨r, hr⟩ : ∃ r, m.N % t = r := ⟨_, rfl⟩
  have hN : m.N = k * t + r := by
    rw [← hk, ← hr]
    have h1 := Nat.div_add_mod m.N t
    have h2 : m.N - m.N % t = t * (m.N / t) := by omega
    rw [h2, Nat.mul_div_cancel_left _ ht, mul_comm]
    exact h1.symm
  have hdvd : ∀ i, (m.N : ℤ) ∣ (r : ℤ) * F i + t * centered m.N (((k : ℤ) * F i : ℤ) : ZMod m.N) := by
    intro i
    have h1 := (centered_dvd m.N ((k : ℤ) * F i)).mul_left (t : ℤ)
    have h2 : (m.N : ℤ) ∣ ((k : ℤ) * t + r) * F i := by
      have : ((k : ℤ) * t + r) = (m.N : ℤ) := by rw [hN]; push_cast; ring
      rw [this]; exact dvd_mul_right _ _
    have := dvd_sub h2 h1
    have e : ((k : ℤ) * t + r) * F i - t * (k * F i - centered m.N (((k : ℤ) * F i : ℤ) : ZMod m.N)) =
        (r : ℤ) * F i + t * centered m.N (((k : ℤ) * F i : ℤ) : ZMod m.N) := by ring
    rwa [e] at this
  choose G hG using hdvd
  obtain ⟨y, y1, y2, y3⟩ := repr_modReduceLsb hg hm hne hx hinv ht htw (G := G) (fun i => by
    rw [hk, hr]; exact (hG i).symm)
  refine ⟨y, G, y1, y2, y3, fun i => ⟨fun hc => ?_, ?_⟩⟩
  · have h1 : (t : ℤ) ∣ (m.N : ℤ) * (G i - F i) := by
      have h2 : (m.N : ℤ) * (G i - F i) =
          t * (centered m.N (((k : ℤ) * F i : ℤ) : ZMod m.N) - k * F i) := by
        have h3 : (m.N : ℤ) = k * t + r := by exact_mod_cast hN
        rw [mul_sub, ← hG i, h3]; ring
      rw [h2]; exact dvd_mul_right _ _
    have h2 : IsCoprime (t : ℤ) (m.N : ℤ) := Nat.isCoprime_iff_coprime.mpr hc.symm
    exact Int.emod_eq_emod_iff_emod_sub_eq_zero.mpr
      (Int.emod_eq_zero_of_dvd (h2.dvd_of_dvd_mul_left h1))
  · obtain ⟨b1, b2⟩ := centered_bound m.N (((k : ℤ) * F i : ℤ) : ZMod m.N)
    have h1 : 2 * (m.N : ℤ) * |G i| = |2 * ((r : ℤ) * F i) +
        t * (2 * centered m.N (((k : ℤ) * F i : ℤ) : ZMod m.N))| := by
      rw [← abs_of_nonneg (show (0 : ℤ) ≤ 2 * (m.N : ℤ) by positivity), ← abs_mul]
      congr 1
      rw [mul_assoc, ← hG i]; ring
    rw [h1, hr]
    refine (abs_add_le _ _).trans ?_
    have h2 : |2 * ((r : ℤ) * F i)| = 2 * (r : ℤ) * |F i| := by
      rw [← mul_assoc, abs_mul, abs_of_nonneg (by positivity : (0 : ℤ) ≤ 2 * r)]
    have h3 : |(t : ℤ) * (2 * centered m.N (((k : ℤ) * F i : ℤ) : ZMod m.N))| ≤ t * m.N := by
      rw [abs_mul, abs_of_nonneg (by positivity : (0 : ℤ) ≤ t)]
      exact mul_le_mul_of_nonneg_left (abs_le.mpr ⟨by omega, b2⟩) (by positivity)
    omega

/-- C46: the result represents, modulo `Q / q_l`, the integers nearest to `F_i / q_l`. -/
theorem c46_modReduceMsb {w l : ℕ} {red : List Modulus} {m : Modulus} {x : RPoly}
    {F : Fin (2 ^ l) → ℤ} {qlInv : List ℕ} (hg : ∀ m ∈ red, GoodModulus w l m)
    (hm : GoodModulus w l m) (hne : red ≠ []) (hx : Represents l (red ++ [m]) x F)
    (hinv : InverseIs red qlInv m.N) :
    ∃ r G, modReduceMsb qlInv (red ++ [m]) x = .ok r ∧ r.ntt = x.ntt ∧ Represents l red r G ∧
      ∀ i, 2 * |F i - m.N * G i| < m.N := by
  haveI : NeZero m.N := ⟨hm.prime.ne_zero⟩
  choose G hG using fun i => centered_dvd m.N (F i)
  obtain ⟨y, y1, y2, y3⟩ := repr_modReduceMsb hg hm hne hx hinv (G := G) (fun i => (hG i).symm)
  refine ⟨y, G, y1, y2, y3, fun i => ?_⟩
  obtain ⟨b1, b2⟩ := centered_bound m.N (F i : ZMod m.N)
  have hodd := hm.good.odd
  have h1 : F i - m.N * G i = centered m.N (F i : ZMod m.N) := by rw [← hG i]; ring
  rw [h1]
  have : |centered m.N (F i : ZMod m.N)| = centered m.N (F i : ZMod m.N) ∨
    |centered m.N (F i : ZMod m.N)| = -centered m.N (F i : ZMod m.N) := abs_choice _
  omega

/-- C45, C46: mismatched sizes and a polynomial with a single modulus are rejected. -/
theorem c45_c46_rejects (t : ℕ) (qlInv : List ℕ) (ms : List Modulus) (x : RPoly)
    (h : ms.length ≠ x.coeffs.length ∨ x.coeffs.length ≤ 1 ∨ qlInv.length + 1 ≠ x.coeffs.length) :
    modReduceLsb t qlInv ms x = .err .invalidArgument ∧
      modReduceMsb qlInv ms x = .err .invalidArgument := by
  unfold modReduceLsb modReduceMsb
  by_cases h1 : ms.length ≠ x.coeffs.length
  · rw [if_pos h1, if_pos h1]; exact ⟨rfl, rfl⟩
  · rw [if_neg h1, if_neg h1]
    by_cases h2 : x.coeffs.length ≤ 1
    · rw [if_pos h2, if_pos h2]; exact ⟨rfl, rfl⟩
    · rw [if_neg h2, if_neg h2, if_pos (by omega), if_pos (by omega)]; exact ⟨rfl, rfl⟩

/-- C45: the plaintext modulus `t = 0` divides by zero. -/
theorem c45_zero_t (qlInv : List ℕ) (ms : List Modulus) (x : RPoly)
    (h1 : ms.length = x.coeffs.length) (h2 : 1 < x.coeffs.length)
    (h3 : qlInv.length + 1 = x.coeffs.length) :
    modReduceLsb 0 qlInv ms x = .ub .divByZero := by
  unfold modReduceLsb
  rw [if_neg (by omega), if_neg (by omega), if_neg (by omega)]
  have hx : x.coeffs ≠ [] := by intro h; rw [h] at h2; simp at h2
  have hm : ms ≠ [] := by intro h; rw [h] at h1; simp at h1; omega
  unfold detachLast lastModulus
  rw [List.getLast?_eq_some_getLast hx, List.getLast?_eq_some_getLast hm]
  rfl

/-- `x = -200 + 1000 X + 7 X^2` modulo `97 * 193` reduced by `193` with `t = 8`, in both forms. -/
example :
    let ms := [exampleModulus 16 2 97, exampleModulus 16 2 193]
    let inv := [Mont.importInt (make 16 97) 96]
    let x : RPoly := ⟨2, [[91, 30, 7, 0].map (Mont.importInt (make 16 97)),
      [186, 35, 7, 0].map (Mont.importInt (make 16 193))], false⟩
    InverseIs [exampleModulus 16 2 97] inv 193 ∧
    Represents 2 ms x ![-200, 1000, 7, 0] ∧
    (do let r ← modReduceMsb inv ms x
        return r.coeffs.map (·.map (Mont.exportInt (make 16 97))) : Outcome (List (List ℕ))) =
      .ok [[96, 5, 0, 0]] ∧
    (do let x ← Rns.toNtt ms x
        let r ← modReduceMsb inv ms x
        let r ← toCoeff [exampleModulus 16 2 97] r
        return r.coeffs.map (·.map (Mont.exportInt (make 16 97))) : Outcome (List (List ℕ))) =
      .ok [[96, 5, 0, 0]] ∧
    (do let r ← modReduceLsb 8 inv ms x
        return r.coeffs.map (·.map (Mont.exportInt (make 16 97))) : Outcome (List (List ℕ))) =
      .ok [[0, 8, 96, 0]] ∧
    (do let x ← Rns.toNtt ms x
        let r ← modReduceLsb 8 inv ms x
        let r ← toCoeff [exampleModulus 16 2 97] r
        return r.coeffs.map (·.map (Mont.exportInt (make 16 97))) : Outcome (List (List ℕ))) =
      .ok [[0, 8, 96, 0]] := by
  refine ⟨.cons (by decide +kernel) .nil, ⟨rfl, .cons ?_ (.cons ?_ .nil)⟩, by decide +kernel,
    by decide +kernel, by decide +kernel, by decide +kernel⟩ <;>
  · show CoeffsAre _ _ _ _
    unfold CoeffsAre; decide +kernel

end Shell
