import Verif.Lemmas.RnsCreate
/-! Chinese remaindering with the moduli of an RNS basis. -/

namespace Shell.Rns
open Spec

/-- The digit of `z` for the modulus `N` of a basis with product `Q`. -/
noncomputable def digit (Q N : ℕ) (z : ℤ) : ZMod N := (z : ZMod N) * ((Q / N : ℕ) : ZMod N)⁻¹

theorem hat_mul {a b : List ℕ} {n : ℕ} (hn : 0 < n) :
    (a ++ n :: b).prod / n = a.prod * b.prod := by
  rw [List.prod_append, List.prod_cons, show a.prod * (n * b.prod) = n * (a.prod * b.prod) by ring,
    Nat.mul_div_cancel_left _ hn]

theorem coprime_hat {ns : List ℕ} (hc : ns.Pairwise Nat.Coprime) (hpos : ∀ n ∈ ns, 0 < n) {n : ℕ}
    (hn : n ∈ ns) : Nat.Coprime (ns.prod / n) n := by
  obtain ⟨a, b, rfl⟩ := List.append_of_mem hn
  rw [hat_mul (hpos n hn)]
  rw [List.pairwise_append, List.pairwise_cons] at hc
  obtain ⟨_, ⟨h2, _⟩, h3⟩ := hc
  apply Nat.Coprime.mul_left
  · exact Nat.coprime_list_prod_left_iff.mpr fun m hm => h3 m hm n List.mem_cons_self
  · exact Nat.coprime_list_prod_left_iff.mpr fun m hm => (h2 m hm).symm

theorem digit_mul_hat {ns : List ℕ} (hc : ns.Pairwise Nat.Coprime) (hpos : ∀ n ∈ ns, 0 < n) {n : ℕ}
    (hn : n ∈ ns) (z : ℤ) : digit ns.prod n z * ((ns.prod / n : ℕ) : ZMod n) = z := by
  unfold digit
  rw [mul_assoc, mul_comm (_ : ZMod n)⁻¹, ZMod.coe_mul_inv_eq_one _ (coprime_hat hc hpos hn), mul_one]

theorem dvd_hat {ns : List ℕ} {n k : ℕ} (hc : Nat.Coprime k n) (hk : k ∈ ns) (hn : n ∈ ns) :
    k ∣ ns.prod / n :=
  Nat.dvd_div_of_mul_dvd (Nat.Coprime.mul_dvd_of_dvd_of_dvd hc.symm (List.dvd_prod hn)
    (List.dvd_prod hk))

/-- The CRT sum of any representatives of the digits is congruent to `z`. -/
theorem crt_sum {ns : List ℕ} (hc : ns.Pairwise Nat.Coprime) (hpos : ∀ n ∈ ns, 0 < n) (z : ℤ)
    (d : ℕ → ℤ) (hd : ∀ n ∈ ns, ((d n : ℤ) : ZMod n) = digit ns.prod n z) :
    (ns.prod : ℤ) ∣ (ns.map fun n => d n * (ns.prod / n : ℕ)).sum - z := by
  refine prod_dvd_of_coprime hc fun n hn => ?_
  rw [← ZMod.intCast_eq_intCast_iff_dvd_sub]
  obtain ⟨a, b, hab⟩ := List.append_of_mem hn
  have hc' := hc
  rw [hab, List.pairwise_append, List.pairwise_cons] at hc'
  obtain ⟨_, ⟨h2, _⟩, h3⟩ := hc'
  have h0 : ∀ k ∈ ns, Nat.Coprime n k → (((d k * (ns.prod / k : ℕ) : ℤ)) : ZMod n) = 0 := by
    intro k hk hck
    have h4 := dvd_hat hck hn hk
    rw [Int.cast_mul, Int.cast_natCast, (ZMod.natCast_eq_zero_iff _ _).mpr h4, mul_zero]
  have hz : ∀ c : List ℕ, (∀ k ∈ c, k ∈ ns ∧ Nat.Coprime n k) →
      ((c.map fun k => d k * (ns.prod / k : ℕ)).sum : ZMod n) = 0 := by
    intro c
    induction c with
    | nil => simp
    | cons k c ih =>
      intro h
      rw [List.map_cons, List.sum_cons, Int.cast_add, h0 k (h k List.mem_cons_self).1
        (h k List.mem_cons_self).2, ih fun k hk => h k (List.mem_cons_of_mem _ hk), add_zero]
  have e : (ns.map fun k => d k * (ns.prod / k : ℕ)).sum =
      (a.map fun k => d k * (ns.prod / k : ℕ)).sum + (d n * (ns.prod / n : ℕ) +
        (b.map fun k => d k * (ns.prod / k : ℕ)).sum) := by
    conv_lhs => rw [show List.map (fun k => d k * ((ns.prod / k : ℕ) : ℤ)) ns =
      List.map (fun k => d k * ((ns.prod / k : ℕ) : ℤ)) (a ++ n :: b) from by rw [← hab]]
    rw [List.map_append, List.map_cons, List.sum_append, List.sum_cons]
  rw [e, Int.cast_add, Int.cast_add, hz a, hz b, Int.cast_mul, hd n hn, Int.cast_natCast,
    digit_mul_hat hc hpos hn]
  · ring
  · intro k hk
    exact ⟨by rw [hab]; simp [hk], h2 k hk⟩
  · intro k hk
    exact ⟨by rw [hab]; simp [hk], (h3 k hk n List.mem_cons_self).symm⟩

/-- Bounds of the CRT sum. -/
theorem crt_sum_nonneg {ns cs : List ℕ} (d : ℕ → ℤ) (h0 : ∀ n ∈ cs, 0 ≤ d n) :
    0 ≤ (cs.map fun n => d n * (ns.prod / n : ℕ)).sum := by
  apply List.sum_nonneg
  intro x hx
  obtain ⟨n, hn, rfl⟩ := List.mem_map.mp hx
  exact mul_nonneg (h0 n hn) (by positivity)

theorem mul_hat_cast {ns : List ℕ} {n : ℕ} (hn : n ∈ ns) :
    (n : ℤ) * (ns.prod / n : ℕ) = ns.prod := by
  exact_mod_cast Nat.mul_div_cancel' (List.dvd_prod hn)

theorem crt_sum_lt {ns : List ℕ} (hpos : ∀ n ∈ ns, 0 < n) (d : ℕ → ℤ) (h1 : ∀ n ∈ ns, d n < n) :
    ∀ cs : List ℕ, cs ≠ [] → (∀ n ∈ cs, n ∈ ns) →
      (cs.map fun n => d n * (ns.prod / n : ℕ)).sum < cs.length * ns.prod := by
  intro cs
  induction cs with
  | nil => intro h; exact absurd rfl h
  | cons n cs ih =>
    intro _ hs
    have hn := hs n List.mem_cons_self
    have hq := mul_hat_cast hn
    have hh : (0 : ℤ) < (ns.prod / n : ℕ) := by
      have : 0 < ns.prod := List.prod_pos (fun m hm => hpos m hm)
      exact_mod_cast Nat.div_pos (Nat.le_of_dvd this (List.dvd_prod hn)) (hpos n hn)
    have h2 : d n * (ns.prod / n : ℕ) < ns.prod := by
      rw [← hq]; exact mul_lt_mul_of_pos_right (h1 n hn) hh
    rw [List.map_cons, List.sum_cons, List.length_cons]
    push_cast
    by_cases hc : cs = []
    · subst hc; simpa using h2
    · have := ih hc fun m hm => hs m (List.mem_cons_of_mem _ hm)
      push_cast at this h2
      linarith

theorem crt_sum_abs {ns : List ℕ} (hpos : ∀ n ∈ ns, 0 < n) (d : ℕ → ℤ)
    (h1 : ∀ n ∈ ns, 2 * |d n| < n) :
    ∀ cs : List ℕ, cs ≠ [] → (∀ n ∈ cs, n ∈ ns) →
      2 * |(cs.map fun n => d n * (ns.prod / n : ℕ)).sum| < cs.length * ns.prod := by
  intro cs
  induction cs with
  | nil => intro h; exact absurd rfl h
  | cons n cs ih =>
    intro _ hs
    have hn := hs n List.mem_cons_self
    have hq := mul_hat_cast hn
    have hh : (0 : ℤ) < (ns.prod / n : ℕ) := by
      have : 0 < ns.prod := List.prod_pos (fun m hm => hpos m hm)
      exact_mod_cast Nat.div_pos (Nat.le_of_dvd this (List.dvd_prod hn)) (hpos n hn)
    have h2 : 2 * |d n * (ns.prod / n : ℕ)| < ns.prod := by
      rw [← hq, abs_mul, abs_of_pos hh, ← mul_assoc]
      exact mul_lt_mul_of_pos_right (h1 n hn) hh
    rw [List.map_cons, List.sum_cons, List.length_cons]
    push_cast
    by_cases hc : cs = []
    · subst hc; simpa using h2
    · have := ih hc fun m hm => hs m (List.mem_cons_of_mem _ hm)
      have h3 := abs_add_le (d n * (ns.prod / n : ℕ))
        ((cs.map fun n => d n * (ns.prod / n : ℕ)).sum)
      push_cast at this h2 h3
      linarith

/-- The CRT sum divided by the product is the sum of the quotients. -/
theorem crt_sum_div {ns : List ℕ} (hpos : ∀ n ∈ ns, 0 < n) (d : ℕ → ℤ) :
    ∀ cs : List ℕ, (∀ n ∈ cs, n ∈ ns) →
      ((cs.map fun n => d n * (ns.prod / n : ℕ)).sum : ℚ) / ns.prod =
        (cs.map fun n => (d n : ℚ) / n).sum := by
  intro cs
  have hQ : (0 : ℚ) < ns.prod := by
    exact_mod_cast List.prod_pos (fun m hm => hpos m hm)
  induction cs with
  | nil => simp
  | cons n cs ih =>
    intro hs
    have hn := hs n List.mem_cons_self
    have h := ih fun m hm => hs m (List.mem_cons_of_mem _ hm)
    rw [List.map_cons, List.sum_cons, List.map_cons, List.sum_cons, ← h]
    have hq : (n : ℚ) * (ns.prod / n : ℕ) = ns.prod := by exact_mod_cast mul_hat_cast hn
    have hn0 : (n : ℚ) ≠ 0 := by have := hpos n hn; positivity
    rw [Int.cast_add, add_div]
    congr 1
    rw [div_eq_div_iff hQ.ne' hn0]
    rw [Int.cast_mul, Int.cast_natCast, ← hq]; ring

end Shell.Rns
