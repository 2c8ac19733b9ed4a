import Verif.Spec.Capacity
import Verif.Props.Constants
import Verif.Props.Available
/-!
# Property C84: what the RNS parameter sets support
-/

namespace Shell
open Spec Rns Constants
variable {σ τ : Type} {G : Gen σ} {Gp : Gen τ} {fuel : ℕ} {est : Estimate} {k : ℕ → RKey} {pk : RPub} {v : PEnv}
  {m m' : ℕ → List ℕ}

/-- A sum of `r + 1` products. -/
theorem productSum_analyse (P : LParams) : ∀ (p : ℕ × ℕ) (r : List (ℕ × ℕ)), (productSum p r).analyse P =
    some ⟨P.qs.length, 3, (r.length + 1 : ℕ) * (2 ^ P.l * P.fresh * P.fresh)⟩
  | p, [] => by simp [productSum, PCircuit.analyse]
  | p, q :: r => by
    simp only [productSum, PCircuit.analyse, productSum_analyse P q r, Option.bind_eq_bind, Option.bind_some,
      List.length_cons]
    simp
    ring

theorem productSum_eval {R : Type} [CommRing R] {l : ℕ} (f g : ℕ → Fin (2 ^ l) → R) :
    ∀ (p : ℕ × ℕ) (r : List (ℕ × ℕ)) (i : Fin (2 ^ l)), (productSum p r).eval f g i =
      ((p :: r).map fun x => negMul (f x.1) (f x.2) i).sum
  | p, [], i => by simp [productSum, PCircuit.eval]
  | p, q :: r, i => by
    rw [List.map_cons, List.sum_cons, ← productSum_eval f g q r i]
    rfl

private theorem prime300a : (71265881 : ℕ).Prime :=
  prime_of_lucas 3 27 [2, 5, 7, 199, 1279] [3, 1, 1, 1, 1] (by norm_num) (by decide +kernel)

private theorem prime300b : (570127049 : ℕ).Prime :=
  prime_of_lucas 3 30 [2, 71265881] [3, 1] (by simp [prime300a, Nat.prime_two]) (by decide +kernel)

private theorem rnsCapacities_prime : ∀ c ∈ rnsCapacities, ∀ q ∈ c.choice.qs ++ c.choice.ps, q.Prime := by
  have h0 := c68_rns_moduli
  simp only [rnsCapacities, List.forall_mem_cons, List.not_mem_nil, false_implies, implies_true, and_true]
  refine ⟨?_, ?_, ?_, fun q hq => ((h0 k60Bit (by simp)).2 q hq).1, fun q hq => ((h0 k59Bit (by simp)).2 q hq).1⟩
  · simp only [rnsChoice, List.cons_append, List.nil_append, List.forall_mem_cons, List.not_mem_nil, false_implies,
      implies_true, and_true]
    norm_num
  · simp only [rnsChoice, List.cons_append, List.nil_append, List.forall_mem_cons, List.not_mem_nil, false_implies,
      implies_true, and_true]
    exact ⟨prime_of_lucas 11 30 [2, 3, 37, 787] [12, 2, 1, 1] (by norm_num) (by decide +kernel),
      prime_of_lucas 11 30 [2, 3, 1213] [15, 3, 1] (by norm_num) (by decide +kernel),
      prime_of_lucas 5 30 [2, 3, 7, 4157] [12, 2, 1, 1] (by norm_num) (by decide +kernel),
      prime_of_lucas 11 30 [2, 3, 5, 7, 13] [18, 2, 1, 1, 1] (by norm_num) (by decide +kernel)⟩
  · simp only [rnsChoice, List.cons_append, List.nil_append, List.forall_mem_cons, List.not_mem_nil, false_implies,
      implies_true, and_true]
    exact ⟨prime_of_lucas 11 70 [2, 3, 9362123, 570127049] [13, 3, 1, 1]
        (by simp [Nat.prime_two, Nat.prime_three, prime300b, show Nat.Prime 9362123 by norm_num]) (by decide +kernel),
      prime_of_lucas 7 40 [2, 3, 5, 911, 1637] [14, 2, 1, 1, 1] (by norm_num) (by decide +kernel),
      prime_of_lucas 22 40 [2, 3, 5, 1019, 2927] [13, 2, 1, 1, 1] (by norm_num) (by decide +kernel),
      prime_of_lucas 13 40 [2, 3, 5, 7, 43, 367] [13, 5, 1, 1, 1, 1] (by norm_num) (by decide +kernel),
      prime_of_lucas 5 40 [2, 3, 2485507] [14, 3, 1] (by norm_num) (by decide +kernel),
      prime_of_lucas 5 40 [2, 3, 14913037] [13, 2, 1] (by norm_num) (by decide +kernel)⟩

private theorem rnsCapacities_table : ∀ c ∈ rnsCapacities, (c.choice.w ≤ 128 ∧ (c.choice.qs ++ c.choice.ps).Nodup ∧
    c.choice.t < 2 ^ c.choice.w ∧ 0 < c.choice.t ∧ 1 ≤ c.choice.l ∧ c.choice.l ≤ 15 ∧ c.choice.l + 1 < c.choice.w) ∧
    (∀ q ∈ c.choice.qs ++ c.choice.ps, q % 2 = 1 ∧ q < 2 ^ (c.choice.w - 2) ∧ q % 2 ^ (c.choice.l + 1) = 1 ∧
      ¬ q ∣ c.choice.t) ∧
    (∀ q ∈ c.choice.qs, c.choice.t ≤ q ∧ 2 * c.choice.v ≤ q) ∧
    ∀ q ∈ c.choice.qs.head?, 2 * lsbBound c.choice.t c.choice.qs.tail.reverse
      (c.products * (2 ^ c.choice.l * c.choice.params.fresh * c.choice.params.fresh) +
        c.choice.params.switch c.choice.qs.length) < q := by
  simp only [rnsCapacities, List.forall_mem_cons, List.not_mem_nil, false_implies, implies_true, and_true]
  refine ⟨?_, ?_, ?_, ?_, ?_⟩ <;> decide +kernel

private theorem rnsCapacities_shape : ∀ c ∈ rnsCapacities, ∃ w l qs ps t b,
    c.choice = rnsChoice w l qs ps t b ∧ 0 < qs.length ∧ 0 < b ∧ b < 31 ∧ b < w := by
  simp only [rnsCapacities, List.forall_mem_cons, List.not_mem_nil, false_implies, implies_true, and_true]
  refine ⟨⟨_, _, _, _, _, _, rfl, ?_⟩, ⟨_, _, _, _, _, _, rfl, ?_⟩, ⟨_, _, _, _, _, _, rfl, ?_⟩,
    ⟨_, _, _, _, _, _, rfl, ?_⟩, ⟨_, _, _, _, _, _, rfl, ?_⟩⟩ <;> decide

private theorem rnsCapacities_valid (c : RnsCapacity) (hc : c ∈ rnsCapacities) : c.choice.ValidPoly := by
  have hp := rnsCapacities_prime c hc
  obtain ⟨⟨h1, h2, h3, h4, h5, h6, h7⟩, h8, h9, h10⟩ := rnsCapacities_table c hc
  obtain ⟨w, l, qs, ps, t, b, hsh, hl, hb0, hb1, hb2⟩ := rnsCapacities_shape c hc
  generalize c.choice = C at *
  subst hsh
  exact {
    word := h1
    prime := hp
    distinct := h2
    small := h3
    first := fun q hq => h9 q (List.mem_of_mem_head? hq)
    other := fun q hq => (h8 q hq).2.2.2
    level := by
      intro a ha
      have ha : a = qs.length := by simpa [rnsChoice] using ha
      subst ha
      refine ⟨hl, le_rfl, List.length_replicate, fun x hx => ?_⟩
      rw [List.eq_of_mem_replicate hx]
      exact ⟨hb0, hb1, hb2⟩ }

private theorem rnsCapacities_usable (c : RnsCapacity) (hc : c ∈ rnsCapacities) : c.choice.Usable := by
  obtain ⟨⟨h1, h2, h3, h4, h5, h6, h7⟩, h8, -, -⟩ := rnsCapacities_table c hc
  obtain ⟨w, l, qs, ps, t, b, hsh, hl, hb0, hb1, hb2⟩ := rnsCapacities_shape c hc
  generalize c.choice = C at *
  subst hsh
  exact {
    qs := List.length_pos_iff.mp hl
    t := h4
    logN := ⟨h5, h6, h7⟩
    moduli := fun q hq => ⟨(h8 q hq).1, (h8 q hq).2.1, (h8 q hq).2.2.1⟩
    variance := by simp [rnsChoice]
    powers := by simp [rnsChoice] }

/-- **C84.** For each RNS parameter set the context is created; and for every generator, all keys and encryptions
obtained from the library, a relinearized sum of up to the stated number of products of encryptions decrypts to the sum
of the products of the encrypted polynomials modulo `X^n + 1` and `t`. -/
theorem c84_rns (c : RnsCapacity) (hc : c ∈ rnsCapacities) :
    (∃ x, createCtx c.choice.w c.choice.l c.choice.qs c.choice.ps c.choice.t = .ok x) ∧
    ∀ (_ : Words G) (_ : BgvPolySession G Gp fuel est c.choice k pk v m m') (p : ℕ × ℕ) (r : List (ℕ × ℕ)),
      r.length + 1 ≤ c.products →
      ∃ y, (PCircuit.relin (productSum p r)).run v = .ok y ∧
        (k c.choice.qs.length).decryptBgv (coefficientEncoder est v.c) y =
          .ok (List.ofFn fun i : Fin (2 ^ c.choice.l) => (((p :: r).map fun x => negMul
            (fun j => ((m x.1).getD j 0 : ZMod c.choice.t)) (fun j => ((m x.2).getD j 0 : ZMod c.choice.t)) i).sum).val) := by
  have hV := rnsCapacities_valid c hc
  obtain ⟨-, -, -, h10⟩ := rnsCapacities_table c hc
  obtain ⟨w, l, qs, ps, t, b, hsh, hl, hb0, hb1, hb2⟩ := rnsCapacities_shape c hc
  refine ⟨c85_context hV (rnsCapacities_usable c hc), fun hG h p r hr => ?_⟩
  generalize c.choice = C at *
  subst hsh
  · have ha := productSum_analyse (rnsChoice w l qs ps t b).params p r
    obtain ⟨y, y1, y2⟩ := c78_circuit hG hV h (.relin (productSum p r))
      (info := ⟨qs.length, 2, (r.length + 1 : ℕ) * (2 ^ l * (rnsChoice w l qs ps t b).params.fresh *
        (rnsChoice w l qs ps t b).params.fresh) + (rnsChoice w l qs ps t b).params.switch qs.length⟩) (by
          rw [PCircuit.analyse, ha]
          simp only [Option.bind_eq_bind, Option.bind_some]
          rw [if_pos ⟨le_rfl, by simp [SchemeChoice.params, rnsChoice]⟩]
          simp [SchemeChoice.params, rnsChoice]) (fun q hq => by
        dsimp only
        refine lt_of_le_of_lt ?_ (h10 q hq)
        refine mul_le_mul_of_nonneg_left ?_ (by norm_num)
        have ht : ((rnsChoice w l qs ps t b).qs.take qs.length) = qs := List.take_length
        rw [ht]
        refine lsbBound_mono _ (add_le_add_left (mul_le_mul_of_nonneg_right (by exact_mod_cast hr) ?_) _)
        have : (0 : ℚ) ≤ (rnsChoice w l qs ps t b).params.fresh := by
          simp only [SchemeChoice.params, rnsChoice]
          positivity
        exact mul_nonneg (mul_nonneg (by positivity) this) this)
    refine ⟨y, y1, ?_⟩
    refine y2.trans ?_
    congr 1
    refine List.ofFn_inj.mpr (funext fun i => ?_)
    exact congrArg ZMod.val (productSum_eval _ _ p r i)

/-- Each of the parameter sets has sessions. -/
example (c : RnsCapacity) (hc : c ∈ rnsCapacities) :
    ∃ k pk v, BgvPolySession zeros zeros 1 est c.choice k pk v (fun _ => [1]) (fun _ => []) :=
  zeros_session (rnsCapacities_valid c hc) (rnsCapacities_usable c hc) fun _ =>
    ⟨Nat.one_le_two_pow, Nat.zero_le _⟩

end Shell
