import Verif.Lemmas.AuxKey
import Verif.Props.Relin
import Verif.Props.Convert
/-!
# Property C30: key switching with an auxiliary modulus
-/

namespace Shell
open Spec NttRing Sym Finset AuxKey

variable {C : Ctx} {p : ℕ} {psi : ZMod p}

/-- C30: a key exists exactly for positive degrees, odd substitution powers in `[1, 2n)` and a known
PRNG type. -/
theorem c30_create (k : Key C) (prng : PrngType) (degree power : ℤ)
    (padsMain : ℕ → C.Poly) (padsAux : ℕ → (aux C p psi).Poly) (errs : ℕ → C.Poly) :
    (∃ ak, AuxKey.create psi k prng degree power padsMain padsAux errs = .ok ak) ↔
      0 < degree ∧ 0 < power ∧ power % 2 = 1 ∧ power < 2 * C.n ∧ prng ≠ .invalid := by
  unfold AuxKey.create
  by_cases c1 : degree ≤ 0
  · rw [if_pos c1]; simp; intro; omega
  rw [if_neg c1]
  by_cases c2 : power ≤ 0
  · rw [if_pos c2]; simp; intros; omega
  rw [if_neg c2]
  by_cases c3 : prng = .invalid
  · rw [if_pos c3]; simp [c3]
  rw [if_neg c3]
  by_cases c4 : power % 2 = 1 ∧ power < 2 * C.n
  · have hs : C.substitute k.key power = .ok (subst C.l power.toNat k.key) := by
      have := ctx_substitute k.key power.toNat (by omega) (by omega)
      rwa [Int.toNat_of_nonneg (by omega)] at this
    dsimp only
    rw [hs, Outcome.bind_ok]
    exact ⟨fun _ => ⟨by omega, by omega, c4.1, c4.2, c3⟩, fun _ => ⟨_, rfl⟩⟩
  · have hs : C.substitute k.key power = .err .invalidArgument := by
      unfold Ctx.substitute
      by_cases h1 : 0 > power ∨ power.tmod 2 = 0
      · rw [if_pos h1]
      · rw [if_neg h1, if_pos]
        have t1 : power.tmod 2 = power % 2 := Int.tmod_eq_emod_of_nonneg (by omega)
        omega
    dsimp only
    rw [hs, Outcome.bind_err]
    constructor
    · rintro ⟨rk, h⟩; simp at h
    · rintro ⟨_, _, h1, h2, _⟩; exact absurd ⟨h1, h2⟩ c4

/-- C30: a created key of degree `d` applied to a ciphertext with `d + 1` components under `s(X^power)`
gives a two-component ciphertext under `s`.  The new noisy plaintext is the old one plus `t * V`, where
`p * V` is the sum of the key errors times the switched components (as integers in `[-q/2, q/2]`) minus
two rounding terms bounded by `p/2`, one of them times `s`. -/
theorem c30_apply (h : C.Ok) (hD : (aux C p psi).Ok) (hpq : p ≠ C.q) (k : Key C)
    (ht : ¬ p ∣ k.tUnderQ.val) (prng : PrngType) (degree power : ℤ)
    (padsMain : ℕ → C.Poly) (padsAux : ℕ → (aux C p psi).Poly) (E : ℕ → Fin C.n → ℤ)
    (hE : ∀ u i, 2 * |E u i| < C.q) {ak : AKey C p}
    (hak : AuxKey.create psi k prng degree power padsMain padsAux (fun u => modq C.q (E u)) = .ok ak)
    (x : Ct C) (hx : (x.c.length : ℤ) = degree + 1) {φ : Fin C.n → ℤ}
    (hφ : Noisy (subst C.l power.toNat k.key) x φ) :
    ∃ (r : Ct C) (V U0 U1 : Fin C.n → ℤ), AuxKey.applyTo psi ak x = .ok r ∧ r.c.length = 2 ∧ r.power = 1 ∧
      Noisy k.key r (fun v => φ v + k.tUnderQ.val * V v) ∧
      (∀ i, |U0 i| ≤ p / 2) ∧ (∀ i, |U1 i| ≤ p / 2) ∧
      ∀ v, (p : ℤ) * V v =
        ∑ u ∈ range (x.c.length - (if power = 1 then 2 else 1)),
          negMul (E u) (fun i => centered C.q
            (C.fromNtt (x.c.getD ((if power = 1 then 2 else 1) + u) 0) i)) v -
        U0 v - negMul (fun i => centered C.q (C.fromNtt k.key i)) U1 v := by
  haveI := h.neZero
  haveI : NeZero p := hD.neZero
  obtain ⟨c1, c2, c3, c4, c5⟩ := (c30_create k prng degree power padsMain padsAux _).mp ⟨ak, hak⟩
  have hs : C.substitute k.key power = .ok (subst C.l power.toNat k.key) := by
    have := ctx_substitute k.key power.toNat (by omega) (by omega)
    rwa [Int.toNat_of_nonneg (by omega)] at this
  set base := subst C.l power.toNat k.key with hbase
  set first := if power = 1 then 2 else 1 with hfirst
  obtain ⟨K, hK⟩ : ∃ K, x.c.length = first + K := ⟨x.c.length - first, by rw [hfirst]; split_ifs <;> omega⟩
  have hKlen : (if power = 1 then degree - 1 else degree).toNat = K := by
    rw [hfirst] at hK; split_ifs at hK ⊢ <;> omega
  have hfsame : (if decide (power = 1) = true then 2 else 1) = first := by
    rw [hfirst]; simp
  unfold AuxKey.create at hak
  rw [if_neg (by omega), if_neg (by omega), if_neg c5] at hak
  dsimp only at hak
  rw [hs, Outcome.bind_ok, Outcome.pure_eq, hKlen] at hak
  have hak' := (Outcome.ok.inj hak).symm
  let dflt : Comp C p := ⟨0, 0, 0, 0⟩
  obtain ⟨l1, l2⟩ := createComps_spec psi k (toAux psi k.key) base (decide (power = 1)) 0 (p : ZMod C.q)
    ((k.tUnderQ.val : ℕ) : ZMod p) padsMain padsAux (fun u => modq C.q (E u)) dflt K 0
    (scalarMul (p : ZMod C.q) base) (by rw [if_pos rfl, pow_one])
  have akp : ak.power = power := by rw [hak']
  have akt : ak.t = k.tUnderQ.val := by rw [hak']
  have akl : ak.keys.length = K := by rw [hak']; exact l1
  have akk : ∀ u < K, ak.keys.getD u dflt = Comp.create psi k.key (toAux psi k.key)
      (scalarMul (p : ZMod C.q) (base ^ (first + u))) k.tUnderQ ((k.tUnderQ.val : ℕ) : ZMod p)
      (padsMain u) (padsAux u) (modq C.q (E u)) := by
    intro u hu
    rw [hak']
    have := l2 u hu
    rw [hfsame] at this
    simpa using this
  let c0 : C.Poly := scalarMul (p : ZMod C.q) (x.c.getD 0 0)
  let c1' : C.Poly := scalarMul (p : ZMod C.q) (if power = 1 then x.c.getD 1 0 else 0)
  have hloop := apply_loop (psi := psi) ak x first K hK akl c0 c1' dflt
  set acc : Acc C p := ⟨c0 + ∑ u ∈ range K, (ak.keys.getD u dflt).bMain * x.c.getD (first + u) 0,
        c1' + ∑ u ∈ range K, (ak.keys.getD u dflt).aMain * x.c.getD (first + u) 0,
        ∑ u ∈ range K, (ak.keys.getD u dflt).bAux * toAux psi (x.c.getD (first + u) 0),
        ∑ u ∈ range K, (ak.keys.getD u dflt).aAux * toAux psi (x.c.getD (first + u) 0)⟩ with hacc
  have hrun : AuxKey.applyTo psi ak x = .ok
      { c := [(convertToMain psi ak (p : ZMod C.q) acc).1, (convertToMain psi ak (p : ZMod C.q) acc).2]
        power := 1 } := by
    unfold AuxKey.applyTo
    dsimp only
    rw [akp, akl, if_neg (by rw [hK, hfirst]; split_ifs <;> omega),
      show Relin.component x 0 = .ok (x.c.getD 0 0) from
        Relin.component_ok x (by rw [hK, hfirst]; split_ifs <;> omega : 0 < x.c.length), Outcome.bind_ok,
      ← hfirst, show x.c.length - first = K by omega]
    have hc1 : (if power = 1 then Relin.component x 1 else .ok 0) =
        .ok (if power = 1 then x.c.getD 1 0 else 0) := by
      by_cases hp1 : power = 1
      · rw [if_pos hp1, if_pos hp1]
        exact Relin.component_ok x (by rw [hK, hfirst, if_pos hp1]; omega : 1 < x.c.length)
      · rw [if_neg hp1, if_neg hp1]
    rw [hc1, Outcome.bind_ok, hloop, Outcome.bind_ok]
    rfl
  -- the noise
  let W : Fin C.n → ℤ := ∑ u ∈ range K, negMul (E u) (lift C (x.c.getD (first + u) 0))
  have htq : scalarMul k.tUnderQ = scalarMul (n := C.n) ((k.tUnderQ.val : ℕ) : ZMod C.q) := by
    rw [ZMod.natCast_zmod_val]
  have hphase : phase base x.c = x.c.getD 0 0 + (if power = 1 then x.c.getD 1 0 else 0) * base +
      ∑ u ∈ range K, x.c.getD (first + u) 0 * base ^ (first + u) := by
    unfold phase
    rw [hK, sum_range_add]
    congr 1
    rw [hfirst]
    by_cases hp1 : power = 1
    · rw [if_pos hp1, if_pos hp1]; simp [sum_range_succ]
    · rw [if_neg hp1, if_neg hp1]; simp
  have hb1 : (if power = 1 then x.c.getD 1 0 else 0) * k.key =
      (if power = 1 then x.c.getD 1 0 else 0) * base := by
    by_cases hp1 : power = 1
    · rw [if_pos hp1, hbase, hp1, show (1 : ℤ).toNat = 1 from rfl, subst_id h.l32]
    · rw [if_neg hp1, zero_mul, zero_mul]
  have hm : acc.c0 + acc.c1 * k.key = scalarMul (p : ZMod C.q) (phase base x.c) +
      scalarMul (ak.t : ZMod C.q) (C.toNtt (modq C.q W)) := by
    have e1 : ∀ u < K, (ak.keys.getD u dflt).bMain + (ak.keys.getD u dflt).aMain * k.key =
        scalarMul (ak.t : ZMod C.q) (C.toNtt (modq C.q (E u))) +
          scalarMul (p : ZMod C.q) (base ^ (first + u)) := by
      intro u hu
      rw [akk u hu, (comp_phase h (psi := psi) _ _ k.key _ _ _ _ (E u) (hE u)).1, akt, htq]
    have e2 : acc.c0 + acc.c1 * k.key = c0 + c1' * k.key + ∑ u ∈ range K,
        ((ak.keys.getD u dflt).bMain + (ak.keys.getD u dflt).aMain * k.key) * x.c.getD (first + u) 0 := by
      rw [hacc]
      simp only [add_mul, sum_mul, sum_add_distrib]
      have : ∀ u, (ak.keys.getD u dflt).aMain * x.c.getD (first + u) 0 * k.key =
        (ak.keys.getD u dflt).aMain * k.key * x.c.getD (first + u) 0 := fun u => by ring
      simp only [this]
      ring
    have e3 : C.toNtt (modq C.q W) =
        ∑ u ∈ range K, C.toNtt (modq C.q (E u)) * x.c.getD (first + u) 0 := by
      simp only [W]
      rw [Relin.modq_sum, Relin.toNtt_sum]
      refine sum_congr rfl fun u _ => ?_
      rw [modq_negMul, toNtt_negMul h, toNtt_lift h]
    rw [e2, sum_congr rfl fun u hu => by rw [e1 u (mem_range.mp hu)], hphase, e3]
    simp only [c0, c1', Relin.scalarMul_eq, add_mul, sum_add_distrib]
    rw [mul_assoc _ _ k.key, hb1]
    simp only [mul_add, mul_sum]
    have e4 : ∀ u, (fun _ => (p : ZMod C.q) : C.Poly) * base ^ (first + u) * x.c.getD (first + u) 0 =
        (fun _ => (p : ZMod C.q) : C.Poly) * (x.c.getD (first + u) 0 * base ^ (first + u)) :=
      fun u => by ring
    have e5 : ∀ u, (fun _ => (ak.t : ZMod C.q) : C.Poly) * C.toNtt (modq C.q (E u)) *
        x.c.getD (first + u) 0 =
        (fun _ => (ak.t : ZMod C.q) : C.Poly) * (C.toNtt (modq C.q (E u)) * x.c.getD (first + u) 0) :=
      fun u => by ring
    simp only [e4, e5]
    ring
  have ha : acc.c0Aux + acc.c1Aux * toAux psi k.key =
      scalarMul (ak.t : ZMod p) ((aux C p psi).toNtt (modq p W)) := by
    have e1 : ∀ u < K, (ak.keys.getD u dflt).bAux + (ak.keys.getD u dflt).aAux * toAux psi k.key =
        scalarMul (ak.t : ZMod p) ((aux C p psi).toNtt (modq p (E u))) := by
      intro u hu
      rw [akk u hu, (comp_phase h (psi := psi) _ _ k.key _ _ _ _ (E u) (hE u)).2, akt]
    have e2 : acc.c0Aux + acc.c1Aux * toAux psi k.key = ∑ u ∈ range K,
        ((ak.keys.getD u dflt).bAux + (ak.keys.getD u dflt).aAux * toAux psi k.key) *
          toAux psi (x.c.getD (first + u) 0) := by
      rw [hacc]
      simp only [add_mul, sum_mul, sum_add_distrib]
      congr 1
      exact sum_congr rfl fun u _ => by ring
    have e3 : (aux C p psi).toNtt (modq p W) = ∑ u ∈ range K,
        (aux C p psi).toNtt (modq p (E u)) * toAux psi (x.c.getD (first + u) 0) := by
      simp only [W]
      rw [Relin.modq_sum]
      refine (Relin.toNtt_sum (C := aux C p psi) _ _).trans (sum_congr rfl fun u _ => ?_)
      rw [modq_negMul]
      refine (toNtt_negMul hD _ _).trans ?_
      rw [toAux_eq h]
    rw [e2, sum_congr rfl fun u hu => by rw [e1 u (mem_range.mp hu)], e3]
    refine Eq.trans ?_ (mul_sum _ _ _).symm
    exact sum_congr rfl fun u _ => mul_assoc _ _ _
  obtain ⟨V, U0, U1, v1, v2, v3, v4⟩ := convert_phase h hD hpq k.key ak
    (by rw [akt, Ne, ZMod.natCast_eq_zero_iff]; exact ht) acc (phase base x.c) W hm ha
  refine ⟨_, V, U0, U1, hrun, rfl, rfl, ?_, v2, v3, fun v => ?_⟩
  · unfold Noisy at *
    rw [phase_cons, phase_cons, phase_nil, mul_zero, add_zero, mul_comm k.key, v4, ← hφ, akt, ← toNtt_smul,
      ← toNtt_add]
    congr 1
    funext v
    simp [modq, scalarMul]
  · rw [v1 v, show x.c.length - first = K by omega]
    simp only [W, Finset.sum_apply]
    rfl

/-- C30, sizes: congruent modulo `t`, and the difference is `t * V` with
`p * |V| <= parts * n * B * q/2 + p/2 * (1 + |s|_1)`. -/
theorem c30_noise (h : C.Ok) (hD : (aux C p psi).Ok) (hpq : p ≠ C.q) (k : Key C)
    (ht : ¬ p ∣ k.tUnderQ.val) (prng : PrngType) (degree power : ℤ)
    (padsMain : ℕ → C.Poly) (padsAux : ℕ → (aux C p psi).Poly) (E : ℕ → Fin C.n → ℤ) {B : ℤ}
    (hB : ∀ u i, |E u i| ≤ B) (hBq : 2 * B < C.q) {ak : AKey C p}
    (hak : AuxKey.create psi k prng degree power padsMain padsAux (fun u => modq C.q (E u)) = .ok ak)
    (x : Ct C) (hx : (x.c.length : ℤ) = degree + 1) {φ : Fin C.n → ℤ}
    (hφ : Noisy (subst C.l power.toNat k.key) x φ) :
    ∃ r φ', AuxKey.applyTo psi ak x = .ok r ∧ r.c.length = 2 ∧ r.power = 1 ∧ Noisy k.key r φ' ∧
      (∀ i, φ' i ≡ φ i [ZMOD k.tUnderQ.val]) ∧
      ∀ i, (p : ℤ) * |φ' i - φ i| ≤ k.tUnderQ.val *
        ((x.c.length - (if power = 1 then 2 else 1) : ℕ) * ((C.n : ℕ) * B * (C.q / 2 : ℕ)) +
          (p / 2 : ℕ) + norm1 (fun i => centered C.q (C.fromNtt k.key i)) * (p / 2 : ℕ)) := by
  haveI := h.neZero
  obtain ⟨r, V, U0, U1, e1, e2, e3, e4, e5, e6, e7⟩ := c30_apply h hD hpq k ht prng degree power padsMain
    padsAux E (fun u i => by have := hB u i; omega) hak x hx hφ
  refine ⟨r, _, e1, e2, e3, e4, fun i => ?_, fun i => ?_⟩
  · exact (Int.modEq_iff_dvd.mpr (by rw [add_sub_cancel_left]; exact dvd_mul_right _ _) :
      φ i ≡ φ i + k.tUnderQ.val * _ [ZMOD k.tUnderQ.val]).symm
  · have hB0 : 0 ≤ B := le_trans (abs_nonneg _) (hB 0 i)
    rw [add_sub_cancel_left, abs_mul, abs_of_nonneg (Int.natCast_nonneg k.tUnderQ.val), mul_left_comm]
    apply mul_le_mul_of_nonneg_left _ (Int.natCast_nonneg _)
    rw [show (p : ℤ) * |V i| = |(p : ℤ) * V i| by rw [abs_mul, abs_of_nonneg (Int.natCast_nonneg p)], e7 i]
    refine (abs_sub _ _).trans (add_le_add ((abs_sub _ _).trans (add_le_add ?_ (e5 i)))
      (negMul_bound _ _ _ (by positivity) (fun j => by exact_mod_cast e6 j) i))
    refine (abs_sum_le_sum_abs _ _).trans ?_
    refine (sum_le_card_nsmul _ _ ((C.n : ℕ) * B * (C.q / 2 : ℕ)) ?_).trans
      (by rw [card_range, nsmul_eq_mul])
    intro u _
    refine (negMul_bound _ _ ((C.q / 2 : ℕ) : ℤ) (by positivity) (fun j => ?_) i).trans ?_
    · exact_mod_cast lift_bound h (x.c.getD ((if power = 1 then 2 else 1) + u) 0) j
    · apply mul_le_mul_of_nonneg_right _ (by positivity)
      unfold norm1
      refine (sum_le_card_nsmul univ _ B fun j _ => hB u j).trans ?_
      rw [card_univ, Fintype.card_fin, nsmul_eq_mul]

/-- C30: the message survives whenever the noise fits. -/
theorem c30_decrypt (h : C.Ok) (hD : (aux C p psi).Ok) (hpq : p ≠ C.q) (k : Key C)
    (hk : k.tUnderQ.val = k.tMod.val) (ht0 : 0 < k.tMod.val) (htq : k.tMod.val ≤ C.q)
    (ht : ¬ p ∣ k.tMod.val) (prng : PrngType) (degree : ℤ)
    (padsMain : ℕ → C.Poly) (padsAux : ℕ → (aux C p psi).Poly) (E : ℕ → Fin C.n → ℤ) {B : ℤ}
    (hB : ∀ u i, |E u i| ≤ B) (hBq : 2 * B < C.q) {ak : AKey C p}
    (hak : AuxKey.create psi k prng degree 1 padsMain padsAux (fun u => modq C.q (E u)) = .ok ak)
    (x : Ct C) (hx : (x.c.length : ℤ) = degree + 1) {φ : Fin C.n → ℤ} (hφ : Noisy k.key x φ)
    (hfit : ∀ i, 2 * (p * |φ i| + k.tMod.val * ((x.c.length - 2 : ℕ) * ((C.n : ℕ) * B * (C.q / 2 : ℕ)) +
          (p / 2 : ℕ) + norm1 (fun i => centered C.q (C.fromNtt k.key i)) * (p / 2 : ℕ))) <
        (p : ℤ) * C.q) :
    ∃ r, AuxKey.applyTo psi ak x = .ok r ∧ r.c.length = 2 ∧
      decrypt k r = .ok (fun i => (φ i % (k.tMod.val : ℤ)).toNat) ∧ decrypt k x = decrypt k r := by
  have hφ' : Noisy (subst C.l (1 : ℤ).toNat k.key) x φ := by
    rw [show (1 : ℤ).toNat = 1 from rfl, subst_id h.l32]; exact hφ
  obtain ⟨r, φ', e1, e2, e3, e4, e5, e6⟩ := c30_noise h hD hpq k (by rwa [hk]) prng degree 1 padsMain
    padsAux E hB hBq hak x hx hφ'
  have hp0 : (0 : ℤ) < p := by have := hD.prime.pos; exact_mod_cast this
  have hz : ∀ i : Fin C.n, 0 ≤ B := fun i => le_trans (abs_nonneg _) (hB 0 i)
  have d1 := c19_decrypt_small h k r ht0 htq e4 fun i => by
    have h1 := hfit i
    have h2 := e6 i
    rw [if_pos rfl, hk] at h2
    have h3 : |φ' i| ≤ |φ i| + |φ' i - φ i| := by
      have := abs_add_le (φ i) (φ' i - φ i)
      rwa [add_sub_cancel] at this
    have h4 : (p : ℤ) * (2 * |φ' i|) < p * C.q := by
      have := mul_le_mul_of_nonneg_left h3 hp0.le
      rw [mul_add] at this
      linarith
    exact lt_of_mul_lt_mul_left h4 hp0.le
  have d2 := c19_decrypt_small h k x ht0 htq hφ fun i => by
    have h1 := hfit i
    have hB0 := hz i
    have hn := norm1_nonneg (fun i => centered C.q (C.fromNtt k.key i))
    have h5 : (0 : ℤ) ≤ k.tMod.val * ((x.c.length - 2 : ℕ) * ((C.n : ℕ) * B * (C.q / 2 : ℕ)) +
          (p / 2 : ℕ) + norm1 (fun i => centered C.q (C.fromNtt k.key i)) * (p / 2 : ℕ)) := by
      positivity
    have h4 : (p : ℤ) * (2 * |φ i|) < p * C.q := by linarith
    exact lt_of_mul_lt_mul_left h4 hp0.le
  have e : (fun i => (φ' i % (k.tMod.val : ℤ)).toNat) = fun i => (φ i % (k.tMod.val : ℤ)).toNat := by
    funext i; have := (e5 i).eq; rw [hk] at this; rw [this]
  rw [e] at d1
  exact ⟨r, e1, e2, d1, d2.trans d1.symm⟩

/-- C30: every ciphertext with a number of components other than the degree plus one is rejected, and a
Galois key rejects every other power of the key. -/
theorem c30_rejects (k : Key C) (prng : PrngType) (degree power : ℤ)
    (padsMain : ℕ → C.Poly) (padsAux : ℕ → (aux C p psi).Poly) (errs : ℕ → C.Poly) {ak : AKey C p}
    (hak : AuxKey.create psi k prng degree power padsMain padsAux errs = .ok ak) (x : Ct C) :
    ((x.c.length : ℤ) ≠ degree + 1 → AuxKey.applyTo psi ak x = .err .invalidArgument) ∧
    (x.power ≠ power → AuxKey.galoisApply psi ak x = .err .invalidArgument) ∧
    (x.power = power → AuxKey.galoisApply psi ak x = AuxKey.applyTo psi ak x) := by
  obtain ⟨c1, c2, c3, c4, c5⟩ := (c30_create k prng degree power padsMain padsAux _).mp ⟨ak, hak⟩
  have hs : C.substitute k.key power = .ok (subst C.l power.toNat k.key) := by
    have := ctx_substitute k.key power.toNat (by omega) (by omega)
    rwa [Int.toNat_of_nonneg (by omega)] at this
  unfold AuxKey.create at hak
  rw [if_neg (by omega), if_neg (by omega), if_neg c5] at hak
  dsimp only at hak
  rw [hs, Outcome.bind_ok, Outcome.pure_eq] at hak
  have hak' := (Outcome.ok.inj hak).symm
  have akp : ak.power = power := by rw [hak']
  have akl : ak.keys.length = (if power = 1 then degree - 1 else degree).toNat := by
    rw [hak']
    exact (createComps_spec psi k (toAux psi k.key) (subst C.l power.toNat k.key) (decide (power = 1)) 0
      (p : ZMod C.q) ((k.tUnderQ.val : ℕ) : ZMod p) padsMain padsAux errs ⟨0, 0, 0, 0⟩ _ 0
      (scalarMul (p : ZMod C.q) (subst C.l power.toNat k.key)) (by rw [if_pos rfl, pow_one])).1
  refine ⟨fun hx => ?_, fun hx => ?_, fun hx => ?_⟩
  · unfold AuxKey.applyTo
    dsimp only
    rw [akp, akl, if_pos (by split_ifs <;> omega)]
  · unfold AuxKey.galoisApply; rw [if_pos (by rw [akp]; exact hx)]
  · unfold AuxKey.galoisApply; rw [if_neg (by rw [akp]; simpa using hx)]

/-- The hypotheses are met: multiply two encryptions, relinearize with the auxiliary modulus 257, and
decrypt `1 + 3X` (`q = 12289`, `t = 5`). -/
example :
    (do let k ← Key.sample (C := exCtx2) ![1, 12288] 8 2
        let x := encrypt k (exCtx2.toNtt ![2, 1]) ![5000, 61] ![0, 1]
        let y := encrypt k (exCtx2.toNtt ![1, 1]) ![10, 11] ![1, 0]
        let z ← Sym.mul x y
        let ak ← AuxKey.create (p := 257) 16 k .hkdf 2 1 (fun _ => ![100, 77]) (fun _ => ![5, 250])
          (fun _ => ![0, 12288])
        let z' ← AuxKey.applyTo 16 ak z
        let r ← decrypt k z'
        return (z.c.length, z'.c.length, List.ofFn r)) = .ok (3, 2, [1, 3]) ∧
    (aux exCtx2 257 16).Ok := by
  refine ⟨by decide +kernel, ⟨by norm_num [aux], by norm_num [aux], by decide, by decide, by decide, by decide⟩⟩

/-- C30: `AuxModGaloisKey::Create` succeeds exactly for odd powers in `[1, 2n)` and a known PRNG type. -/
theorem c30_galois_create (k : Key C) (prng : PrngType) (power : ℤ)
    (padsMain : ℕ → C.Poly) (padsAux : ℕ → (aux C p psi).Poly) (errs : ℕ → C.Poly) :
    (∃ ak, AuxKey.galoisCreate psi k prng power padsMain padsAux errs = .ok ak) ↔
      0 < power ∧ power % 2 = 1 ∧ power < 2 * C.n ∧ prng ≠ .invalid := by
  unfold AuxKey.galoisCreate
  rw [c30_create]
  exact ⟨fun h => h.2, fun h => ⟨by norm_num, h⟩⟩

/-- C30: substituting `X -> X^pw` in a two-component ciphertext under `s` and applying the Galois key with an
auxiliary modulus gives a ciphertext under the same `s` of the substituted plaintext, with a bounded change of the noise;
other ciphertexts are rejected. -/
theorem c30_galois (h : C.Ok) (hD : (aux C p psi).Ok) (hpq : p ≠ C.q) (k : Key C) {T : ℕ}
    (htm : plaintextModulus C.w k.logT = .ok T) (ht : ¬ p ∣ k.tUnderQ.val) (prng : PrngType) (pw : ℕ)
    (padsMain : ℕ → C.Poly) (padsAux : ℕ → (aux C p psi).Poly) (E : ℕ → Fin C.n → ℤ) {B : ℤ}
    (hB : ∀ u i, |E u i| ≤ B) (hBq : 2 * B < C.q) {ak : AKey C p}
    (hak : AuxKey.galoisCreate psi k prng pw padsMain padsAux (fun u => modq C.q (E u)) = .ok ak) :
    (∀ x : Ct C, x.c.length = 2 → x.power = 1 → ∀ {φ : Fin C.n → ℤ}, Noisy k.key x φ →
      ∃ y r φ', substitute x pw = .ok y ∧ AuxKey.galoisApply psi ak y = .ok r ∧ r.c.length = 2 ∧ r.power = 1 ∧
        Noisy k.key r φ' ∧ (∀ i, φ' i ≡ substPow pw φ i [ZMOD k.tUnderQ.val]) ∧
        ∀ i, (p : ℤ) * |φ' i - substPow pw φ i| ≤ k.tUnderQ.val * ((C.n : ℕ) * B * (C.q / 2 : ℕ) +
          (p / 2 : ℕ) + norm1 (fun i => centered C.q (C.fromNtt k.key i)) * (p / 2 : ℕ))) ∧
    ∀ x : Ct C, x.power ≠ pw ∨ x.c.length ≠ 2 → AuxKey.galoisApply psi ak x = .err .invalidArgument := by
  have hc := (c30_galois_create k prng pw padsMain padsAux _).mp ⟨ak, hak⟩
  have hn : C.n ≤ 2 ^ 15 := Nat.pow_le_pow_right (by norm_num) h.l15
  unfold AuxKey.galoisCreate at hak
  constructor
  · intro x hx hxp φ hφ
    obtain ⟨y, k', y1, y2, y3, y4, y5, y6⟩ := c25_substitute_partial h k htm x
      (List.length_pos_iff.mp (by omega)) hφ pw (by omega) (by omega) (by omega) (by rw [hxp]; omega)
    have hk' : k'.key = subst C.l pw k.key := by
      unfold Key.substitute at y2
      rw [htm, Outcome.bind_ok, ctx_substitute _ pw (by omega) (by omega), Outcome.bind_ok] at y2
      cases y2
      rfl
    obtain ⟨r, φ', e1, e2, e3, e4, e5, e6⟩ := c30_noise h hD hpq k ht prng 1 pw padsMain padsAux E hB hBq hak y
      (by omega) (φ := substPow pw φ) (by rw [Int.toNat_natCast, ← hk']; exact y3)
    obtain ⟨-, -, r3⟩ := c30_rejects k prng 1 pw padsMain padsAux _ hak y
    refine ⟨y, r, φ', y1, ?_, e2, e3, e4, e5, fun i => (e6 i).trans ?_⟩
    · rw [r3, e1]
      rw [y4, hxp, one_mul]
      exact Int.emod_eq_of_lt (by omega) (by have := hc.2.2.1; push_cast; push_cast at this; exact this)
    · have hB0 : 0 ≤ B := le_trans (abs_nonneg _) (hB 0 i)
      refine mul_le_mul_of_nonneg_left ?_ (Int.natCast_nonneg _)
      have h1 : ((y.c.length - (if (pw : ℤ) = 1 then 2 else 1) : ℕ) : ℤ) ≤ 1 := by split_ifs <;> omega
      have h2 : 0 ≤ (C.n : ℕ) * B * (C.q / 2 : ℕ) := by positivity
      have := mul_le_mul_of_nonneg_right h1 h2
      linarith
  · intro x hx
    obtain ⟨r1, r2, r3⟩ := c30_rejects k prng 1 pw padsMain padsAux _ hak x
    by_cases hp : x.power = pw
    · rw [r3 hp]
      exact r1 (by rcases hx with hx | hx; exact absurd hp hx; omega)
    · exact r2 hp

/-- The hypotheses are met: rotate an encryption of `2 + X` by `X -> X^3` with the auxiliary modulus 257, and decrypt
`2 - X` (`q = 12289`, `t = 5`). -/
example :
    (do let k ← Key.sample (C := exCtx2) ![1, 12288] 8 2
        let x := encrypt k (exCtx2.toNtt ![2, 1]) ![5000, 61] ![0, 1]
        let ak ← AuxKey.galoisCreate (p := 257) 16 k .hkdf 3 (fun _ => ![100, 77]) (fun _ => ![5, 250])
          (fun _ => ![0, 12288])
        let y ← substitute x 3
        let z ← AuxKey.galoisApply 16 ak y
        let r ← decrypt k z
        return (y.power, z.power, List.ofFn r)) = .ok (3, 1, [2, 4]) := by decide +kernel

/-- Why C30 needs two different moduli: with an auxiliary modulus equal to the main one, which is
accepted, every result is the zero ciphertext. -/
theorem c30_same_modulus (h : C.Ok) {psi : ZMod C.q} (ak : AKey C C.q) (x : Ct C) {r : Ct C}
    (hr : AuxKey.applyTo psi ak x = .ok r) : r.c = [0, 0] := by
  unfold AuxKey.applyTo at hr
  dsimp only at hr
  obtain ⟨_, hr⟩ | ⟨_, hr⟩ := ite_eq_iff.mp hr
  · cases hr
  simp only [Outcome.bind_eq_ok, Outcome.pure_eq] at hr
  obtain ⟨_, _, _, _, acc, _, hr⟩ := hr
  cases hr
  have hinv : inv ((C.q : ℕ) : ZMod C.q) = 0 := by
    unfold inv
    rw [ZMod.natCast_self, ZMod.val_zero]
    have := h.odd
    have := h.prime.two_le
    rw [zero_pow (by omega), Nat.cast_zero]
  unfold convertToMain
  simp only [hinv, Relin.scalarMul_eq]
  have h0 : ((fun _ => 0) : C.Poly) = 0 := rfl
  rw [h0, zero_mul, zero_mul]

end Shell
