import Verif.Lemmas.RnsCipher
import Verif.Props.RnsPolynomial
/-!
# Property C53: RNS ciphertexts under the homomorphic operations

`Encrypts l S x Φ` (`Verif/Spec/RnsScheme.lean`) says that the ciphertext `x` stands, under the secret
polynomial `S`, for the integer polynomial `Φ` modulo the product of its moduli.  For BGV `Φ` is the
message plus `t` times the noise; for BFV it is the scaled message plus the noise.
-/

namespace Shell
open Spec Rns
variable {w l : ℕ} {S Φ Ψ M : Fin (2 ^ l) → ℤ} {x y : RCt} {pt : RPoly}

/-- C55: decryption under the key that holds `S` yields `Φ`. -/
theorem c55_raw_decrypt {k : RKey} (hg : ∀ m ∈ x.ms, GoodModulus w l m) (hne : x.ms ≠ [])
    (hk : KeyIs l k S) (hms : k.ms = x.ms) (h : Phase l S x Φ) :
    ∃ r, k.rawDecrypt x = .ok r ∧ r.ntt = true ∧ Represents l x.ms r Φ := by
  obtain ⟨Cs, h1, h2⟩ := h
  have h1' := components_comp h1
  obtain ⟨z, z1, z2, z3⟩ := repr_createZero hg hne true
  have hkey : Comp l x.ms k.key S := ⟨hk.1, hms ▸ hk.2⟩
  have hlog : k.key.logN = l := hk.2.1
  obtain ⟨⟨sp, out⟩, e1, e2, e3⟩ := loop_ok (f := k.rawStep x) (s := (k.key, z)) (n := x.c.length)
    (fun i s => Comp l x.ms s.1 ((NR.mk S ^ max 1 (i - 1) : NR (2 ^ l)) : Fin (2 ^ l) → ℤ) ∧
      Comp l x.ms s.2
        ((∑ j ∈ Finset.range i, List.getD (α := NR (2 ^ l)) Cs j 0 * NR.mk S ^ j : NR (2 ^ l)) :
          Fin (2 ^ l) → ℤ))
    ⟨by rw [show max 1 (0 - 1) = 1 from rfl, pow_one]; exact hkey, z2, z3⟩ (by
    rintro i ⟨sp, out⟩ hi ⟨s1, s2⟩
    obtain ⟨c, c1, c2⟩ := forall₂_rd (0 : NR (2 ^ l)) h1' hi
    have hcomp : x.component (i : ℤ) = .ok c := by
      unfold RCt.component
      rw [if_neg (by omega)]
      simpa using c1
    unfold RKey.rawStep
    rw [hcomp, Outcome.bind_ok, hms]
    by_cases h2 : i > 1
    · obtain ⟨u, u1, u2, u3⟩ := repr_mul hg s1.2 hkey.2 s1.1 hkey.1
      obtain ⟨v, v1, v2, v3⟩ := repr_mul hg c2.2 u3 c2.1 u2
      obtain ⟨o, o1, o2, o3⟩ := repr_add hg s2.2 v3 (s2.1.trans v2.symm)
      have ep : NR.mk S ^ max 1 (i - 1) * NR.mk S = NR.mk S ^ i := by
        rw [← pow_succ]; congr 1; omega
      refine ⟨(u, o), ?_, ⟨u2, ?_⟩, o2.trans s2.1, ?_⟩
      · simp only [if_pos h2, if_pos (show i > 0 by omega), u1, Outcome.bind_ok, v1, o1]; rfl
      · have : max 1 (i + 1 - 1) = i := by omega
        rw [this, ← ep]; exact u3
      · rw [Finset.sum_range_succ, ← ep]; exact o3
    · by_cases h3 : i > 0
      · obtain rfl : i = 1 := by omega
        obtain ⟨v, v1, v2, v3⟩ := repr_mul hg c2.2 s1.2 c2.1 s1.1
        obtain ⟨o, o1, o2, o3⟩ := repr_add hg s2.2 v3 (s2.1.trans v2.symm)
        refine ⟨(sp, o), ?_, s1, o2.trans s2.1, ?_⟩
        · simp only [if_neg h2, if_pos h3, Outcome.bind_ok, v1, o1]; rfl
        · rw [Finset.sum_range_succ]; exact o3
      · obtain rfl : i = 0 := by omega
        obtain ⟨o, o1, o2, o3⟩ := repr_add hg s2.2 c2.2 (s2.1.trans c2.1.symm)
        refine ⟨(sp, o), ?_, s1, o2.trans s2.1, ?_⟩
        · simp only [if_neg h2, if_neg h3, Outcome.bind_ok, o1]; rfl
        · rw [Finset.sum_range_succ, pow_zero, mul_one]; exact o3)
  refine ⟨out, ?_, e3.1, ?_⟩
  · unfold RKey.rawDecrypt
    rw [hlog, hms, z1, Outcome.bind_ok, e1]; rfl
  · refine repr_congr e3.2 ?_
    rw [innerProduct_eq, phase_eq (NR.mk S) Cs (m := x.c.length) h1'.length_eq.symm.le] at h2
    exact h2

/-! ### Operations -/

/-- C53: negation. -/
theorem c53_negate (hg : ∀ m ∈ x.ms, GoodModulus w l m) (hx : Encrypts l S x Φ) :
    ∃ r, x.negate = .ok r ∧ Like x r ∧ r.c.length = x.c.length ∧ Encrypts l S r (-Φ) := by
  obtain ⟨r, r1, r2, r3⟩ := phase_map (f := negateInPlace x.ms) (g := fun F => -F)
    (fun c C hc => by
      obtain ⟨r, h1, h2, h3⟩ := repr_negateInPlace hg hc.2
      exact ⟨r, h1, h2.trans hc.1, h3⟩)
    (fun a u v => by
      show NR.mk _ = NR.mk _
      simp only [NR.mk_neg, NR.mk_add, NR.mk_mul]; ring)
    neg_zero (fun F G h => h.neg) hx.2
  exact ⟨{ x with c := r }, by unfold RCt.negate; rw [r1]; rfl, ⟨rfl, rfl⟩, r2, hx.1, r3⟩

theorem check_ok (hms : y.ms = x.ms) (hp : y.power = x.power) (hlen : y.c.length = x.c.length) :
    RCt.check x y = .ok () := by
  unfold RCt.check; simp [hms, hp, hlen]

/-- C53: addition. -/
theorem c53_add (hg : ∀ m ∈ x.ms, GoodModulus w l m) (hms : y.ms = x.ms) (hp : y.power = x.power)
    (hlen : y.c.length = x.c.length) (hx : Encrypts l S x Φ) (hy : Encrypts l S y Ψ) :
    ∃ r, x.add y = .ok r ∧ Like x r ∧ r.c.length = x.c.length ∧ Encrypts l S r (Φ + Ψ) := by
  have hy2 := hy.2
  rw [hp] at hy2
  obtain ⟨r, r1, r2, r3⟩ := phase_zip (f := fun u => Rns.add x.ms u.1 u.2) (g := fun F G => F + G)
    (fun c d C D hc hd => by
      obtain ⟨r, h1, h2, h3⟩ := repr_add hg hc.2 hd.2 (hc.1.trans hd.1.symm)
      exact ⟨r, h1, h2.trans hc.1, h3⟩)
    (fun a b u v v' => by
      show NR.mk _ = NR.mk _
      simp only [NR.mk_add, NR.mk_mul]; ring)
    (add_zero _) (fun F G F' G' h h' => h.add h') hms hlen.symm hx.2 hy2
  exact ⟨{ x with c := r }, by unfold RCt.add; rw [check_ok hms hp hlen, Outcome.bind_ok, r1]; rfl,
    ⟨rfl, rfl⟩, r2, hx.1, r3⟩

/-- C53: subtraction. -/
theorem c53_sub (hg : ∀ m ∈ x.ms, GoodModulus w l m) (hms : y.ms = x.ms) (hp : y.power = x.power)
    (hlen : y.c.length = x.c.length) (hx : Encrypts l S x Φ) (hy : Encrypts l S y Ψ) :
    ∃ r, x.sub y = .ok r ∧ Like x r ∧ r.c.length = x.c.length ∧ Encrypts l S r (Φ - Ψ) := by
  have hy2 := hy.2
  rw [hp] at hy2
  obtain ⟨r, r1, r2, r3⟩ := phase_zip (f := fun u => Rns.sub x.ms u.1 u.2) (g := fun F G => F - G)
    (fun c d C D hc hd => by
      obtain ⟨r, h1, h2, h3⟩ := repr_sub hg hc.2 hd.2 (hc.1.trans hd.1.symm)
      exact ⟨r, h1, h2.trans hc.1, h3⟩)
    (fun a b u v v' => by
      show NR.mk _ = NR.mk _
      simp only [NR.mk_sub, NR.mk_add, NR.mk_mul]; ring)
    (sub_zero _) (fun F G F' G' h h' => h.sub h') hms hlen.symm hx.2 hy2
  exact ⟨{ x with c := r }, by unfold RCt.sub; rw [check_ok hms hp hlen, Outcome.bind_ok, r1]; rfl,
    ⟨rfl, rfl⟩, r2, hx.1, r3⟩

/-- C53: addition of a plaintext polynomial. -/
theorem c53_addPlain (hg : ∀ m ∈ x.ms, GoodModulus w l m) (h0 : x.c ≠ []) (hn : pt.ntt = true)
    (hpt : Represents l x.ms pt M) (hx : Encrypts l S x Φ) :
    ∃ r, x.addPlain pt = .ok r ∧ Like x r ∧ r.c.length = x.c.length ∧ Encrypts l S r (Φ + M) := by
  obtain ⟨c0, r, e1, e2, e3, e4⟩ := phase_head (f := fun c => Rns.add x.ms c pt) hx.2 h0
    (fun c C hc => by
      obtain ⟨r, h1, h2, h3⟩ := repr_add hg hc.2 hpt (hc.1.trans hn.symm)
      exact ⟨r, h1, h2.trans hc.1, h3⟩)
  refine ⟨{ x with c := x.c.set 0 r }, ?_, ⟨rfl, rfl⟩, by simp, hx.1, e4⟩
  unfold RCt.addPlain
  rw [if_neg (by rw [← hpt.len]; simp), e1, Outcome.bind_ok, e2, Outcome.bind_ok, e3]; rfl

/-- C53: subtraction of a plaintext polynomial. -/
theorem c53_subPlain (hg : ∀ m ∈ x.ms, GoodModulus w l m) (h0 : x.c ≠ []) (hn : pt.ntt = true)
    (hpt : Represents l x.ms pt M) (hx : Encrypts l S x Φ) :
    ∃ r, x.subPlain pt = .ok r ∧ Like x r ∧ r.c.length = x.c.length ∧ Encrypts l S r (Φ - M) := by
  obtain ⟨c0, r, e1, e2, e3, e4⟩ := phase_head (M := -M) (f := fun c => Rns.sub x.ms c pt) hx.2 h0
    (fun c C hc => by
      obtain ⟨r, h1, h2, h3⟩ := repr_sub hg hc.2 hpt (hc.1.trans hn.symm)
      exact ⟨r, h1, h2.trans hc.1, by rw [← sub_eq_add_neg]; exact h3⟩)
  refine ⟨{ x with c := x.c.set 0 r }, ?_, ⟨rfl, rfl⟩, by simp, hx.1, by rw [sub_eq_add_neg]; exact e4⟩
  unfold RCt.subPlain
  rw [if_neg (by rw [← hpt.len]; simp), e1, Outcome.bind_ok, e2, Outcome.bind_ok, e3]; rfl

/-- C53: multiplication by a plaintext polynomial. -/
theorem c53_absorb (hg : ∀ m ∈ x.ms, GoodModulus w l m) (hn : pt.ntt = true)
    (hpt : Represents l x.ms pt M) (hx : Encrypts l S x Φ) :
    ∃ r, x.absorb pt = .ok r ∧ x.absorbSimple pt = .ok r ∧ Like x r ∧ r.c.length = x.c.length ∧
      Encrypts l S r (negMul Φ M) := by
  obtain ⟨r, r1, r2, r3⟩ := phase_map (f := fun c => Rns.mul x.ms c pt) (g := fun F => negMul F M)
    (fun c C hc => by
      obtain ⟨r, h1, h2, h3⟩ := repr_mul hg hc.2 hpt hc.1 hn
      exact ⟨r, h1, h2, h3⟩)
    (fun a u v => by rw [NR.add_negMul, NR.negMul_assoc]) (NR.zero_negMul M) (fun F G h => h.mul (CongMod.refl M)) hx.2
  have e : x.absorb pt = .ok { x with c := r } := by unfold RCt.absorb; rw [r1]; rfl
  refine ⟨{ x with c := r }, e, ?_, ⟨rfl, rfl⟩, r2, hx.1, r3⟩
  unfold RCt.absorbSimple
  rw [if_neg (by rw [← hpt.len]; simp), if_neg (by simp [hn]), e]

/-- C53: multiplication by a scalar. -/
theorem c53_absorb_scalar (hg : ∀ m ∈ x.ms, GoodModulus w l m) (hx : Encrypts l S x Φ) :
    (∀ c < 2 ^ w, ∃ r, x.absorbInt c = .ok r ∧ Like x r ∧ r.c.length = x.c.length ∧
      Encrypts l S r (fun i => c * Φ i)) ∧
    (∀ c (z : ℤ), RnsIntIs x.ms c z → ∃ r, x.absorbRns c = .ok r ∧ Like x r ∧
      r.c.length = x.c.length ∧ Encrypts l S r (fun i => z * Φ i)) := by
  have lin : ∀ (z : ℤ) (a u v : Fin (2 ^ l) → ℤ), (fun i => z * (a + negMul u v) i) =
      (fun i => z * a i) + negMul u (fun i => z * v i) := fun z a u v => by
    rw [negMul_smul]
    funext i
    simp only [Pi.add_apply, mul_add]
  constructor
  · intro c hc
    obtain ⟨r, r1, r2, r3⟩ := phase_map (f := fun u => Rns.mulInt x.ms u c) (g := fun F i => c * F i)
      (fun u C hu => by
        obtain ⟨r, h1, h2, h3⟩ := repr_mulInt hg hu.2 hc
        exact ⟨r, h1, h2.trans hu.1, h3⟩)
      (lin c) (by funext i; simp) (fun F G h => h.smul _) hx.2
    exact ⟨{ x with c := r }, by unfold RCt.absorbInt; rw [r1]; rfl, ⟨rfl, rfl⟩, r2, hx.1, r3⟩
  · intro c z hc
    obtain ⟨r, r1, r2, r3⟩ := phase_map (f := fun u => Rns.mulRns x.ms u c) (g := fun F i => z * F i)
      (fun u C hu => by
        obtain ⟨r, h1, h2, h3⟩ := repr_mulRns hg hu.2 hc
        exact ⟨r, h1, h2.trans hu.1, h3⟩)
      (lin z) (by funext i; simp) (fun F G h => h.smul _) hx.2
    have hlen := List.Forall₂.length_eq hc
    exact ⟨{ x with c := r }, by unfold RCt.absorbRns; rw [if_neg (by omega), r1]; rfl, ⟨rfl, rfl⟩, r2,
      hx.1, r3⟩

/-- C53: fused multiplication and addition. -/
theorem c53_fused (hg : ∀ m ∈ x.ms, GoodModulus w l m) (hms : y.ms = x.ms) (hp : y.power = x.power)
    (hlen : y.c.length = x.c.length) (hn : pt.ntt = true) (hpt : Represents l x.ms pt M)
    (hx : Encrypts l S x Φ) (hy : Encrypts l S y Ψ) :
    ∃ r, x.fusedAbsorbAdd y pt = .ok r ∧ Like x r ∧ r.c.length = x.c.length ∧
      Encrypts l S r (Φ + negMul Ψ M) := by
  have hy2 := hy.2
  rw [hp] at hy2
  obtain ⟨r, r1, r2, r3⟩ := phase_zip (f := fun u => Rns.fusedMulAdd x.ms u.1 u.2 pt)
    (g := fun F G => F + negMul G M)
    (fun c d C D hc hd => by
      obtain ⟨r, h1, h2, h3⟩ := repr_fusedMulAdd hg hc.2 hd.2 hpt hc.1 hd.1 hn
      exact ⟨r, h1, h2, h3⟩)
    (fun a b u v v' => by
      show NR.mk _ = NR.mk _
      simp only [NR.mk_add, NR.mk_mul]; ring)
    (by rw [NR.zero_negMul, add_zero]) (fun F G F' G' h h' => h.add (h'.mul (CongMod.refl M)))
    hms hlen.symm hx.2 hy2
  exact ⟨{ x with c := r }, by
    unfold RCt.fusedAbsorbAdd; rw [check_ok hms hp hlen, Outcome.bind_ok, r1]; rfl,
    ⟨rfl, rfl⟩, r2, hx.1, r3⟩

/-- C53: homomorphic multiplication; the degrees add up. -/
theorem c53_mul (hg : ∀ m ∈ x.ms, GoodModulus w l m) (hne : x.ms ≠ []) (hms : y.ms = x.ms)
    (hp : y.power = x.power) (h0 : x.c ≠ []) (hx : Encrypts l S x Φ) (hy : Encrypts l S y Ψ) :
    ∃ r, x.mul y = .ok r ∧ Like x r ∧ r.c.length = x.c.length + y.c.length - 1 ∧
      Encrypts l S r (negMul Φ Ψ) := by
  have hy2 := hy.2
  rw [hp] at hy2
  obtain ⟨hpow, Cs, h1, h2⟩ := hx
  obtain ⟨Ds, h3, h4⟩ := hy2
  have h1' := components_comp h1
  have h3' : List.Forall₂ (Comp l x.ms) y.c Ds := by rw [← hms]; exact h3
  rw [hms] at h4
  obtain ⟨c0, c1, c2⟩ := forall₂_rd (0 : NR (2 ^ l)) h1' (List.length_pos_iff.mpr h0)
  have hlog : x.logN = .ok l := by
    unfold RCt.logN
    rw [c1, Outcome.bind_ok, c2.2.1]; rfl
  obtain ⟨z, z1, z2, z3⟩ := repr_createZero hg hne true
  obtain ⟨r, Zs, r1, r2, r3, r4⟩ := tensor_ok hg h1' h3'
    (forall₂_replicate (P := Comp l x.ms) (b := (0 : NR (2 ^ l))) ⟨z2, z3⟩
      (x.c.length + y.c.length - 1)) (by simp)
  refine ⟨⟨r, x.ms, x.power⟩, ?_, ⟨rfl, rfl⟩, by simpa using r3, hpow, Zs, r2, ?_⟩
  · unfold RCt.mul
    rw [if_neg (by rw [hms]; simp), if_neg (by rw [hp]; simp), hlog, Outcome.bind_ok, z1, Outcome.bind_ok,
      r1]; rfl
  · have e : innerProduct (substPow x.power.toNat S) Zs = negMul (innerProduct (substPow x.power.toNat S) Cs)
        (innerProduct (substPow x.power.toNat S) Ds) := by
      rw [innerProduct_eq, innerProduct_eq, innerProduct_eq]
      refine (r4 _).trans ?_
      have e0 : phase (NR.mk (substPow x.power.toNat S))
        (List.replicate (x.c.length + y.c.length - 1) (0 : NR (2 ^ l))) = 0 := phase_replicate_zero _ _
      exact (congrArg₂ (· + ·) e0 rfl).trans (zero_add _)
    show CongMod (modulusProd x.ms) _ _
    rw [e]
    exact h2.mul h4

end Shell
