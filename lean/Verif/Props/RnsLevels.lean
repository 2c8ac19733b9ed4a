import Verif.Props.RnsScheme
import Verif.Props.RnsReduce
import Verif.Spec.RnsContext
/-!
# Properties C53 and C56: substitution, modulus reduction, ciphertexts without pad, and rejected arguments
-/

namespace Shell
open Spec Rns
variable {w l : ℕ} {S Φ Ψ M : Fin (2 ^ l) → ℤ} {x y : RCt} {pt : RPoly}

theorem logN_eq (h0 : x.c ≠ []) (h : Phase l S x Φ) : x.logN = .ok l := by
  obtain ⟨Cs, h1, -⟩ := h
  obtain ⟨c0, c1, c2⟩ := forall₂_rd (0 : Fin (2 ^ l) → ℤ) h1 (List.length_pos_iff.mpr h0)
  unfold RCt.logN
  rw [c1, Outcome.bind_ok, c2.2.1]; rfl

theorem substComponents (hl : l ≤ 15) (hg : ∀ m ∈ x.ms, GoodModulus w l m) (k : ℕ) (hk : k % 2 = 1)
    (hk2 : k < 2 * 2 ^ l) (h : Phase l S x Φ) :
    ∃ r, (x.c.mapM fun u => Rns.substitute x.ms u k) = .ok r ∧ r.length = x.c.length ∧
      ∀ p, Phase l (substPow k S) ⟨r, x.ms, p⟩ (substPow k Φ) := by
  obtain ⟨Cs, h1, h2⟩ := h
  obtain ⟨r, r1, r2⟩ := mapM_rel (P := Comp l x.ms) (R := Comp l x.ms) (g := substPow k)
    (f := fun u => Rns.substitute x.ms u k)
    (fun c C hc => by
      obtain ⟨r, h1, h2, h3⟩ := repr_substitute (by omega) hg hc.2 hc.1 hk hk2
      exact ⟨r, h1, h2, h3⟩) h1
  have hip : ∀ Cs : List (Fin (2 ^ l) → ℤ),
      innerProduct (substPow k S) (Cs.map (substPow k)) = substPow k (innerProduct S Cs) := by
    intro Cs
    induction Cs with
    | nil =>
      funext i
      simp [innerProduct, substPow]
    | cons c Cs ih => rw [List.map_cons, innerProduct, ih, innerProduct, Expand.substPow_add,
        NR.substPow_negMul k hk]
  refine ⟨r, r1, by rw [r2.length_eq, List.length_map, h1.length_eq], fun p => ⟨_, r2, ?_⟩⟩
  rw [hip]
  exact h2.subst k

/-- C56: substitution of `X^k` for `X` in the message, as long as `PowerOfS() * k` fits an `int`; for
`n ≤ 2^14` it always does, and for `n = 2^15` it may not (`c56_substitute_overflow`). -/
theorem c56_substitute_partial (hl : l ≤ 15) (hg : ∀ m ∈ x.ms, GoodModulus w l m) (h0 : x.c ≠ []) (k : ℕ)
    (hk : k % 2 = 1) (hk2 : k < 2 * 2 ^ l) (hov : x.power * k < 2 ^ 31) (hx : Encrypts l S x Φ) :
    ∃ r, x.substitute k = .ok r ∧ r.ms = x.ms ∧ r.power = (x.power * k) % (2 * 2 ^ l) ∧
      r.c.length = x.c.length ∧ Encrypts l S r (substPow k Φ) := by
  obtain ⟨r, r1, r2, r3⟩ := substComponents hl hg k hk hk2 hx.2
  obtain ⟨p, hp⟩ := Int.eq_ofNat_of_zero_le hx.1
  have hpos := hx.1
  have hlt : 2 ^ l ≤ 2 ^ 15 := Nat.pow_le_pow_right (by norm_num) hl
  have hnp : x.newPower k = .ok ((x.power * k) % (2 * 2 ^ l)) := by
    unfold RCt.newPower
    have hnn : 0 ≤ x.power * k := mul_nonneg hpos (by positivity)
    rw [if_neg (by omega), logN_eq h0 hx.2, Outcome.bind_ok]
    unfold shl1
    rw [if_pos (by omega), Outcome.bind_ok, if_neg (by omega), Int.tmod_eq_emod_of_nonneg hnn]
    push_cast
    rfl
  refine ⟨⟨r, x.ms, (x.power * k) % (2 * 2 ^ l)⟩, ?_, rfl, rfl, r2, Int.emod_nonneg _ (by positivity), ?_⟩
  · unfold RCt.substitute
    rw [r1, Outcome.bind_ok, hnp]; rfl
  · have e : ((x.power * k) % (2 * 2 ^ l)).toNat = (k * p) % (2 * 2 ^ l) := by
      rw [hp]
      have : ((p : ℤ) * k) % (2 * 2 ^ l) = (((k * p) % (2 * 2 ^ l) : ℕ) : ℤ) := by push_cast; rw [mul_comm]
      rw [this, Int.toNat_natCast]
    simp only [e]
    rw [Expand.substPow_mod, ← Expand.substPow_comp k p hk S]
    have := r3 ((x.power * k) % (2 * 2 ^ l))
    rwa [hp] at this ⊢

/-- C56: for dimensions up to `2^14`, any two powers below `2n` can be multiplied. -/
theorem c56_substitute_no_overflow (hl : l ≤ 14) (p : ℤ) (k : ℕ) (h0 : 0 ≤ p) (hp : p < 2 * 2 ^ l)
    (hk : k < 2 * 2 ^ l) : p * k < 2 ^ 31 := by
  have hlt : (2 : ℤ) ^ l ≤ 2 ^ 14 := pow_le_pow_right₀ (by norm_num) hl
  have h1 : (k : ℤ) < 2 * 2 ^ l := by exact_mod_cast hk
  have : p * k ≤ 2 ^ 15 * 2 ^ 15 := mul_le_mul (by omega) (by omega) (by positivity) (by positivity)
  omega

/-- C56 violated for `n = 2^15`: substituting `X^65535` twice multiplies `65535 * 65535` in an `int`,
which overflows: undefined behaviour. -/
theorem c56_substitute_overflow {x : RCt} {S Φ : Fin (2 ^ 15) → ℤ} (hg : ∀ m ∈ x.ms, GoodModulus w 15 m)
    (h0 : x.c ≠ []) (hp : x.power = 1) (hx : Encrypts 15 S x Φ) :
    ∃ r, x.substitute 65535 = .ok r ∧ r.substitute 65535 = .ub .signedOverflow := by
  obtain ⟨r, r1, r2, r3, r4, r5⟩ := c56_substitute_partial (by norm_num) hg h0 65535 (by norm_num)
    (by norm_num) (by rw [hp]; norm_num) hx
  refine ⟨r, r1, ?_⟩
  obtain ⟨u, u1, -, -⟩ := substComponents (le_refl 15) (r2 ▸ hg) 65535 (by norm_num) (by norm_num) r5.2
  unfold RCt.substitute
  have u1' : (r.c.mapM fun u => Rns.substitute r.ms u 65535) = .ok u := u1
  rw [u1', Outcome.bind_ok]
  unfold RCt.newPower
  rw [r3, hp]
  rw [if_pos (by norm_num)]
  rfl

/-! ### Modulus reduction -/

/-- C56, BGV: reducing by the last modulus `q_l` turns `Φ` into `Φ'` with
`q_l Φ' = (q_l mod t) Φ + t E`, where `E` is at most `q_l / 2` times `1 + |s|_1 + |s|_1^2 + ..`; if `q_l` is
invertible modulo `t` then `Φ'` is `Φ` modulo `t`. -/
theorem c56_modReduce_bgv {red : List Modulus} {m : Modulus} {qlInv : List ℕ}
    (hg : ∀ m ∈ red, GoodModulus w l m) (hm : GoodModulus w l m) (hne : red ≠ [])
    (hms : x.ms = red ++ [m]) (hinv : InverseIs red qlInv m.N) (t : ℕ) (ht : 0 < t) (htw : t < 2 ^ w)
    (hx : Encrypts l S x Φ) :
    ∃ r Φ', x.modReduceBgv t qlInv = .ok r ∧ r.ms = red ∧ r.power = x.power ∧
      r.c.length = x.c.length ∧ Encrypts l S r Φ' ∧ (Nat.Coprime m.N t → CongMod t Φ' Φ) ∧
      ∃ E : Fin (2 ^ l) → ℤ, ∀ i, m.N * Φ' i = (m.N % t : ℕ) * Φ i + t * E i ∧
        2 * |E i| ≤ m.N * ∑ j ∈ Finset.range x.c.length, norm1 (substPow x.power.toNat S) ^ j := by
  haveI : NeZero m.N := ⟨hm.prime.ne_zero⟩
  obtain ⟨hpow, Cs, h1, h2⟩ := hx
  set S' := substPow x.power.toNat S with hS'
  obtain ⟨k, hk⟩ : ∃ k, (m.N - m.N % t) / t = k := ⟨_, rfl⟩
  obtain ⟨r, hr⟩ : ∃ r, m.N % t = r := ⟨_, rfl⟩
  have hN : m.N = k * t + r := by
    rw [← hk, ← hr]
    have h1 := Nat.div_add_mod m.N t
    have h2 : m.N - m.N % t = t * (m.N / t) := by omega
    rw [h2, Nat.mul_div_cancel_left _ ht, mul_comm]
    exact h1.symm
  let δ : (Fin (2 ^ l) → ℤ) → Fin (2 ^ l) → ℤ := fun F i => centered m.N (((k : ℤ) * F i : ℤ) : ZMod m.N)
  have hdvd : ∀ (F : Fin (2 ^ l) → ℤ) i, (m.N : ℤ) ∣ (r : ℤ) * F i + t * δ F i := by
    intro F i
    have h1 := (centered_dvd m.N ((k : ℤ) * F i)).mul_left (t : ℤ)
    have h2 : (m.N : ℤ) ∣ ((k : ℤ) * t + r) * F i := by
      have : ((k : ℤ) * t + r) = (m.N : ℤ) := by rw [hN]; push_cast; ring
      rw [this]; exact dvd_mul_right _ _
    have := dvd_sub h2 h1
    have e : ((k : ℤ) * t + r) * F i - t * (k * F i - centered m.N (((k : ℤ) * F i : ℤ) : ZMod m.N)) =
        (r : ℤ) * F i + t * centered m.N (((k : ℤ) * F i : ℤ) : ZMod m.N) := by ring
    rwa [e] at this
  choose G hG using hdvd
  obtain ⟨c, c1, c2⟩ := mapM_rel (P := Comp l (red ++ [m])) (R := Comp l red) (g := G)
    (f := fun u => modReduceLsb t qlInv (red ++ [m]) u) (L := x.c)
    (fun c C hc => by
      obtain ⟨y, y1, y2, y3⟩ := repr_modReduceLsb hg hm hne hc.2 hinv ht htw (G := G C) (fun i => by
        rw [hk, hr]; exact (hG C i).symm)
      exact ⟨y, y1, y2.trans hc.1, y3⟩) (by rw [← hms]; exact h1)
  -- inner products
  have hlin : ∀ Ds : List (Fin (2 ^ l) → ℤ), ∀ i, (m.N : ℤ) * innerProduct S' (Ds.map G) i =
      r * innerProduct S' Ds i + t * innerProduct S' (Ds.map δ) i := by
    intro Ds
    induction Ds with
    | nil => intro i; simp [innerProduct]
    | cons D Ds ih =>
      have ih' : (fun i => (m.N : ℤ) * innerProduct S' (Ds.map G) i) =
          (fun i => (r : ℤ) * innerProduct S' Ds i) + fun i => (t : ℤ) * innerProduct S' (Ds.map δ) i := by
        funext i; exact ih i
      have e := congrArg (negMul S') ih'
      rw [NR.negMul_add, negMul_smul, negMul_smul, negMul_smul] at e
      intro i
      have ei := congrFun e i
      simp only [Pi.add_apply] at ei
      simp only [List.map_cons, innerProduct, Pi.add_apply, mul_add]
      have := hG D i
      linarith
  have hQ : modulusProd x.ms = modulusProd red * m.N := by
    rw [hms]; unfold modulusProd; simp
  rw [hQ] at h2
  choose K hK using h2
  let Φ' : Fin (2 ^ l) → ℤ := fun i => innerProduct S' (Cs.map G) i - r * modulusProd red * K i
  have hΦ : ∀ i, (m.N : ℤ) * Φ' i = r * Φ i + t * innerProduct S' (Cs.map δ) i := by
    intro i
    have e1 := hlin Cs i
    have e2 := hK i
    rw [Nat.cast_mul] at e2
    show (m.N : ℤ) * (innerProduct S' (Cs.map G) i - r * modulusProd red * K i) = _
    rw [mul_sub, e1]
    have : (m.N : ℤ) * (r * modulusProd red * K i) = r * (innerProduct S' Cs i - Φ i) := by rw [e2]; ring
    rw [this]; ring
  refine ⟨⟨c, red, x.power⟩, Φ', ?_, rfl, rfl, ?_, ⟨hpow, Cs.map G, c2, ?_⟩, ?_,
    innerProduct S' (Cs.map δ), fun i => ⟨by rw [hr]; exact hΦ i, ?_⟩⟩
  · unfold RCt.modReduceBgv
    have hlen : 0 < red.length := List.length_pos_iff.mpr hne
    rw [hms, if_neg (by simp; omega), c1, Outcome.bind_ok, List.dropLast_concat]; rfl
  · show c.length = _
    rw [c2.length_eq, List.length_map, h1.length_eq]
  · intro i
    show (modulusProd red : ℤ) ∣ innerProduct S' (Cs.map G) i -
      (innerProduct S' (Cs.map G) i - r * modulusProd red * K i)
    exact ⟨r * K i, by ring⟩
  · intro hc i
    have h3 : (t : ℤ) ∣ (m.N : ℤ) * (Φ' i - Φ i) := by
      have h4 : (m.N : ℤ) = k * t + r := by exact_mod_cast hN
      have : (m.N : ℤ) * (Φ' i - Φ i) = t * (innerProduct S' (Cs.map δ) i - k * Φ i) := by
        rw [mul_sub, hΦ i, h4]; ring
      rw [this]; exact dvd_mul_right _ _
    exact (Nat.isCoprime_iff_coprime.mpr hc.symm : IsCoprime (t : ℤ) (m.N : ℤ)).dvd_of_dvd_mul_left h3
  · -- twice the error
    have hb := innerProduct_bound S' m.N (by positivity) ((Cs.map δ).map fun F i => 2 * F i) (by
      intro f hf j
      rw [List.mem_map] at hf
      obtain ⟨F, hF, rfl⟩ := hf
      rw [List.mem_map] at hF
      obtain ⟨D, -, rfl⟩ := hF
      obtain ⟨b1, b2⟩ := centered_bound m.N (((k : ℤ) * D j : ℤ) : ZMod m.N)
      exact abs_le.mpr ⟨by show -(m.N : ℤ) ≤ 2 * centered _ _; omega, b2⟩) i
    rw [innerProduct_map S' (fun F i => 2 * F i) (fun a u v => by
        rw [negMul_smul]; funext i; simp only [Pi.add_apply, mul_add]) (by funext i; simp)] at hb
    simp only [List.length_map, abs_mul, abs_two] at hb
    rwa [← h1.length_eq] at hb

/-- C56, BFV: reducing by the last modulus `q_l` turns `Φ` into `Φ'` with `q_l Φ' = Φ - E`, where `E` is at
most `q_l / 2` times `1 + |s|_1 + |s|_1^2 + ..`. -/
theorem c56_modReduce_bfv {ctx : Rns.Ctx} {red : List Modulus} {m : Modulus} (hctx : GoodCtx w l ctx)
    (hne : red ≠ []) (hms : x.ms = red ++ [m]) (hpre : red ++ [m] <+: ctx.qs) (hx : Encrypts l S x Φ) :
    ∃ r Φ', x.modReduceBfv ctx = .ok r ∧ r.ms = red ∧ r.power = x.power ∧
      r.c.length = x.c.length ∧ Encrypts l S r Φ' ∧
      ∃ E : Fin (2 ^ l) → ℤ, ∀ i, m.N * Φ' i = Φ i - E i ∧
        2 * |E i| ≤ m.N * ∑ j ∈ Finset.range x.c.length, norm1 (substPow x.power.toNat S) ^ j := by
  obtain ⟨rest, hrest⟩ := hpre
  have hg : ∀ m ∈ red, GoodModulus w l m := fun m' h => hctx.qs m' (by rw [← hrest]; simp [h])
  have hm : GoodModulus w l m := hctx.qs m (by rw [← hrest]; simp)
  have hlen : 0 < red.length := List.length_pos_iff.mpr hne
  obtain ⟨row, w1, w2⟩ := hctx.inverses.primeQInvs red.length m (by rw [← hrest]; simp)
  have htake : ctx.qs.take red.length = red := by rw [← hrest]; simp
  rw [htake] at w2
  have hrow := List.Forall₂.length_eq w2
  rw [List.length_take] at hrow
  haveI : NeZero m.N := ⟨hm.prime.ne_zero⟩
  obtain ⟨hpow, Cs, h1, h2⟩ := hx
  set S' := substPow x.power.toNat S with hS'
  let δ : (Fin (2 ^ l) → ℤ) → Fin (2 ^ l) → ℤ := fun F i => centered m.N (F i : ZMod m.N)
  choose G hG using fun (F : Fin (2 ^ l) → ℤ) i => centered_dvd m.N (F i)
  obtain ⟨c, c1, c2⟩ := mapM_rel (P := Comp l (red ++ [m])) (R := Comp l red) (g := G)
    (f := fun u => modReduceMsb (row.take red.length) (red ++ [m]) u) (L := x.c)
    (fun c C hc => by
      obtain ⟨y, y1, y2, y3⟩ := repr_modReduceMsb hg hm hne hc.2 w2 (G := G C) (fun i => (hG C i).symm)
      exact ⟨y, y1, y2.trans hc.1, y3⟩) (by rw [← hms]; exact h1)
  have hlin : ∀ Ds : List (Fin (2 ^ l) → ℤ), ∀ i, (m.N : ℤ) * innerProduct S' (Ds.map G) i =
      innerProduct S' Ds i - innerProduct S' (Ds.map δ) i := by
    intro Ds
    induction Ds with
    | nil => intro i; simp [innerProduct]
    | cons D Ds ih =>
      have ih' : (fun i => (m.N : ℤ) * innerProduct S' (Ds.map G) i) + innerProduct S' (Ds.map δ) =
          innerProduct S' Ds := by
        funext i; simp only [Pi.add_apply, ih i]; ring
      have e := congrArg (negMul S') ih'
      rw [NR.negMul_add, negMul_smul] at e
      intro i
      have ei := congrFun e i
      simp only [Pi.add_apply] at ei
      simp only [List.map_cons, innerProduct, Pi.add_apply, mul_add]
      have := hG D i
      show (m.N : ℤ) * G D i + m.N * negMul S' (innerProduct S' (Ds.map G)) i =
        D i + negMul S' (innerProduct S' Ds) i - (centered m.N (D i : ZMod m.N) +
          negMul S' (innerProduct S' (Ds.map δ)) i)
      linarith
  have hQ : modulusProd x.ms = modulusProd red * m.N := by
    rw [hms]; unfold modulusProd; simp
  rw [hQ] at h2
  choose K hK using h2
  let Φ' : Fin (2 ^ l) → ℤ := fun i => innerProduct S' (Cs.map G) i - modulusProd red * K i
  have hΦ : ∀ i, (m.N : ℤ) * Φ' i = Φ i - innerProduct S' (Cs.map δ) i := by
    intro i
    have e1 := hlin Cs i
    have e2 := hK i
    rw [Nat.cast_mul] at e2
    show (m.N : ℤ) * (innerProduct S' (Cs.map G) i - modulusProd red * K i) = _
    rw [mul_sub, e1]
    have : (m.N : ℤ) * (modulusProd red * K i) = innerProduct S' Cs i - Φ i := by rw [e2]; ring
    rw [this]; ring
  refine ⟨⟨c, red, x.power⟩, Φ', ?_, rfl, rfl, ?_, ⟨hpow, Cs.map G, c2, ?_⟩,
    innerProduct S' (Cs.map δ), fun i => ⟨hΦ i, ?_⟩⟩
  · unfold RCt.modReduceBfv
    have hrd : rd ctx.primeQInvs red.length = .ok row := by unfold rd; rw [w1]
    rw [hms, if_neg (by simp; omega)]
    simp only [List.length_append, List.length_singleton, Nat.add_sub_cancel, hrd, Outcome.bind_ok]
    rw [if_neg (by omega), c1, Outcome.bind_ok, List.dropLast_concat]; rfl
  · show c.length = _
    rw [c2.length_eq, List.length_map, h1.length_eq]
  · intro i
    show (modulusProd red : ℤ) ∣ innerProduct S' (Cs.map G) i -
      (innerProduct S' (Cs.map G) i - modulusProd red * K i)
    exact ⟨K i, by ring⟩
  · have hb := innerProduct_bound S' m.N (by positivity) ((Cs.map δ).map fun F i => 2 * F i) (by
      intro f hf j
      rw [List.mem_map] at hf
      obtain ⟨F, hF, rfl⟩ := hf
      rw [List.mem_map] at hF
      obtain ⟨D, -, rfl⟩ := hF
      obtain ⟨b1, b2⟩ := centered_bound m.N (D j : ZMod m.N)
      exact abs_le.mpr ⟨by show -(m.N : ℤ) ≤ 2 * centered _ _; omega, b2⟩) i
    rw [innerProduct_map S' (fun F i => 2 * F i) (fun a u v => by
        rw [negMul_smul]; funext i; simp only [Pi.add_apply, mul_add]) (by funext i; simp)] at hb
    simp only [List.length_map, abs_mul, abs_two] at hb
    rwa [← h1.length_eq] at hb

/-- C56: `ModReduce` of a secret key drops a modulus and keeps the secret. -/
theorem c56_key_modReduce {k : RKey} {red : List Modulus} {m : Modulus} (hne : red ≠ [])
    (hms : k.ms = red ++ [m]) (hk : KeyIs l k S) :
    ∃ k', k.modReduce = .ok k' ∧ k'.ms = red ∧ k'.variance = k.variance ∧ KeyIs l k' S := by
  obtain ⟨h1, h2⟩ := hk
  rw [hms] at h2
  obtain ⟨cs, v, e1, e2, e3, e4⟩ := split_last h2
  have hlen : 0 < red.length := List.length_pos_iff.mpr hne
  refine ⟨⟨⟨l, cs, k.key.ntt⟩, red, k.variance⟩, ?_, rfl, rfl, h1, e2⟩
  unfold RKey.modReduce
  rw [hms, if_neg (by simp; omega), e1]
  unfold detachLast
  simp

/-! ### Fused operations without the pad -/

/-- C53: accumulating only the first components of degree-1 ciphertexts and setting the pad to the
accumulated second components is the fused operation. -/
theorem c53_without_pad (hg : ∀ m ∈ x.ms, GoodModulus w l m) (hms : y.ms = x.ms) (hp : y.power = x.power)
    {X0 X1 Y0 Y1 : Fin (2 ^ l) → ℤ} (hX : Components l x [X0, X1]) (hY : Components l y [Y0, Y1])
    (hn : pt.ntt = true) (hpt : Represents l x.ms pt M) (hpow : 0 ≤ x.power)
    (hΦ : CongMod (modulusProd x.ms) (innerProduct (substPow x.power.toNat S) [X0, X1]) Φ)
    (hΨ : CongMod (modulusProd x.ms) (innerProduct (substPow x.power.toNat S) [Y0, Y1]) Ψ) :
    Encrypts l S x Φ ∧ Encrypts l S y Ψ ∧
    ∃ r, x.fusedAbsorbAddWithoutPad y pt = .ok r ∧ Like x r ∧ r.c.length = 2 ∧
      ∀ a, a.ntt = true → Represents l x.ms a (X1 + negMul Y1 M) →
        ∃ r', r.setPad a = .ok r' ∧ Like x r' ∧ r'.c.length = 2 ∧
          Encrypts l S r' (Φ + negMul Ψ M) := by
  refine ⟨⟨hpow, _, hX, hΦ⟩, ⟨hp ▸ hpow, _, hY, by rw [hp, hms]; exact hΨ⟩, ?_⟩
  have hX' := components_comp hX
  have hY' := components_comp hY
  rw [hms] at hY'
  obtain ⟨xc, xms, xp⟩ := x
  obtain ⟨yc, yms, yp⟩ := y
  simp only at hX' hY' hms hp hpow
  subst hms hp
  cases hX' with
  | cons p1 q1 =>
  cases q1 with
  | cons p2 q2 =>
  cases q2
  cases hY' with
  | cons p3 q3 =>
  cases q3 with
  | cons p4 q4 =>
  cases q4
  rename_i x0 x1 y0 y1
  obtain ⟨r, r1, r2, r3⟩ := repr_fusedMulAdd hg p1.2 p3.2 hpt p1.1 p3.1 hn
  refine ⟨⟨[r, x1], yms, yp⟩, ?_, ⟨rfl, rfl⟩, rfl, ?_⟩
  · unfold RCt.fusedAbsorbAddWithoutPad
    simp [rd, wr, r1]
  · intro a ha1 ha2
    refine ⟨⟨[r, a], yms, yp⟩, ?_, ⟨rfl, rfl⟩, rfl, hpow, [_, _], .cons ⟨r2, r3⟩ (.cons ⟨ha1, ha2⟩ .nil), ?_⟩
    · unfold RCt.setPad; simp [wr]
    · have e : innerProduct (substPow yp.toNat S) [X0 + negMul Y0 M, X1 + negMul Y1 M] =
          innerProduct (substPow yp.toNat S) [X0, X1] +
            negMul (innerProduct (substPow yp.toNat S) [Y0, Y1]) M := by
        simp only [innerProduct, NR.negMul_add, NR.add_negMul, NR.negMul_zero, NR.negMul_assoc, add_zero]
        abel
      show CongMod (modulusProd yms) (innerProduct (substPow yp.toNat S) _) _
      rw [e]
      exact hΦ.add (hΨ.mul (CongMod.refl M))

/-- C53 violated: a ciphertext made by `CreateZero` has no components, and `SetPadComponent` then stores
the pad as component 0, although it reports success: the result stands for `A` instead of `A s`. -/
theorem c53_setPad_empty {ms : List Modulus} {a : RPoly} {A : Fin (2 ^ l) → ℤ} (hn : a.ntt = true)
    (ha : Represents l ms a A) :
    ∃ r, (RCt.createZero ms).setPad a = .ok r ∧ r.component 0 = .ok a ∧ Encrypts l S r A := by
  refine ⟨⟨[a], ms, 1⟩, rfl, rfl, by norm_num, [A], .cons ⟨hn, ha⟩ .nil, ?_⟩
  simp only [innerProduct, NR.negMul_zero, add_zero]
  exact CongMod.refl _

/-! ### Rejected arguments -/

/-- C53: ciphertexts of different degree, level or power of the secret are rejected. -/
theorem c53_rejects (x y : RCt) (pt : RPoly) (h : x.c.length ≠ y.c.length ∨ x.ms.length ≠ y.ms.length ∨
    x.power ≠ y.power) :
    x.add y = .err .invalidArgument ∧ x.sub y = .err .invalidArgument ∧
      x.fusedAbsorbAdd y pt = .err .invalidArgument ∧
      x.fusedAbsorbAddWithoutPad y pt = .err .invalidArgument := by
  have hc : RCt.check x y = .err .invalidArgument := by
    unfold RCt.check
    split_ifs with h1 h2 h3 <;> first | rfl | (exfalso; tauto)
  refine ⟨by unfold RCt.add; rw [hc]; rfl, by unfold RCt.sub; rw [hc]; rfl,
    by unfold RCt.fusedAbsorbAdd; rw [hc]; rfl, ?_⟩
  unfold RCt.fusedAbsorbAddWithoutPad
  split_ifs with h1 h2 h3 <;> first | rfl | (exfalso; tauto)

/-- C53: absorbing without the pad is for ciphertexts with two components only. -/
theorem c53_rejects_without_pad (x y : RCt) (pt : RPoly) (h : x.c.length ≠ 2 ∨ y.c.length ≠ 2) :
    x.fusedAbsorbAddWithoutPad y pt = .err .invalidArgument := by
  unfold RCt.fusedAbsorbAddWithoutPad
  rw [if_pos (by omega)]

/-- C53: `IsModulusSameAs` compares the prime moduli in order. -/
theorem c53_same_modulus (x y : RCt) : x.sameModulus y = true ↔ x.ms.map (·.N) = y.ms.map (·.N) := by
  unfold RCt.sameModulus
  generalize x.ms = a
  generalize y.ms = b
  induction a generalizing b with
  | nil => cases b <;> simp
  | cons m a ih =>
    cases b with
    | nil => simp
    | cons m' b =>
      have := ih b
      simp only [List.length_cons, List.zip_cons_cons, List.all_cons, Bool.and_eq_true, beq_iff_eq,
        Nat.add_right_cancel_iff, List.map_cons, List.cons.injEq] at this ⊢
      rw [← this]
      tauto

/-- C53: products of ciphertexts of different level or power of the secret, operations with a plaintext of
another number of moduli, a pad for a ciphertext of degree above one, and reductions at the last level are
rejected. -/
theorem c53_rejects_more (est : Estimate) (ctx : Rns.Ctx) (x y : RCt) (pt : RPoly) (t : ℕ) (z qlInv : List ℕ)
    (k : RKey) :
    (x.ms.length ≠ y.ms.length ∨ x.power ≠ y.power → x.mul y = .err .invalidArgument ∧
      x.mulBfv est ctx y = .err .invalidArgument) ∧
    (x.ms.length ≠ pt.coeffs.length → x.addPlain pt = .err .invalidArgument ∧
      x.subPlain pt = .err .invalidArgument ∧ x.absorbSimple pt = .err .invalidArgument) ∧
    (pt.ntt = false → x.absorbSimple pt = .err .invalidArgument ∧
      x.absorbBfv est ctx pt = .err .invalidArgument) ∧
    (z.length ≠ x.ms.length → x.absorbRns z = .err .invalidArgument) ∧
    (x.c.length > 2 → x.setPad pt = .err .invalidArgument) ∧
    (x.ms.length ≤ 1 → x.modReduceBgv t qlInv = .err .failedPrecondition ∧
      x.modReduceBfv ctx = .err .failedPrecondition) ∧
    (k.ms.length ≤ 1 → k.modReduce = .err .failedPrecondition) := by
  refine ⟨fun h => ⟨?_, ?_⟩, fun h => ⟨?_, ?_, ?_⟩, fun h => ⟨?_, ?_⟩, fun h => ?_, fun h => ?_,
    fun h => ⟨?_, ?_⟩, fun h => ?_⟩
  · unfold RCt.mul; split_ifs with h1 h2 <;> first | rfl | (exfalso; tauto)
  · unfold RCt.mulBfv; split_ifs with h1 h2 <;> first | rfl | (exfalso; tauto)
  · unfold RCt.addPlain; rw [if_pos h]
  · unfold RCt.subPlain; rw [if_pos h]
  · unfold RCt.absorbSimple; rw [if_pos h]
  · unfold RCt.absorbSimple; split_ifs <;> simp_all
  · unfold RCt.absorbBfv; simp [h]
  · unfold RCt.absorbRns; rw [if_pos h]
  · unfold RCt.setPad; rw [if_pos h]
  · unfold RCt.modReduceBgv; rw [if_pos h]
  · unfold RCt.modReduceBfv; rw [if_pos h]
  · unfold RKey.modReduce; rw [if_pos h]

/-- C55: a ciphertext under another power of the secret, of another dimension or level is not decrypted. -/
theorem c55_decrypt_rejects (k : RKey) (E : Encoder) (x : RCt) {n : ℕ} (hn : x.logN = .ok n)
    (h : x.power ≠ 1 ∨ n ≠ k.key.logN ∨ x.ms.length ≠ k.ms.length) :
    k.decryptBgv E x = .err .invalidArgument ∧ k.decryptBfv E x = .err .invalidArgument := by
  have hc : k.decryptChecks x = .err .invalidArgument := by
    unfold RKey.decryptChecks
    by_cases h1 : x.power ≠ 1
    · rw [if_pos h1]
    · rw [if_neg h1, hn, Outcome.bind_ok]
      by_cases h2 : n ≠ k.key.logN
      · rw [if_pos h2]
      · rw [if_neg h2, if_pos (by tauto)]
  exact ⟨by unfold RKey.decryptBgv; rw [hc]; rfl, by unfold RKey.decryptBfv; rw [hc]; rfl⟩

/-- C53 violated: adding or subtracting a plaintext, multiplying and decrypting read component 0 of a
ciphertext made by `CreateZero`, which has none: undefined behaviour instead of an error. -/
theorem c53_empty (ms : List Modulus) (pt : RPoly) (y : RCt) (k : RKey) (E : Encoder)
    (hpt : ms.length = pt.coeffs.length) (hy : y.ms = ms) (hp : y.power = 1) :
    (RCt.createZero ms).addPlain pt = .ub .outOfBounds ∧
    (RCt.createZero ms).subPlain pt = .ub .outOfBounds ∧
    (RCt.createZero ms).mul y = .ub .outOfBounds ∧
    k.decryptBgv E (RCt.createZero ms) = .ub .outOfBounds ∧
    k.decryptBfv E (RCt.createZero ms) = .ub .outOfBounds := by
  refine ⟨?_, ?_, ?_, rfl, rfl⟩
  · unfold RCt.addPlain RCt.createZero; simp only; rw [if_neg (by omega)]; rfl
  · unfold RCt.subPlain RCt.createZero; simp only; rw [if_neg (by omega)]; rfl
  · unfold RCt.mul RCt.createZero; simp only; rw [if_neg (by rw [hy]; simp), if_neg (by omega)]; rfl

end Shell
