import Verif.Lemmas.RnsBasisUse
import Verif.Props.RnsReduce
import Mathlib.Algebra.Order.Floor.Defs
import Mathlib.Data.Rat.Floor
/-!
# Property C47: conversions between RNS bases

The tables passed to these functions are described by `HatInvs`, `HatResidues`, `RnsIntIs`, `InverseIs`
and `InvRows`; that an `RnsContext` returns such tables is property C54.  Floating point is not modelled:
`EstimateWithin k ε est` says that the rounded sum of at most `k` quotients the code computes is within `1/2 + ε` of
the exact sum.  The moduli `outs` need not be primes (decoding uses the plaintext modulus there).
-/

namespace Shell
open Spec Rns MParams

/-- C47: `ApproxSwitchRnsBasis` returns the residues of `F + u Q` where, for coefficients in `[0, Q)`, `u`
is between 0 and the number of moduli. -/
theorem c47_approx {w l : ℕ} {ms outs : List Modulus} {x : RPoly} {F : Fin (2 ^ l) → ℤ}
    {hatInv : List ℕ} {hatMod : List (List ℕ)} (hg : ∀ m ∈ ms, GoodModulus w l m)
    (ho : ∀ p ∈ outs, MParams.create w p.N = .ok p.p)
    (hcop : (ms.map (·.N)).Pairwise Nat.Coprime) (hne : ms ≠ []) (hno : outs ≠ [])
    (hx : Represents l ms x F) (hi : HatInvs ms hatInv) (ht : HatResidues ms outs hatMod) :
    ∃ r, ∃ u : Fin (2 ^ l) → ℤ, approxSwitchBasis false ms outs hatInv hatMod x = .ok r ∧
      r.ntt = false ∧ Represents l outs r (fun i => F i + u i * modulusProd ms) ∧
      ∀ i, 0 ≤ F i → F i < modulusProd ms → 0 ≤ u i ∧ u i < ms.length := by
  have hpos := pos_of_create fun m h => (hg m h).create
  obtain ⟨r, r1, r2, r3⟩ := repr_approxSwitch hg ho hcop hne hno hx hi ht false
  have hd := fun i => crtSum_dvd hcop hpos false (F i)
  choose u hu using hd
  have hQ : (0 : ℤ) < modulusProd ms := by exact_mod_cast List.prod_pos (fun m hm => hpos m hm)
  have he : ∀ i, crtSum false (ms.map (·.N)) (F i) = F i + u i * modulusProd ms := fun i => by
    have := hu i
    rw [prod_map_N] at this
    linarith
  refine ⟨r, u, r1, r2, ?_, fun i h0 h1 => ?_⟩
  · rw [← funext he]; exact r3
  · obtain ⟨b1, b2⟩ := crtSum_range hpos (by simpa using hne) (F i)
    rw [he i, prod_map_N, List.length_map] at *
    constructor
    · by_contra hneg
      have : u i ≤ -1 := by omega
      nlinarith
    · by_contra hneg
      have : (ms.length : ℤ) ≤ u i := by omega
      nlinarith

/-- C47: the balanced `ApproxSwitchRnsBasis` returns the residues of `F + u Q` where, for centred
coefficients, `u` is at most half the number of moduli in absolute value. -/
theorem c47_approx_balanced {w l : ℕ} {ms outs : List Modulus} {x : RPoly} {F : Fin (2 ^ l) → ℤ}
    {hatInv : List ℕ} {hatMod : List (List ℕ)} (hg : ∀ m ∈ ms, GoodModulus w l m)
    (ho : ∀ p ∈ outs, MParams.create w p.N = .ok p.p)
    (hcop : (ms.map (·.N)).Pairwise Nat.Coprime) (hne : ms ≠ []) (hno : outs ≠ [])
    (hx : Represents l ms x F) (hi : HatInvs ms hatInv) (ht : HatResidues ms outs hatMod) :
    ∃ r, ∃ u : Fin (2 ^ l) → ℤ, approxSwitchBasis true ms outs hatInv hatMod x = .ok r ∧
      r.ntt = false ∧ Represents l outs r (fun i => F i + u i * modulusProd ms) ∧
      ∀ i, 2 * |F i| ≤ modulusProd ms → 2 * |u i| ≤ ms.length := by
  have hpos := pos_of_create fun m h => (hg m h).create
  have hodd : ∀ n ∈ ms.map (·.N), n % 2 = 1 := by
    intro n hn
    obtain ⟨m, h1, rfl⟩ := List.mem_map.mp hn
    exact (hg m h1).good.odd
  obtain ⟨r, r1, r2, r3⟩ := repr_approxSwitch hg ho hcop hne hno hx hi ht true
  have hd := fun i => crtSum_dvd hcop hpos true (F i)
  choose u hu using hd
  have hQ : (0 : ℤ) < modulusProd ms := by exact_mod_cast List.prod_pos (fun m hm => hpos m hm)
  have he : ∀ i, crtSum true (ms.map (·.N)) (F i) = F i + u i * modulusProd ms := fun i => by
    have := hu i
    rw [prod_map_N] at this
    linarith
  refine ⟨r, u, r1, r2, ?_, fun i h0 => ?_⟩
  · rw [← funext he]; exact r3
  · have b := crtSum_balanced hodd (by simpa using hne) (F i)
    rw [he i, prod_map_N, List.length_map] at b
    have h1 : |u i| * modulusProd ms ≤ |F i + u i * modulusProd ms| + |F i| := by
      have h2 : u i * modulusProd ms = (F i + u i * modulusProd ms) - F i := by ring
      calc |u i| * modulusProd ms = |u i * modulusProd ms| := by
            rw [abs_mul, abs_of_pos hQ]
        _ = |(F i + u i * modulusProd ms) - F i| := by rw [← h2]
        _ ≤ _ := abs_sub _ _
    have h3 : 2 * |u i| * (modulusProd ms : ℤ) < (ms.length + 1) * modulusProd ms := by linarith
    have := lt_of_mul_lt_mul_right h3 hQ.le
    omega

/-- C47: `SwitchRnsBasis` returns the residues of an integer congruent to `F` modulo `Q` and at most
`(1/2 + ε) Q` in absolute value; it is `F` itself if `F` is the centred representative and not within
`ε Q` of the rounding boundary `Q/2`. -/
theorem c47_switch {w l : ℕ} {ms outs : List Modulus} {x : RPoly} {F : Fin (2 ^ l) → ℤ}
    {hatInv qMod : List ℕ} {hatMod : List (List ℕ)}
    (hm : ∀ m ∈ ms, MParams.create w m.N = .ok m.p)
    (ho : ∀ p ∈ outs, MParams.create w p.N = .ok p.p)
    (hcop : (ms.map (·.N)).Pairwise Nat.Coprime) (hne : ms ≠ []) (hno : outs ≠ []) (hl : l ≤ 30)
    (hx : Represents l ms x F) (hb : x.ntt = false) (hi : HatInvs ms (hatInv.take ms.length))
    (ht : HatResidues ms outs (hatMod.take ms.length)) (hq : RnsIntIs outs qMod (modulusProd ms))
    {ε : ℚ} {est : Estimate} (he : EstimateWithin ms.length ε est) (hε : ε < 1 / 2) (hw : ms.length < 2 ^ w) :
    ∃ r, ∃ G : Fin (2 ^ l) → ℤ, switchBasis est ms outs hatInv hatMod qMod x = .ok r ∧
      r.ntt = false ∧ Represents l outs r G ∧
      ∀ i, (modulusProd ms : ℤ) ∣ G i - F i ∧ (|G i| : ℚ) ≤ (1 / 2 + ε) * modulusProd ms ∧
        ((|F i| : ℚ) < (1 / 2 - ε) * modulusProd ms → G i = F i) := by
  have hpos := pos_of_create hm
  obtain ⟨r, r1, r2, r3⟩ := repr_switchBasis hm ho hcop hne hno hl hx hb hi ht hq he hε hw
  refine ⟨r, _, r1, r2, r3, fun i => ?_⟩
  have h1 := remainder_dvd hcop hpos est (F i)
  have h2 := remainder_bound hpos (by rwa [List.length_map]) (F i)
  exact ⟨h1, h2, fun h3 => eq_of_margin h1 h2 h3⟩

/-- C47: `ScaleAndSwitchRnsBasis` returns the residues of `P F / Q` rounded to a nearest integer, up to
the error `ε` of the floating-point estimate. -/
theorem c47_scale {w l : ℕ} {ms outs : List Modulus} {x : RPoly} {F : Fin (2 ^ l) → ℤ}
    {hatInv pMod : List ℕ} {qInvMod : List (List ℕ)}
    (hm : ∀ m ∈ ms, MParams.create w m.N = .ok m.p)
    (ho : ∀ p ∈ outs, MParams.create w p.N = .ok p.p)
    (hcop : (ms.map (·.N)).Pairwise Nat.Coprime) (hne : ms ≠ []) (hno : outs ≠ []) (hl : l ≤ 30)
    (hx : Represents l ms x F) (hb : x.ntt = false) (hi : HatInvs ms (hatInv.take ms.length))
    (ht : InvRows ms outs qInvMod) (hp : RnsIntIs ms (pMod.take ms.length) (modulusProd outs))
    {ε : ℚ} {est : Estimate} (he : EstimateWithin ms.length ε est) (hε : ε < 1 / 2) (hw : ms.length < 2 ^ w) :
    ∃ r, ∃ G : Fin (2 ^ l) → ℤ, scaleAndSwitchBasis est ms outs hatInv qInvMod pMod x = .ok r ∧
      r.ntt = false ∧ Represents l outs r G ∧
      ∀ i, (|(modulusProd outs : ℤ) * F i - modulusProd ms * G i| : ℚ) ≤
        (1 / 2 + ε) * modulusProd ms := by
  have hpos := pos_of_create hm
  have hd : ∀ i, ∃ g, (modulusProd outs : ℤ) * F i -
      remainder est (ms.map (·.N)) (modulusProd outs * F i) = modulusProd ms * g := fun i => by
    have h := remainder_dvd hcop hpos est (modulusProd outs * F i)
    rw [prod_map_N, ← Int.dvd_neg, neg_sub] at h
    exact h
  choose G hG using hd
  obtain ⟨r, r1, r2, r3⟩ := repr_scaleAndSwitch hm ho hcop hne hno hl hx hb hi ht
    (P := modulusProd outs) (fun p hp => by
      exact_mod_cast List.dvd_prod (List.mem_map.mpr ⟨p, hp, rfl⟩)) hp he hε hw
    (G := G) (fun i => (hG i).symm)
  refine ⟨r, G, r1, r2, r3, fun i => ?_⟩
  have h2 := remainder_bound hpos (by rwa [List.length_map]) (modulusProd outs * F i)
  have h3 : (modulusProd outs : ℤ) * F i - modulusProd ms * G i =
      remainder est (ms.map (·.N)) (modulusProd outs * F i) := by rw [← hG i]; ring
  have h4 : ((modulusProd outs : ℤ) : ℚ) * F i - modulusProd ms * G i =
      remainder est (ms.map (·.N)) (modulusProd outs * F i) := by exact_mod_cast h3
  rw [h4]; exact h2

/-- C47: `ApproxModReduceMsb` of a value `F` given modulo `Q` and modulo `P` returns `⌊F / P⌋ - u` modulo
`Q` with `0 ≤ u <` the number of auxiliary moduli. -/
theorem c47_approxModReduceMsb {w l : ℕ} {ms auxMs : List Modulus} {x a : RPoly}
    {F : Fin (2 ^ l) → ℤ} {pInv hatInv : List ℕ} {hatMod : List (List ℕ)}
    (hg : ∀ m ∈ ms, GoodModulus w l m) (ha : ∀ m ∈ auxMs, GoodModulus w l m)
    (hcop : (auxMs.map (·.N)).Pairwise Nat.Coprime) (hne : auxMs ≠ []) (hno : ms ≠ [])
    (hx : Represents l ms x F) (hA : Represents l auxMs a F)
    (hp : InverseIs ms pInv (modulusProd auxMs)) (hi : HatInvs auxMs hatInv)
    (ht : HatResidues auxMs ms hatMod) :
    ∃ r, ∃ u : Fin (2 ^ l) → ℤ, approxModReduceMsb a ms auxMs pInv hatInv hatMod x = .ok r ∧
      r.ntt = true ∧ Represents l ms r (fun i => F i / modulusProd auxMs - u i) ∧
      ∀ i, 0 ≤ u i ∧ u i < auxMs.length := by
  have hpos := pos_of_create fun m h => (ha m h).create
  have hQ : (0 : ℤ) < modulusProd auxMs := by exact_mod_cast List.prod_pos (fun m hm => hpos m hm)
  have hd : ∀ i, ∃ g, F i - crtSum false (auxMs.map (·.N)) (F i) = modulusProd auxMs * g := fun i => by
    have h := crtSum_dvd hcop hpos false (F i)
    rw [prod_map_N, ← Int.dvd_neg, neg_sub] at h
    exact h
  choose G hG using hd
  obtain ⟨r, r1, r2, r3⟩ := repr_approxModReduceMsb hg ha hcop hne hno hx hA hp hi ht (G := G)
    (fun i => (hG i).symm)
  refine ⟨r, fun i => F i / modulusProd auxMs - G i, r1, r2, ?_, fun i => ?_⟩
  · have : (fun i => F i / (modulusProd auxMs : ℤ) - (F i / modulusProd auxMs - G i)) = G := by
      funext i; ring
    rw [this]; exact r3
  · obtain ⟨b1, b2⟩ := crtSum_range hpos (by simpa using hne) (F i)
    rw [List.length_map, prod_map_N] at b2
    have h1 := Int.mul_ediv_add_emod (F i) (modulusProd auxMs)
    have h2 := Int.emod_nonneg (F i) hQ.ne'
    have h3 := Int.emod_lt_of_pos (F i) hQ
    have h4 := hG i
    simp only
    constructor
    · by_contra hneg
      have : F i / (modulusProd auxMs : ℤ) - G i ≤ -1 := by omega
      nlinarith
    · by_contra hneg
      have : (auxMs.length : ℤ) ≤ F i / (modulusProd auxMs : ℤ) - G i := by omega
      nlinarith

/-- C47: `ApproxModReduceLsb` of a value `F` given modulo `Q` and modulo `P` returns a `G` modulo `Q` that is
congruent to `F` modulo `t` and of size about `(P mod t) |F| / P`. -/
theorem c47_approxModReduceLsb {w l : ℕ} {ms auxMs : List Modulus} {x a : RPoly}
    {F : Fin (2 ^ l) → ℤ} {pInv hatInv tInv : List ℕ} {hatMod : List (List ℕ)} {t : ℕ}
    (hg : ∀ m ∈ ms, GoodModulus w l m) (ha : ∀ m ∈ auxMs, GoodModulus w l m)
    (hcop : (auxMs.map (·.N)).Pairwise Nat.Coprime) (hne : auxMs ≠ []) (hno : ms ≠ [])
    (hx : Represents l ms x F) (hA : Represents l auxMs a F)
    (hp : InverseIs ms pInv (modulusProd auxMs)) (hi : HatInvs auxMs hatInv)
    (ht : HatResidues auxMs ms hatMod) (htI : InverseIs auxMs tInv t) (ht0 : 0 < t) (htw : t < 2 ^ w) :
    ∃ r, ∃ G : Fin (2 ^ l) → ℤ,
      approxModReduceLsb a ms auxMs pInv hatInv hatMod tInv (modulusProd auxMs % t) t x = .ok r ∧
      r.ntt = true ∧ Represents l ms r G ∧
      ∀ i, G i % t = F i % t ∧ 2 * modulusProd auxMs * |G i| ≤
        2 * (modulusProd auxMs % t : ℕ) * |F i| + t * (auxMs.length * modulusProd auxMs) := by
  have hpos := pos_of_create fun m h => (ha m h).create
  have hodd : ∀ n ∈ auxMs.map (·.N), n % 2 = 1 := by
    intro n hn
    obtain ⟨m, h1, rfl⟩ := List.mem_map.mp hn
    exact (ha m h1).good.odd
  have hQ : (0 : ℤ) < modulusProd auxMs := by exact_mod_cast List.prod_pos (fun m hm => hpos m hm)
  have hcop' : Nat.Coprime (modulusProd auxMs) t := Nat.coprime_list_prod_left_iff.mpr fun n hn => by
    obtain ⟨m, h1, rfl⟩ := List.mem_map.mp hn
    obtain ⟨c, _, _, hc⟩ := forall₂_mem_left htI m h1
    exact (coprime_of_inv hc).symm
  obtain ⟨T, S, hTS⟩ := Nat.isCoprime_iff_coprime.mpr hcop'.symm
  have hT : (modulusProd auxMs : ℤ) ∣ t * T - 1 := ⟨-S, by linarith⟩
  generalize hpm : modulusProd auxMs % t = pm
  have hpw : pm < 2 ^ w := by rw [← hpm]; exact (Nat.mod_lt _ ht0).trans htw
  have hd : ∀ i, ∃ g, (pm : ℤ) * F i + t * crtSum true (auxMs.map (·.N)) (-(pm * T * F i)) =
      modulusProd auxMs * g := fun i => by
    have h := (crtSum_dvd hcop hpos true (-(pm * T * F i))).mul_left (t : ℤ)
    have h' := hT.mul_right (-(pm * F i))
    rw [prod_map_N] at h
    have := dvd_add h h'
    rwa [show (t : ℤ) * (crtSum true (auxMs.map (·.N)) (-(pm * T * F i)) - -(pm * T * F i)) +
      (t * T - 1) * -(pm * F i) = pm * F i + t * crtSum true (auxMs.map (·.N)) (-(pm * T * F i)) by
        ring] at this
  choose G hG using hd
  obtain ⟨r, r1, r2, r3⟩ := repr_approxModReduceLsb hg ha hcop hne hno hx hA hp hi ht htI htw hpw hT
    (G := G) (fun i => (hG i).symm)
  refine ⟨r, G, r1, r2, r3, fun i => ⟨?_, ?_⟩⟩
  · have hm : (modulusProd auxMs : ℤ) = t * ((modulusProd auxMs / t : ℕ) : ℤ) + pm := by
      have := Nat.div_add_mod (modulusProd auxMs) t
      rw [hpm] at this
      exact_mod_cast this.symm
    have h1 : (t : ℤ) ∣ (modulusProd auxMs : ℤ) * (G i - F i) := by
      have h2 : (modulusProd auxMs : ℤ) * (G i - F i) =
          t * (crtSum true (auxMs.map (·.N)) (-(pm * T * F i)) -
            ((modulusProd auxMs / t : ℕ) : ℤ) * F i) := by
        rw [mul_sub, ← hG i]
        linear_combination (-F i) * hm
      rw [h2]; exact dvd_mul_right _ _
    exact Int.emod_eq_emod_iff_emod_sub_eq_zero.mpr (Int.emod_eq_zero_of_dvd
      ((Nat.isCoprime_iff_coprime.mpr hcop'.symm).dvd_of_dvd_mul_left h1))
  · have b := crtSum_balanced hodd (by simpa using hne) (-(pm * T * F i))
    rw [List.length_map, prod_map_N] at b
    have h1 : 2 * (modulusProd auxMs : ℤ) * |G i| = |2 * (pm * F i) +
        t * (2 * crtSum true (auxMs.map (·.N)) (-(pm * T * F i)))| := by
      rw [← abs_of_nonneg (show (0 : ℤ) ≤ 2 * (modulusProd auxMs : ℤ) by positivity), ← abs_mul]
      congr 1
      rw [mul_assoc, ← hG i]; ring
    rw [h1]
    refine (abs_add_le _ _).trans ?_
    rw [abs_mul, abs_mul, abs_two, abs_mul, abs_mul, abs_two, Nat.abs_cast, Nat.abs_cast]
    have := mul_le_mul_of_nonneg_left b.le (show (0 : ℤ) ≤ t by positivity)
    linarith

/-- C47: `ExtendRnsBasisInPlace` represents the same centred value with respect to all the moduli. -/
theorem c47_extend {w l : ℕ} {ms auxMs : List Modulus} {x : RPoly} {F : Fin (2 ^ l) → ℤ}
    {hatInv qMod : List ℕ} {hatMod : List (List ℕ)}
    (hm : ∀ m ∈ ms, MParams.create w m.N = .ok m.p)
    (ho : ∀ p ∈ auxMs, MParams.create w p.N = .ok p.p)
    (hcop : (ms.map (·.N)).Pairwise Nat.Coprime) (hne : ms ≠ []) (hno : auxMs ≠ []) (hl : l ≤ 30)
    (hx : Represents l ms x F) (hb : x.ntt = false) (hi : HatInvs ms (hatInv.take ms.length))
    (ht : HatResidues ms auxMs (hatMod.take ms.length)) (hq : RnsIntIs auxMs qMod (modulusProd ms))
    {ε : ℚ} {est : Estimate} (he : EstimateWithin ms.length ε est) (hε : ε < 1 / 2) (hw : ms.length < 2 ^ w)
    (hF : ∀ i, (|F i| : ℚ) < (1 / 2 - ε) * modulusProd ms) :
    ∃ r, extendBasis est ms auxMs hatInv hatMod qMod x = .ok r ∧ r.ntt = false ∧
      Represents l (ms ++ auxMs) r F :=
  repr_extendBasis hm ho hcop hne hno hl hx hb hi ht hq he hε hw fun i =>
    eq_of_margin (remainder_dvd hcop (pos_of_create hm) est (F i))
      (remainder_bound (pos_of_create hm) (by rwa [List.length_map]) (F i)) (hF i)

/-- C47: `ScaleAndReduceRnsBasisInPlace` of a value `F` given modulo `Q` and modulo `P` returns `t F / P`
rounded to a nearest integer, up to the error `ε` of the floating-point estimate. -/
theorem c47_scaleAndReduce {w l : ℕ} {ms auxMs : List Modulus} {x a : RPoly} {F : Fin (2 ^ l) → ℤ}
    {hatInv pMod pInv : List ℕ} {hatMod : List (List ℕ)} {t : ℕ}
    (hg : ∀ m ∈ ms, GoodModulus w l m) (ha : ∀ m ∈ auxMs, GoodModulus w l m)
    (hcop : (auxMs.map (·.N)).Pairwise Nat.Coprime) (hne : auxMs ≠ []) (hno : ms ≠ [])
    (hx : Represents l ms x F) (hA : Represents l auxMs a F) (htw : t < 2 ^ w)
    (hi : HatInvs auxMs (hatInv.take auxMs.length))
    (ht : HatResidues auxMs ms (hatMod.take auxMs.length))
    (hp : RnsIntIs ms pMod (modulusProd auxMs)) (hpi : InverseIs ms pInv (modulusProd auxMs))
    {ε : ℚ} {est : Estimate} (he : EstimateWithin auxMs.length ε est) (hε : ε < 1 / 2)
    (hw : auxMs.length < 2 ^ w) :
    ∃ r, ∃ G : Fin (2 ^ l) → ℤ,
      scaleAndReduceBasis est a t ms auxMs hatInv hatMod pMod pInv x = .ok r ∧
      r.ntt = x.ntt ∧ Represents l ms r G ∧
      ∀ i, (|(t : ℤ) * F i - modulusProd auxMs * G i| : ℚ) ≤ (1 / 2 + ε) * modulusProd auxMs := by
  have hpos := pos_of_create fun m h => (ha m h).create
  have hd : ∀ i, ∃ g, (t : ℤ) * F i - remainder est (auxMs.map (·.N)) (t * F i) =
      modulusProd auxMs * g := fun i => by
    have h := remainder_dvd hcop hpos est (t * F i)
    rw [prod_map_N, ← Int.dvd_neg, neg_sub] at h
    exact h
  choose G hG using hd
  obtain ⟨r, r1, r2, r3⟩ := repr_scaleAndReduce hg ha hcop hne hno hx hA htw hi ht hp hpi he hε hw
    (G := G) (fun i => (hG i).symm)
  refine ⟨r, G, r1, r2, r3, fun i => ?_⟩
  have h2 := remainder_bound hpos (by rwa [List.length_map]) (t * F i)
  have h3 : (t : ℤ) * F i - modulusProd auxMs * G i = remainder est (auxMs.map (·.N)) (t * F i) := by
    rw [← hG i]; ring
  have h4 : ((t : ℤ) : ℚ) * F i - modulusProd auxMs * G i =
      remainder est (auxMs.map (·.N)) (t * F i) := by exact_mod_cast h3
  rw [h4]; exact h2

/-- C47: an input in NTT form or with a mismatched size is rejected. -/
theorem c47_rejects (est : Estimate) (ms outs : List Modulus) (hatInv qMod pMod : List ℕ)
    (hatMod qInvMod : List (List ℕ)) (x : RPoly) (b : Bool) :
    ((x.ntt = true ∨ ms.length ≠ x.coeffs.length ∨ outs = [] ∨ hatInv.length < ms.length ∨
        hatMod.length < ms.length ∨ qMod.length ≠ outs.length) →
      switchBasis est ms outs hatInv hatMod qMod x = .err .invalidArgument) ∧
    ((x.ntt = true ∨ ms.length ≠ x.coeffs.length ∨ outs = [] ∨ hatInv.length < ms.length ∨
        qInvMod.length ≠ outs.length ∨ pMod.length < ms.length) →
      scaleAndSwitchBasis est ms outs hatInv qInvMod pMod x = .err .invalidArgument) ∧
    ((ms.length ≠ x.coeffs.length ∨ outs = [] ∨ hatInv.length ≠ ms.length ∨
        hatMod.length ≠ ms.length) →
      approxSwitchBasis b ms outs hatInv hatMod x = .err .invalidArgument) := by
  refine ⟨fun h => ?_, fun h => ?_, fun h => ?_⟩
  · unfold switchBasis
    by_cases h1 : x.ntt = true
    · rw [if_pos h1]
    by_cases h2 : ms.length ≠ x.coeffs.length
    · rw [if_neg h1, if_pos h2]
    by_cases h3 : outs = []
    · rw [if_neg h1, if_neg h2, if_pos (by simp [h3])]
    rw [if_neg h1, if_neg h2, if_neg (by simpa using h3)]
    have h2' := not_not.mp h2
    rw [← h2']
    by_cases h4 : hatInv.length < ms.length
    · rw [if_pos h4]
    by_cases h5 : hatMod.length < ms.length
    · rw [if_neg h4, if_pos h5]
    by_cases h6 : qMod.length ≠ outs.length
    · rw [if_neg h4, if_neg h5, if_pos h6]
    simp only [h1, h2, h3, h4, h5, h6, or_self] at h
    exact absurd h (by simp)
  · unfold scaleAndSwitchBasis
    by_cases h1 : x.ntt = true
    · rw [if_pos h1]
    by_cases h2 : ms.length ≠ x.coeffs.length
    · rw [if_neg h1, if_pos h2]
    by_cases h3 : outs = []
    · rw [if_neg h1, if_neg h2, if_pos (by simp [h3])]
    rw [if_neg h1, if_neg h2, if_neg (by simpa using h3)]
    have h2' := not_not.mp h2
    rw [← h2']
    by_cases h4 : hatInv.length < ms.length
    · rw [if_pos h4]
    by_cases h5 : qInvMod.length ≠ outs.length
    · rw [if_neg h4, if_pos h5]
    by_cases h6 : pMod.length < ms.length
    · rw [if_neg h4, if_neg h5, if_pos h6]
    simp only [h1, h2, h3, h4, h5, h6, or_self] at h
    exact absurd h (by simp)
  · unfold approxSwitchBasis
    by_cases h2 : ms.length ≠ x.coeffs.length
    · rw [if_pos h2]
    by_cases h3 : outs = []
    · rw [if_neg h2, if_pos (by simp [h3])]
    rw [if_neg h2, if_neg (by simpa using h3)]
    have h2' := not_not.mp h2
    rw [← h2']
    by_cases h4 : hatInv.length ≠ ms.length
    · rw [if_pos h4]
    by_cases h5 : hatMod.length ≠ ms.length
    · rw [if_neg h4, if_pos h5]
    simp only [h2, h3, h4, h5, or_self] at h

/-- The exact rounding of the sum, for the examples. -/
def exactEstimate : Estimate := fun c =>
  ((c.map fun xq => (xq.1 : ℚ) / xq.2).sum + 1 / 2).floor.toNat

theorem exactEstimate_within (k : ℕ) : EstimateWithin k 0 exactEstimate := by
  intro c _ _
  unfold exactEstimate
  generalize hs : (c.map fun xq => (xq.1 : ℚ) / xq.2).sum = s
  have h0 : 0 ≤ s := by
    rw [← hs]
    apply List.sum_nonneg
    intro x hx
    obtain ⟨q, _, rfl⟩ := List.mem_map.mp hx
    positivity
  have h1 : ((s + 1 / 2).floor : ℚ) ≤ s + 1 / 2 := Rat.floor_le _
  have h2 : s + 1 / 2 < ((s + 1 / 2).floor : ℚ) + 1 := by exact_mod_cast Rat.lt_floor_add_one _
  have h3 : 0 ≤ (s + 1 / 2).floor := Rat.le_floor_iff.mpr (by push_cast; linarith)
  have h4 : (((s + 1 / 2).floor.toNat : ℕ) : ℚ) = ((s + 1 / 2).floor : ℚ) := by
    exact_mod_cast Int.toNat_of_nonneg h3
  rw [h4, abs_le]
  constructor <;> linarith

/-- The hypotheses of C47 for `F = -200 + 1000 X + 7 X^2 - 9000 X^3` modulo `97 * 193`, converted to the
modulus 113 (prime, but no NTT parameters are needed for it), and the results. -/
example :
    let ms := [exampleModulus 16 2 97, exampleModulus 16 2 193]
    let outs := [exampleModulus 16 2 113]
    let a := Mont.importInt (make 16 97)
    let b := Mont.importInt (make 16 193)
    let c := Mont.importInt (make 16 113)
    let x : RPoly := ⟨2, [[91, 30, 7, 21].map a, [186, 35, 7, 71].map b], false⟩
    let out := fun (r : RPoly) => r.coeffs.map (·.map (Mont.exportInt (make 16 113)))
    HatInvs ms [a 96, b 2] ∧ HatResidues ms outs [[c 80], [c 97]] ∧ RnsIntIs outs [c 76] (97 * 193) ∧
    InvRows ms outs [[c 7, c 89]] ∧ RnsIntIs ms [a 16, b 113] 113 ∧
    Represents 2 ms x ![-200, 1000, 7, -9000] ∧
    (do let r ← switchBasis exactEstimate ms outs [a 96, b 2] [[c 80], [c 97]] [c 76] x
        return out r : Outcome (List (List ℕ))) = .ok [[26, 96, 7, 40]] ∧
    (do let r ← scaleAndSwitchBasis exactEstimate ms outs [a 96, b 2] [[c 7, c 89]] [a 16, b 113] x
        return out r : Outcome (List (List ℕ))) = .ok [[112, 6, 0, 59]] := by
  refine ⟨.cons (by decide +kernel) (.cons (by decide +kernel) .nil),
    .cons (.cons (by decide +kernel) .nil) (.cons (.cons (by decide +kernel) .nil) .nil),
    .cons (by decide +kernel) .nil,
    .cons (.cons (by decide +kernel) (.cons (by decide +kernel) .nil)) .nil,
    .cons (by decide +kernel) (.cons (by decide +kernel) .nil), ⟨rfl, .cons ?_ (.cons ?_ .nil)⟩,
    by decide +kernel, by decide +kernel⟩ <;>
  · show CoeffsAre _ _ _ _
    unfold CoeffsAre; decide +kernel

end Shell
