import Verif.Model.Constants
import Verif.Props.Context
import Verif.Props.RnsContextKinds
import Verif.Lemmas.PrimeCert
import Mathlib.Tactic.NormNum.Prime
/-!
# C68: the shipped parameters are usable

The moduli of constants.h and rns/constants.h are primes with the documented roots of unity, so every
constructor accepts them, for every integer type that is wide enough and every dimension up to the bound.
-/

namespace Shell
open Spec Rns Constants

private theorem prime59a : (27048060487031 : ℕ).Prime :=
  prime_of_lucas 29 45 [2, 5, 11, 17, 59, 857, 286063] [1, 1, 1, 1, 1, 1, 1] (by norm_num) (by decide +kernel)

private theorem prime80a : (157743999648925645441 : ℕ).Prime :=
  prime_of_lucas 11 68 [2, 3, 5, 23, 21683, 277273, 594151] [7, 1, 1, 1, 1, 1, 1] (by norm_num)
    (by decide +kernel)

/-- **C68.** Every modulus of constants.h is prime, its degree bound is the power of two it announces, and the
modulus is one modulo twice the bound, so that transforms of that length exist. -/
theorem c68_moduli : ∀ e ∈ shipped, e.1.Prime ∧ e.2.2 = 2 ^ e.2.1 ∧ 1 ≤ e.2.1 ∧ e.2.1 ≤ kMaxLogNumCoeffs ∧
    e.1 ≡ 1 [MOD 2 * e.2.2] := by
  simp only [shipped, List.forall_mem_cons, List.not_mem_nil, false_implies, implies_true, and_true]
  refine ⟨⟨?_, by decide⟩, ⟨?_, by decide +kernel⟩, ⟨?_, by decide +kernel⟩, ⟨?_, by decide +kernel⟩,
    ⟨?_, by decide +kernel⟩, ?_, by decide +kernel⟩
  · show (12289 : ℕ).Prime; norm_num
  · exact prime_of_lucas 11 59 [2, 3, 27048060487031] [12, 1, 1] (by simp [prime59a, Nat.prime_two, Nat.prime_three])
      (by decide +kernel)
  · exact prime_of_lucas 3 44 [2, 7, 83, 14784727] [11, 1, 1, 1] (by norm_num) (by decide +kernel)
  · exact prime_of_lucas 3 29 [2, 113083] [12, 1] (by norm_num) (by decide +kernel)
  · exact prime_of_lucas 3 25 [2, 23, 89] [14, 1, 1] (by norm_num) (by decide +kernel)
  · exact prime_of_lucas 3 80 [2, 157743999648925645441] [12, 1] (by simp [prime80a, Nat.prime_two])
      (by decide +kernel)

/-- **C68.** For every integer type with two bits to spare, every dimension up to the degree bound, every
plaintext modulus `2^log_t + 1` that fits and every admitted variance, a context is created with the shipped
modulus, and it reports these parameters. -/
theorem c68_context {q l n w logN logT variance : ℕ} (he : (q, l, n) ∈ shipped) (hw : q < 2 ^ (w - 2))
    (h1 : 1 ≤ logN) (h2 : logN ≤ l) (h3 : 1 ≤ logT) (h4 : 2 ^ logT ≤ q) (h5 : variance ≤ kMaxVariance) :
    ∃ c, Context.create w q logN logT variance = .ok c ∧ c.modulus = q ∧ c.getN = .ok (2 ^ logN) ∧
      c.getT = .ok (2 ^ logT + 1) ∧ c.variance = variance ∧ c.ntt.numberCoeffs = 2 ^ logN := by
  obtain ⟨hp, en, -, hl, hm⟩ := c68_moduli _ he
  dsimp only at hp en hl hm
  have hq : q < 2 ^ 128 ∧ q % 2 = 1 := by
    revert he
    simp only [shipped, List.mem_cons, List.not_mem_nil, or_false, Prod.mk.injEq]
    rintro (⟨rfl, -⟩ | ⟨rfl, -⟩ | ⟨rfl, -⟩ | ⟨rfl, -⟩ | ⟨rfl, -⟩ | ⟨rfl, -⟩) <;> decide +kernel
  have hl' : l ≤ 15 := hl
  have hlogT : logT < 128 := by
    by_contra hc
    have : 2 ^ 128 ≤ 2 ^ logT := Nat.pow_le_pow_right (by norm_num) (by omega)
    omega
  have hd : 2 ^ (logN + 1) ∣ 2 * n := by
    rw [en, ← pow_succ']
    exact Nat.pow_dvd_pow 2 (by omega)
  have hmod : q % 2 ^ (logN + 1) = 1 := by
    have := Nat.ModEq.of_dvd hd hm
    rw [Nat.ModEq, Nat.mod_eq_of_lt (Nat.one_lt_two_pow (by omega))] at this
    exact this
  have hlt : logN + 1 < w := by
    have a : 2 ^ (logN + 1) < q := by
      rcases Nat.lt_or_ge (2 ^ (logN + 1)) q with h | h
      · exact h
      · exfalso
        rcases Nat.eq_or_lt_of_le h with h | h
        · rw [h, Nat.mod_self] at hmod; omega
        · rw [Nat.mod_eq_of_lt h] at hmod; exact absurd hmod hp.one_lt.ne'
    have b := (Nat.pow_lt_pow_iff_right (a := 2) (by norm_num)).mp (a.trans hw)
    omega
  obtain ⟨c, hc⟩ := ((Shell.c61_create_partial (w := w) (variance := variance) hp hq.1 (logN := logN) (logT := logT)
    (by omega) (by omega)).1).mpr ⟨hq.2, hw, h1, by omega, hlt, hmod, h3, h4, h5⟩
  obtain ⟨a1, -, -, a4, a5, a6, -, -, -, a10, -⟩ :=
    Shell.c61_accessors_partial hp hq.1 (by omega : logN < 2 ^ 31) (by omega) hc
  exact ⟨c, hc, a1, a5, a6, a4, a10⟩

/-- **C68.** `kInvModulus59` is the Montgomery constant of `kModulus59` for 64-bit words: the parameters
computed by `Create` hold exactly this number. -/
theorem c68_inverse {p : MParams} (h : MParams.create 64 kModulus59 = .ok p) :
    p.invModulus = kInvModulus59 := by
  obtain ⟨-, -, e, -, -, lt, -⟩ := (c02_create 64 kModulus59).2.2 p h
  have h1 : kModulus59 * p.invModulus ≡ kModulus59 * kInvModulus59 [MOD 2 ^ 64] := by
    refine Nat.ModEq.add_right_cancel' 1 ?_
    rw [← e]
    exact ((Nat.modEq_zero_iff_dvd.mpr (Dvd.intro _ rfl))).trans (by decide +kernel)
  have h2 := Nat.ModEq.cancel_left_of_coprime (by decide +kernel) h1
  rw [Nat.ModEq, Nat.mod_eq_of_lt lt] at h2
  exact h2

/-- **C68.** The 29-bit and the 25-bit modulus agree modulo `5`, so a context over the first with `log_t = 2`
may be switched to the second, for every word, dimension and variance. -/
theorem c68_modulus_switch {w logN variance : ℕ} {c : Context.RlweContext} (h1 : logN < 2 ^ 31)
    (h : Context.create w kModulus29 logN 2 variance = .ok c) : c.canModulusSwitchTo kModulus25 = .ok () := by
  have hp : kModulus29.Prime := (c68_moduli (kModulus29, kLogDegreeBound29, kDegreeBound29) (by simp [shipped])).1
  exact ((Shell.c61_can_switch_partial hp (by decide) h1 (by decide) h kModulus25).1) (by decide)

/-- **C68.** Every modulus of rns/constants.h is prime, all are distinct, each is one modulo `2 N` and one modulo
the plaintext modulus. -/
theorem c68_rns_moduli : ∀ s ∈ [k60Bit, k59Bit], (s.qs ++ s.ps).Nodup ∧ ∀ q ∈ s.qs ++ s.ps,
    q.Prime ∧ q ≡ 1 [MOD 2 * 2 ^ s.logN] ∧ q ≡ 1 [MOD s.t] := by
  have p0 : (974849 : ℕ).Prime := by norm_num
  have p1 : (765953 : ℕ).Prime := by norm_num
  have p2 : (557057 : ℕ).Prime := by norm_num
  have p3 : (536375297 : ℕ).Prime := prime_of_lucas 3 29 [2, 17, 7703] [12, 1, 1] (by norm_num) (by decide +kernel)
  have p4 : (1073655809 : ℕ).Prime := prime_of_lucas 3 30 [2, 17, 907] [12, 2, 1] (by norm_num) (by decide +kernel)
  simp only [List.forall_mem_cons, List.not_mem_nil, false_implies, implies_true, and_true, k60Bit, k59Bit,
    List.cons_append, List.nil_append]
  exact ⟨⟨by decide, ⟨p0, by decide⟩, ⟨p1, by decide⟩, p2, by decide⟩, by decide, ⟨p3, by decide⟩, p4, by decide⟩

private theorem rns_usable {s : RnsSet} (hs : s ∈ [k60Bit, k59Bit]) {w l : ℕ} (hw : 32 ≤ w) (h1 : 1 ≤ l)
    (h2 : l ≤ s.logN) {q : ℕ} (hq : q ∈ s.qs ++ s.ps) : UsablePrime w l q := by
  obtain ⟨-, h⟩ := c68_rns_moduli s hs
  obtain ⟨-, hm, -⟩ := h q hq
  have hb : q % 2 = 1 ∧ q < 2 ^ 30 ∧ s.logN = 11 := by
    revert hq
    simp only [List.mem_cons, List.not_mem_nil, or_false] at hs
    rcases hs with rfl | rfl <;> simp only [k60Bit, k59Bit, List.cons_append, List.nil_append, List.mem_cons,
      List.not_mem_nil, or_false] <;> rintro (rfl | rfl | rfl) <;> decide
  obtain ⟨b1, b2, b3⟩ := hb
  have e : 2 ^ 30 ≤ 2 ^ (w - 2) := Nat.pow_le_pow_right (by norm_num) (by omega)
  refine ⟨b1, by omega, by omega, by omega, by omega, ?_⟩
  have hd : 2 ^ (l + 1) ∣ 2 * 2 ^ s.logN := by rw [← pow_succ']; exact Nat.pow_dvd_pow 2 (by omega)
  have := Nat.ModEq.of_dvd hd hm
  rwa [Nat.ModEq, Nat.mod_eq_of_lt (Nat.one_lt_two_pow (by omega))] at this

private theorem rns_t {s : RnsSet} (hs : s ∈ [k60Bit, k59Bit]) : s.t = 17 ∧ s.logN = 11 := by
  simp only [List.mem_cons, List.not_mem_nil, or_false] at hs
  rcases hs with rfl | rfl <;> exact ⟨rfl, rfl⟩

/-- **C68.** For every integer type of 32 bits or more and every dimension up to `N`, both `Create` and
`CreateForBfv` return a context for either set of RNS parameters, with the given primes and plaintext modulus
and all its constants right. -/
theorem c68_rns_context {s : RnsSet} (hs : s ∈ [k60Bit, k59Bit]) {w l : ℕ} (hw : 32 ≤ w) (h1 : 1 ≤ l)
    (h2 : l ≤ s.logN) :
    (∃ c, createCtx w l s.qs s.ps s.t = .ok c ∧ GoodCtx w l c ∧ c.qs.map (·.N) = s.qs ∧
      c.ps.map (·.N) = s.ps ∧ c.t = s.t) ∧
    ∃ c, createForBfv w l s.qs s.ps s.t = .ok c ∧ GoodCtx w l c ∧ c.qs.map (·.N) = s.qs ∧
      c.ps.map (·.N) = s.ps ∧ c.t = s.t := by
  obtain ⟨hnd, hm⟩ := c68_rns_moduli s hs
  have et := (rns_t hs).1
  have hqs : ∀ q ∈ s.qs, q.Prime := fun q h => (hm q (List.mem_append_left _ h)).1
  have hps : ∀ q ∈ s.ps, q.Prime := fun q h => (hm q (List.mem_append_right _ h)).1
  have e : 2 ^ 30 ≤ 2 ^ (w - 2) := Nat.pow_le_pow_right (by norm_num) (by omega)
  have e' : 2 ^ 30 ≤ 2 ^ w := Nat.pow_le_pow_right (by norm_num) (by omega)
  have htw : s.t < 2 ^ w := by rw [et]; omega
  have hqt : ∀ q ∈ s.qs ++ s.ps, ¬ q ∣ s.t := by
    intro q hq hd
    have hmod := (hm q hq).2.2
    have hc : q = s.t := (Nat.prime_dvd_prime_iff_eq (hm q hq).1 (by rw [et]; norm_num)).mp hd
    rw [hc, et] at hmod
    exact absurd hmod (by decide)
  obtain ⟨c, hc⟩ := ((c54_create_iff (w := w) (logN := l) (t := s.t) hqs hps).1).mpr
    ⟨by omega, by omega, fun q hq => rns_usable hs hw h1 h2 hq⟩
  obtain ⟨p, hp⟩ := ((c02_create w s.t).1).mpr ⟨by rw [et], by rw [et]; omega⟩
  obtain ⟨c', hc'⟩ := (c54_bfv_total hqs hps hc hp).1 fun q hq =>
    ((hqs q hq).coprime_iff_not_dvd).mpr (hqt q (List.mem_append_left _ hq))
  obtain ⟨g, a, b, d⟩ := c54_create hqs hps htw hc hnd hqt
  obtain ⟨g', a', b', d', -⟩ := c54_createForBfv hqs hps htw hc' hnd hqt
  exact ⟨⟨c, hc, g, a, b, d⟩, c', hc', g', a', b', d'⟩

/-- **C68.** The shipped plaintext modulus `17` has roots of unity only up to dimension eight: the constructor
for finite field encoding rejects both sets of parameters at any larger dimension, their own included. -/
theorem c68_rns_finite_field {s : RnsSet} (hs : s ∈ [k60Bit, k59Bit]) {w l : ℕ} (hw : 32 ≤ w) (h1 : 1 ≤ l)
    (h2 : l ≤ s.logN) :
    ((∃ c, createForBgvFiniteField w l s.qs s.ps s.t = .ok c) ↔ l ≤ 3) ∧
    (3 < l → createForBgvFiniteField w l s.qs s.ps s.t = .err .invalidArgument) := by
  obtain ⟨-, hm⟩ := c68_rns_moduli s hs
  obtain ⟨et, el⟩ := rns_t hs
  have e : 2 ^ 30 ≤ 2 ^ (w - 2) := Nat.pow_le_pow_right (by norm_num) (by omega)
  obtain ⟨a1, a2⟩ := c54_createForBgvFF_iff (w := w) (logN := l) (qs := s.qs) (ps := s.ps) (t := s.t)
    (fun q h => (hm q (List.mem_append_left _ h)).1) (fun q h => (hm q (List.mem_append_right _ h)).1)
    (by rw [et]; norm_num)
  have key : (∃ c, createForBgvFiniteField w l s.qs s.ps s.t = .ok c) ↔ l ≤ 3 := by
    rw [a1]
    have hlt : l ≤ 11 := el ▸ h2
    constructor
    · rintro ⟨⟨-, -, -, -, -, h⟩, -⟩
      rw [et, Int.toNat_natCast] at h
      by_contra hc
      interval_cases l <;> simp_all
    · intro h
      refine ⟨⟨by rw [et], by rw [et]; omega, by omega, by omega, by omega, ?_⟩,
        fun q hq => rns_usable hs hw h1 h2 hq⟩
      rw [et, Int.toNat_natCast]
      interval_cases l <;> rfl
  exact ⟨key, fun h => a2 (by rw [key]; omega)⟩

/-- **C68.** The widths announced in the comments: the product `Q P` of the second set has 59 bits; so has that of
the first, announced as a 60-bit modulus. -/
theorem c68_rns_width :
    2 ^ 58 ≤ (k59Bit.qs ++ k59Bit.ps).prod ∧ (k59Bit.qs ++ k59Bit.ps).prod < 2 ^ 59 ∧
    2 ^ 58 ≤ (k60Bit.qs ++ k60Bit.ps).prod ∧ (k60Bit.qs ++ k60Bit.ps).prod < 2 ^ 59 := by decide

/-- **C68.** The limits: `kMaxNumCoeffs = 2^kMaxLogNumCoeffs`, and no context of a prime modulus has more
coefficients or a larger variance. -/
theorem c68_limits {w N logN logT variance : ℕ} {c : Context.RlweContext} (hp : N.Prime) (hN : N < 2 ^ 128)
    (h1 : logN < 2 ^ 31) (h2 : logT < 2 ^ 31) (h : Context.create w N logN logT variance = .ok c) :
    kMaxNumCoeffs = 2 ^ kMaxLogNumCoeffs ∧ 2 ^ logN ≤ kMaxNumCoeffs ∧ logN ≤ kMaxLogNumCoeffs ∧
      variance ≤ kMaxVariance := by
  obtain ⟨-, -, -, a, -, -, -, -, b⟩ := ((Shell.c61_create_partial hp hN h1 h2).1).mp ⟨c, h⟩
  exact ⟨by decide, Nat.pow_le_pow_right (by norm_num) a, a, b⟩

/-- Every modulus in a word it is meant for. -/
example : (∃ c, Context.create 16 kNewhopeModulus 10 1 8 = .ok c) ∧
    (∃ c, Context.create 32 kModulus25 10 2 8 = .ok c) ∧ (∃ c, Context.create 32 kModulus29 10 2 256 = .ok c) ∧
    (∃ c, Context.create 64 kModulus44 10 4 8 = .ok c) ∧ (∃ c, Context.create 64 kModulus59 10 10 8 = .ok c) ∧
    ∃ c, Context.create 128 kModulus80 11 11 8 = .ok c := by
  have key {q l n w logN logT variance : ℕ} (he : (q, l, n) ∈ shipped)
      (h : q < 2 ^ (w - 2) ∧ 1 ≤ logN ∧ logN ≤ l ∧ 1 ≤ logT ∧ 2 ^ logT ≤ q ∧ variance ≤ kMaxVariance) :
      ∃ c, Context.create w q logN logT variance = .ok c :=
    (c68_context he h.1 h.2.1 h.2.2.1 h.2.2.2.1 h.2.2.2.2.1 h.2.2.2.2.2).imp fun _ h => h.1
  exact ⟨key (l := 10) (n := 1024) (by decide) (by decide), key (l := 10) (n := 1024) (by decide) (by decide),
    key (l := 10) (n := 1024) (by decide) (by decide), key (l := 10) (n := 1024) (by decide) (by decide),
    key (l := 10) (n := 1024) (by decide) (by decide), key (l := 11) (n := 2048) (by decide) (by decide)⟩

/-- The first set of RNS parameters in 32-bit words at its own dimension. -/
example : ∃ c, createCtx 32 (11 : ℕ) [974849, 765953] [557057] 17 = .ok c ∧ GoodCtx 32 11 c :=
  (c68_rns_context (s := k60Bit) (by simp) (le_refl _) (by decide) (le_refl _)).1.imp fun _ h => ⟨h.1, h.2.1⟩

end Shell
