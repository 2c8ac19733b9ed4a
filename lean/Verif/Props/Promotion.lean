import Verif.Props.Montgomery
/-!
# Property C04: no undefined behaviour in the arithmetic members
-/

namespace Shell
open MParams

theorem ii_ok {w : ℕ} {x : ℤ} (h : w < 32 → -2 ^ 31 ≤ x ∧ x < 2 ^ 31) : Chk.ii w x = .ok x := by
  unfold Chk.ii
  rw [if_neg]
  rintro ⟨h1, h2⟩
  exact h2 (h h1)

/-- The word types the library instantiates: 16-bit words are promoted to `int`, all others are at
least as wide as `int`. -/
def Instantiated (w : ℕ) : Prop := w = 16 ∨ w = 32 ∨ w = 64 ∨ w = 128

variable {w N : ℕ} {p : MParams}

theorem Instantiated.small (hw : Instantiated w) (h : w < 32) : 2 ^ w = 65536 := by
  rcases hw with rfl | rfl | rfl | rfl <;> omega

/-- Products of a word and a number below the modulus fit in `int` for 16-bit words. -/
theorem ii_prod (g : Good p w N) (hw : Instantiated w) {x y : ℕ} (hx : x < 2 ^ w) (hy : y ≤ N) :
    Chk.ii w ((x : ℤ) * y) = .ok ((x : ℤ) * y) := by
  apply ii_ok
  intro h
  have e := hw.small h
  have h4 := g.lt
  rw [e] at hx h4
  have : x * y ≤ 65536 * 16384 := Nat.mul_le_mul (by omega) (by omega)
  have h' : (x : ℤ) * y ≤ 65536 * 16384 := by exact_mod_cast this
  have h'' : (0 : ℤ) ≤ (x : ℤ) * y := by positivity
  constructor <;> omega

theorem ii_prod_val (g : Good p w N) (hw : Instantiated w) {x y : ℕ} (hx : x < 2 ^ w) (hy : y ≤ N) :
    w < 32 → 0 ≤ (x : ℤ) * y ∧ (x : ℤ) * y ≤ 1073741824 := by
  intro h
  have e := hw.small h
  have h4 := g.lt
  rw [e] at hx h4
  have : x * y ≤ 65536 * 16384 := Nat.mul_le_mul (by omega) (by omega)
  have h' : (x : ℤ) * y ≤ 65536 * 16384 := by exact_mod_cast this
  exact ⟨by positivity, by omega⟩

theorem ii_diff (hw : Instantiated w) {x y : ℕ} (hx : x < 2 ^ w) (hy : y < 2 ^ w) :
    Chk.ii w ((x : ℤ) - y) = .ok ((x : ℤ) - y) := by
  apply ii_ok
  intro h
  have e := hw.small h
  rw [e] at hx hy
  constructor <;> omega

/-- The common tail `(out >= modulus) ? out - modulus : out`. -/
theorem tail_ok (g : Good p w N) (hw : Instantiated w) (out : ℕ) (ho : out < 2 ^ w) :
    (if out ≥ N then (do
        let c ← Chk.ii w ((out : ℤ) - N)
        return trunc w c : Outcome ℕ) else return out) =
      .ok (if out ≥ N then out - N else out) := by
  have h4 := g.lt
  split_ifs with h
  · rw [ii_diff hw ho (by omega)]
    simp only [Outcome.bind_ok, Outcome.pure_eq]
    rw [trunc_eq w _ (out - N) (by omega) (by omega)]
  · rfl

/-- The common tail `n -= (n >= modulus) ? modulus : 0`. -/
theorem tail2_ok (g : Good p w N) (hw : Instantiated w) (n : ℕ) (ho : n < 2 ^ w) :
    Chk.ii w ((n : ℤ) - if n ≥ N then (N : ℤ) else 0) =
      .ok ((n : ℤ) - if n ≥ N then (N : ℤ) else 0) := by
  have h4 := g.lt
  split_ifs with h
  · exact ii_diff hw ho (by omega)
  · exact_mod_cast ii_diff hw ho (y := 0) (by positivity)

theorem chk_barrettReduce (g : Good p w N) (hw : Instantiated w) {x : ℕ} (hx : x < 2 ^ w) :
    Chk.barrettReduce p x = .ok (p.barrettReduce x) := by
  unfold Chk.barrettReduce MParams.barrettReduce
  simp only [g.hw, g.hN]
  set out := trunc w ((p.barrettNum * x % 2 ^ (2 * w) / 2 ^ w : ℕ) : ℤ) with hout
  have ho : out < 2 ^ w := trunc_lt _ _
  rw [ii_prod g hw ho le_rfl]
  simp only [Outcome.bind_ok]
  rw [ii_ok (by
    intro h
    have := ii_prod_val g hw ho le_rfl h
    have e := hw.small h
    rw [e] at hx
    constructor <;> omega)]
  simp only [Outcome.bind_ok]
  exact tail_ok g hw _ (trunc_lt _ _)

/-- Common shape of `ExportInt`, `ImportInt` and `MulConstantInPlace`. -/
theorem chk_three (g : Good p w N) (hw : Instantiated w) {x c q : ℕ} (hx : x < 2 ^ w)
    (hc : c ≤ N) (hq : q < 2 ^ w) {α : Type} (k : ℤ → Outcome α) :
    (do
      let a ← Chk.ii w ((x : ℤ) * c)
      let b ← Chk.ii w ((q : ℤ) * N)
      let z ← Chk.ii w (a - b)
      k z) = k ((x : ℤ) * c - q * N) := by
  rw [ii_prod g hw hx hc]
  simp only [Outcome.bind_ok]
  rw [ii_prod g hw hq le_rfl]
  simp only [Outcome.bind_ok]
  rw [ii_ok (by
    intro h
    have h1 := ii_prod_val g hw hx hc h
    have h2 := ii_prod_val g hw hq le_rfl h
    constructor <;> omega)]
  simp only [Outcome.bind_ok]

/-- C04 (partial): for every instantiated word type, every arithmetic member other than
`FusedMulAddInPlace` on 16-bit words evaluates without undefined behaviour on stored words (`≤ N`)
and returns the wrap-around result.  Missing: `FusedMulAddInPlace` on `Uint16`, which does overflow,
see `c04_violated`. -/
theorem c04_no_ub_partial (h : create w N = .ok p) (hw : Instantiated w) {s a b : ℕ}
    (hs : s ≤ N) (ha : a ≤ N) (hb : b ≤ N) :
    let c := Mont.getConstant p b
    (∀ n < 2 ^ w, Chk.importInt p n = .ok (Mont.importInt p n)) ∧
    (∀ n < 2 ^ w, Chk.exportInt p n = .ok (Mont.exportInt p n)) ∧
    (∀ n < 2 ^ w, Chk.barrettReduce p n = .ok (p.barrettReduce n)) ∧
    Chk.add p a b = .ok (Mont.add p a b) ∧
    Chk.sub p a b = .ok (Mont.sub p a b) ∧
    Chk.negate p a = .ok (Mont.negate p a) ∧
    Chk.mul p a b = .ok (Mont.mul p a b) ∧
    Chk.mulConstant p a c.1 c.2 = .ok (Mont.mulConstant p a c.1 c.2) ∧
    Chk.fusedMulConstantAdd p s a c.1 c.2 = .ok (Mont.fusedMulConstantAdd p s a c.1 c.2) ∧
    (w ≠ 16 → Chk.fusedMulAdd p s a b = .ok (Mont.fusedMulAdd p s a b)) := by
  have g := good_of_create h
  have h4 := g.lt
  have hr : p.rMod < N := by rw [g.rMod]; exact Nat.mod_lt _ g.pos
  have hk : (Mont.getConstant p b).1 < N := by
    rw [getConstant_eq g hb]; exact exportInt_lt g b (by omega) (Or.inr hb)
  refine ⟨fun n hn => ?_, fun n hn => ?_, fun n hn => chk_barrettReduce g hw hn, ?_, ?_, ?_, ?_,
    ?_, ?_, fun hw16 => ?_⟩
  · unfold Chk.importInt Mont.importInt
    simp only [g.hw, g.hN]
    rw [chk_three g hw hn hr.le (trunc_lt _ _), tail2_ok g hw _ (trunc_lt _ _)]
    rfl
  · unfold Chk.exportInt Mont.exportInt MParams.exportInt
    simp only [g.hw, g.hN]
    rw [chk_three g hw hn g.invR_le (trunc_lt _ _)]
    exact tail_ok g hw _ (trunc_lt _ _)
  · unfold Chk.add Mont.add
    simp only [g.hw]
    rw [ii_ok (by intro h; have := hw.small h; constructor <;> omega)]
    exact chk_barrettReduce g hw (trunc_lt _ _)
  · unfold Chk.sub Mont.sub
    simp only [g.hw, g.hN]
    rw [ii_diff hw (by omega) (by omega)]
    simp only [Outcome.bind_ok]
    rw [ii_ok (by intro h; have := hw.small h; constructor <;> omega)]
    exact chk_barrettReduce g hw (trunc_lt _ _)
  · unfold Chk.negate Mont.negate
    simp only [g.hw, g.hN]
    rw [ii_diff hw (by omega) (by omega)]
    rfl
  · unfold Chk.mul Mont.mul
    simp only [g.hw, g.hN]
    exact tail_ok g hw _ (trunc_lt _ _)
  · unfold Chk.mulConstant Mont.mulConstant
    simp only [g.hw, g.hN]
    rw [chk_three g hw (by omega) hk.le (trunc_lt _ _), tail2_ok g hw _ (trunc_lt _ _)]
    rfl
  · unfold Chk.fusedMulConstantAdd Mont.fusedMulConstantAdd
    simp only [g.hw, g.hN]
    rw [chk_three g hw (by omega) hk.le (trunc_lt _ _)]
    rw [ii_ok (by
      intro h
      have h1 := ii_prod_val g hw (x := a) (by omega) hk.le h
      have h2 := ii_prod_val g hw (x := trunc w ((((Mont.getConstant p b).2 * a + p.barrettNum * s) %
        2 ^ (2 * w) / 2 ^ w : ℕ) : ℤ)) (trunc_lt _ _) le_rfl h
      have := hw.small h
      constructor <;> omega)]
    simp only [Outcome.bind_ok]
    rw [tail2_ok g hw _ (trunc_lt _ _)]
    rfl
  · unfold Chk.fusedMulAdd Mont.fusedMulAdd
    have h32 : ¬ w < 32 := by rcases hw with rfl | rfl | rfl | rfl <;> omega
    simp only [g.hw, g.hN]
    rw [ii_ok (by intro h; exact absurd h h32)]
    simp only [Outcome.bind_ok]
    exact tail_ok g hw _ (trunc_lt _ _)

/-- C04, the exact condition for 16-bit words: `FusedMulAddInPlace` is free of undefined behaviour
iff the product of the low word of `t` and `inv_modulus` is below `2^31`. -/
theorem c04_fma16 (h : create 16 N = .ok p) (s a b : ℕ) :
    (Chk.fusedMulAdd p s a b = .ub .signedOverflow ↔
      2 ^ 31 ≤ (p.rMod * s + a * b) % 2 ^ 16 * p.invModulus) := by
  have g := good_of_create h
  have e : trunc 16 (((p.rMod * s + a * b) % 2 ^ (2 * 16) : ℕ) : ℤ) =
      (p.rMod * s + a * b) % 2 ^ 16 := by
    rw [trunc_natCast, show (2:ℕ) ^ (2 * 16) = 2 ^ 16 * 2 ^ 16 by norm_num,
      Nat.mod_mul_right_mod]
  unfold Chk.fusedMulAdd
  simp only [g.hw, g.hN]
  rw [e]
  set t := (p.rMod * s + a * b) % 2 ^ 16
  by_cases hc : 2 ^ 31 ≤ t * p.invModulus
  · have : Chk.ii 16 ((t : ℤ) * p.invModulus) = .ub .signedOverflow := by
      unfold Chk.ii
      rw [if_pos]
      refine ⟨by norm_num, fun hh => ?_⟩
      have : (t : ℤ) * p.invModulus = ((t * p.invModulus : ℕ) : ℤ) := by push_cast; ring
      rw [this] at hh
      omega
    rw [this]
    simp only [Outcome.bind_ub, hc]
  · have : Chk.ii 16 ((t : ℤ) * p.invModulus) = .ok ((t : ℤ) * p.invModulus) := by
      apply ii_ok
      intro _
      have : (t : ℤ) * p.invModulus = ((t * p.invModulus : ℕ) : ℤ) := by push_cast; ring
      rw [this]
      constructor <;> omega
    rw [this]
    simp only [Outcome.bind_ok]
    rw [tail_ok g (Or.inl rfl) _ (trunc_lt _ _)]
    simp only [hc, reduceCtorEq]

/-- C04 for the 16-bit moduli that support an NTT with at least 128 coefficients
(`N = 1 mod 256`): here `inv_modulus` happens to be `N - 2`, and `FusedMulAddInPlace` is also free of
undefined behaviour. -/
theorem c04_fma16_ntt (h : create 16 N = .ok p) (hN : N % 256 = 1) {s a b : ℕ}
    (hs : s ≤ N) (ha : a ≤ N) (hb : b ≤ N) :
    Chk.fusedMulAdd p s a b = .ok (Mont.fusedMulAdd p s a b) := by
  have g := good_of_create h
  have h4 := g.lt
  have hno : ¬ 2 ^ 31 ≤ (p.rMod * s + a * b) % 2 ^ 16 * p.invModulus := by
    by_cases h1 : N = 1
    · have hr : p.rMod = 0 := by rw [g.rMod, h1, Nat.mod_one]
      have hab : a * b ≤ 1 * 1 := Nat.mul_le_mul (by omega) (by omega)
      have hi := g.invN_lt
      rw [hr, zero_mul, zero_add, Nat.mod_eq_of_lt (by omega)]
      have : a * b * p.invModulus ≤ 1 * 65536 := Nat.mul_le_mul (by omega) (by omega)
      omega
    · have hinv : p.invModulus = N - 2 := by
        obtain ⟨k, hk⟩ : ∃ k, N = 256 * k + 1 := ⟨N / 256, by omega⟩
        have e : 65536 ∣ (p.invModulus * N + 1) := ⟨p.invR, by rw [← g.inv]; ring⟩
        have e2 : 65536 ∣ ((N - 2) * N + 1) := by
          have : (N - 2) * N + 1 = 65536 * (k * k) := by
            subst hk
            have hk1 : 1 ≤ k := by omega
            obtain ⟨j, rfl⟩ : ∃ j, k = j + 1 := ⟨k - 1, by omega⟩
            have : 256 * (j + 1) + 1 - 2 = 256 * j + 255 := by omega
            rw [this]; ring
          exact ⟨_, this⟩
        have hmod : p.invModulus * N ≡ (N - 2) * N [MOD 65536] := by
          apply Nat.ModEq.add_right_cancel' 1
          exact ((Nat.modEq_zero_iff_dvd.2 e).trans (Nat.modEq_zero_iff_dvd.2 e2).symm)
        have hcop : Nat.gcd 65536 N = 1 := by
          have : Nat.Coprime (2 ^ 16) N :=
            Nat.Coprime.pow_left 16 ((Nat.coprime_two_left).2 (Nat.odd_iff.2 g.odd))
          simpa using this
        have := Nat.ModEq.cancel_right_of_coprime hcop hmod
        have hi := g.invN_lt
        unfold Nat.ModEq at this
        rw [Nat.mod_eq_of_lt (by omega), Nat.mod_eq_of_lt (by omega)] at this
        exact this
      have hlt : (p.rMod * s + a * b) % 2 ^ 16 < 2 ^ 16 := Nat.mod_lt _ (by norm_num)
      have : (p.rMod * s + a * b) % 2 ^ 16 * p.invModulus ≤ 65536 * 16384 :=
        Nat.mul_le_mul (by omega) (by omega)
      omega
  have hub := (not_congr (c04_fma16 h s a b)).2 hno
  unfold Chk.fusedMulAdd Mont.fusedMulAdd at *
  simp only [g.hw, g.hN] at *
  by_cases hc : Chk.ii 16 ((trunc 16 (((p.rMod * s + a * b) % 2 ^ (2 * 16) : ℕ) : ℤ) : ℤ) *
      p.invModulus) = .ub .signedOverflow
  · rw [hc] at hub; simp at hub
  · have : Chk.ii 16 ((trunc 16 (((p.rMod * s + a * b) % 2 ^ (2 * 16) : ℕ) : ℤ) : ℤ) *
      p.invModulus) = .ok ((trunc 16 (((p.rMod * s + a * b) % 2 ^ (2 * 16) : ℕ) : ℤ) : ℤ) *
      p.invModulus) := by
      unfold Chk.ii at hc ⊢
      split_ifs at hc ⊢
      · simp at hc
      · rfl
    rw [this]
    simp only [Outcome.bind_ok]
    exact tail_ok g (Or.inl rfl) _ (trunc_lt _ _)

example : create 16 12289 = .ok exParams ∧ 12289 % 256 = 1 ∧ 12288 ≤ 12289 := by decide +kernel

/-- C04, the disagreement: with 16-bit words and the (prime) modulus 16381, `FusedMulAddInPlace` on
canonical operands overflows `int`. -/
theorem c04_violated : ∃ N p s a b, create 16 N = .ok p ∧ s < N ∧ a < N ∧ b < N ∧
    Chk.fusedMulAdd p s a b = .ub .signedOverflow :=
  ⟨16381, make 16 16381, 0, 3, 11916, by decide +kernel⟩

example : Instantiated 16 ∧ create 16 12289 = .ok exParams ∧ 12288 ≤ 12289 :=
  ⟨Or.inl rfl, by decide +kernel, by decide⟩

end Shell
