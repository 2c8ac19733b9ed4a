import Verif.Lemmas.DoubleError
import Verif.Props.Double
import Verif.Props.RnsErrorTrack
/-!
# C96: the error estimates in `double` arithmetic
-/

namespace Shell
open Spec DoubleError WordCt Store Rns Rns.Res

section
variable {c : ℕ} {cast : ℕ → ℝ}

/-- **C96.** The conversions of integers: to the nearest `double` (one rounding), and of `absl::uint128` in two halves
of 64 bits (two roundings). -/
theorem c96_converts : Converts 1 Double.castNearest ∧ Converts 2 (Double.castHalves 64) := by
  have ex : ∀ n : ℕ, n < 2 ^ 53 → Double.rnd (n : ℝ) = n := fun n hn =>
    Double.rnd_exact ⟨(n : ℤ), 0, by rw [Nat.abs_cast]; exact_mod_cast hn, by simp⟩
  refine ⟨⟨ex, fun n => (within_refl (Nat.cast_nonneg n)).rnd⟩, fun n hn => ?_, fun n => ?_⟩
  · unfold Double.castHalves
    rw [Nat.mod_eq_of_lt (by omega), Nat.div_eq_of_lt (by omega), ex n hn]
    rw [show Double.rnd ((0 : ℕ) : ℝ) = 0 by simp [Double.rnd], zero_mul, add_zero, ex n hn]
  · unfold Double.castHalves
    have h1 := (within_refl (x := ((n % 2 ^ 64 : ℕ) : ℝ)) (Nat.cast_nonneg _)).rnd
    have h2 := (within_refl (x := ((n / 2 ^ 64 : ℕ) : ℝ)) (Nat.cast_nonneg _)).rnd
    have h3 := (h1.add (h2.mul (within_refl (x := 2 ^ 64) (by positivity)))).rnd
    have e : (n : ℝ) = ((n % 2 ^ 64 : ℕ) : ℝ) + ((n / 2 ^ 64 : ℕ) : ℝ) * 2 ^ 64 := by
      have := Nat.mod_add_div n (2 ^ 64)
      rw [mul_comm] at this
      exact_mod_cast this.symm
    rw [e]
    exact h3

/-- **C96.** After `k` roundings the relative error is at most `2 k / 2^53`. -/
theorem c96_relative {k : ℕ} (hk : k ≤ 2 ^ 52) {r d : ℝ} (h : Within k r d) : |d - r| ≤ r * (2 * k / 2 ^ 53) := by
  have h1 := one_add_mul_le_pow (a := -(1 / 2 ^ 53 : ℝ)) (by norm_num) k
  have h2 : (1 + 1 / 2 ^ 53 : ℝ) ^ k ≤ 1 + 2 * k / 2 ^ 53 := by
    have hb : ∀ j : ℕ, j ≤ k → (1 + 1 / 2 ^ 53 : ℝ) ^ j ≤ 1 + 2 * j / 2 ^ 53 := by
      intro j
      induction j with
      | zero => intro _; simp
      | succ j ih =>
        intro hj
        have h3 := ih (by omega)
        have h4 : (j : ℝ) ≤ 2 ^ 52 := by
          have : j ≤ 2 ^ 52 := by omega
          exact_mod_cast this
        rw [pow_succ]
        have h5 := mul_le_mul_of_nonneg_right h3 (show (0 : ℝ) ≤ 1 + 1 / 2 ^ 53 by norm_num)
        have h6 : (2 * j / 2 ^ 53 : ℝ) ≤ 1 := by
          rw [div_le_one (by positivity)]
          linarith
        have h7 := mul_le_mul_of_nonneg_right h6 u_pos.le
        have e : (1 + 2 * j / 2 ^ 53 : ℝ) * (1 + 1 / 2 ^ 53) =
          1 + 2 * j / 2 ^ 53 + 1 / 2 ^ 53 + 2 * j / 2 ^ 53 * (1 / 2 ^ 53) := by ring
        have e2 : (1 + 2 * ((j + 1 : ℕ) : ℝ) / 2 ^ 53) = 1 + 2 * j / 2 ^ 53 + 1 / 2 ^ 53 + 1 / 2 ^ 53 := by
          push_cast; ring
        rw [e2]
        linarith
    exact hb k le_rfl
  rw [abs_le]
  constructor
  · have h3 := mul_le_mul_of_nonneg_left h1 h.1
    rw [show (1 : ℝ) + -(1 / 2 ^ 53) = 1 - 1 / 2 ^ 53 by ring] at h3
    have h4 := h.2.1
    have h5 : 0 ≤ r * k := mul_nonneg h.1 (Nat.cast_nonneg k)
    have e1 : r * (1 + (k : ℝ) * -(1 / 2 ^ 53)) = r - r * k / 2 ^ 53 := by ring
    have e2 : r * (2 * k / 2 ^ 53) = 2 * (r * k / 2 ^ 53) := by ring
    have h6 : 0 ≤ r * k / 2 ^ 53 := by positivity
    linarith
  · have h3 := mul_le_mul_of_nonneg_left h2 h.1
    have h4 := h.2.2
    have e1 : r * (1 + 2 * k / 2 ^ 53) = r + r * (2 * k / 2 ^ 53) := by ring
    linarith

/-! ### The constants -/

section
variable (P : ErrorTrack.ErrorParams) (n : ℕ)

theorem real_bPlaintext : (DoubleError.bPlaintext P n : ℝ) = P.bPlaintext n := by
  simp [DoubleError.bPlaintext, ErrorTrack.ErrorParams.bPlaintext, DoubleError.exportT,
    ErrorTrack.ErrorParams.exportT, Sqrt.sqrt]

theorem real_bEncryption : (DoubleError.bEncryption P n : ℝ) = P.bEncryption n := by
  simp [DoubleError.bEncryption, ErrorTrack.ErrorParams.bEncryption, DoubleError.exportT, DoubleError.sigma,
    ErrorTrack.ErrorParams.exportT, ErrorTrack.ErrorParams.sigma, Sqrt.sqrt]

theorem real_bScale : (DoubleError.bScale P n : ℝ) = P.bScale n := by
  simp [DoubleError.bScale, ErrorTrack.ErrorParams.bScale, DoubleError.exportT,
    ErrorTrack.ErrorParams.exportT, Sqrt.sqrt]

theorem real_bAux (k m : ℕ) : (DoubleError.bAux P n k m : ℝ) = P.bAux n k m := by
  simp [DoubleError.bAux, ErrorTrack.ErrorParams.bAux, DoubleError.exportT, DoubleError.sigma,
    ErrorTrack.ErrorParams.exportT, ErrorTrack.ErrorParams.sigma, Sqrt.sqrt]

theorem real_relinearize (k d m : ℕ) : (relinearizeValue P n k d m : ℝ) =
    8 / √3 * P.exportT * d * P.sigma * n * m * k := by
  simp [relinearizeValue, DoubleError.exportT, DoubleError.sigma,
    ErrorTrack.ErrorParams.exportT, ErrorTrack.ErrorParams.sigma, Sqrt.sqrt]

theorem real_publicKey (w : ℕ) : (publicKeyValue P n w (72 * n * w) : ℝ) =
    P.exportT * (√n * (6 * √((w : ℤ) : ℝ) + √3) + 72 * n * (w : ℤ)) := by
  simp [publicKeyValue, DoubleError.exportT, ErrorTrack.ErrorParams.exportT, Sqrt.sqrt]

end

section
variable (hc : Converts c cast) (P : ErrorTrack.ErrorParams) {n : ℕ}
include hc

/-- **C96.** The constants of error_params.h are those of C65 up to a few roundings.  The dimension, the variance and the
numbers of components are `int`s. -/
theorem c96_constants (hn : n < 2 ^ 31) (hv : P.variance < 2 ^ 31) :
    Within (c + 3) (P.bPlaintext n) (DoubleError.bPlaintext P n : Dbl cast).val ∧
    Within (c + 6) (P.bEncryption n) (DoubleError.bEncryption P n : Dbl cast).val ∧
    Within (c + 6) (P.bScale n) (DoubleError.bScale P n : Dbl cast).val ∧
    ∀ k m, k < 2 ^ 31 → Within (4 * c + 8) (P.bAux n k m) (DoubleError.bAux P n k m : Dbl cast).val := by
  have nn := cast_small (c := c) (show n < 2 ^ 53 by omega)
  have vv := cast_small (c := c) (show P.variance < 2 ^ 53 by omega)
  have tt := cast_le (c := c) (P.t % 2 ^ 64)
  have c1 := cast_small (c := c) (show 1 < 2 ^ 53 by norm_num)
  have c3 := cast_small (c := c) (show 3 < 2 ^ 53 by norm_num)
  have c6 := cast_small (c := c) (show 6 < 2 ^ 53 by norm_num)
  have c8 := cast_small (c := c) (show 8 < 2 ^ 53 by norm_num)
  refine ⟨?_, ?_, ?_, fun k m hk => ?_⟩
  · have h := (DoubleError.bPlaintext P n : Est c cast hc).ok
    rw [show (DoubleError.bPlaintext P n : Est c cast hc).real = P.bPlaintext n from real_bPlaintext P n] at h
    refine h.mono (show (DoubleError.bPlaintext P n : Count c).n ≤ _ from ?_)
    simp only [DoubleError.bPlaintext, DoubleError.exportT, add_n, mul_n, sqrt_n, c3, nn]
    omega
  · have h := (DoubleError.bEncryption P n : Est c cast hc).ok
    rw [show (DoubleError.bEncryption P n : Est c cast hc).real = P.bEncryption n from real_bEncryption P n] at h
    refine h.mono (show (DoubleError.bEncryption P n : Count c).n ≤ _ from ?_)
    simp only [DoubleError.bEncryption, DoubleError.exportT, DoubleError.sigma, add_n, mul_n, sqrt_n, c3, c6, nn, vv]
    omega
  · have h := (DoubleError.bScale P n : Est c cast hc).ok
    rw [show (DoubleError.bScale P n : Est c cast hc).real = P.bScale n from real_bScale P n] at h
    refine h.mono (show (DoubleError.bScale P n : Count c).n ≤ _ from ?_)
    simp only [DoubleError.bScale, DoubleError.exportT, add_n, mul_n, div_n, sqrt_n, c1, c3, c8, nn]
    omega
  · have h := (DoubleError.bAux P n k m : Est c cast hc).ok
    rw [show (DoubleError.bAux P n k m : Est c cast hc).real = P.bAux n k m from real_bAux P n k m] at h
    refine h.mono (show (DoubleError.bAux P n k m : Count c).n ≤ _ from ?_)
    have kk := cast_small (c := c) (show k < 2 ^ 53 by omega)
    have h2 := cast_le (c := c) (2 ^ P.logModulus)
    have h3 := cast_le (c := c) (m % 2 ^ 64)
    simp only [DoubleError.bAux, DoubleError.exportT, DoubleError.sigma, add_n, mul_n, div_n, sqrt_n, c6, nn, vv, kk]
    omega

/-- **C96.** `B_relinearize` returns the status of C65, and its value up to a few roundings. -/
theorem c96_relinearize (hn : n < 2 ^ 31) (hv : P.variance < 2 ^ 31) {k b : ℕ} (hk : k < 2 ^ 31)
    (hb : b + P.logModulus ≤ 2 ^ 31) :
    WithinOutcome (c + 10) (P.bRelinearize n k b) (DoubleError.bRelinearize P n k b : Outcome (Dbl cast)) := by
  unfold ErrorTrack.ErrorParams.bRelinearize DoubleError.bRelinearize
  by_cases h0 : b = 0
  · rw [if_pos h0, if_pos h0]; rfl
  rw [if_neg h0, if_neg h0]
  unfold Relin.decompositionModulus
  by_cases h1 : b < 31
  · rw [if_pos h1]
    have hd : (b + P.logModulus - 1) / b < 2 ^ 31 := lt_of_le_of_lt (Nat.div_le_self _ _) (by omega)
    have hm : 2 ^ b < 2 ^ 31 := Nat.pow_lt_pow_right (by norm_num) h1
    have h := (relinearizeValue P n k ((b + P.logModulus - 1) / b) (2 ^ b) : Est c cast hc).ok
    rw [show (relinearizeValue P n k ((b + P.logModulus - 1) / b) (2 ^ b) : Est c cast hc).real = _ from
      real_relinearize P n k _ _] at h
    refine h.mono (show (relinearizeValue P n k ((b + P.logModulus - 1) / b) (2 ^ b) : Count c).n ≤ _ from ?_)
    have nn := cast_small (c := c) (show n < 2 ^ 53 by omega)
    have vv := cast_small (c := c) (show P.variance < 2 ^ 53 by omega)
    have tt := cast_le (c := c) (P.t % 2 ^ 64)
    have kk := cast_small (c := c) (show k < 2 ^ 53 by omega)
    have dd := cast_small (c := c) (show (b + P.logModulus - 1) / b < 2 ^ 53 by omega)
    have mm := cast_small (c := c) (show 2 ^ b < 2 ^ 53 by omega)
    have c3 := cast_small (c := c) (show 3 < 2 ^ 53 by norm_num)
    have c8 := cast_small (c := c) (show 8 < 2 ^ 53 by norm_num)
    simp only [relinearizeValue, DoubleError.exportT, DoubleError.sigma, mul_n, div_n, sqrt_n, c3, c8, nn, vv, kk, dd, mm]
    omega
  · rw [if_neg h1]; rfl

/-- **C96.** `B_publickey_encryption` with a dimension and a variance that the library accepts elsewhere
(`kMaxNumCoeffs`, `kMaxVariance`) returns the status of C65, and its value up to a few roundings. -/
theorem c96_public_key_partial (hn : n ≤ 2 ^ 15) {v : ℤ} (hv : v ≤ 256) :
    WithinOutcome (c + 7) (P.bPublicKey n v) (DoubleError.bPublicKey P n v : Outcome (Dbl cast)) := by
  by_cases h0 : v ≤ 0
  · unfold ErrorTrack.ErrorParams.bPublicKey DoubleError.bPublicKey
    rw [if_pos h0, if_pos h0]; rfl
  lift v to ℕ using (by omega) with w
  unfold ErrorTrack.ErrorParams.bPublicKey DoubleError.bPublicKey
  rw [if_neg h0, if_neg h0]
  have h1 : (72 * n * w : ℤ) ≤ 72 * 2 ^ 15 * 256 := by
    have h2 : 72 * n * w ≤ 72 * 2 ^ 15 * 256 := Nat.mul_le_mul (by omega) (by exact_mod_cast hv)
    exact_mod_cast h2
  have h2 : (0 : ℤ) ≤ 72 * n * w := by positivity
  have e1 : Transcription.int32 (72 * (n : ℤ)) = .ok (72 * n) := if_pos ⟨by omega, by omega⟩
  have e2 : Transcription.int32 (72 * (n : ℤ) * w) = .ok (72 * n * w) := if_pos ⟨by omega, by omega⟩
  rw [e1, Outcome.bind_ok, e2, Outcome.bind_ok]
  rw [show (72 * (n : ℤ) * w).toNat = 72 * n * w by exact_mod_cast Int.toNat_natCast (72 * n * w)]
  show Within _ _ (publicKeyValue P n (Int.toNat w) (72 * n * w) : Dbl cast).val
  rw [Int.toNat_natCast]
  have h := (publicKeyValue P n w (72 * n * w) : Est c cast hc).ok
  rw [show (publicKeyValue P n w (72 * n * w) : Est c cast hc).real = _ from real_publicKey P n w] at h
  refine h.mono (show (publicKeyValue P n w (72 * n * w) : Count c).n ≤ _ from ?_)
  have nn := cast_small (c := c) (show n < 2 ^ 53 by omega)
  have ww := cast_small (c := c) (show w < 2 ^ 53 by have : (w : ℤ) ≤ 256 := hv; omega)
  have zz := cast_small (c := c) (show 72 * n * w < 2 ^ 53 by
    have : 72 * n * w ≤ 72 * 2 ^ 15 * 256 := by exact_mod_cast h1
    omega)
  have tt := cast_le (c := c) (P.t % 2 ^ 64)
  have c3 := cast_small (c := c) (show 3 < 2 ^ 53 by norm_num)
  have c6 := cast_small (c := c) (show 6 < 2 ^ 53 by norm_num)
  simp only [publicKeyValue, DoubleError.exportT, add_n, mul_n, sqrt_n, c3, c6, nn, ww, zz]
  omega

end

/-- **C96, violated.** `B_publickey_encryption` is public and accepts any positive variance, but computes the product
`72 * dimension * variance` with `int`s. -/
theorem c96_public_key_violated {E : Type} [Add E] [Mul E] [Div E] [NatCast E] [Sqrt E] (P : ErrorTrack.ErrorParams) :
    (DoubleError.bPublicKey P (2 ^ 15) 1000 : Outcome E) = .ub .signedOverflow := rfl

/-- **C96, violated.** `RnsErrorParams::Create` accepts any positive `log_n`, but computes `72 << log_n` with `int`s. -/
theorem c96_rns_create_violated {sigma : ℝ} (hs : 0 < sigma) {ms : List Modulus} (hm : ms ≠ []) :
    RnsErrorTrack.RErrorParams.create 25 ms 3 sigma = .ub .signedOverflow := by
  unfold RnsErrorTrack.RErrorParams.create
  rw [if_neg (by norm_num), if_neg (by simpa using hm), if_neg (by norm_num), if_neg (by simpa using hs)]
  rfl

/-! ### The constants of rns/rns_error_params.h -/

/-- **C96.** The constants of rns/rns_error_params.h are those of C66 up to a few roundings. -/
theorem c96_rns_constants (hc : Converts c cast) (P : RParams (Dbl cast)) (hs : 0 ≤ P.sigma.val) (hN : P.logN < 25)
    (hT : P.logT < 2 ^ 26) :
    Within 3 (RnsErrorTrack.RErrorParams.bPlaintext ⟨P.logN, P.logT, P.sigma.val⟩) P.bPlaintext.val ∧
    Within 5 (RnsErrorTrack.RErrorParams.bSecretKey ⟨P.logN, P.logT, P.sigma.val⟩) P.bSecretKey.val ∧
    Within 6 (RnsErrorTrack.RErrorParams.bPublicKey ⟨P.logN, P.logT, P.sigma.val⟩) P.bPublicKey.val ∧
    ∀ k b d, k < 2 ^ 31 → d < 2 ^ 31 → WithinOutcome 9
      (RnsErrorTrack.RErrorParams.boundOnKeySwitching ⟨P.logN, P.logT, P.sigma.val⟩ k b d)
      (P.boundOnKeySwitching k b d) := by
  have hN2 : 2 ^ P.logN < 2 ^ 25 := Nat.pow_lt_pow_right (by norm_num) hN
  have hT2 : P.logT ^ 2 < (2 ^ 26) ^ 2 := Nat.pow_lt_pow_left hT (by norm_num)
  have nn := cast_small (c := c) (show 2 ^ P.logN < 2 ^ 53 by omega)
  have n72 := cast_small (c := c) (show 72 * 2 ^ P.logN < 2 ^ 53 by omega)
  have tt := cast_small (c := c) (show P.logT ^ 2 < 2 ^ 53 from lt_trans hT2 (by norm_num))
  have c3 := cast_small (c := c) (show 3 < 2 ^ 53 by norm_num)
  have c6 := cast_small (c := c) (show 6 < 2 ^ 53 by norm_num)
  have c8 := cast_small (c := c) (show 8 < 2 ^ 53 by norm_num)
  let Q : RParams (Est c cast hc) := ⟨P.logN, P.logT, ⟨⟨0⟩, P.sigma.val, P.sigma, within_refl hs⟩⟩
  refine ⟨?_, ?_, ?_, fun k b d hk hd => ?_⟩
  · have h := Q.bPlaintext.ok
    rw [show Q.bPlaintext.real = RnsErrorTrack.RErrorParams.bPlaintext ⟨P.logN, P.logT, P.sigma.val⟩ from by
      show RParams.bPlaintext (⟨P.logN, P.logT, P.sigma.val⟩ : RParams ℝ) = _
      simp [RParams.bPlaintext, RParams.exportT, RnsErrorTrack.RErrorParams.bPlaintext,
        RnsErrorTrack.RErrorParams.exportT, RnsErrorTrack.RErrorParams.dim, Sqrt.sqrt]] at h
    refine h.mono (show (RParams.bPlaintext (⟨P.logN, P.logT, ⟨0⟩⟩ : RParams (Count c))).n ≤ _ from ?_)
    simp only [RParams.bPlaintext, RParams.exportT, mul_n, sqrt_n, c3, nn, tt]
    omega
  · have h := Q.bSecretKey.ok
    rw [show Q.bSecretKey.real = RnsErrorTrack.RErrorParams.bSecretKey ⟨P.logN, P.logT, P.sigma.val⟩ from by
      show RParams.bSecretKey (⟨P.logN, P.logT, P.sigma.val⟩ : RParams ℝ) = _
      simp [RParams.bSecretKey, RParams.exportT, RnsErrorTrack.RErrorParams.bSecretKey,
        RnsErrorTrack.RErrorParams.exportT, RnsErrorTrack.RErrorParams.dim, Sqrt.sqrt]] at h
    refine h.mono (show (RParams.bSecretKey (⟨P.logN, P.logT, ⟨0⟩⟩ : RParams (Count c))).n ≤ _ from ?_)
    simp only [RParams.bSecretKey, RParams.exportT, add_n, mul_n, sqrt_n, c3, c6, nn, tt]
    omega
  · have h := Q.bPublicKey.ok
    rw [show Q.bPublicKey.real = RnsErrorTrack.RErrorParams.bPublicKey ⟨P.logN, P.logT, P.sigma.val⟩ from by
      show RParams.bPublicKey (⟨P.logN, P.logT, P.sigma.val⟩ : RParams ℝ) = _
      simp [RParams.bPublicKey, RParams.exportT, RnsErrorTrack.RErrorParams.bPublicKey,
        RnsErrorTrack.RErrorParams.exportT, RnsErrorTrack.RErrorParams.dim, Sqrt.sqrt]] at h
    refine h.mono (show (RParams.bPublicKey (⟨P.logN, P.logT, ⟨0⟩⟩ : RParams (Count c))).n ≤ _ from ?_)
    simp only [RParams.bPublicKey, RParams.exportT, add_n, mul_n, sqrt_n, c3, c6, nn, tt, n72]
    omega
  · unfold RnsErrorTrack.RErrorParams.boundOnKeySwitching RParams.boundOnKeySwitching shl1
    by_cases hb : b < 31
    · rw [if_pos hb, if_pos (show P.logN < 31 by omega), Outcome.bind_ok, Outcome.bind_ok, Outcome.bind_ok,
        Outcome.bind_ok]
      have hm : 2 ^ b < 2 ^ 31 := Nat.pow_lt_pow_right (by norm_num) hb
      have mm := cast_small (c := c) (show 2 ^ b < 2 ^ 53 by omega)
      have kk := cast_small (c := c) (show k < 2 ^ 53 by omega)
      have dd := cast_small (c := c) (show d < 2 ^ 53 by omega)
      have h := (((8 : ℕ) : Est c cast hc) / sqrt ((3 : ℕ) : Est c cast hc) * Q.exportT * (d : ℕ) * Q.sigma *
        (2 ^ P.logN : ℕ) * (2 ^ b : ℕ) * (k : ℕ)).ok
      have er : ((((8 : ℕ) : Est c cast hc) / sqrt ((3 : ℕ) : Est c cast hc) * Q.exportT * (d : ℕ) * Q.sigma *
        (2 ^ P.logN : ℕ) * (2 ^ b : ℕ) * (k : ℕ)).real) = 8 / √3 * RnsErrorTrack.RErrorParams.exportT
          ⟨P.logN, P.logT, P.sigma.val⟩ * d * P.sigma.val * (2 ^ P.logN : ℕ) * (2 ^ b : ℕ) * k := by
        show ((8 : ℕ) : ℝ) / √((3 : ℕ) : ℝ) * ((P.logT ^ 2 : ℕ) : ℝ) * d * P.sigma.val * (2 ^ P.logN : ℕ) *
          (2 ^ b : ℕ) * k = _
        simp [RnsErrorTrack.RErrorParams.exportT]
      rw [er] at h
      refine h.mono (show (((8 : ℕ) : Count c) / sqrt ((3 : ℕ) : Count c) * (P.logT ^ 2 : ℕ) * (d : ℕ) * ⟨0⟩ *
        (2 ^ P.logN : ℕ) * (2 ^ b : ℕ) * (k : ℕ)).n ≤ _ from ?_)
      simp only [mul_n, div_n, sqrt_n, c3, c8, nn, tt, mm, kk, dd]
      omega
    · rw [if_neg hb]; rfl

/-! ### Programs -/

section
variable (hc : Converts c cast) {ι : Type} {k : ι → Count c} {r : ι → ℝ} {d : ι → Dbl cast}
  (h : ∀ i, Within (k i).n (r i) (d i).val)
include hc h

/-- **C96.** A program of any calls on polynomials, ciphertexts and keys, run with estimates that are `double`s, returns
the statuses and computes the polynomials and ciphertexts of the same program with exact estimates; every estimate
differs from the exact one by the roundings that the program run on counts has counted.  The estimates that the program
starts from have the names `ι`. -/
theorem c96_program (e : Store.Env ι) (bR : ℕ → ℕ → Outcome ι) (keys : List Word.RKey) (m : Mem ι)
    (cs : List (KeyedCall ι)) :
    let K := runKeyed (e.map k) (fun a b => k <$> bR a b) keys (m.map k) (cs.map (KeyedCall.map k))
    let R := runKeyed (e.map r) (fun a b => r <$> bR a b) keys (m.map r) (cs.map (KeyedCall.map r))
    let D := runKeyed (e.map d) (fun a b => d <$> bR a b) keys (m.map d) (cs.map (KeyedCall.map d))
    D.1 = R.1 ∧ K.1 = R.1 ∧ D.2.polys = R.2.polys ∧ RoundedAll K.2.cts R.2.cts D.2.cts := by
  let est : ι → Est c cast hc := fun i => ⟨k i, r i, d i, h i⟩
  have hk := runKeyed_map (φ := Est.count (c := c) (cast := cast) (hc := hc)) hom_count (e.map est)
    (fun a b => est <$> bR a b) keys (m.map est) (cs.map (KeyedCall.map est))
  have hr := runKeyed_map (φ := Est.real (c := c) (cast := cast) (hc := hc)) hom_real (e.map est)
    (fun a b => est <$> bR a b) keys (m.map est) (cs.map (KeyedCall.map est))
  have hd := runKeyed_map (φ := Est.dbl (c := c) (cast := cast) (hc := hc)) hom_dbl (e.map est)
    (fun a b => est <$> bR a b) keys (m.map est) (cs.map (KeyedCall.map est))
  simp only [List.map_map, mem_map_map, keyed_map_map, bR_map_map] at hk hr hd
  dsimp only
  rw [show runKeyed (e.map k) (fun a b => k <$> bR a b) keys (m.map k) (cs.map (KeyedCall.map k)) = _ from hk,
    show runKeyed (e.map r) (fun a b => r <$> bR a b) keys (m.map r) (cs.map (KeyedCall.map r)) = _ from hr,
    show runKeyed (e.map d) (fun a b => d <$> bR a b) keys (m.map d) (cs.map (KeyedCall.map d)) = _ from hd]
  exact ⟨rfl, rfl, rfl, roundedAll_map _⟩

/-- **C96.** The same for `SwitchModulus`; `B_scale` has the name `b`. -/
theorem c96_switch_modulus (p p' : MParams) (q q' : Ntt.NttParams) (b : ι) (x : Obj ι) (t : ℕ) :
    RoundedOutcome (switchModulus p p' q q' (k b) (x.map k) t) (switchModulus p p' q q' (r b) (x.map r) t)
      (switchModulus p p' q q' (d b) (x.map d) t) := by
  let est : ι → Est c cast hc := fun i => ⟨k i, r i, d i, h i⟩
  have := roundedOutcome_map (switchModulus p p' q q' (est b) (x.map est) t)
  rw [← switchModulus_map hom_count, ← switchModulus_map hom_real, ← switchModulus_map hom_dbl] at this
  exact this

/-- **C96.** The same for auxiliary-modulus relinearization and Galois keys; `B_aux_mod_relinearize` returns the names
`bA`. -/
theorem c96_aux (ak : Word.AKey) (modulus : ℕ) (bA : ℕ → ℕ → ι) (x : Obj ι) :
    RoundedOutcome (auxApply ak modulus (some fun i j => k (bA i j)) (x.map k))
      (auxApply ak modulus (some fun i j => r (bA i j)) (x.map r))
      (auxApply ak modulus (some fun i j => d (bA i j)) (x.map d)) ∧
    RoundedOutcome (auxGaloisApply ak modulus (some fun i j => k (bA i j)) (x.map k))
      (auxGaloisApply ak modulus (some fun i j => r (bA i j)) (x.map r))
      (auxGaloisApply ak modulus (some fun i j => d (bA i j)) (x.map d)) := by
  let est : ι → Est c cast hc := fun i => ⟨k i, r i, d i, h i⟩
  constructor
  · have := roundedOutcome_map (auxApply ak modulus (some fun i j => est (bA i j)) (x.map est))
    rw [← auxApply_map hom_count, ← auxApply_map hom_real, ← auxApply_map hom_dbl] at this
    exact this
  · have := roundedOutcome_map (auxGaloisApply ak modulus (some fun i j => est (bA i j)) (x.map est))
    rw [← auxGaloisApply_map hom_count, ← auxGaloisApply_map hom_real, ← auxGaloisApply_map hom_dbl] at this
    exact this

/-- **C96.** The same for `ObliviousExpand` with Galois keys. -/
theorem c96_expand (e : WordExpand.Env ι) (q : Ntt.NttParams) (bR : ℕ → ℕ → Outcome ι) (keys : List Word.RKey)
    (cts : List (Obj ι)) (levels outLen : ℤ) :
    match WordExpand.obliviousExpand (e.map k) (WordExpand.keysSub q (fun a b => k <$> bR a b) keys)
        (cts.map (Obj.map k)) levels outLen,
      WordExpand.obliviousExpand (e.map r) (WordExpand.keysSub q (fun a b => r <$> bR a b) keys)
        (cts.map (Obj.map r)) levels outLen,
      WordExpand.obliviousExpand (e.map d) (WordExpand.keysSub q (fun a b => d <$> bR a b) keys)
        (cts.map (Obj.map d)) levels outLen with
    | .ok ns, .ok xs, .ok ys => RoundedAll ns xs ys
    | .err e, .err e', .err e'' => e = e' ∧ e' = e''
    | .ub u, .ub u', .ub u'' => u = u' ∧ u' = u''
    | _, _, _ => False := by
  let est : ι → Est c cast hc := fun i => ⟨k i, r i, d i, h i⟩
  have hk := obliviousExpand_map (φ := Est.count (c := c) (cast := cast) (hc := hc)) hom_count rfl
    (fun x j => keysSub_map hom_count q (fun a b => est <$> bR a b) keys x j) (e.map est) (cts.map (Obj.map est)) levels
    outLen
  have hr := obliviousExpand_map (φ := Est.real (c := c) (cast := cast) (hc := hc)) hom_real rfl
    (fun x j => keysSub_map hom_real q (fun a b => est <$> bR a b) keys x j) (e.map est) (cts.map (Obj.map est)) levels
    outLen
  have hd := obliviousExpand_map (φ := Est.dbl (c := c) (cast := cast) (hc := hc)) hom_dbl rfl
    (fun x j => keysSub_map hom_dbl q (fun a b => est <$> bR a b) keys x j) (e.map est) (cts.map (Obj.map est)) levels
    outLen
  simp only [List.map_map, obj_map_map, bR_map_map] at hk hr hd
  rw [show WordExpand.obliviousExpand (e.map k) (WordExpand.keysSub q (fun a b => k <$> bR a b) keys)
        (cts.map (Obj.map k)) levels outLen = _ from hk,
    show WordExpand.obliviousExpand (e.map r) (WordExpand.keysSub q (fun a b => r <$> bR a b) keys)
        (cts.map (Obj.map r)) levels outLen = _ from hr,
    show WordExpand.obliviousExpand (e.map d) (WordExpand.keysSub q (fun a b => d <$> bR a b) keys)
        (cts.map (Obj.map d)) levels outLen = _ from hd]
  cases WordExpand.obliviousExpand (e.map est) (WordExpand.keysSub q (fun a b => est <$> bR a b) keys)
      (cts.map (Obj.map est)) levels outLen with
  | ok xs => exact roundedAll_map xs
  | err e => exact ⟨rfl, rfl⟩
  | ub u => exact ⟨rfl, rfl⟩

end

/-- **C96.** How many roundings a program makes: each call adds a fixed number, except the product of two ciphertexts,
which adds up those of its factors. -/
theorem c96_roundings {e : Store.Env (Count c)} {bR : ℕ → ℕ → Outcome (Count c)} {M N : ℕ} (hB : e.bPlain.n ≤ N)
    (hc : c ≤ N) (hR : ∀ i j b, bR i j = .ok b → b.n ≤ N) (keys : List Word.RKey) {m : Mem (Count c)}
    (hm : ∀ x ∈ m.cts, x.error.n ≤ M) {cs : List (KeyedCall (Count c))}
    (h1 : ∀ is power error, .plain (.ctMake is power error) ∈ cs → error.n ≤ M)
    (h2 : ∀ a error, .plain (.setError a error) ∈ cs → error.n ≤ M) :
    ∀ x ∈ (runKeyed e bR keys m cs).2.cts, x.error.n ≤ 2 ^ cs.length * (M + N + 2) ∧
      ((∀ k ∈ cs, NotMul k) → x.error.n ≤ M + cs.length * (N + 2)) := by
  have lit : ∀ {M' : ℕ} {k : KeyedCall (Count c)} {cs : List (KeyedCall (Count c))}, M ≤ M' → k ∈ cs →
      (∀ is power error, .plain (.ctMake is power error) ∈ cs → error.n ≤ M) →
      (∀ a error, .plain (.setError a error) ∈ cs → error.n ≤ M) →
      ∀ k', k = .plain k' → Literals M' k' := by
    intro M' k cs hM hk h1 h2 k' e
    subst e
    cases k' <;> first | exact trivial | exact (h1 _ _ _ hk).trans hM | exact (h2 _ _ hk).trans hM
  have g1 : ∀ (M' : ℕ) (m : Mem (Count c)), M ≤ M' → AtMost M' m →
      AtMost (2 ^ cs.length * (M' + N + 2)) (runKeyed e bR keys m cs).2 := by
    clear hm
    induction cs with
    | nil => intro M' m _ hm; exact hm.mono (by simp; omega)
    | cons k cs ih =>
      intro M' m hM hm
      have s1 := (count_keyed hB hc hR keys hm (lit hM (List.mem_cons_self ..) h1 h2)).1
      have := ih (fun _ _ _ h => h1 _ _ _ (List.mem_cons_of_mem _ h)) (fun _ _ h => h2 _ _ (List.mem_cons_of_mem _ h))
        _ _ (show M ≤ 2 * M' + N + 2 by omega) s1
      refine this.mono ?_
      rw [List.length_cons, pow_succ, mul_assoc]
      exact Nat.mul_le_mul_left _ (by omega)
  have g2 : (∀ k ∈ cs, NotMul k) → ∀ (M' : ℕ) (m : Mem (Count c)), M ≤ M' → AtMost M' m →
      AtMost (M' + cs.length * (N + 2)) (runKeyed e bR keys m cs).2 := by
    clear hm g1
    induction cs with
    | nil => intro _ M' m _ hm; exact hm.mono (by simp)
    | cons k cs ih =>
      intro hn M' m hM hm
      have s1 := (count_keyed hB hc hR keys hm (lit hM (List.mem_cons_self ..) h1 h2)).2 (hn k (List.mem_cons_self ..))
      have := ih (fun _ _ _ h => h1 _ _ _ (List.mem_cons_of_mem _ h)) (fun _ _ h => h2 _ _ (List.mem_cons_of_mem _ h))
        (fun k hk => hn k (List.mem_cons_of_mem _ hk)) _ _ (show M ≤ M' + N + 2 by omega) s1
      refine this.mono ?_
      rw [List.length_cons, Nat.add_mul]
      omega
  exact fun x hx => ⟨g1 M m le_rfl hm x hx, fun hn => g2 hn M m le_rfl hm x hx⟩

/-! ### Programs whose estimates come from error_params.h -/

section
variable (P : ErrorTrack.ErrorParams) (n : ℕ)

theorem real_bRelinearize (k b : ℕ) : (DoubleError.bRelinearize P n k b : Outcome ℝ) = P.bRelinearize n k b := by
  unfold DoubleError.bRelinearize ErrorTrack.ErrorParams.bRelinearize
  simp only [real_relinearize]

/-- `B_relinearize` with the name of its value. -/
def namedRelinearize (k b : ℕ) : Outcome Constant :=
  if b = 0 then .ub .divByZero
  else do
    let m ← Relin.decompositionModulus b
    return .relinearize k ((b + P.logModulus - 1) / b) m

theorem named_eval {E : Type} [Add E] [Mul E] [Div E] [NatCast E] [Sqrt E] :
    (fun k b => Constant.eval (E := E) P n <$> namedRelinearize P k b) = DoubleError.bRelinearize P n := by
  funext k b
  unfold namedRelinearize DoubleError.bRelinearize Relin.decompositionModulus
  split_ifs <;> rfl

theorem constant_count (x : Constant) : (x.eval P n : Count c).n ≤ 6 * c + 10 := by
  have tt := cast_le (c := c) (P.t % 2 ^ 64)
  have nn := cast_le (c := c) n
  have vv := cast_le (c := c) P.variance
  have c1 := cast_small (c := c) (show 1 < 2 ^ 53 by norm_num)
  have c3 := cast_small (c := c) (show 3 < 2 ^ 53 by norm_num)
  have c6 := cast_small (c := c) (show 6 < 2 ^ 53 by norm_num)
  have c8 := cast_small (c := c) (show 8 < 2 ^ 53 by norm_num)
  cases x with
  | plaintext =>
    simp only [Constant.eval, DoubleError.bPlaintext, DoubleError.exportT, add_n, mul_n, sqrt_n, c3]
    omega
  | encryption =>
    simp only [Constant.eval, DoubleError.bEncryption, DoubleError.exportT, DoubleError.sigma, add_n, mul_n, sqrt_n,
      c3, c6]
    omega
  | publicKey v z =>
    have h1 := cast_le (c := c) v
    have h2 := cast_le (c := c) z
    simp only [Constant.eval, publicKeyValue, DoubleError.exportT, add_n, mul_n, sqrt_n, c3, c6]
    omega
  | relinearize k d m =>
    have h1 := cast_le (c := c) k
    have h2 := cast_le (c := c) d
    have h3 := cast_le (c := c) m
    simp only [Constant.eval, relinearizeValue, DoubleError.exportT, DoubleError.sigma, mul_n, div_n, sqrt_n, c3, c8]
    omega

theorem rounded_index {ns : List (Obj (Count c))} {xs : List (Obj ℝ)} {ys : List (Obj (Dbl cast))}
    (h : RoundedAll ns xs ys) : xs.length = ys.length ∧ ∀ (a : ℕ) (x : Obj ℝ), xs[a]? = some x →
      ∃ n ∈ ns, ∃ y, ys[a]? = some y ∧ Rounded n x y := by
  induction ns generalizing xs ys with
  | nil =>
    cases xs <;> cases ys <;> simp_all [RoundedAll]
  | cons n ns ih =>
    cases xs with
    | nil => cases ys <;> exact h.elim
    | cons x xs =>
      cases ys with
      | nil => exact h.elim
      | cons y ys =>
        obtain ⟨h1, h2⟩ := h
        obtain ⟨h3, h4⟩ := ih h2
        refine ⟨by simp [h3], fun a z hz => ?_⟩
        cases a with
        | zero => cases hz; exact ⟨n, List.mem_cons_self .., y, rfl, h1⟩
        | succ a =>
          obtain ⟨n', hn', y', hy', hr⟩ := h4 a z (by simpa using hz)
          exact ⟨n', List.mem_cons_of_mem _ hn', y', by simpa using hy', hr⟩

/-- **C96.** A program of `ℓ` calls whose estimates all come from error_params.h, run with `double`s, returns the
statuses and computes the polynomials and ciphertexts of the same program with the exact estimates of C65; without
products of ciphertexts every estimate has a relative error of at most `(12 c + 24) (ℓ + 1) / 2^53`, where `c` is 1 or 2
according to the conversion of integers. -/
theorem c96_session (hc : Converts c cast) (p : MParams) (q : Ntt.NttParams) (keys : List Word.RKey)
    (m : Mem Constant) (cs : List (KeyedCall Constant)) :
    let R := runKeyed ⟨p, q, P.bPlaintext n⟩ (P.bRelinearize n) keys (m.map (Constant.eval P n))
      (cs.map (KeyedCall.map (Constant.eval P n)))
    let D := runKeyed ⟨p, q, DoubleError.bPlaintext P n⟩ (DoubleError.bRelinearize P n) keys
      (m.map (Constant.eval P n)) (cs.map (KeyedCall.map (Constant.eval (E := Dbl cast) P n)))
    D.1 = R.1 ∧ D.2.polys = R.2.polys ∧ D.2.cts.length = R.2.cts.length ∧
    ∀ (a : ℕ) (x : Obj ℝ), R.2.cts[a]? = some x → ∃ y, D.2.cts[a]? = some y ∧ y.c = x.c ∧ y.power = x.power ∧
      y.lazy = x.lazy ∧ Within (2 ^ cs.length * (12 * c + 22)) x.error y.error.val ∧
      ((∀ k ∈ cs, NotMul k) → (6 * c + 12) * (cs.length + 1) ≤ 2 ^ 52 →
        |y.error.val - x.error| ≤ x.error * ((12 * c + 24) * (cs.length + 1) / 2 ^ 53)) := by
  have main := c96_program hc (k := Constant.eval P n) (r := Constant.eval P n) (d := Constant.eval P n)
    (fun i => by
      have h := (i.eval P n : Est c cast hc).ok
      have e1 : (i.eval P n : Est c cast hc).count = i.eval P n := by cases i <;> rfl
      have e2 : (i.eval P n : Est c cast hc).real = i.eval P n := by cases i <;> rfl
      have e3 : (i.eval P n : Est c cast hc).dbl = i.eval P n := by cases i <;> rfl
      rw [e1, e2, e3] at h
      exact h) (⟨p, q, .plaintext⟩ : Store.Env Constant) (namedRelinearize P) keys m cs
  simp only [named_eval] at main
  have eR : (DoubleError.bRelinearize P n : ℕ → ℕ → Outcome ℝ) = P.bRelinearize n := by
    funext k b; exact real_bRelinearize P n k b
  have eP : (Store.Env.map (Constant.eval P n) (⟨p, q, .plaintext⟩ : Store.Env Constant) : Store.Env ℝ) =
      ⟨p, q, P.bPlaintext n⟩ := by
    show (⟨p, q, DoubleError.bPlaintext P n⟩ : Store.Env ℝ) = _
    rw [real_bPlaintext]
  rw [eR, eP] at main
  obtain ⟨h1, -, h2, h3⟩ := main
  have cnt := c96_roundings (c := c) (M := 6 * c + 10) (N := 6 * c + 10)
    (e := Store.Env.map (Constant.eval P n) (⟨p, q, .plaintext⟩ : Store.Env Constant))
    (bR := DoubleError.bRelinearize P n) (constant_count P n .plaintext) (by omega)
    (fun i j b hb => by
      rw [← named_eval] at hb
      dsimp only at hb
      cases hx : namedRelinearize P i j with
      | ok x => rw [hx] at hb; cases hb; exact constant_count P n x
      | err s => rw [hx] at hb; cases hb
      | ub u => rw [hx] at hb; cases hb) keys
    (m := m.map (Constant.eval P n)) (fun x hx => by
      obtain ⟨y, -, rfl⟩ := List.mem_map.mp hx
      exact constant_count P n y.error)
    (cs := cs.map (KeyedCall.map (Constant.eval P n)))
    (fun is power error h => by
      obtain ⟨k, -, e⟩ := List.mem_map.mp h
      cases k with
      | plain k => cases k <;> first | (cases e; exact constant_count P n _) | cases e
      | relinearize a r => cases e
      | galois a r => cases e)
    (fun a error h => by
      obtain ⟨k, -, e⟩ := List.mem_map.mp h
      cases k with
      | plain k => cases k <;> first | (cases e; exact constant_count P n _) | cases e
      | relinearize a r => cases e
      | galois a r => cases e)
  obtain ⟨h4, h5⟩ := rounded_index h3
  refine ⟨h1, h2, h4.symm, fun a x hx => ?_⟩
  obtain ⟨j, hj, y, hy, r1, r2, r3, r4⟩ := h5 a x hx
  obtain ⟨b1, b2⟩ := cnt j hj
  rw [List.length_map] at b1 b2
  refine ⟨y, hy, r1, r2, r3, r4.mono (b1.trans (Nat.mul_le_mul_left _ (by omega))), fun hn hl => ?_⟩
  have b3 := b2 fun k hk => by
    obtain ⟨k', hk', rfl⟩ := List.mem_map.mp hk
    intro a b e
    cases k' with
    | plain k' => cases k' <;> first | (cases e; exact hn _ hk' _ _ rfl) | cases e
    | relinearize a r => cases e
    | galois a r => cases e
  have b4 : j.error.n ≤ (6 * c + 12) * (cs.length + 1) := by
    refine b3.trans ?_
    ring_nf
    omega
  have := c96_relative hl (r4.mono b4)
  refine this.trans_eq ?_
  push_cast
  ring

end

end

/-! ### The hypotheses can be met -/

/-- Estimates are rounded: the sum of `2^53` and `1` is `2^53`. -/
theorem c96_rounds_witness :
    ((⟨2 ^ 53⟩ : Dbl Double.castNearest) + ⟨1⟩).val = 2 ^ 53 ∧ ((2 : ℝ) ^ 53) + 1 ≠ 2 ^ 53 := by
  refine ⟨?_, by norm_num⟩
  show Double.rnd ((2 : ℝ) ^ 53 + 1) = 2 ^ 53
  have e : (2 : ℝ) ^ 53 + 1 = ((2 ^ 53 + 1 : ℕ) : ℝ) := by norm_num
  have hl : Int.log 2 |(2 : ℝ) ^ 53 + 1| = 53 := by
    rw [abs_of_pos (by positivity), e, Int.log_natCast]
    have : Nat.log 2 (2 ^ 53 + 1) = 53 := by
      rw [Nat.log_eq_iff (by norm_num)]
      norm_num
    rw [this]; rfl
  have hf : ⌊((2 : ℝ) ^ 53 + 1) * 2 ^ (52 - 53 : ℤ)⌋ = 2 ^ 52 := by
    rw [Int.floor_eq_iff]
    norm_num
  unfold Double.rnd
  rw [if_neg (by positivity), hl]
  unfold Double.roundEven
  rw [hf, if_neg (by norm_num), if_neg (by norm_num), if_pos (by norm_num)]
  norm_num

/-- `c96_session` applies to a thousand additions of a fresh encryption followed by a product with a plaintext. -/
example (P : ErrorTrack.ErrorParams) (n : ℕ) (p : MParams) (q : Ntt.NttParams) (f : List ℕ) (x y : Obj Constant) :
    let cs : List (KeyedCall Constant) := List.replicate 1000 (.plain (.ctIn 0 (.add 1))) ++ [.plain (.ctIn 0 (.absorb 0))]
    let R := runKeyed ⟨p, q, P.bPlaintext n⟩ (P.bRelinearize n) [] (Mem.map (Constant.eval P n) ⟨[f], [x, y]⟩)
      (cs.map (KeyedCall.map (Constant.eval P n)))
    let D := runKeyed ⟨p, q, DoubleError.bPlaintext P n⟩ (DoubleError.bRelinearize P n) []
      (Mem.map (Constant.eval P n) ⟨[f], [x, y]⟩)
      (cs.map (KeyedCall.map (Constant.eval (E := Dbl Double.castNearest) P n)))
    ∀ z, R.2.cts[0]? = some z → ∃ w, D.2.cts[0]? = some w ∧ |w.error.val - z.error| ≤ z.error / 2 ^ 37 := by
  intro cs R D z hz
  have hl : cs.length = 1001 := by
    rw [List.length_append, List.length_replicate]; rfl
  obtain ⟨-, -, -, h⟩ := c96_session P n c96_converts.1 p q [] ⟨[f], [x, y]⟩ cs
  obtain ⟨w, hw, -, -, -, hW, h⟩ := h 0 z hz
  refine ⟨w, hw, (h ?_ (by rw [hl]; norm_num)).trans ?_⟩
  · intro k hk a b e
    rcases List.mem_append.mp hk with hk | hk
    · rw [(List.mem_replicate.mp hk).2] at e; cases e
    · rw [List.mem_singleton.mp hk] at e; cases e
  · have := hW.1
    rw [hl]
    push_cast
    norm_num
    linarith

/-- The parameters of `c96_constants`, `c96_relinearize` and `c96_public_key_partial`. -/
example : Within 4 (ErrorTrack.ErrorParams.bPlaintext ⟨5, 8, 24⟩ 2048)
      (DoubleError.bPlaintext ⟨5, 8, 24⟩ 2048 : Dbl Double.castNearest).val ∧
    WithinOutcome 11 (ErrorTrack.ErrorParams.bRelinearize ⟨5, 8, 24⟩ 2048 2 10)
      (DoubleError.bRelinearize ⟨5, 8, 24⟩ 2048 2 10 : Outcome (Dbl Double.castNearest)) ∧
    WithinOutcome 8 (ErrorTrack.ErrorParams.bPublicKey ⟨5, 8, 24⟩ 2048 8)
      (DoubleError.bPublicKey ⟨5, 8, 24⟩ 2048 8 : Outcome (Dbl Double.castNearest)) :=
  ⟨(c96_constants c96_converts.1 _ (by norm_num) (by norm_num)).1,
    c96_relinearize c96_converts.1 _ (by norm_num) (by norm_num) (by norm_num) (by norm_num),
    c96_public_key_partial c96_converts.1 _ (by norm_num) (by norm_num)⟩

/-- The parameters of `c96_rns_constants`. -/
example : Within 3 (RnsErrorTrack.RErrorParams.bPlaintext ⟨12, 40, 3⟩)
    (RParams.bPlaintext ⟨12, 40, ⟨3⟩⟩ : Dbl (Double.castHalves 64)).val :=
  (c96_rns_constants c96_converts.2 ⟨12, 40, ⟨3⟩⟩ (by norm_num) (by norm_num) (by norm_num)).1

/-- The program of `c96_roundings` with a product of ciphertexts. -/
example (p : MParams) (q : Ntt.NttParams) : ∀ x ∈ (runKeyed (E := Count 1) ⟨p, q, ⟨4⟩⟩ (fun _ _ => .ok ⟨11⟩) []
    ⟨[], [⟨[[1, 2], [3, 4]], 1, ⟨7⟩, []⟩]⟩ [.plain (.ctMul 0 0)]).2.cts, x.error.n ≤ 2 ^ 1 * (7 + 11 + 2) :=
  fun x hx => (c96_roundings (by norm_num) (by norm_num) (fun _ _ b h => by cases h; norm_num) []
    (by simp) (by simp) (by simp) x hx).1

end Shell
