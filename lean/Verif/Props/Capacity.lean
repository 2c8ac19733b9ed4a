import Verif.Spec.Capacity
import Verif.Props.Constants
import Verif.Props.WordCt
/-!
# Property C84: what the parameter sets support
-/

namespace Shell
open Spec Rns WordCt ErrorTrack MParams Ntt NttRing Constants
variable {σ τ : Type}

/-- Multiplying out: `terms` products of at most `degree` inputs. -/
theorem Program.bound_le {n B G : ℕ} (h : 1 ≤ n * B) (hG : G ≤ B) : ∀ u : Program,
    n * u.bound n B G ≤ u.terms * (n * B) ^ u.degree
  | .input _ => by simp [Program.bound, Program.terms, Program.degree]
  | .add u v => by
    have h1 := Program.bound_le h hG u
    have h2 := Program.bound_le h hG v
    have h3 := Nat.mul_le_mul_left u.terms (Nat.pow_le_pow_right h (le_max_left u.degree v.degree))
    have h4 := Nat.mul_le_mul_left v.terms (Nat.pow_le_pow_right h (le_max_right u.degree v.degree))
    simp only [Program.bound, Program.terms, Program.degree, mul_add, add_mul]
    omega
  | .sub u v => by
    have h1 := Program.bound_le h hG u
    have h2 := Program.bound_le h hG v
    have h3 := Nat.mul_le_mul_left u.terms (Nat.pow_le_pow_right h (le_max_left u.degree v.degree))
    have h4 := Nat.mul_le_mul_left v.terms (Nat.pow_le_pow_right h (le_max_right u.degree v.degree))
    simp only [Program.bound, Program.terms, Program.degree, mul_add, add_mul]
    omega
  | .mul u v => by
    have h1 := Nat.mul_le_mul (Program.bound_le h hG u) (Program.bound_le h hG v)
    simp only [Program.bound, Program.terms, Program.degree, pow_add]
    calc _ = n * u.bound n B G * (n * v.bound n B G) := by ring
      _ ≤ _ := h1
      _ = _ := by ring
  | .absorb u _ => by
    have h1 := Nat.mul_le_mul (Program.bound_le h hG u) (Nat.mul_le_mul_left n hG)
    simp only [Program.bound, Program.terms, Program.degree, pow_succ]
    calc _ = n * u.bound n B G * (n * G) := by ring
      _ ≤ _ := h1
      _ = _ := by ring
  | .scale u c => by
    have h1 := Nat.mul_le_mul_left c (Program.bound_le h hG u)
    simp only [Program.bound, Program.terms, Program.degree]
    calc _ = c * (n * u.bound n B G) := by ring
      _ ≤ _ := h1
      _ = _ := by ring

/-- **C84.** For each parameter set, the context is created; and for every generator, every sampled key, all messages and
all fresh encryptions of them, and all plaintexts, every expression of additions, subtractions, products, products with
plaintexts and with constants that has at most the stated degree and the stated number of terms decrypts to the expression
of the messages and plaintexts modulo `X^n + 1` and `t`. -/
theorem c84_capacity (c : Capacity) (hc : c ∈ capacities) :
    ∃ x : Context.RlweContext, Context.create c.width c.modulus c.logN c.logT c.variance = .ok x ∧
      ∀ (G : Gen σ) (G' : Gen τ), Words G' → ∀ (s s' : σ) (k : Word.Key),
      Word.Key.sample G x.params x.ntt c.logN c.variance c.logT s = .ok (k, s') →
      ∀ (m g : ℕ → Fin (2 ^ c.logN) → ℕ), (∀ i j, m i j < 2 ^ c.logT + 1) → (∀ i j, g i j < 2 ^ c.logT + 1) →
      ∀ (pt f : ℕ → List ℕ), (∀ i, ValidPoly c.modulus (2 ^ c.logN) (pt i)) →
      (∀ i, HasCoeffs x.params x.ntt c.modulus (2 ^ c.logN) (pt i) fun j => (m i j : ZMod c.modulus)) →
      (∀ i, ValidPoly c.modulus (2 ^ c.logN) (f i)) →
      (∀ i, HasCoeffs x.params x.ntt c.modulus (2 ^ c.logN) (f i) fun j => (g i j : ZMod c.modulus)) →
      ∀ (fuel bEnc : ℕ) (t t' : ℕ → τ) (ct : ℕ → Word.Ct),
      (∀ i, Word.encrypt G' fuel k (pt i) bEnc (t i) = .ok (ct i, t' i)) →
      ∀ (P : ErrorParams) (u : Program), u.Fits c.width → u.degree ≤ c.degree → u.terms ≤ c.terms →
      ∃ y, u.run x.params (P.bPlaintext (2 ^ c.logN)) (fun i => ⟨(ct i).c, (ct i).power, (ct i).error, []⟩) f = .ok y ∧
        Word.decrypt k ⟨y.c, y.power, bEnc⟩ = .ok (List.ofFn fun j =>
          (u.eval (fun i j => (m i j : ℤ)) (fun i j => (g i j : ℤ)) j % (2 ^ c.logT + 1)).toNat) := by
  have hp : c.modulus.Prime := by
    have h0 := c68_moduli
    simp only [capacities, List.mem_cons, List.not_mem_nil, or_false] at hc
    rcases hc with rfl | rfl | rfl | rfl | rfl
    · exact (h0 (kNewhopeModulus, kNewhopeLogDegreeBound, kNewhopeDegreeBound) (by simp [shipped])).1
    · exact (h0 (kModulus25, kLogDegreeBound25, kDegreeBound25) (by simp [shipped])).1
    · exact (h0 (kModulus29, kLogDegreeBound29, kDegreeBound29) (by simp [shipped])).1
    · exact (h0 (kModulus59, kLogDegreeBound59, kDegreeBound59) (by simp [shipped])).1
    · exact (h0 (kModulus80, kLogDegreeBound80, kDegreeBound80) (by simp [shipped])).1
  have hall : ∀ c ∈ capacities, c.width ≤ 128 ∧ c.modulus < 2 ^ 128 ∧ c.logN < 2 ^ 31 ∧ c.logT < 2 ^ 31 ∧
      (c.modulus % 2 = 1 ∧ c.modulus < 2 ^ (c.width - 2) ∧ 1 ≤ c.logN ∧ c.logN ≤ 15 ∧ c.logN + 1 < c.width ∧
        c.modulus % 2 ^ (c.logN + 1) = 1 ∧ 1 ≤ c.logT ∧ 2 ^ c.logT ≤ c.modulus ∧ c.variance ≤ 256) ∧
      2 ^ c.logT + 1 < c.modulus ∧ 2 * c.variance ≤ c.modulus ∧
      2 * (c.terms * (2 ^ c.logN * (2 ^ c.logT + 2 * c.variance * (2 ^ c.logT + 1))) ^ c.degree) <
        2 ^ c.logN * c.modulus := by
    simp only [capacities, List.forall_mem_cons, List.not_mem_nil, false_implies, implies_true, and_true]
    refine ⟨?_, ?_, ?_, ?_, ?_⟩ <;> decide +kernel
  obtain ⟨hw, hN, h1, h2, hcr, hT, hv, hb⟩ := hall c hc
  obtain ⟨x, hx⟩ := (Shell.c61_create_partial (variance := c.variance) hp hN h1 h2).1.mpr hcr
  obtain ⟨-, -, -, -, -, -, -, b1, b2, -, -⟩ := Shell.c61_accessors_partial hp hN h1 h2 hx
  refine ⟨x, hx, fun G G' hG' s s' k hk m g hm hg pt f hpt hpt' hf hf' fuel bEnc t t' ct hct P u hu hd ht => ?_⟩
  set B := 2 ^ c.logT + 2 * c.variance * (2 ^ c.logT + 1) with hBdef
  have hB : 1 ≤ 2 ^ c.logN * B :=
    Nat.mul_pos (Nat.two_pow_pos _) (by have := Nat.two_pow_pos c.logT; omega)
  have hle := Program.bound_le (n := 2 ^ c.logN) (G := 2 ^ c.logT) hB (by omega) u
  refine c72_program G G' hG' b1 hw hp b2 hk hT hv m hm (fun i j => (g i j : ℤ)) (Gb := 2 ^ c.logT)
    (fun i j => ?_) hpt hpt' hf (fun i => ?_) hct P u hu ?_
  · rw [Nat.abs_cast]
    exact Int.ofNat_le.mpr (Nat.lt_succ_iff.mp (hg i j))
  · have := hf' i
    simp only [Int.cast_natCast]
    exact this
  · refine lt_of_mul_lt_mul_left (lt_of_le_of_lt ?_ hb) (Nat.zero_le (2 ^ c.logN))
    calc 2 ^ c.logN * (2 * u.bound (2 ^ c.logN) B (2 ^ c.logT))
        = 2 * (2 ^ c.logN * u.bound (2 ^ c.logN) B (2 ^ c.logT)) := by ring
      _ ≤ 2 * (c.terms * (2 ^ c.logN * B) ^ c.degree) := by
        refine Nat.mul_le_mul_left 2 (hle.trans (Nat.mul_le_mul ht (Nat.pow_le_pow_right hB hd)))

/-- The inner product of two vectors of `k + 1` ciphertexts: degree 2 and `k + 1` terms. -/
def innerProduct : ℕ → Program
  | 0 => .mul (.input 0) (.input 1)
  | k + 1 => .add (innerProduct k) (.mul (.input (2 * k + 2)) (.input (2 * k + 3)))

/-- Inner products of up to 267277 ciphertexts are covered for the 59-bit modulus. -/
theorem innerProduct_covered (k : ℕ) :
    (innerProduct k).degree = 2 ∧ (innerProduct k).terms = k + 1 ∧ (innerProduct k).Fits 64 := by
  induction k with
  | zero => exact ⟨rfl, rfl, trivial, trivial⟩
  | succ k ih =>
    obtain ⟨h1, h2, h3⟩ := ih
    refine ⟨?_, ?_, h3, trivial, trivial⟩
    · show max (innerProduct k).degree 2 = 2
      rw [h1]; rfl
    · show (innerProduct k).terms + 1 = k + 1 + 1
      rw [h2]

example : (⟨64, kModulus59, 11, 10, 8, 2, 267277⟩ : Capacity) ∈ capacities ∧
    (innerProduct 267276).terms = 267277 := by
  refine ⟨by simp [capacities], (innerProduct_covered _).2.1⟩

end Shell
