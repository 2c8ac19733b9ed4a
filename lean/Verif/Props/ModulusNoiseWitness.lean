import Verif.Props.ModulusNoise
/-!
# Property C107: more than two components

`SwitchModulus` adds the same `B_scale` for every number of components. For three components, products that were not
relinearized, it is not enough: the rounding of the last one is multiplied by the square of the secret key.
-/

namespace Shell
open Spec Rns WordCt ErrorTrack MParams Ntt NttRing Sym Real

/-- Samples a secret key from the tape `a`, encrypts the message 1 twice with the tape `b`, multiplies the ciphertexts, and
switches key and product to the modulus 233. `e` and `s` stand for `B_encryption` and `B_scale`. Returns the number of
components, whether twice `Error()` is below 233, what the product decrypts to, and what the switched product decrypts to. -/
def switchedProduct (e s : ℚ) (a b : List (Fin 256)) : Outcome (ℕ × Bool × List ℕ × List ℕ) := do
  let p ← create 32 16777153
  let q ← initNtt p 2
  let p' ← create 32 233
  let q' ← initNtt p' 2
  let (k, _) ← Word.Key.sample bytesSource p q 2 2 2 a
  let k' ← k.switchModulus p' q'
  let m ← Poly.convertToNtt p q ([1, 0, 0, 0].map (Mont.importInt p))
  let (xs, _) ← encryptAll bytesSource 8 k 0 [m, m] b
  let obj := fun i => (⟨(xs.getD i ⟨[], 0, 0⟩).c, (xs.getD i ⟨[], 0, 0⟩).power, e, []⟩ : Obj ℚ)
  let y ← WordCt.mul p (obj 0) (obj 1)
  let z ← WordCt.switchModulus p p' q q' s y 5
  .ok (z.c.length, decide (2 * z.error < 233), ← Word.decrypt k ⟨y.c, y.power, 0⟩, ← Word.decrypt k' ⟨z.c, z.power, 0⟩)

/-- **C107.** For three components the theorem is false. The parameters are those of `c107_program`, and all secret keys
that can be sampled are short (`c107_small_variance`); the estimates are at least those of the error parameters, and twice
the final one is below the modulus. The product decrypts to 1, the switched product does not. -/
theorem c107_product_witness : ∃ e s : ℚ, (⟨5, 2, 24⟩ : ErrorParams).bEncryption (2 ^ 2) ≤ e ∧
    (⟨5, 2, 8⟩ : ErrorParams).bScale (2 ^ 2) ≤ s ∧ ∃ a b m, switchedProduct e s a b = .ok (3, true, [1, 0, 0, 0], m) ∧
      m ≠ [1, 0, 0, 0] := by
  refine ⟨110, 110, ?_, ?_, [255, 0, 255, 0, 255, 0, 255, 0], (List.range 120).map fun i => Fin.ofNat 256 (i * i), [0, 2, 3, 1],
    ?_, ?_⟩
  · unfold ErrorParams.bEncryption ErrorParams.exportT ErrorParams.sigma
    dsimp only
    rw [show ((5 % 2 ^ 64 : ℕ) : ℝ) = 5 by norm_num]
    have h4 : √((2 ^ 2 : ℕ) : ℝ) ≤ 2 := Real.sqrt_le_iff.mpr ⟨by norm_num, by norm_num⟩
    have h3 : √(3 : ℝ) ≤ 2 := Real.sqrt_le_iff.mpr ⟨by norm_num, by norm_num⟩
    have h2 : √((2 : ℕ) : ℝ) ≤ 3 / 2 := Real.sqrt_le_iff.mpr ⟨by norm_num, by norm_num⟩
    have : 5 * √((2 ^ 2 : ℕ) : ℝ) * (√3 + 6 * √((2 : ℕ) : ℝ)) ≤ 5 * 2 * (2 + 6 * (3 / 2)) := by gcongr
    refine this.trans ?_
    norm_num
  · unfold ErrorParams.bScale ErrorParams.exportT
    dsimp only
    rw [show ((5 % 2 ^ 64 : ℕ) : ℝ) = 5 by norm_num]
    have a1 : √(3 * (2 ^ 2 : ℕ) : ℝ) ≤ 347 / 100 := Real.sqrt_le_iff.mpr ⟨by norm_num, by norm_num⟩
    have a2 : √(1 / 3 : ℝ) ≤ 5774 / 10000 := Real.sqrt_le_iff.mpr ⟨by norm_num, by norm_num⟩
    refine (mul_le_mul_of_nonneg_left (add_le_add a1 (mul_le_mul_of_nonneg_left a2 (by positivity))) (by norm_num)).trans ?_
    norm_num
  · decide +kernel
  · decide

end Shell
