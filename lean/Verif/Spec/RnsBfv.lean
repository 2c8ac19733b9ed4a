import Verif.Spec.RnsScheme
/-!
# What a BFV ciphertext stands for

A BFV ciphertext with the moduli `q_1, .., q_k`, of product `Q`, holds the message `M` in the phase `Φ`: `t Φ` is
`Q M` up to the noise.  The message is known modulo `t`.
-/

namespace Shell.Spec
open Rns

/-- `t F` is within `v` of `Q M`. -/
def BfvNear {n : ℕ} (t Q : ℕ) (F M : Fin n → ℤ) (v : ℚ) : Prop := ∀ i, |(t : ℚ) * F i - Q * M i| ≤ v

/-- The ciphertext `x` holds, for the secret `S`, the message `M` with noise at most `v` (times `1/t`). -/
def BfvEncrypts (l : ℕ) (S : Fin (2 ^ l) → ℤ) (t : ℕ) (x : RCt) (M : Fin (2 ^ l) → ℤ) (v : ℚ) : Prop :=
  ∃ Φ, Encrypts l S x Φ ∧ BfvNear t (modulusProd x.ms) Φ M v

/-- A bound on `|c_0 + c_1 s + .. + c_{d-1} s^{d-1}|` for components bounded by one. -/
def keyGrowth {n : ℕ} (S : Fin n → ℤ) (d : ℕ) : ℚ := ∑ j ∈ Finset.range d, (∑ i, |(S i : ℚ)|) ^ j

/-- The noise of a BFV product.  `h` is the error of the rounding in conversions between bases, `1/2` if it were
exact; `gx`, `gy`, `gr` are the growths of the operands and of the result, `vx` and `vy` the noise of the operands. -/
def bfvMulNoise (n t Q P : ℕ) (h gx gy gr vx vy : ℚ) : ℚ :=
  n * ((t * h * (1 + 1 / P) * gx + vx / Q) * vy + (t * h * gy + vy / Q) * vx) + n * vx * vy / Q +
    t * h * (n * t * h * gx * gy * Q / P + gr)

end Shell.Spec
