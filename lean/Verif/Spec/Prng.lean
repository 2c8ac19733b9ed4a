import Verif.Model.Prng
import Mathlib.Algebra.BigOperators.Group.List.Basic
import Mathlib.Algebra.BigOperators.Group.Finset.Basic
import Mathlib.Algebra.BigOperators.Fin
/-!
Specification vocabulary for the generators: the key stream of a seed is the concatenation of its
blocks, a `Rand8` call at stream offset `p` is the byte at `p`, a `Rand64` call the little-endian
number of the eight bytes from `p`.
-/

namespace Shell.Spec
open Shell.Prng

/-- Byte `p` of the concatenation of the blocks `block 0, block 1, …`, each of `B` bytes. -/
def byteAt (block : ℕ → List ℕ) (B p : ℕ) : ℕ := (block (p / B)).getD (p % B) 0

/-- Value of a call made when `p` bytes of the stream have been handed out. -/
def valueAt (block : ℕ → List ℕ) (B : ℕ) : Op → ℕ → ℕ
  | .rand8, p => byteAt block B p
  | .rand64, p => ∑ i ∈ Finset.range 8, byteAt block B (p + i) * 256 ^ i

/-- Number of stream bytes of a call: 1 for `Rand8`, 8 for `Rand64`. -/
def width : Op → ℕ
  | .rand8 => 1
  | .rand64 => 8

/-- Stream offset at which call number `j` of a sequence of calls starts. -/
def offset (ops : List Op) (j : ℕ) : ℕ := ((ops.take j).map width).sum

/-- The values a sequence of calls must return, starting at stream offset `p`. -/
def valuesFrom (block : ℕ → List ℕ) (B : ℕ) : List Op → ℕ → List ℕ
  | [], _ => []
  | op :: ops, p => valueAt block B op p :: valuesFrom block B ops (p + width op)

/-- The primitive delivers the blocks `block 0, …, block (M-1)` for this key, each of the requested
size and made of bytes. -/
structure Source (K : Kind) (key : List ℕ) (block : ℕ → List ℕ) (M : ℕ) : Prop where
  fill : ∀ c < M, K.fill key c = .ok (block c)
  size : ∀ c < M, (block c).length = K.bufSize
  byte : ∀ c < M, ∀ b ∈ block c, b < 256

end Shell.Spec
