import Verif.Model.Core
/-!
# `shell_encryption/bits_util.h`

Words are naturals; the C++ functions are only called on values that fit their argument type.
-/

namespace Shell.Bits

/-- shell_encryption/bits_util.h:28-40 `CountOnesInByte` (argument: `Uint8`).
The `Uint8` assignments truncate to 8 bits. -/
def countOnesInByte (x : ℕ) : ℕ :=
  let x0 := x &&& 0x55
  let x1 := (x >>> 1) &&& 0x55
  let x := (x0 + x1) % 2 ^ 8
  let x0 := x &&& 0x33
  let x1 := (x >>> 2) &&& 0x33
  let x := (x0 + x1) % 2 ^ 8
  let x0 := x &&& 0x0F
  let x1 := (x >>> 4) &&& 0x0F
  x0 + x1

/-- shell_encryption/bits_util.h:42-66 `CountOnes64` (argument: `Uint64`). -/
def countOnes64 (x : ℕ) : ℕ :=
  let x0 := x &&& 0x5555555555555555
  let x1 := (x >>> 1) &&& 0x5555555555555555
  let x := (x0 + x1) % 2 ^ 64
  let x0 := x &&& 0x3333333333333333
  let x1 := (x >>> 2) &&& 0x3333333333333333
  let x := (x0 + x1) % 2 ^ 64
  let x0 := x &&& 0x0F0F0F0F0F0F0F0F
  let x1 := (x >>> 4) &&& 0x0F0F0F0F0F0F0F0F
  let x := (x0 + x1) % 2 ^ 64
  let x0 := x &&& 0x00FF00FF00FF00FF
  let x1 := (x >>> 8) &&& 0x00FF00FF00FF00FF
  let x := (x0 + x1) % 2 ^ 64
  let x0 := x &&& 0x0000FFFF0000FFFF
  let x1 := (x >>> 16) &&& 0x0000FFFF0000FFFF
  let x := (x0 + x1) % 2 ^ 64
  let x0 := x &&& 0x00000000FFFFFFFF
  let x1 := (x >>> 32) &&& 0x00000000FFFFFFFF
  (x0 + x1) % 2 ^ 32

/-- One `if (x >> k) { zeros -= k; x >>= k; }` step of
shell_encryption/bits_util.h:70-93; the state is `(zeros, x)`. -/
def clzStep (k : ℕ) (s : ℕ × ℕ) : ℕ × ℕ :=
  if s.2 >>> k ≠ 0 then (s.1 - k, s.2 >>> k) else s

/-- shell_encryption/bits_util.h:68-95 `CountLeadingZeros64`. -/
def countLeadingZeros64 (x : ℕ) : ℕ :=
  let s := clzStep 1 (clzStep 2 (clzStep 4 (clzStep 8 (clzStep 16 (clzStep 32 (64, x))))))
  s.1 - s.2

/-- shell_encryption/bits_util.h:97-100 `CountLeadingZeros128`;
`absl::Uint128High64/Low64` are the two 64-bit halves. -/
def countLeadingZeros128 (x : ℕ) : ℕ :=
  let hi := x / 2 ^ 64
  if hi ≠ 0 then countLeadingZeros64 hi else countLeadingZeros64 (x % 2 ^ 64) + 64

/-- shell_encryption/bits_util.h:102-104 `BitLength` (argument: `absl::uint128`). -/
def bitLength (x : ℕ) : ℕ := 128 - countLeadingZeros128 x

end Shell.Bits
