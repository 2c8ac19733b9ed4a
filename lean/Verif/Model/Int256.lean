import Verif.Model.Core
/-!
# `shell_encryption/int256.{h,cc}`: the 256-bit unsigned integer

A `uint256` is its two 128-bit members.  128-bit arithmetic (`unsigned __int128` or `absl::uint128`)
is modelled as arithmetic on naturals reduced modulo `2^128`.  The assignment operators take their
right operand by reference; each one reads a member of the right operand only before, or in the same
expression as, the update of that member, so aliasing (`x += x`) does not change the result and value
semantics is faithful.
-/

namespace Shell

/-- `class uint256` data members (int256.h:115-123). -/
structure U256 where
  hi : ℕ
  lo : ℕ
  deriving DecidableEq, Repr

namespace U256

/-- `2^128` (the weight of `hi_`, int256.h:121-125). -/
abbrev B : ℕ := 2 ^ 128

/-- `uint256(top, bottom)` (int256.h:202-204) and the unsigned single-argument constructors
(int256.h:207-221) as `mk 0 bottom`. -/
def ofPair (top bottom : ℕ) : U256 := ⟨top, bottom⟩

/-- `uint256(int bottom)` (int256.h:209-210): sign extension. -/
def ofInt (bottom : ℤ) : U256 := ⟨if bottom < 0 then trunc 128 (-1) else 0, trunc 128 bottom⟩

/-- Conversion to an unsigned `w`-bit integer, `w ≤ 128` (int256.h:249-311): the low word, truncated.
The conversions to signed types are the same bits reinterpreted; those to floating point are not
modelled. -/
def toWord (w : ℕ) (a : U256) : ℕ := a.lo % 2 ^ w

/-- `operator bool` (int256.h:249). -/
def toBool (a : U256) : Bool := a.lo != 0 || a.hi != 0

/-- `Uint256Max` (int256.h:139-142). -/
def max : U256 := ⟨B - 1, B - 1⟩

/-- `operator==` (int256.h:183-196). -/
def eq (a b : U256) : Bool := a.lo == b.lo && a.hi == b.hi

/-- `operator<` (int256.h:331-350, `CMP256(<)`). -/
def lt (a b : U256) : Bool := if a.hi = b.hi then decide (a.lo < b.lo) else decide (a.hi < b.hi)
/-- `operator>` (int256.h:331-350). -/
def gt (a b : U256) : Bool := if a.hi = b.hi then decide (a.lo > b.lo) else decide (a.hi > b.hi)
/-- `operator>=` (int256.h:331-350). -/
def ge (a b : U256) : Bool := if a.hi = b.hi then decide (a.lo ≥ b.lo) else decide (a.hi ≥ b.hi)
/-- `operator<=` (int256.h:331-350). -/
def le (a b : U256) : Bool := if a.hi = b.hi then decide (a.lo ≤ b.lo) else decide (a.hi ≤ b.hi)

/-- `~x` on 128 bits (int256.h:385-392). -/
def flip (x : ℕ) : ℕ := B - 1 - x

/-- Unary `operator-` (int256.h:356-370). -/
def neg (a : U256) : U256 :=
  let hiFlip := flip a.hi
  let loFlip := flip a.lo
  let loAdd := (loFlip + 1) % B
  if loAdd < loFlip then ⟨(hiFlip + 1) % B, loAdd⟩ else ⟨hiFlip, loAdd⟩

/-- `operator!` (int256.h:372-380). -/
def lnot (a : U256) : Bool := a.hi == 0 && a.lo == 0
/-- `operator~` (int256.h:384-392). -/
def compl (a : U256) : U256 := ⟨flip a.hi, flip a.lo⟩
/-- `operator|` and `|=` (int256.h:394-427). -/
def or (a b : U256) : U256 := ⟨a.hi ||| b.hi, a.lo ||| b.lo⟩
/-- `operator&` and `&=` (int256.h:394-427). -/
def and (a b : U256) : U256 := ⟨a.hi &&& b.hi, a.lo &&& b.lo⟩
/-- `operator^` and `^=` (int256.h:394-427). -/
def xor (a b : U256) : U256 := ⟨a.hi ^^^ b.hi, a.lo ^^^ b.lo⟩

/-- The `amount < 128`, `amount != 0` branch of `operator<<=` (int256.h:441-456). -/
def shlLow (a : U256) (n : ℕ) : U256 :=
  ⟨(a.hi <<< n) % B ||| (a.lo >>> (128 - n)), (a.lo <<< n) % B⟩

/-- The `amount < 128`, `amount != 0` branch of `operator>>=` (int256.h:458-473). -/
def shrLow (a : U256) (n : ℕ) : U256 :=
  ⟨a.hi >>> n, (a.lo >>> n) ||| (a.hi <<< (128 - n)) % B⟩

/-- `operator<<=` (int256.h:441-456); a negative amount shifts a 128-bit word by a negative amount. -/
def shl (a : U256) (amount : ℤ) : Outcome U256 :=
  if amount < 0 then .ub .badShift
  else
    let n := amount.toNat
    if n < 128 then
      if n ≠ 0 then .ok (shlLow a n)
      else .ok a
    else if n < 256 then .ok ⟨(a.lo <<< (n - 128)) % B, 0⟩
    else .ok ⟨0, 0⟩

/-- `operator>>=` (int256.h:458-473). -/
def shr (a : U256) (amount : ℤ) : Outcome U256 :=
  if amount < 0 then .ub .badShift
  else
    let n := amount.toNat
    if n < 128 then
      if n ≠ 0 then .ok (shrLow a n)
      else .ok a
    else if n < 256 then .ok ⟨0, a.hi >>> (n - 128)⟩
    else .ok ⟨0, 0⟩

/-- `operator+=` (int256.h:495-500). -/
def add (a b : U256) : U256 :=
  let hi := (a.hi + b.hi) % B
  let hi := (hi + if (a.lo + b.lo) % B < a.lo then 1 else 0) % B
  ⟨hi, (a.lo + b.lo) % B⟩

/-- `operator-=` (int256.h:502-507). -/
def sub (a b : U256) : U256 :=
  let hi := trunc 128 ((a.hi : ℤ) - b.hi)
  let hi := trunc 128 ((hi : ℤ) - if b.lo > a.lo then 1 else 0)
  ⟨hi, trunc 128 ((a.lo : ℤ) - b.lo)⟩

/-- `operator*=` (int256.h:509-544).  The shift by the literal 64 is the `n < 128` branch of `shl`. -/
def mul (a b : U256) : U256 :=
  let a64 := a.lo / 2 ^ 64
  let a00 := a.lo % 2 ^ 64
  let b64 := b.lo / 2 ^ 64
  let b00 := b.lo % 2 ^ 64
  let hi := (a.hi * b.lo + a64 * b64 + a.lo * b.hi) % B
  let lo := (a00 * b00) % B
  let middle := add ⟨0, (a64 * b00) % B⟩ ⟨0, (a00 * b64) % B⟩
  add ⟨hi, lo⟩ (shlLow middle 64)

/-- `operator++` (int256.h:546-551, 560-564): the new value. -/
def inc (a : U256) : U256 :=
  let lo := (a.lo + 1) % B
  ⟨if lo = 0 then (a.hi + 1) % B else a.hi, lo⟩

/-- `operator--` (int256.h:553-558, 566-570): the new value. -/
def dec (a : U256) : U256 :=
  ⟨if a.lo = 0 then trunc 128 ((a.hi : ℤ) - 1) else a.hi, trunc 128 ((a.lo : ℤ) - 1)⟩

/-- The `STEP` macro (int256.cc:33-39) on `(n, pos)`. -/
def step (sh : ℕ) (s : ℕ × ℕ) : ℕ × ℕ :=
  if s.1 ≥ 2 ^ sh then (s.1 >>> sh, s.2 ||| sh) else s

/-- `Fls64` (int256.cc:40-49); `Uint32 n32 = n` truncates. -/
def fls64 (n : ℕ) : ℕ :=
  let s := step 0x20 (n, 0)
  let s := (s.1 % 2 ^ 32, s.2)
  let s := step 0x04 (step 0x08 (step 0x10 s))
  s.2 + ((0x3333333322221100 >>> (s.1 <<< 2)) &&& 0x3)

/-- `Fls128` (int256.cc:55-61, 74-80). -/
def fls128 (n : ℕ) : ℕ :=
  if n / 2 ^ 64 ≠ 0 then fls64 (n / 2 ^ 64) + 64 else fls64 (n % 2 ^ 64)

/-- `Fls256` (int256.cc:65-71, 82-88). -/
def fls256 (n : U256) : ℕ := if n.hi ≠ 0 then fls128 n.hi + 128 else fls128 n.lo

/-- Loop body of `DivModImpl` (int256.cc:123-130) on `(dividend, denominator, quotient)`; the shifts
by the literal 1 are the `n < 128` branches of `shl` and `shr`. -/
def divStep (s : U256 × U256 × U256) : U256 × U256 × U256 :=
  let q := shlLow s.2.2 1
  let den := shrLow s.2.1 1
  if ge s.1 s.2.1 then (sub s.1 s.2.1, den, or q ⟨0, 1⟩) else (s.1, den, q)

/-- `k` iterations of the loop (int256.cc:123-130). -/
def divLoop : ℕ → U256 × U256 × U256 → U256 × U256 × U256
  | 0, s => s
  | k + 1, s => divLoop k (divStep s)

/-- `uint256::DivModImpl` (int256.cc:94-134): `(quotient, remainder)`; a zero divisor is
`LOG(FATAL)`. -/
def divMod (dividend divisor : U256) : Outcome (U256 × U256) :=
  if eq divisor ⟨0, 0⟩ then .ub .fatal
  else if gt divisor dividend then .ok (⟨0, 0⟩, dividend)
  else if eq divisor dividend then .ok (⟨0, 1⟩, ⟨0, 0⟩)
  else do
    let shift : ℤ := (fls256 dividend : ℤ) - fls256 divisor
    let den ← shl divisor shift
    let s := divLoop (shift + 1).toNat (dividend, den, ⟨0, 0⟩)
    return (s.2.2, s.1)

/-- `operator/=` (int256.cc:136-142). -/
def div (a b : U256) : Outcome U256 := do let r ← divMod a b; return r.1
/-- `operator%=` (int256.cc:143-149). -/
def mod (a b : U256) : Outcome U256 := do let r ← divMod a b; return r.2

end U256
end Shell
