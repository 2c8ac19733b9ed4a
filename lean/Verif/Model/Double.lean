import Verif.Model.Int256
import Verif.Model.Rns
import Mathlib.Data.Int.Log
import Mathlib.Data.Rat.Floor

/-! # The floating-point estimate of the basis conversions

`SwitchRnsBasis` and `ScaleAndSwitchRnsBasis` add up quotients in `double` arithmetic and round the sum.  A `double`
is modelled by the number that it stands for (a rational number here, a real number in C96), and the operations `/` and `+` by the exact operation followed by
rounding to 53 significant bits, ties to even, as IEEE 754 requires.  Simplified: the exponent is not bounded
(`c80_range` shows that the values which occur are far inside the range of a `double`, so that there is neither
overflow nor gradual underflow). -/

namespace Shell.Double

variable {K : Type} [Field K] [LinearOrder K] [IsStrictOrderedRing K] [FloorRing K]

/-- The integer nearest to `x`, the even one if there are two: the rounding of a significand in IEEE 754 arithmetic
(used by rns/rns_polynomial.cc:464, 470-473, 583, 589-592). -/
def roundEven (x : K) : ℤ :=
  if x - ⌊x⌋ < 1 / 2 then ⌊x⌋
  else if 1 / 2 < x - ⌊x⌋ then ⌊x⌋ + 1
  else if ⌊x⌋ % 2 = 0 then ⌊x⌋ else ⌊x⌋ + 1

/-- The result of an operation on `double`s whose exact value is `x` (used by rns/rns_polynomial.cc:464, 470-473, 583,
589-592, and error_params.h:68-174): `x` rounded to 53 significant bits. -/
def rnd (x : K) : K :=
  if x = 0 then 0 else roundEven (x * 2 ^ (52 - Int.log 2 |x|)) * 2 ^ (Int.log 2 |x| - 52)

/-- One round of the loop `us[k] += static_cast<double>(x) / static_cast<double>(q)` (rns/rns_polynomial.cc:467-475,
586-594).  `cast` is the conversion of an integer to a `double`. -/
def step (cast : ℕ → ℚ) (u : ℚ) (xq : ℕ × ℕ) : ℚ := rnd (u + rnd (cast xq.1 / cast xq.2))

/-- The sum `us[k]`, from the initial value `0.0` (rns/rns_polynomial.cc:466-475, 585-594). -/
def sum (cast : ℕ → ℚ) (c : List (ℕ × ℕ)) : ℚ := c.foldl (step cast) 0

/-- `static_cast<Int>(std::round(us[k]))` (rns/rns_polynomial.cc:508, 628); `us[k]` is not negative, where
`std::round` is `⌊u + 1/2⌋`. -/
def estimate (cast : ℕ → ℚ) : Rns.Estimate := fun c => ⌊sum cast c + 1 / 2⌋.toNat

/-- The conversion `static_cast<double>` of an unsigned integer to the nearest `double`
(rns/rns_polynomial.cc:464, 470, 583, 589). -/
def castNearest (n : ℕ) : K := rnd (n : K)

/-- The conversion of a number in two halves of `b` bits, which are converted and added: an `absl::uint128` on platforms
without a 128-bit integer type, `b = 64` (rns/rns_polynomial.cc:464, 470, 583, 589; `absl::uint128::operator double`), and a
`uint256`, `b = 128` (int256.h:319-321).  Scaling with `ldexp` is exact. -/
def castHalves (b n : ℕ) : K := rnd (rnd ((n % 2 ^ b : ℕ) : K) + rnd ((n / 2 ^ b : ℕ) : K) * 2 ^ b)

/-- `uint256::operator double` (int256.h:319-321). -/
def ofUint256 (a : U256) : ℚ := rnd (rnd (a.lo : ℚ) + rnd (a.hi : ℚ) * 2 ^ 128)

end Shell.Double
