import Verif.Model.Montgomery
import Verif.Model.Prng
import Verif.Model.Transcription
/-!
# Samplers: `ImportRandom`, `SamplePolynomialFromPrng`, `SampleFromErrorDistribution`,
`SampleFromUniformTernary` and `DiscreteGaussianSampler`

The samplers take a `SecurePrng*`.  `Gen σ` is that interface: a state and the two calls, each of
which may fail.  Loops of rejection sampling have no bound in the code; they are given an arbitrary
number of iterations `fuel`, and running out of it is the distinct outcome `ub diverge`.
-/

namespace Shell

/-- The interface `SecurePrng` (prng/prng.h:30-32). -/
structure Gen (σ : Type) where
  rand8 : σ → Outcome (ℕ × σ)
  rand64 : σ → Outcome (ℕ × σ)

/-- The generators of `Verif.Model.Prng` behind that interface (prng/prng.h:28-37). -/
def Prng.gen (K : Prng.Kind) : Gen Prng.State where
  rand8 := Prng.rand8 K
  rand64 := Prng.rand64 K

namespace Sampler
variable {σ : Type}

/-! ### Uniform residues -/

/-- The loop of `MontgomeryInt::GenerateRandomInt` (montgomery.h:633-655) for `w`-bit words.  Each
iteration takes at least one bit, so `bits` iterations suffice. -/
def generateLoop (G : Gen σ) (w : ℕ) : ℕ → ℕ → ℕ → σ → Outcome (ℕ × σ)
  | 0, bits, rand, s => if bits = 0 then .ok (rand, s) else .ub .diverge
  | fuel + 1, bits, rand, s =>
    if bits = 0 then .ok (rand, s)
    else if bits ≤ 8 then do
      let (r, s) ← G.rand8 s
      let randBits := r % 2 ^ w
      let m ← Transcription.shl w 1 bits
      let needed := randBits &&& trunc w ((m : ℤ) - 1)
      let hi ← Transcription.shl w rand bits
      .ok (trunc w (hi + needed : ℤ), s)
    else do
      let (r, s) ← G.rand64 s
      let randBits := r % 2 ^ w
      let k := min bits (min w 64)
      let m ← Transcription.shl w 1 k
      let needed := randBits &&& trunc w ((m : ℤ) - 1)
      let hi ← Transcription.shl w rand k
      generateLoop G w fuel (bits - k) (trunc w (hi + needed : ℤ)) s

/-- `MontgomeryInt::GenerateRandomInt` (montgomery.h:625-657). -/
def generateRandomInt (G : Gen σ) (w logModulus : ℕ) (s : σ) : Outcome (ℕ × σ) :=
  generateLoop G w logModulus logModulus 0 s

/-- `MontgomeryInt::ImportRandom` (montgomery.h:254-267), with at most `fuel` draws. -/
def importRandom (G : Gen σ) (p : MParams) : ℕ → σ → Outcome (ℕ × σ)
  | 0, _ => .ub .diverge
  | fuel + 1, s => do
    let (r, s) ← generateRandomInt G p.w p.logModulus s
    if r ≥ p.modulus then importRandom G p fuel s else .ok (r, s)

/-- `SamplePolynomialFromPrng` (polynomial.h:351-371): the coefficients of the polynomial. -/
def samplePolynomial (G : Gen σ) (p : MParams) (fuel : ℕ) (numCoeffs : ℤ) (s : σ) :
    Outcome (List ℕ × σ) :=
  if numCoeffs < 1 then .err .invalidArgument
  else loop numCoeffs.toNat (fun _ (r : List ℕ × σ) => do
    let (c, s) ← importRandom G p fuel r.2
    .ok (r.1 ++ [c], s)) ([], s)

/-! ### Errors -/

/-- `kMaxVariance` (constants.h:67). -/
def kMaxVariance : ℕ := 256

/-- The inner loop of `SampleFromErrorDistribution` (sample_error.h:64-87): `k` pairs of bits left,
current `coefficient`.  Each iteration takes at least one pair. -/
def errorLoop (G : Gen σ) (w : ℕ) : ℕ → ℕ → ℕ → σ → Outcome (ℕ × σ)
  | 0, k, c, s => if k = 0 then .ok (c, s) else .ub .diverge
  | fuel + 1, k, c, s =>
    if k = 0 then .ok (c, s)
    else if k ≥ 64 then do
      let (r, s) ← G.rand64 s
      let c := trunc w ((c : ℤ) + Bits.countOnes64 r)
      let (r, s) ← G.rand64 s
      let c := trunc w ((c : ℤ) - Bits.countOnes64 r)
      errorLoop G w fuel (k - 64) c s
    else if k ≥ 8 then do
      let (r, s) ← G.rand8 s
      let c := trunc w ((c : ℤ) + Bits.countOnesInByte r)
      let (r, s) ← G.rand8 s
      let c := trunc w ((c : ℤ) - Bits.countOnesInByte r)
      errorLoop G w fuel (k - 8) c s
    else do
      let mask := (1 <<< k - 1) % 2 ^ 8
      let (r, s) ← G.rand8 s
      let c := trunc w ((c : ℤ) + Bits.countOnesInByte (r &&& mask))
      let (r, s) ← G.rand8 s
      let c := trunc w ((c : ℤ) - Bits.countOnesInByte (r &&& mask))
      .ok (c, s)

/-- The reduction after the loop (sample_error.h:92-93): the mask is all ones or zero. -/
def errorReduce (p : MParams) (c : ℕ) : ℕ :=
  trunc p.w ((c : ℤ) - if c ≥ p.modulus then (p.modulus : ℤ) else 0)

/-- `SampleFromErrorDistribution` (sample_error.h:43-100). -/
def sampleError (G : Gen σ) (p : MParams) (numCoeffs variance : ℕ) (s : σ) : Outcome (List ℕ × σ) :=
  if variance > kMaxVariance then .err .invalidArgument
  else loop numCoeffs (fun i (r : List ℕ × σ) => do
    let k := variance <<< 1
    let (c, s) ← errorLoop G p.w k k p.modulus r.2
    let coeffs ← wr r.1 i (Mont.importInt p (errorReduce p c))
    .ok (coeffs, s)) (List.replicate numCoeffs 0, s)

/-! ### Uniform ternary -/

/-- The rejection loop of `SampleFromUniformTernary` (sampler/uniform_ternary.h:66-72) on
`(missing_bits, encoding_bits0, encoding_bits1)`. -/
def ternaryRounds (G : Gen σ) : ℕ → ℕ → ℕ → ℕ → σ → Outcome (ℕ × ℕ × σ)
  | 0, missing, e0, e1, s => if missing = 0 then .ok (e0, e1, s) else .ub .diverge
  | fuel + 1, missing, e0, e1, s =>
    if missing = 0 then .ok (e0, e1, s)
    else do
      let (r0, s) ← G.rand8 s
      let (r1, s) ← G.rand8 s
      let e0 := e0 ^^^ (r0 &&& missing)
      let e1 := e1 ^^^ (r1 &&& missing)
      ternaryRounds G fuel ((0xFF ^^^ e0) &&& e1) e0 e1 s

/-- The selected value (sampler/uniform_ternary.h:75-80). -/
def ternaryValue (p : MParams) (e0 e1 i : ℕ) : ℕ :=
  let plus := 1
  let minus := trunc p.w ((p.modulus : ℤ) - 1)
  let mask := (1 <<< i) % 2 ^ 8
  let bit0 : Bool := decide (e0 &&& mask > 0)
  let bit1 : Bool := decide (e1 &&& mask > 0)
  let isPlus := trunc p.w (-(if bit0 && !bit1 then (1 : ℤ) else 0))
  let isMinus := trunc p.w (-(if bit0 && bit1 then (1 : ℤ) else 0))
  (isPlus &&& plus) ||| (isMinus &&& minus)

/-- The outer loop (sampler/uniform_ternary.h:59-86); it runs at most `numCoeffs` times. -/
def ternaryLoop (G : Gen σ) (p : MParams) (fuel : ℕ) : ℕ → ℕ → List ℕ → σ → Outcome (List ℕ × σ)
  | 0, n, coeffs, s => if n = 0 then .ok (coeffs, s) else .ub .diverge
  | k + 1, n, coeffs, s =>
    if n = 0 then .ok (coeffs, s)
    else do
      let filled := min n 8
      let missing := if filled < 8 then (1 <<< filled - 1) % 2 ^ 8 else 0xFF
      let (e0, e1, s) ← ternaryRounds G fuel missing 0 0 s
      let coeffs := coeffs ++ (List.range filled).map fun i =>
        Mont.importInt p (ternaryValue p e0 e1 i)
      ternaryLoop G p fuel k (n - filled) coeffs s

/-- `SampleFromUniformTernary` (sampler/uniform_ternary.h:33-88); the pointers are not null. -/
def sampleTernary (G : Gen σ) (p : MParams) (fuel : ℕ) (numCoeffs : ℤ) (s : σ) :
    Outcome (List ℕ × σ) :=
  if numCoeffs ≤ 0 then .err .invalidArgument
  else ternaryLoop G p fuel numCoeffs.toNat numCoeffs.toNat [] s

/-! ### Discrete Gaussian

The sampler's floating-point quantities enter only through the integers computed from them: the table
`cdt`, the per-level weight `z` (`floor` of a positive double, cast to `Integer`), and for the final
combination `ceil(..)`.  They are parameters: `z lvl` is the weight of level `lvl`. -/

/-- `FindInCdt` (sampler/discrete_gaussian.cc:43-50). -/
def findInCdt (cdt : List ℕ) (u : ℕ) : ℕ :=
  cdt.foldl (fun index c => index + if c < u then 1 else 0) 0

/-- `SampleBase` (sampler/discrete_gaussian.cc:123-134) for `w`-bit `Integer`s. -/
def sampleBase (G : Gen σ) (w : ℕ) (cdt : List ℕ) (s : σ) : Outcome (ℕ × σ) := do
  let (u, s) ← G.rand64 s
  let index := findInCdt cdt (u &&& (1 <<< 63 - 1)) % 2 ^ w
  let center := (cdt.length / 2) % 2 ^ w
  .ok (trunc w ((index : ℤ) - center), s)

/-- The inner loop body (sampler/discrete_gaussian.cc:203-209): iteration `k` has `j = 2 * gap * k`. -/
def combineStep (w z gap k : ℕ) (samples : List ℕ) : Outcome (List ℕ) := do
  let j := 2 * gap * k
  let x1 ← rd samples j
  let x2 ← rd samples (j + gap)
  let y1 := (z % 2 ^ w * x1) % 2 ^ w
  let y2 := (max 1 (z - 1) % 2 ^ w * x2) % 2 ^ w
  wr samples j ((y1 + y2) % 2 ^ w)

/-- `SampleIIterative` (sampler/discrete_gaussian.cc:160-213), without the returned double.
`1 << i` is an `int` expression: for `i ≥ 32` it is undefined, and for `i = 31` it is no positive
number of samples (a negative size for `reserve`); both are the outcome `badShift`. The inner loop runs for
`j = 0, 2*gap, … < num_samples`, which is `num_samples / (2 * gap)` times. -/
def sampleIIterative (G : Gen σ) (w : ℕ) (cdt : List ℕ) (z : ℕ → ℕ) (i : ℤ) (s : σ) :
    Outcome (ℕ × σ) :=
  if i < 0 then .err .invalidArgument
  else if i = 0 then sampleBase G w cdt s
  else if i ≥ 31 then .ub .badShift
  else do
    let num := 1 <<< i.toNat
    let (samples, s) ← loop num (fun _ (r : List ℕ × σ) => do
      let (x, s) ← sampleBase G w cdt r.2
      .ok (r.1 ++ [x], s)) ([], s)
    let samples ← loop i.toNat (fun lvl samples =>
      let gap := 1 <<< lvl
      loop (num / (2 * gap)) (combineStep w (z lvl) gap) samples) samples
    let x ← rd samples 0
    .ok (x, s)

/-- `SampleWithIterations` (sampler/discrete_gaussian.cc:89-121) for a standard deviation that is not
below the base; `zTop` is the final `z`. -/
def sampleWithIterations (G : Gen σ) (w : ℕ) (cdt : List ℕ) (z : ℕ → ℕ) (zTop : ℕ) (i : ℤ) (s : σ) :
    Outcome (ℕ × σ) :=
  if i < 0 then .err .invalidArgument
  else if i = 0 then sampleBase G w cdt s
  else do
    let (x1, s) ← sampleIIterative G w cdt z i s
    let (x2, s) ← sampleIIterative G w cdt z i s
    let y1 := (zTop % 2 ^ w * x1) % 2 ^ w
    let y2 := ((zTop - 1) % 2 ^ w * x2) % 2 ^ w
    .ok ((y1 + y2) % 2 ^ w, s)

end Sampler
end Shell
