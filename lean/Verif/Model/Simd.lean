import Verif.Model.LazyRns
/-!
# `rns/rns_polynomial_hwy.cc`

A vector register with `N` lanes is a function from lane numbers; only the lanes below `N` matter.  The operations
of the Highway library are modelled as its reference documents them.  `N = hn::Lanes(d)` is a parameter: it depends on
the target.  Aligned loads are taken to be aligned.  (`LoadMaskBits` is documented to need eight readable bytes;
the code passes `(N + 7) / 8` bytes.  The model reads only the bits of the `N` lanes.)
-/

namespace Shell.Simd

/-- `hn::LoadU(d, p)` (Highway; rns/rns_polynomial_hwy.cc:78-79, 138-139). -/
def load (xs : List ℕ) (i : ℕ) : ℕ := xs.getD i 0

/-- `hn::MulEven` for lanes below 64 bits: wide lane `i` is `a[2i] * b[2i]`
(Highway; rns/rns_polynomial_hwy.cc:81). -/
def mulEvenWide (a b : ℕ → ℕ) (i : ℕ) : ℕ := a (2 * i) * b (2 * i)

/-- `hn::MulOdd` for lanes below 64 bits: wide lane `i` is `a[2i+1] * b[2i+1]`
(Highway; rns/rns_polynomial_hwy.cc:83). -/
def mulOddWide (a b : ℕ → ℕ) (i : ℕ) : ℕ := a (2 * i + 1) * b (2 * i + 1)

/-- `hn::InterleaveWholeLower`: the lower halves of two vectors, interleaved
(Highway; rns/rns_polynomial_hwy.cc:85, 152). -/
def interleaveLower (x y : ℕ → ℕ) (i : ℕ) : ℕ := if i % 2 = 0 then x (i / 2) else y (i / 2)

/-- `hn::InterleaveWholeUpper`: the upper halves of two vectors of `n` lanes, interleaved
(Highway; rns/rns_polynomial_hwy.cc:86, 153). -/
def interleaveUpper (n : ℕ) (x y : ℕ → ℕ) (i : ℕ) : ℕ :=
  if i % 2 = 0 then x (n / 2 + i / 2) else y (n / 2 + i / 2)

/-- `hn::Add` on lanes of `w` bits (Highway; rns/rns_polynomial_hwy.cc:88-89, 160-161). -/
def add (w : ℕ) (x y : ℕ → ℕ) (i : ℕ) : ℕ := (x i + y i) % 2 ^ w

/-- The words `[0, n)` of a register, stored (Highway; rns/rns_polynomial_hwy.cc:88-89). -/
def store (n : ℕ) (x : ℕ → ℕ) : List ℕ := (List.range n).map x

/-- The body of the vector loop for integers of at most 32 bits (rns/rns_polynomial_hwy.cc:71-90) on
`output[i..i+N]`, `a[i..i+N]`, `b[i..i+N]`. -/
def chunk (w N : ℕ) (out a b : List ℕ) : List ℕ :=
  let output0 := load out
  let output1 := load (out.drop (N / 2))
  let mulEven := mulEvenWide (load a) (load b)
  let mulOdd := mulOddWide (load a) (load b)
  let mul0 := interleaveLower mulEven mulOdd
  let mul1 := interleaveUpper (N / 2) mulEven mulOdd
  store (N / 2) (add (2 * w) output0 mul0) ++ store (N / 2) (add (2 * w) output1 mul1)

/-! ### 64-bit integers -/

/-- `reinterpret_cast<Uint64*>` of 128-bit integers, little-endian (rns/rns_polynomial_hwy.cc:131-132). -/
def loadWords (w : ℕ) (out : List ℕ) (i : ℕ) : ℕ :=
  if i % 2 = 0 then out.getD (i / 2) 0 % 2 ^ w else out.getD (i / 2) 0 / 2 ^ w

/-- `n / 2` 128-bit integers from `n` words (rns/rns_polynomial_hwy.cc:131-132, 169-170). -/
def storeWords (w n : ℕ) (x : ℕ → ℕ) : List ℕ := (List.range (n / 2)).map fun k => x (2 * k) + 2 ^ w * x (2 * k + 1)

/-- `hn::MulEven` on 64-bit lanes: the product of the even lanes `i`, in lanes `i` (lower half) and `i + 1`
(Highway; rns/rns_polynomial_hwy.cc:150). -/
def mulEven (w : ℕ) (a b : ℕ → ℕ) (i : ℕ) : ℕ :=
  if i % 2 = 0 then a i * b i % 2 ^ w else a (i - 1) * b (i - 1) / 2 ^ w

/-- `hn::MulOdd` on 64-bit lanes: the product of the odd lanes `i`, in lanes `i - 1` (lower half) and `i`
(Highway; rns/rns_polynomial_hwy.cc:151). -/
def mulOdd (w : ℕ) (a b : ℕ → ℕ) (i : ℕ) : ℕ :=
  if i % 2 = 0 then a (i + 1) * b (i + 1) % 2 ^ w else a i * b i / 2 ^ w

/-- `hn::Per4LaneBlockShuffle<3, 1, 2, 0>` for at least four lanes: lanes `0, 2, 1, 3` of every block of four
(Highway; rns/rns_polynomial_hwy.cc:154-155). -/
def shuffle (v : ℕ → ℕ) (i : ℕ) : ℕ :=
  v (4 * (i / 4) + (match i % 4 with | 0 => 0 | 1 => 2 | 2 => 1 | _ => 3))

/-- A byte of `mask_lo_bits` (rns/rns_polynomial_hwy.cc:115-121). -/
def maskByte : ℕ := 1 <<< 0 ||| 1 <<< 2 ||| 1 <<< 4 ||| 1 <<< 6

/-- `hn::LoadMaskBits(d, mask_lo_bits)` (Highway; rns/rns_polynomial_hwy.cc:122). -/
def maskLo (i : ℕ) : Bool := maskByte.testBit (i % 8)

/-- `hn::Slide1Up(d, hn::IfThenElseZero(mask_lo, hn::Set(d, 1)))` (rns/rns_polynomial_hwy.cc:125). -/
def ones (i : ℕ) : ℕ := if i = 0 then 0 else if maskLo (i - 1) then 1 else 0

/-- `output_new`, the carries and `MaskedAddOr` (rns/rns_polynomial_hwy.cc:157-167). -/
def addCarry (w : ℕ) (output mul : ℕ → ℕ) (i : ℕ) : ℕ :=
  let new := add w output mul
  let carry := fun j => decide (new j < output j) && maskLo j
  let slid := if i = 0 then false else carry (i - 1)
  if slid then (new i + ones i) % 2 ^ w else new i

/-- The body of the vector loop for 64-bit integers (rns/rns_polynomial_hwy.cc:129-171), with the operation `shuf` in
place of `Per4LaneBlockShuffle`. -/
def chunk64With (shuf : (ℕ → ℕ) → ℕ → ℕ) (w N : ℕ) (out a b : List ℕ) : List ℕ :=
  let output0 := loadWords w out
  let output1 := fun i => loadWords w out (N + i)
  let mulEven := mulEven w (load a) (load b)
  let mulOdd := mulOdd w (load a) (load b)
  let mul0 := shuf (interleaveLower mulEven mulOdd)
  let mul1 := shuf (interleaveUpper N mulEven mulOdd)
  storeWords w N (addCarry w output0 mul0) ++ storeWords w N (addCarry w output1 mul1)

/-- The body for four lanes or more (rns/rns_polynomial_hwy.cc:129-171). -/
def chunk64 : ℕ → ℕ → List ℕ → List ℕ → List ℕ → List ℕ := chunk64With shuffle

/-- `output[i] += static_cast<BigInteger>(a[i]) * b[i]` (rns/rns_polynomial_hwy.cc:93-96, 175-178, 196-199). -/
def scalarStep (w : ℕ) (a b : List ℕ) (i : ℕ) (out : List ℕ) : Outcome (List ℕ) := do
  let x ← rd a i
  let y ← rd b i
  let o ← rd out i
  wr out i ((o + x * y % 2 ^ (2 * w)) % 2 ^ (2 * w))

/-- `v[i..i+N]`, accessed without a check (rns/rns_polynomial_hwy.cc:76-79, 136-139). -/
def slice (v : List ℕ) (i N : ℕ) : Outcome (List ℕ) :=
  if v.length < i + N then .ub .outOfBounds else .ok ((v.drop i).take N)

/-- One iteration of the vector loop at index `i = k * N` (rns/rns_polynomial_hwy.cc:71-90, 128-171). -/
def vectorStep (body : List ℕ → List ℕ → List ℕ → List ℕ) (N : ℕ) (a b : List ℕ) (k : ℕ) (out : List ℕ) :
    Outcome (List ℕ) := do
  let x ← slice a (k * N) N
  let y ← slice b (k * N) N
  let o ← slice out (k * N) N
  return out.take (k * N) ++ body o x y ++ out.drop (k * N + N)

/-- `BatchFusedMulAddMontgomeryRepHwy` (rns/rns_polynomial_hwy.cc:57-97, 104-179): `num_coeffs / N` iterations of the
vector loop, then the remaining elements one by one. -/
def batch (body : List ℕ → List ℕ → List ℕ → List ℕ) (w N : ℕ) (a b out : List ℕ) : Outcome (List ℕ) := do
  let out ← loop (a.length / N) (vectorStep body N a b) out
  loop (a.length - a.length / N * N) (fun j => scalarStep w a b (a.length / N * N + j)) out

/-- `BatchFusedMulAddMontgomeryRepNoHwy` (rns/rns_polynomial_hwy.cc:190-200). -/
def batchScalar (w : ℕ) (a b out : List ℕ) : Outcome (List ℕ) := loop a.length (scalarStep w a b) out

/-- `BatchFusedMulAddMontgomeryRepHwy<Uint32>` (rns/rns_polynomial_hwy.cc:57-97). -/
def batch32 (N : ℕ) : List ℕ → List ℕ → List ℕ → Outcome (List ℕ) := batch (chunk 32 N) 32 N

/-- `BatchFusedMulAddMontgomeryRepHwy<Uint64>` for four lanes or more (rns/rns_polynomial_hwy.cc:104-179). -/
def batch64 (N : ℕ) : List ℕ → List ℕ → List ℕ → Outcome (List ℕ) := batch (chunk64 64 N) 64 N

end Shell.Simd
