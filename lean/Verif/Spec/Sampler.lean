import Verif.Model.Sampler
/-!
Specification vocabulary for the samplers: drawing words from a generator, and what is made of them.
-/

namespace Shell.Spec
open Shell.Prng (Op)
variable {σ : Type}

/-- A generator returns words of the advertised size. -/
structure Words (G : Gen σ) : Prop where
  byte : ∀ s v s', G.rand8 s = .ok (v, s') → v < 2 ^ 8
  word : ∀ s v s', G.rand64 s = .ok (v, s') → v < 2 ^ 64

/-- One call of the generator. -/
def draw (G : Gen σ) : Op → σ → Outcome (ℕ × σ)
  | .rand8 => G.rand8
  | .rand64 => G.rand64

/-- Do `f` `n` times and collect the results. -/
def times {α : Type} (f : σ → Outcome (α × σ)) : ℕ → σ → Outcome (List α × σ)
  | 0, s => .ok ([], s)
  | n + 1, s => do
    let (x, s) ← f s
    let (xs, s) ← times f n s
    .ok (x :: xs, s)

/-- Consecutive calls of the given kinds. -/
def drawWords (G : Gen σ) : List Op → σ → Outcome (List ℕ × σ)
  | [], s => .ok ([], s)
  | op :: ops, s => do
    let (x, s) ← draw G op s
    let (xs, s) ← drawWords G ops s
    .ok (x :: xs, s)

/-- Consecutive calls in pairs of the same kind. -/
def drawPairs (G : Gen σ) : List Op → σ → Outcome (List (ℕ × ℕ) × σ)
  | [], s => .ok ([], s)
  | op :: ops, s => do
    let (x, s) ← draw G op s
    let (y, s) ← draw G op s
    let (xys, s) ← drawPairs G ops s
    .ok ((x, y) :: xys, s)

/-! ### Uniform integers of `L` bits -/

/-- How the `L` random bits of a candidate (`1 ≤ L < 128`) are obtained: which calls are made, and how
many bits of each returned word are used. -/
def pieces (L : ℕ) : List (Op × ℕ) :=
  if L ≤ 8 then [(.rand8, L)]
  else if L ≤ 64 then [(.rand64, L)]
  else if L ≤ 72 then [(.rand64, 64), (.rand8, L - 64)]
  else [(.rand64, 64), (.rand64, L - 64)]

/-- The number whose binary digits are the low `k` bits of the words, most significant word first. -/
def assemble : List ℕ → List ℕ → ℕ
  | k :: ks, x :: xs => (x % 2 ^ k) * 2 ^ ks.sum + assemble ks xs
  | _, _ => 0

/-! ### Centered binomial noise -/

/-- How `k` pairs of bits are drawn: 64-bit words as long as possible, then bytes, then the rest of
one byte. -/
def chunks (k : ℕ) : List (Op × ℕ) :=
  List.replicate (k / 64) (.rand64, 64) ++ List.replicate (k % 64 / 8) (.rand8, 8) ++
    if k % 8 = 0 then [] else [(.rand8, k % 8)]

/-- Number of ones among the low `b` bits. -/
def countBits (b x : ℕ) : ℕ := ((List.range b).filter fun i => x.testBit i).length

/-- Number of ones in the first words of the pairs minus number of ones in the second words, where
`b` bits of a pair are looked at. -/
def noise : List ℕ → List (ℕ × ℕ) → ℤ
  | b :: bs, (x, y) :: ps => ((countBits b x : ℤ) - countBits b y) + noise bs ps
  | _, _ => 0

/-! ### Ternary values -/

/-- The three values. -/
inductive Trit where
  | zero
  | plus
  | minus
  deriving DecidableEq, Repr

/-- The integer a ternary value stands for. -/
def Trit.toInt : Trit → ℤ
  | .zero => 0
  | .plus => 1
  | .minus => -1

/-- Rejection sampling of one ternary value from successive pairs of bits: three of the four patterns
of each round are accepted, one for each value. (The encoding of the later rounds is mirrored in the
second bit.) -/
def pick : Bool → List (Bool × Bool) → Option Trit
  | _, [] => none
  | true, (false, false) :: _ => some .zero
  | true, (true, false) :: _ => some .plus
  | true, (true, true) :: _ => some .minus
  | true, (false, true) :: r => pick false r
  | false, (false, true) :: _ => some .zero
  | false, (true, true) :: _ => some .plus
  | false, (true, false) :: _ => some .minus
  | false, (false, false) :: r => pick false r

/-- All `4^m` sequences of `m` pairs of bits. -/
def patterns : ℕ → List (List (Bool × Bool))
  | 0 => [[]]
  | m + 1 => (patterns m).flatMap fun r =>
      [(false, false) :: r, (false, true) :: r, (true, false) :: r, (true, true) :: r]

/-- The bits of position `i` in the pairs of bytes of successive rounds. -/
def bitsAt (i : ℕ) (rounds : List (ℕ × ℕ)) : List (Bool × Bool) :=
  rounds.map fun r => (r.1.testBit i, r.2.testBit i)

/-- The values picked so far at the positions `0, …, m - 1`. -/
def picked (m : ℕ) (rounds : List (ℕ × ℕ)) : List Trit :=
  (List.range m).filterMap fun i => pick true (bitsAt i rounds)

/-- Draw pairs of bytes, after the given ones, until each of the positions `0, …, m - 1` has picked its
value (giving up after `fuel` rounds). -/
def drawBatch (G : Gen σ) (m : ℕ) : ℕ → List (ℕ × ℕ) → σ → Outcome (List Trit × σ)
  | 0, rounds, s => if (picked m rounds).length = m then .ok (picked m rounds, s) else .ub .diverge
  | fuel + 1, rounds, s =>
    if (picked m rounds).length = m then .ok (picked m rounds, s)
    else do
      let (x, s) ← G.rand8 s
      let (y, s) ← G.rand8 s
      drawBatch G m fuel (rounds ++ [(x, y)]) s

/-- Batches of the given sizes, one after the other. -/
def drawTrits (G : Gen σ) (fuel : ℕ) : List ℕ → σ → Outcome (List Trit × σ)
  | [], s => .ok ([], s)
  | m :: ms, s => do
    let (ts, s) ← drawBatch G m fuel [] s
    let (us, s) ← drawTrits G fuel ms s
    .ok (ts ++ us, s)

/-- `n` positions in batches of eight. -/
def batches (n : ℕ) : List ℕ :=
  List.replicate (n / 8) 8 ++ if n % 8 = 0 then [] else [n % 8]

/-! ### Recursive Gaussian combination -/

/-- Algorithm `SampleI` of https://eprint.iacr.org/2017/259 on `w`-bit words:
`SampleI(0) = base`; `SampleI(i+1)` draws `x₁`, then `x₂` with `SampleI(i)` and returns
`z_i x₁ + max(1, z_i - 1) x₂`. -/
def sampleI (base : σ → Outcome (ℕ × σ)) (w : ℕ) (z : ℕ → ℕ) : ℕ → σ → Outcome (ℕ × σ)
  | 0, s => base s
  | i + 1, s => do
    let (x1, s) ← sampleI base w z i s
    let (x2, s) ← sampleI base w z i s
    .ok ((z i * x1 + max 1 (z i - 1) * x2) % 2 ^ w, s)

end Shell.Spec
