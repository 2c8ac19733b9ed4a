import Verif.Model.Montgomery
import Verif.Model.Loop
/-!
# `shell_encryption/ntt_parameters.{h,cc}` and `shell_encryption/dft_transformations.h`
-/

namespace Shell.Ntt

/-- `kMaxLogNumCoeffs` (constants.h:66). -/
def kMaxLogNumCoeffs : ℕ := 15

/-! ## Precomputed tables -/

/-- Search loop of `PrimitiveNthRootOfUnity` (ntt_parameters.h:54-66) with candidate `t` and `fuel`
candidates left. -/
def rootLoop (p : MParams) (k halfN : ℕ) : ℕ → ℕ → Outcome ℕ
  | 0, _ => .err .unknown
  | fuel + 1, t =>
    let candidate := Mont.modExp p (Mont.importInt p t) k
    if Mont.beq (Mont.modExp p candidate halfN) (Mont.importOne p) then rootLoop p k halfN fuel (t + 1)
    else .ok candidate

/-- `PrimitiveNthRootOfUnity` (ntt_parameters.h:41-71).  `One() << log_n` is an `Int` expression. -/
def primitiveRoot (p : MParams) (logN : ℕ) : Outcome ℕ :=
  let n := trunc p.w ((1 <<< logN : ℕ) : ℤ)
  let halfN := n >>> 1
  if n = 0 then .ub .divByZero
  else
    let k := trunc p.w ((p.modulus : ℤ) - 1) / n
    rootLoop p k halfN (p.modulus - 2) 2

/-- `NttPsis` with `FillWithEveryPower` (ntt_parameters.h:31-38, 79-92). -/
def nttPsis (p : MParams) (logN : ℕ) : Outcome (List ℕ) := do
  let psi ← primitiveRoot p (logN + 1)
  return (List.range (2 ^ logN)).map fun i => Mont.add p (Mont.importZero p) (Mont.modExp p psi i)

/-- Loop of `Bitrev` (ntt_parameters.cc:23-27) on `(output, input)`. -/
def bitrevLoop : ℕ → ℕ → ℕ → ℕ
  | 0, output, _ => output
  | k + 1, output, input => bitrevLoop k ((output <<< 1) % 2 ^ 32 ||| (input &&& 1)) (input >>> 1)

/-- `Bitrev` (ntt_parameters.cc:21-30). -/
def bitrev (input logN : ℕ) : ℕ := bitrevLoop logN 0 input

/-- `BitrevArray` (ntt_parameters.cc:32-41). -/
def bitrevArray (logN : ℕ) : List ℕ := (List.range (2 ^ logN)).map fun i => bitrev i logN

/-- `BitrevHelper` (ntt_parameters.h:100-110). -/
def bitrevHelper (bitrevs : List ℕ) (item : List ℕ) : Outcome (List ℕ) :=
  loop item.length (fun i v => do
    let r ← rd bitrevs i
    if i < r then do
      let x ← rd v i
      let y ← rd v r
      let v ← wr v i y
      wr v r x
    else return v) item

/-- `NttPsisBitrev` (ntt_parameters.h:117-126). -/
def nttPsisBitrev (p : MParams) (logN : ℕ) : Outcome (List ℕ) := do
  let psis ← nttPsis p logN
  bitrevHelper (bitrevArray logN) psis

/-- `NttPsisInvBitrev` (ntt_parameters.h:130-157). -/
def nttPsisInvBitrev (p : MParams) (logN : ℕ) : Outcome (List ℕ) := do
  let row ← nttPsis p logN
  let row := row.take 1 ++ (row.drop 1).reverse
  let negPsiInv ← rd row 1
  let psiInv := Mont.negate p negPsiInv
  let row ← bitrevHelper (bitrevArray logN) row
  loop row.length (fun i v => do
    let x ← rd v i
    wr v i (Mont.mul p x (if i = 0 then psiInv else negPsiInv))) row

/-- `struct NttParameters` (ntt_parameters.h:160-179). -/
structure NttParams where
  numberCoeffs : ℕ
  nInv : ℕ
  psisBitrev : List ℕ
  psisBitrevConstant : List (ℕ × ℕ)
  psisInvBitrev : List ℕ
  psisInvBitrevConstant : List (ℕ × ℕ)
  bitrevs : List ℕ
  deriving Repr

/-- `InitializeNttParameters` (ntt_parameters.h:183-235). -/
def initNtt (p : MParams) (logN : ℤ) : Outcome NttParams :=
  if logN ≤ 0 then .err .invalidArgument
  else if logN > kMaxLogNumCoeffs then .err .invalidArgument
  else
    let l := logN.toNat
    if ¬ MParams.doesLogNFit p.w l then .err .invalidArgument
    else
      let twoTimesN := trunc p.w ((1 <<< (l + 1) : ℕ) : ℤ)
      if p.modulus % twoTimesN ≠ 1 then .err .invalidArgument
      else do
        let n := trunc p.w ((1 <<< l : ℕ) : ℤ)
        let nInv := Mont.multiplicativeInverse p (Mont.importInt p n)
        let psis ← nttPsisBitrev p l
        let psisInv ← nttPsisInvBitrev p l
        return { numberCoeffs := 1 <<< l, nInv := nInv, psisBitrev := psis,
                 psisBitrevConstant := psis.map (Mont.getConstant p),
                 psisInvBitrev := psisInv,
                 psisInvBitrevConstant := psisInv.map (Mont.getConstant p),
                 bitrevs := bitrevArray l }

/-! ## Butterflies -/

/-- The body of the innermost loop of both transforms: replace positions `k+j` and `k+j+halfM` by the
two results of the butterfly `bf` (dft_transformations.h:70-80, 132-145). -/
def bfStep {α : Type} (bf : α → α → α × α) (halfM k j : ℕ) (v : List α) : Outcome (List α) := do
  let b ← rd v (k + j + halfM)
  let a ← rd v (k + j)
  let v ← wr v (k + j) (bf a b).1
  wr v (k + j + halfM) (bf a b).2

/-- Cooley-Tukey butterfly (dft_transformations.h:70-92). -/
def ctButterfly (p : MParams) (lazy : Bool) (c : ℕ × ℕ) (a b : ℕ) : ℕ × ℕ :=
  let t := Mont.mulConstant p b c.1 c.2
  if lazy then (Mont.lazyAdd p a t, Mont.lazySub p a t)
  else (Mont.add p a t, Mont.sub p a t)

/-- One layer of `IterativeCooleyTukey` (dft_transformations.h:63-97) on `(index_psi, coeffs)`; the
block loop runs while `k < coeffs.size()`. -/
def ctLayer (p : MParams) (table : List (ℕ × ℕ)) (i : ℕ) (s : ℕ × List ℕ) : Outcome (ℕ × List ℕ) :=
  let halfM := 1 <<< i
  let m := halfM <<< 1
  loop ((s.2.length + m - 1) / m) (fun blk s => do
    let c ← rd table s.1
    let v ← loop halfM (fun j v => bfStep (ctButterfly p (i % 2 = 1) c) halfM (blk * m) j v) s.2
    return (s.1 + 1, v)) s

/-- `IterativeCooleyTukey` (dft_transformations.h:58-99). -/
def iterativeCooleyTukey (p : MParams) (table : List (ℕ × ℕ)) (logLen : ℕ) (v : List ℕ) :
    Outcome (List ℕ) := do
  let s ← loop logLen (fun r s => ctLayer p table (logLen - 1 - r) s) (1, v)
  return s.2

/-- Gentleman-Sande butterfly (dft_transformations.h:139-147). -/
def gsButterfly (p : MParams) (c : ℕ × ℕ) (u t : ℕ) : ℕ × ℕ :=
  (Mont.add p u t, Mont.mulConstant p (Mont.lazySub p u t) c.1 c.2)

/-- One layer of `IterativeGentlemanSande` (dft_transformations.h:123-150). -/
def gsLayer (p : MParams) (table : List (ℕ × ℕ)) (i : ℕ) (s : ℕ × List ℕ) : Outcome (ℕ × List ℕ) :=
  let halfM := 1 <<< i
  let m := halfM <<< 1
  loop ((s.2.length + m - 1) / m) (fun blk s =>
    if s.1 ≥ table.length then .err .invalidArgument
    else do
      let c ← rd table s.1
      let v ← loop halfM (fun j v =>
        if blk * m + j + halfM ≥ v.length then .err .invalidArgument
        else bfStep (gsButterfly p c) halfM (blk * m) j v) s.2
      return (s.1 + 1, v)) s

/-- `IterativeGentlemanSande` (dft_transformations.h:117-152). -/
def iterativeGentlemanSande (p : MParams) (table : List (ℕ × ℕ)) (logLen : ℕ) (v : List ℕ) :
    Outcome (List ℕ) := do
  let s ← loop logLen (fun i s => gsLayer p table i s) (0, v)
  return s.2

/-- `ForwardNumberTheoreticTransform` (dft_transformations.h:157-175).  `log2(size)` truncated to
`int` is modelled as the exact floor logarithm; for the empty vector it is `-inf`, whose conversion to
`int` is undefined; sizes of `2^31` and more are not representable in the `int` computations. -/
def forward (p : MParams) (q : NttParams) (v : List ℕ) : Outcome (List ℕ) :=
  if v.length = 0 then .ub .signedOverflow
  else if v.length ≥ 2 ^ 31 then .ub .badShift
  else
    let logLen := Nat.log2 v.length
    if v.length ≠ 1 <<< logLen then .err .invalidArgument
    else iterativeCooleyTukey p q.psisBitrevConstant logLen v

/-- `InverseNumberTheoreticTransform` (dft_transformations.h:180-200); same remarks as `forward`. -/
def inverse (p : MParams) (q : NttParams) (v : List ℕ) : Outcome (List ℕ) :=
  if v.length = 0 then .ub .signedOverflow
  else if v.length ≥ 2 ^ 31 then .ub .badShift
  else
    let logLen := Nat.log2 v.length
    if v.length ≠ 1 <<< logLen then .err .invalidArgument
    else do
      let v ← iterativeGentlemanSande p q.psisInvBitrevConstant logLen v
      return v.map fun c => Mont.mul p c q.nInv

end Shell.Ntt
