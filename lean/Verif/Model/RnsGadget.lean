import Verif.Model.Gadget
import Verif.Model.RnsKeys
import Verif.Model.Relin
/-!
# `rns/rns_gadget.{h,cc}`, `rns/rns_galois_key.{h,cc}`, `rns/rns_relinearization_key.{h,cc}`

Pointers are not null, except where a check for null is modelled by a `Bool`.  The floating-point error
estimate is not modelled.
-/

namespace Shell.Rns
variable {σ τ : Type}

/-! ### The gadget -/

/-- `RnsGadget` (rns/rns_gadget.h:101-117). -/
structure RGadget where
  logBs : List ℕ
  dims : List ℕ
  gs : List (List ℕ)
  deriving Repr

/-- The first loop of `Create` (rns/rns_gadget.cc:71-75): `bs[i] = 1 << log_bs[i]`, shifted as an `int` and
stored in an integer of the word width, and `ks[i]`.  (`1 << 31` is undefined before C++20 and negative
since; it is modelled as undefined.) -/
def gadgetBases : List Modulus → List ℕ → Outcome (List (ℕ × ℕ))
  | [], [] => .ok []
  | m :: ms, b :: bs => do
    let s ← shl1 b
    let k ← Gadget.gadgetSize m.p.logModulus b
    let r ← gadgetBases ms bs
    return (trunc m.p.w s, k) :: r
  | _, _ => .ub .outOfBounds

/-- The loop over `j` (rns/rns_gadget.cc:92-99): `k` entries left, `cur` is `current_entry_qi`. -/
def gadgetEntries (zeros : List ℕ) (p : MParams) (i bi : ℕ) : ℕ → ℕ → List (List ℕ)
  | 0, _ => []
  | k + 1, cur => zeros.set i cur :: gadgetEntries zeros p i bi k (Mont.mul p cur bi)

/-- The loop over the moduli with index `i, i + 1, ..` (rns/rns_gadget.cc:85-100). -/
def gadgetRows (zeros : List ℕ) : ℕ → List Modulus → List (ℕ × ℕ) → List ℕ → List ℕ → Outcome (List (List ℕ))
  | _, [], [], [], [] => .ok []
  | i, m :: ms, (b, k) :: bks, h :: hs, v :: vs => do
    let rest ← gadgetRows zeros (i + 1) ms bks hs vs
    return gadgetEntries zeros m.p i (Mont.importInt m.p b) k (Mont.mul m.p h v) ++ rest
  | _, _, _, _, _ => .ub .outOfBounds

/-- `Create` (rns/rns_gadget.cc:42-102). -/
def RGadget.create (logN : ℤ) (logBs qHats qHatInvs : List ℕ) (ms : List Modulus) : Outcome RGadget :=
  if logN ≤ 0 then .err .invalidArgument
  else if ms.isEmpty then .err .invalidArgument
  else if logBs.length ≠ ms.length then .err .invalidArgument
  else if qHats.length ≠ ms.length then .err .invalidArgument
  else if qHatInvs.length ≠ ms.length then .err .invalidArgument
  else do
    let bks ← gadgetBases ms logBs
    let zeros := ms.map fun m => Mont.importZero m.p
    let gs ← gadgetRows zeros 0 ms bks qHats qHatInvs
    return ⟨logBs, bks.map (·.2), gs⟩

/-- `Dimension` (rns/rns_gadget.h:97). -/
def RGadget.dimension (g : RGadget) : ℕ := g.dims.sum

/-- The loop over `j` (rns/rns_gadget.cc:133-150) on the remaining digits modulo `moduli[i]`. -/
def decomposeDigits (ms : List Modulus) (i : ℕ) (mi : Modulus) : List (List ℕ) → Outcome (List RPoly)
  | [] => .ok []
  | d :: ds => do
    let x ← create ((ms.map fun mk => Convert.convertModulusBalanced d mi.p mk.p).set i d) false
    let rest ← decomposeDigits ms i mi ds
    return x :: rest

/-- The loop over the moduli with index `i, i + 1, ..` (rns/rns_gadget.cc:125-151).  `log_bs_[i]` and
`dims_[i]` are accessed without a check. -/
def decomposeLoop (ms : List Modulus) : ℕ → List Modulus → List (List ℕ) → List ℕ → List ℕ →
    Outcome (List RPoly)
  | _, [], [], _, _ => .ok []
  | i, m :: rest, a :: as, b :: bs, k :: ks => do
    let ds ← Gadget.baseDecompose m.p a b k
    let xs ← decomposeDigits ms i m ds
    let ys ← decomposeLoop ms (i + 1) rest as bs ks
    return xs ++ ys
  | _, _, _, _, _ => .ub .outOfBounds

/-- `Decompose` (rns/rns_gadget.cc:108-153). -/
def RGadget.decompose (g : RGadget) (a : RPoly) (ms : List Modulus) : Outcome (List RPoly) :=
  if a.ntt then .err .invalidArgument
  else if a.coeffs.length ≠ ms.length then .err .invalidArgument
  else decomposeLoop ms 0 ms a.coeffs g.logBs g.dims

/-- `Decompose` of several polynomials (rns/rns_gadget.h:78-89). -/
def RGadget.decomposeAll (g : RGadget) (as : List RPoly) (ms : List Modulus) : Outcome (List (List RPoly)) :=
  as.mapM fun a => g.decompose a ms

/-! ### Sampling the two columns of a key -/

/-- The loop of `SampleRandomPad` (rns/rns_galois_key.cc:97-104, rns/rns_relinearization_key.cc:105-112). -/
def samplePads (G : Gen σ) (fuel : ℕ) (logN : ℤ) (ms : List Modulus) : ℕ → σ → Outcome (List RPoly × σ)
  | 0, s => .ok ([], s)
  | k + 1, s => do
    let (a, s) ← sampleUniform G fuel logN ms s
    let (as, s) ← samplePads G fuel logN ms k s
    return (a :: as, s)

/-- One entry `b = t * e + z + u * s` of a key, with `u = -pad` and `z` the product of the gadget component
`g` with the source secret (rns/rns_galois_key.cc:158-173, rns/rns_relinearization_key.cc:156-173). -/
def keyEntry (G : Gen σ) (k : RKey) (variance : ℤ) (scalar : ℕ) (source pad : RPoly) (g : List ℕ) (s : σ) :
    Outcome (RPoly × σ) := do
  let z ← mulRns k.ms source g
  let u ← negate k.ms pad
  let (b, s) ← sampleErr G k.key.logN variance k.ms s
  let b ← mulInt k.ms b scalar
  let b ← add k.ms b z
  let b ← fusedMulAdd k.ms b u k.key
  return (b, s)

/-- The loop over the gadget components `gs` (rns/rns_galois_key.cc:157-174,
rns/rns_relinearization_key.cc:155-174); `pads[i]` is accessed without a check. -/
def keyEntries (G : Gen σ) (k : RKey) (variance : ℤ) (scalar : ℕ) (source : RPoly) :
    List (List ℕ) → List RPoly → σ → Outcome (List RPoly × List RPoly × σ)
  | [], pads, s => .ok ([], pads, s)
  | _ :: _, [], _ => .ub .outOfBounds
  | g :: gs, pad :: pads, s => do
    let (b, s) ← keyEntry G k variance scalar source pad g s
    let (bs, pads, s) ← keyEntries G k variance scalar source gs pads s
    return (b :: bs, pads, s)

/-- `sum += digits[i] * column[i]` in NTT form (rns/rns_galois_key.cc:269-281), for the first
`columns.length` digits; both vectors are accessed without a check. -/
def mulAddAll (ms : List Modulus) : List RPoly → List RPoly → RPoly → Outcome RPoly
  | _, [], acc => .ok acc
  | d :: ds, c :: cs, acc => do
    let acc ← fusedMulAdd ms acc d c
    mulAddAll ms ds cs acc
  | [], _ :: _, _ => .ub .outOfBounds

/-! ### Galois keys -/

/-- `RnsGaloisKey` (rns/rns_galois_key.h:272-289) with the gadget it points to and without the seed. -/
structure RGalois where
  as : List RPoly
  bs : List RPoly
  gadget : RGadget
  power : ℤ
  ms : List Modulus
  deriving Repr

/-- `CreateWithRandomPad` (rns/rns_galois_key.cc:107-181), on the generator created from the fresh seed. -/
def RGalois.createWithPad (G : Gen σ) (pads : List RPoly) (k : RKey) (power variance : ℤ) (g : RGadget)
    (prng : PrngType) (scalar : ℕ) (s : σ) : Outcome RGalois := do
  let n ← shl1 k.key.logN
  if power < 0 ∨ power.tmod 2 = 0 then .err .invalidArgument
  else if 2 * n ≥ 2 ^ 31 then .ub .signedOverflow
  else if power ≥ 2 * n then .err .invalidArgument
  else if variance ≤ 0 then .err .invalidArgument
  else if prng = .invalid then .err .invalidArgument
  else do
    let source ← substitute k.ms k.key power
    let gs ← (if g.gs.length < g.dimension then .ub .outOfBounds else .ok (g.gs.take g.dimension) :
      Outcome (List (List ℕ)))
    let (bs, _, _) ← keyEntries G k variance scalar source gs pads s
    return ⟨pads, bs, g, power, k.ms⟩

/-- `Create` (rns/rns_galois_key.cc:48-79): `Gp` is the generator created from the fresh seed of the pads. -/
def RGalois.create (Gp : Gen τ) (G : Gen σ) (fuel : ℕ) (k : RKey) (power variance : ℤ) (g : RGadget)
    (prng : PrngType) (scalar : ℕ) (sp : τ) (s : σ) : Outcome RGalois :=
  if prng = .invalid then .err .invalidArgument
  else do
    let (pads, _) ← samplePads Gp fuel k.key.logN k.ms g.dimension sp
    RGalois.createWithPad G pads k power variance g prng scalar s

/-- `CreateFromKeyComponents` (rns/rns_galois_key.cc:183-202). -/
def RGalois.fromComponents (as bs : List RPoly) (power : ℤ) (g : RGadget) (ms : List Modulus) :
    Outcome RGalois :=
  if as.length ≠ g.dimension ∨ bs.length ≠ g.dimension then .err .invalidArgument
  else .ok ⟨as, bs, g, power, ms⟩

/-- `SerializedRnsGaloisKey` (rns/serialization.proto:48-64). -/
structure SGalois where
  bs : List Serialized
  power : ℤ
  seed : List ℕ
  prng : PrngType

/-- `Serialize` (rns/rns_galois_key.h:125-134); the seed and type are those the key was created with. -/
def RGalois.serialize (k : RGalois) (seed : List ℕ) (prng : PrngType) : Outcome SGalois := do
  let bs ← k.bs.mapM (Rns.serialize k.ms)
  return ⟨bs, k.power, seed, prng⟩

/-- `Deserialize` (rns/rns_galois_key.cc:204-236): `start` is the state of the generator created from a
seed.  The number of polynomials is not compared with the dimension of the gadget. -/
def RGalois.deserialize (Gp : Gen τ) (start : List ℕ → τ) (fuel : ℕ) (x : SGalois) (g : RGadget)
    (ms : List Modulus) : Outcome RGalois :=
  if x.bs.length = 0 then .err .invalidArgument
  else do
    let bs ← x.bs.mapM (Rns.deserialize ms)
    let b0 ← rd bs 0
    if x.prng = .invalid then .err .invalidArgument
    else do
      let (as, _) ← samplePads Gp fuel b0.logN ms x.bs.length (start x.seed)
      return ⟨as, bs, g, x.power, ms⟩

/-- The checks of `ApplyToRlweCiphertext` (rns/rns_galois_key.cc:242-253, 315-326). -/
def RGalois.check (k : RGalois) (x : RCt) : Outcome Unit :=
  if x.power ≠ k.power then .err .invalidArgument
  else if x.ms.length ≠ k.ms.length then .err .invalidArgument
  else if x.c.length ≠ 2 then .err .invalidArgument
  else .ok ()

/-- The first `k` elements of a vector of polynomials, accessed without a check (rns/rns_galois_key.cc:265-281). -/
def firstK (xs : List RPoly) (k : ℕ) : Outcome (List RPoly) :=
  if xs.length < k then .ub .outOfBounds else .ok (xs.take k)

/-- `ApplyToRlweCiphertext` and `ApplyTo` (rns/rns_galois_key.cc:238-287, rns/rns_galois_key.h:136-161):
the ciphertext returned has power 1. -/
def RGalois.applyTo (k : RGalois) (x : RCt) : Outcome RCt := do
  k.check x
  let c1 ← x.component 1
  let c1 ← (if c1.ntt then toCoeff k.ms c1 else .ok c1 : Outcome RPoly)
  let digits ← k.gadget.decompose c1 k.ms
  let zero ← createZero c1.logN k.ms true
  let bs ← firstK k.bs k.gadget.dimension
  let as ← firstK k.as k.gadget.dimension
  let digits ← firstK digits k.gadget.dimension
  let digits ← digits.mapM (toNtt k.ms)
  let c0 ← mulAddAll k.ms digits bs zero
  let c1 ← mulAddAll k.ms digits as zero
  let d ← x.component 0
  let c0 ← add k.ms c0 d
  return ⟨[c0, c1], k.ms, 1⟩

/-- `PrecomputeRandomPad` (rns/rns_galois_key.cc:289-307). -/
def RGalois.precomputePad (k : RGalois) (digits : List RPoly) : Outcome RPoly :=
  if digits.length ≠ k.gadget.dimension then .err .invalidArgument
  else do
    let a0 ← rd k.as 0
    let zero ← createZero a0.logN k.ms true
    let as ← firstK k.as k.gadget.dimension
    mulAddAll k.ms digits as zero

/-! ### Relinearization keys -/

/-- `RnsRelinKey` (rns/rns_relinearization_key.h:166-183). -/
structure RRelin where
  as : List RPoly
  bs : List RPoly
  gadget : RGadget
  degree : ℤ
  ms : List Modulus
  deriving Repr

/-- `SampleRandomPad` (rns/rns_relinearization_key.cc:80-113). -/
def RRelin.samplePad (Gp : Gen τ) (fuel : ℕ) (dim degree logN : ℤ) (ms : List Modulus) (prng : PrngType)
    (sp : τ) : Outcome (List RPoly) :=
  if dim ≤ 0 then .err .invalidArgument
  else if degree ≤ 1 then .err .invalidArgument
  else if logN ≤ 0 then .err .invalidArgument
  else if prng = .invalid then .err .invalidArgument
  else do
    let (as, _) ← samplePads Gp fuel logN ms (dim * (degree - 1)).toNat sp
    return as

/-- The loop over `i = 2, .., degree` (rns/rns_relinearization_key.cc:153-175): `cnt` iterations left,
`secret` is `s^{i-1}`. -/
def relinBlocks (G : Gen σ) (k : RKey) (variance : ℤ) (scalar : ℕ) (gs : List (List ℕ)) :
    ℕ → RPoly → List RPoly → σ → Outcome (List RPoly)
  | 0, _, _, _ => .ok []
  | cnt + 1, secret, pads, s => do
    let secret ← mul k.ms secret k.key
    let (bs, pads, s) ← keyEntries G k variance scalar secret gs pads s
    let rest ← relinBlocks G k variance scalar gs cnt secret pads s
    return bs ++ rest

/-- `CreateWithRandomPad` (rns/rns_relinearization_key.cc:115-182).  (In the inner loop the code negates the
pad before it multiplies the gadget component.) -/
def RRelin.createWithPad (G : Gen σ) (pads : List RPoly) (k : RKey) (degree variance : ℤ) (g : RGadget)
    (scalar : ℕ) (s : σ) : Outcome RRelin :=
  if variance ≤ 0 then .err .invalidArgument
  else do
    let gs ← (if g.gs.length < g.dimension then .ub .outOfBounds else .ok (g.gs.take g.dimension) :
      Outcome (List (List ℕ)))
    let bs ← relinBlocks G k variance scalar gs (degree - 1).toNat k.key pads s
    return ⟨pads, bs, g, degree, k.ms⟩

/-- `Create` (rns/rns_relinearization_key.cc:44-78). -/
def RRelin.create (Gp : Gen τ) (G : Gen σ) (fuel : ℕ) (k : RKey) (degree variance : ℤ) (g : RGadget)
    (prng : PrngType) (scalar : ℕ) (sp : τ) (s : σ) : Outcome RRelin :=
  if degree ≤ 1 then .err .invalidArgument
  else if prng = .invalid then .err .invalidArgument
  else do
    let pads ← RRelin.samplePad Gp fuel g.dimension degree k.key.logN k.ms prng sp
    RRelin.createWithPad G pads k degree variance g scalar s

/-- The inner loop of `ApplyToRlweCiphertext` (rns/rns_relinearization_key.cc:220-227) on `(c0_new, c1_new)`,
`index = (i - 2) * l + j`. -/
def RRelin.applyBlock (k : RRelin) (digits : List RPoly) (l i : ℕ) (c : RPoly × RPoly) :
    Outcome (RPoly × RPoly) :=
  loop k.gadget.dimension (fun j (c : RPoly × RPoly) => do
    let d ← rd digits j
    let d ← toNtt k.ms d
    let b ← rd k.bs ((i - 2) * l + j)
    let c0 ← fusedMulAdd k.ms c.1 d b
    let a ← rd k.as ((i - 2) * l + j)
    let c1 ← fusedMulAdd k.ms c.2 d a
    return (c0, c1)) c

/-- The loop over `i = 2, .., l` (rns/rns_relinearization_key.cc:212-228). -/
def RRelin.applyLoop (k : RRelin) (x : RCt) (l : ℕ) (c : RPoly × RPoly) : Outcome (RPoly × RPoly) :=
  loop (l - 1) (fun i (c : RPoly × RPoly) => do
    let ci ← x.component (i + 2 : ℕ)
    let ci ← (if ci.ntt then toCoeff k.ms ci else .ok ci : Outcome RPoly)
    let digits ← k.gadget.decompose ci k.ms
    k.applyBlock digits l (i + 2) c) c

/-- `ApplyToRlweCiphertext` and `ApplyTo` (rns/rns_relinearization_key.cc:184-232,
rns/rns_relinearization_key.h:80-105). -/
def RRelin.applyTo (k : RRelin) (x : RCt) : Outcome RCt :=
  if (x.c.length : ℤ) - 1 > k.degree then .err .invalidArgument
  else if x.ms.length ≠ k.ms.length then .err .invalidArgument
  else if x.power ≠ 1 then .err .invalidArgument
  else do
    let c0 ← x.component 0
    let c1 ← x.component 1
    let c ← k.applyLoop x (x.c.length - 1) (c0, c1)
    return ⟨[c.1, c.2], k.ms, 1⟩

end Shell.Rns
