import Verif.Model.RnsGadget
import Verif.Model.LazyPolynomial
/-!
# `rns/lazy_rns_polynomial.{h,cc}` and its users

`BigInt` has `2w` bits and wraps, where `w = 8 * sizeof(Integer)`.  The specialisations of `FusedMulAddInPlace`
for 32-bit and 64-bit integers call SIMD code, which is modelled apart (`Verif.Model.Simd`); this is the generic
version.
-/

namespace Shell.Rns

/-- `LazyRnsPolynomial` (rns/lazy_rns_polynomial.h:182-190). -/
structure LRns where
  coeffs : List (List ℕ)
  level : ℕ
  maxLevel : ℕ
  deriving Repr

namespace LRns

/-- The loop of `ComputeLogMaximalLevel` (rns/lazy_rns_polynomial.h:149-163). -/
def logMaxLoop : ℤ → List Modulus → Outcome ℤ
  | acc, [] => .ok acc
  | acc, m :: ms =>
    let lq : ℤ := 2 * m.p.w - 1 - 2 * m.p.logModulus
    if lq < 1 then .err .invalidArgument
    else logMaxLoop (if lq < acc then lq else acc) ms

/-- `static_cast<BigInt>(1) << log_maximum_level` with `ComputeLogMaximalLevel`
(rns/lazy_rns_polynomial.h:138-165, 74-76). -/
def maxLevelOf (w : ℕ) (ms : List Modulus) : Outcome ℕ := do
  let lm ← logMaxLoop ((w : ℤ) - 2) ms
  return 2 ^ lm.toNat % 2 ^ (2 * w)

/-- The elements `0, .., n - 1` of a vector, accessed without a check (rns/lazy_rns_polynomial.h:65-71, 104-110). -/
def firstN (v : List ℕ) (n : ℕ) : Outcome (List ℕ) :=
  if v.length < n then .ub .outOfBounds else .ok (v.take n)

/-- The products of one pair of coefficient vectors (rns/lazy_rns_polynomial.h:65-71). -/
def products (n : ℕ) (m : Modulus) (ab : List ℕ × List ℕ) : Outcome (List ℕ) := do
  let a ← firstN ab.1 n
  let b ← firstN ab.2 n
  return List.zipWith (Lazy.prod m.p) a b

/-- `Create` (rns/lazy_rns_polynomial.h:43-77). -/
def create (w : ℕ) (ms : List Modulus) (a b : RPoly) : Outcome LRns :=
  if !a.ntt || !b.ntt then .err .invalidArgument
  else if b.logN ≠ a.logN then .err .invalidArgument
  else if a.coeffs.length ≠ ms.length ∨ b.coeffs.length ≠ ms.length then .err .invalidArgument
  else do
    let mx ← maxLevelOf w ms
    let cs ← perModulus (products (2 ^ a.logN)) ms (a.coeffs.zip b.coeffs)
    return ⟨cs, 1, mx⟩

/-- `CreateZero` (rns/lazy_rns_polynomial.h:80-99). -/
def createZero (w : ℕ) (logN : ℤ) (ms : List Modulus) : Outcome LRns :=
  if logN ≤ 0 then .err .invalidArgument
  else if ms.isEmpty then .err .invalidArgument
  else do
    let n ← shl1 logN.toNat
    let mx ← maxLevelOf w ms
    return ⟨ms.map fun _ => List.replicate n 0, 0, mx⟩

/-- `Export` (rns/lazy_rns_polynomial.h:103-122): `coeff_vectors_[0]` is accessed without a check. -/
def exportPoly (ms : List Modulus) (s : LRns) : Outcome RPoly :=
  if ms.length ≠ s.coeffs.length then .err .invalidArgument
  else do
    let _ ← rd s.coeffs 0
    let cs ← perModulus (fun m v => .ok (v.map fun c => m.p.exportInt (m.p.barrettReduceBigInt c))) ms s.coeffs
    Rns.create cs true

/-- `Refresh` (rns/lazy_rns_polynomial.h:168-176). -/
def refresh (ms : List Modulus) (s : LRns) : Outcome LRns := do
  let cs ← perModulus (fun m v => .ok (v.map m.p.barrettReduceBigInt)) ms s.coeffs
  return { s with coeffs := cs, level := 1 }

/-- The inner loop of `FusedMulAddInPlace` (rns/lazy_rns_polynomial.cc:73-78) on `coeff_vectors_[i]`, `a` and `b`. -/
def addProducts (n : ℕ) (m : Modulus) (cab : List ℕ × List ℕ × List ℕ) : Outcome (List ℕ) := do
  let c ← firstN cab.1 n
  let a ← firstN cab.2.1 n
  let b ← firstN cab.2.2 n
  return List.zipWith (fun c ab => (c + Lazy.prod m.p ab.1 ab.2) % 2 ^ (2 * m.p.w)) c (a.zip b)

/-- `FusedMulAddInPlace` (rns/lazy_rns_polynomial.cc:34-82). -/
def fusedMulAdd (w : ℕ) (ms : List Modulus) (s : LRns) (a b : RPoly) : Outcome LRns :=
  if !a.ntt || !b.ntt then .err .invalidArgument
  else if a.coeffs.length ≠ ms.length ∨ b.coeffs.length ≠ ms.length ∨ s.coeffs.length ≠ ms.length then
    .err .invalidArgument
  else do
    let c0 ← rd s.coeffs 0
    if 2 ^ a.logN ≠ c0.length ∨ 2 ^ b.logN ≠ c0.length then .err .invalidArgument
    else do
      let s ← (if s.level = s.maxLevel then refresh ms s else .ok s : Outcome LRns)
      let cs ← perModulus (addProducts c0.length) ms (s.coeffs.zip (a.coeffs.zip b.coeffs))
      return { s with coeffs := cs, level := (s.level + 1) % 2 ^ (2 * w) }

end LRns

/-- An `RnsRlweCiphertext` with its `lazy_components_` (rns/rns_ciphertext.h:490-509). -/
structure LCt where
  ct : RCt
  lazy : List LRns
  deriving Repr

namespace LCt

/-- `FusedAbsorbAddInPlaceWithoutPadLazily` (rns/rns_ciphertext.h:298-331). -/
def fusedAbsorbLazily (w : ℕ) (x : LCt) (y : RCt) (pt : RPoly) : Outcome LCt :=
  if y.c.length ≠ 2 then .err .invalidArgument
  else if x.ct.ms.length ≠ y.ms.length then .err .invalidArgument
  else if x.ct.power ≠ y.power then .err .invalidArgument
  else do
    let v ← rd y.c 0
    match x.lazy with
    | [] => do
      let z ← LRns.create w x.ct.ms v pt
      return { x with lazy := [z] }
    | z :: zs => do
      let z ← LRns.fusedMulAdd w x.ct.ms z v pt
      return { x with lazy := z :: zs }

/-- The two loops of `MergeLazyOperations` (rns/rns_ciphertext.h:346-358) on the remaining components. -/
def mergeLoop (ms : List Modulus) : List RPoly → List LRns → Outcome (List RPoly)
  | cs, [] => .ok cs
  | c :: cs, z :: zs => do
    let e ← z.exportPoly ms
    let c ← Rns.add ms c e
    let rest ← mergeLoop ms cs zs
    return c :: rest
  | [], z :: zs => do
    let e ← z.exportPoly ms
    let rest ← mergeLoop ms [] zs
    return e :: rest

/-- `MergeLazyOperations` (rns/rns_ciphertext.h:334-361). -/
def merge (x : LCt) : Outcome LCt :=
  if x.lazy.isEmpty then .err .failedPrecondition
  else do
    let c ← mergeLoop x.ct.ms x.ct.c x.lazy
    return ⟨{ x.ct with c }, []⟩

end LCt

/-- The loop of `ApplyToRlweCiphertextWithRandomPad` (rns/rns_galois_key.cc:333-339); a digit that is not in NTT
form fails a `CHECK`. -/
def lazyMulAddAll (w : ℕ) (ms : List Modulus) : List RPoly → List RPoly → LRns → Outcome LRns
  | [], _, s => .ok s
  | d :: ds, b :: bs, s =>
    if !d.ntt then .ub .fatal
    else do
      let s ← s.fusedMulAdd w ms d b
      lazyMulAddAll w ms ds bs s
  | d :: _, [], _ => if !d.ntt then .ub .fatal else .ub .outOfBounds

/-- `ApplyToRlweCiphertextWithRandomPad` and `ApplyToWithRandomPad` (rns/rns_galois_key.cc:309-347,
rns/rns_galois_key.h:172-202). -/
def RGalois.applyToWithPad (w : ℕ) (k : RGalois) (x : RCt) (digits : List RPoly) (padNew : RPoly) :
    Outcome RCt := do
  k.check x
  if digits.length ≠ k.gadget.dimension then .err .invalidArgument
  else do
    let b0 ← rd k.bs 0
    let s ← LRns.createZero w b0.logN k.ms
    let s ← lazyMulAddAll w k.ms digits k.bs s
    let c0 ← s.exportPoly k.ms
    let d ← x.component 0
    let c0 ← add k.ms c0 d
    return ⟨[c0, padNew], k.ms, 1⟩

end Shell.Rns
