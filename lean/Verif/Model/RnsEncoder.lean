import Verif.Model.RnsContext
/-!
# `rns/coefficient_encoder.{h,cc}`, `rns/error_correction.h`, `rns/finite_field_encoder.{h,cc}`

An encoder is its context.  `ImportInt` of a `MontgomeryInt` never fails.
-/

namespace Shell.Rns

/-- `RemoveErrorOnMsb` (rns/error_correction.h:37-54) with `W`-bit unsigned integers. -/
def removeErrorOnMsb (W : ℕ) (v : List ℕ) (q t : ℕ) : Outcome (List ℕ) :=
  if t = 0 then .err .invalidArgument
  else .ok (v.map fun x => (if x > q >>> 1 then trunc W ((x : ℤ) - (q % t : ℕ)) else x) % t)

/-- `v.resize(n, z)` for `v.size() <= n` (rns/coefficient_encoder.cc:69, 144). -/
def resize (n z : ℕ) (v : List ℕ) : List ℕ := v ++ List.replicate (n - v.length) z

/-- `CoefficientEncoder::EncodeBgv` (rns/coefficient_encoder.cc:47-72). -/
def encodeBgv (c : Ctx) (messages : List ℕ) (ms : List Modulus) : Outcome RPoly := do
  let n ← shl1 c.logN.toNat
  if messages.length > n then .err .invalidArgument
  else if ms.isEmpty then .err .invalidArgument
  else do
    let cs ← ms.mapM fun m => do
      let v ← Convert.importBalanced messages c.t m.p
      return resize n (Mont.importZero m.p) v
    create cs false

/-- The conversion to coefficient form at the beginning of the decoding functions
(rns/coefficient_encoder.cc:83-85, 189-191). -/
def ensureCoeff (ms : List Modulus) (x : RPoly) : Outcome RPoly :=
  if x.ntt then toCoeff ms x else .ok x

/-- The loop of `DecodeBgv` (rns/coefficient_encoder.cc:94-98): `ModReduceLsb` removes one modulus, so the
level is `k, k-1, .., 1`.  `Prefix` (rns/rns_integer.h:37-40) copies `level` elements. -/
def decodeLoop (c : Ctx) (ms : List Modulus) : ℕ → RPoly → Outcome RPoly
  | 0, x => .ok x
  | k + 1, x => do
    let row ← rd c.primeQInvs (k + 1)
    if row.length < k + 1 then .ub .outOfBounds
    else do
      let x ← modReduceLsb c.t (row.take (k + 1)) (ms.take (k + 2)) x
      decodeLoop c ms k x

/-- The loops reading the coefficients of the first vector (rns/coefficient_encoder.cc:101-106, 209-216). -/
def exportFirst (m : Modulus) (x : RPoly) : Outcome (List ℕ) := do
  let v ← rd x.coeffs 0
  let n ← shl1 x.logN
  (List.range n).mapM fun i => do
    let a ← rd v i
    return Mont.exportInt m.p a

/-- `CoefficientEncoder::DecodeBgv` (rns/coefficient_encoder.cc:74-108). -/
def decodeBgv (c : Ctx) (x : RPoly) (ms : List Modulus) : Outcome (List ℕ) :=
  if ms.length ≠ x.coeffs.length then .err .invalidArgument
  else do
    let x ← ensureCoeff ms x
    let x ← decodeLoop c ms (x.coeffs.length - 1) x
    let m ← rd ms 0
    let v ← exportFirst m x
    removeErrorOnMsb m.p.w v m.p.modulus c.t

/-- `CoefficientEncoder::EncodeBfv` (rns/coefficient_encoder.cc:113-171). -/
def encodeBfv (c : Ctx) (messages : List ℕ) (ms : List Modulus) (isScaled : Bool) : Outcome RPoly := do
  let n ← shl1 c.logN.toNat
  if messages.length > n then .err .invalidArgument
  else if ms.isEmpty then .err .invalidArgument
  else match c.modT with
    | none => .err .invalidArgument
    | some mt => do
      let v := resize n (Mont.importZero mt.p) (messages.map (Mont.importInt mt.p))
      let v ← (if isScaled then Poly.mulScalar mt.p v (Mont.negate mt.p (Mont.importInt mt.p c.qModT))
        else .ok v : Outcome (List ℕ))
      let x ← convertFrom v mt.p ms
      if isScaled then mulRns ms x c.tInvModQs else .ok x

/-- `CoefficientEncoder::DecodeBfv` (rns/coefficient_encoder.cc:173-218). -/
def decodeBfv (est : Estimate) (c : Ctx) (x : RPoly) (ms : List Modulus) : Outcome (List ℕ) :=
  if ms.length ≠ x.coeffs.length then .err .invalidArgument
  else match c.modT with
    | none => .err .invalidArgument
    | some mt => do
      let x ← ensureCoeff ms x
      let hatInv ← c.crtFactors ((ms.length : ℤ) - 1)
      let y ← scaleAndSwitchBasis est ms [mt] hatInv [c.qInvsModT] c.tModQs x
      exportFirst mt y

/-! ### Finite field encoder -/

/-- The product of two `int`s (C++ semantics; used for example at rns/finite_field_encoder.cc:66-71). -/
def mulInt32 (a b : ℕ) : Outcome ℕ := if a * b < 2 ^ 31 then .ok (a * b) else .ub .signedOverflow

/-- The loop of `FiniteFieldEncoder::Create` (rns/finite_field_encoder.cc:66-71) on
`(curr_power, slot_indices)`. -/
def slotStep (n : ℕ) (bitrevs : List ℕ) (i : ℕ) (s : ℕ × List ℕ) : Outcome (ℕ × List ℕ) := do
  let a ← rd bitrevs ((s.1 - 1) / 2)
  let out ← wr s.2 i a
  let co ← mulInt32 s.1 (2 * n - 1)
  let b ← rd bitrevs ((co % (2 * n) - 1) / 2)
  let out ← wr out (i + n / 2) b
  let p ← mulInt32 s.1 5
  return (p % (2 * n), out)

/-- `slot_indices_` (rns/finite_field_encoder.cc:63-71). -/
def slotIndices (logN : ℕ) (bitrevs : List ℕ) : Outcome (List ℕ) := do
  let n ← shl1 logN
  let s ← loop (n / 2) (slotStep n bitrevs) (1, List.replicate n 0)
  return s.2

/-- `FiniteFieldEncoder` (rns/finite_field_encoder.h:115-131); `mt` are the parameters of the context's
plaintext modulus. -/
structure FFEncoder where
  ctx : Ctx
  mt : Modulus
  slots : List ℕ
  deriving Repr

/-- `FiniteFieldEncoder::Create` (rns/finite_field_encoder.cc:38-78); a modulus without NTT parameters has
an empty table (`noNtt`). -/
def ffCreate (c : Ctx) : Outcome FFEncoder :=
  match c.modT with
  | none => .err .invalidArgument
  | some mt =>
    if mt.q.bitrevs.isEmpty then .err .invalidArgument
    else do
      let s ← slotIndices c.logN.toNat mt.q.bitrevs
      return ⟨c, mt, s⟩

/-- The loop moving the messages to their slots and the inverse transform
(rns/finite_field_encoder.cc:99-106, 167-174). -/
def toSlots (e : FFEncoder) (n : ℕ) (messages : List ℕ) : Outcome (List ℕ) := do
  let v ← loop messages.length (fun i out => do
    let k ← rd e.slots i
    let x ← rd messages i
    wr out k (Mont.importInt e.mt.p x)) (List.replicate n (Mont.importZero e.mt.p))
  Ntt.inverse e.mt.p e.mt.q v

/-- The forward transform and the loop moving slots to their positions in the message vector
(rns/finite_field_encoder.cc:129-144, 200-215, rns/finite_field_encoder.h:187-206). -/
def fromSlots (e : FFEncoder) (coeffs : List ℕ) : Outcome (List ℕ) := do
  let v ← Ntt.forward e.mt.p e.mt.q (coeffs.map (Mont.importInt e.mt.p))
  (List.range coeffs.length).mapM fun i => do
    let k ← rd e.slots i
    let a ← rd v k
    return Mont.exportInt e.mt.p a

/-- `FiniteFieldEncoder::EncodeBgv` (rns/finite_field_encoder.cc:80-111). -/
def ffEncodeBgv (e : FFEncoder) (messages : List ℕ) (ms : List Modulus) : Outcome RPoly := do
  let n ← shl1 e.ctx.logN.toNat
  if messages.length > n then .err .invalidArgument
  else if ms.isEmpty then .err .invalidArgument
  else do
    let v ← toSlots e n messages
    convertBalancedFrom v e.mt.p ms

/-- `FiniteFieldEncoder::DecodeBgv` (rns/finite_field_encoder.cc:113-145). -/
def ffDecodeBgv (e : FFEncoder) (x : RPoly) (ms : List Modulus) : Outcome (List ℕ) := do
  let coeffs ← decodeBgv e.ctx x ms
  fromSlots e coeffs

/-- `FiniteFieldEncoder::EncodeBfv` (rns/finite_field_encoder.cc:147-182). -/
def ffEncodeBfv (e : FFEncoder) (messages : List ℕ) (ms : List Modulus) (isScaled : Bool) :
    Outcome RPoly := do
  let n ← shl1 e.ctx.logN.toNat
  if messages.length > n then .err .invalidArgument
  else if ms.isEmpty then .err .invalidArgument
  else do
    let v ← toSlots e n messages
    encodeBfv e.ctx (v.map (Mont.exportInt e.mt.p)) ms isScaled

/-- `FiniteFieldEncoder::DecodeBfv` (rns/finite_field_encoder.cc:184-216). -/
def ffDecodeBfv (est : Estimate) (e : FFEncoder) (x : RPoly) (ms : List Modulus) : Outcome (List ℕ) := do
  let coeffs ← decodeBfv est e.ctx x ms
  fromSlots e coeffs

/-- `FiniteFieldEncoder::DecodeBgvWithCrt` (rns/finite_field_encoder.h:145-207) with `W`-bit big
integers. -/
def ffDecodeBgvWithCrt (W : ℕ) (e : FFEncoder) (x : RPoly) (ms : List Modulus) (hats hatInvs : List ℕ) :
    Outcome (List ℕ) :=
  if hats.length ≠ hatInvs.length ∨ ms.length ≠ hats.length ∨ ms.length ≠ hatInvs.length then
    .err .invalidArgument
  else do
    let x ← ensureCoeff ms x
    let v ← crtInterpolation W x.coeffs ms hats hatInvs
    let coeffs ← removeErrorOnMsb W v (compositeModulus W ms) (e.mt.p.modulus % 2 ^ W)
    fromSlots e (coeffs.map (· % 2 ^ e.mt.p.w))

end Shell.Rns
