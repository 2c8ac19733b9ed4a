import Verif.Model.Polynomial
import Verif.Model.Sampler
import Verif.Model.Symmetric
import Verif.Model.Relin
import Verif.Model.Convert
/-!
# The symmetric scheme on stored words: sampling, PRNG compression and serialization

`Verif/Model/Symmetric.lean` describes the scheme on residue vectors with the random polynomials as
arguments.  This file models the same functions on the stored words of `Polynomial<ModularInt>`, with
the random polynomials drawn from `SecurePrng`s, and the functions that depend on this: encryption
compressed with a PRNG, and the serialization of ciphertexts and keys.

`SecurePrng` objects are states `σ` of a generator (`Gen σ`).  Parameters (`ModulusParams`,
`NttParams`) are passed by non-null pointers, which are identified with the parameters.
-/

namespace Shell.Word
variable {σ : Type}
open Sampler

/-! ### Keys, ciphertexts -/

/-- `class SymmetricRlweKey` (symmetric_encryption.h:836-855). -/
structure Key where
  p : MParams
  q : Ntt.NttParams
  key : List ℕ
  variance : ℕ
  logT : ℕ
  tp : MParams
  tMod : ℕ

/-- `class SymmetricRlweCiphertext` (symmetric_encryption.h:585-607).  `error_` is only copied; it is
represented by its bits. -/
structure Ct where
  c : List (List ℕ)
  power : ℤ
  error : ℕ
  deriving DecidableEq

/-- `SymmetricRlweKey::Sample` (symmetric_encryption.h:634-649). -/
def Key.sample (G : Gen σ) (p : MParams) (q : Ntt.NttParams) (logN variance logT : ℕ) (s : σ) :
    Outcome (Key × σ) :=
  if logN ≥ 31 then .ub .badShift
  else do
    let (error, s) ← sampleError G p (1 <<< logN) variance s
    let key ← Poly.convertToNtt p q error
    let t ← Sym.plaintextModulus p.w logT
    .ok (⟨p, q, key, variance, logT, p, Mont.importInt p t⟩, s)

/-- `internal::Encrypt` (symmetric_encryption.h:940-961). -/
def encryptWithPad (G : Gen σ) (k : Key) (m a : List ℕ) (s : σ) : Outcome (List ℕ × σ) := do
  let (e, s) ← sampleError G k.p k.key.length k.variance s
  let c0 ← Poly.convertToNtt k.p k.q e
  let c0 ← Poly.copying (Poly.mulScalarInPlace k.p c0 k.tMod)
  let c0 ← Poly.copying (Poly.addInPlace k.p c0 m)
  let c0 ← Poly.copying (Poly.fusedMulAddInPlace k.p c0 a k.key)
  .ok (c0, s)

/-- `Encrypt` (symmetric_encryption.h:1006-1023); `bEnc` is `error_params->B_encryption()`. -/
def encrypt (G : Gen σ) (fuel : ℕ) (k : Key) (m : List ℕ) (bEnc : ℕ) (s : σ) : Outcome (Ct × σ) := do
  let (a, s) ← samplePolynomial G k.p fuel k.key.length s
  let (c0, s) ← encryptWithPad G k m a s
  .ok (⟨[c0, Poly.negate k.p a], 1, bEnc⟩, s)

/-- `internal::ExtractErrorAndMessage` (symmetric_encryption.h:966-1000). -/
def extract (k : Key) (x : Ct) : Outcome (List ℕ) := do
  let r ← loop x.c.length (fun i (r : List ℕ × List ℕ) => do
    let ci ← rd x.c i
    let kp ← (if i > 1 then Poly.copying (Poly.mulInPlace k.p r.2 k.key) else .ok r.2 :
      Outcome (List ℕ))
    let ci ← (if i > 0 then Poly.copying (Poly.mulInPlace k.p ci kp) else .ok ci :
      Outcome (List ℕ))
    let acc ← Poly.copying (Poly.addInPlace k.p r.1 ci)
    .ok (acc, kp)) (List.replicate k.key.length 0, k.key)
  Poly.inverseNtt k.p k.q r.1

/-- `Decrypt` (symmetric_encryption.h:1138-1152) with `RemoveError`
(symmetric_encryption.h:1083-1111). -/
def decrypt (k : Key) (x : Ct) : Outcome (List ℕ) := do
  let em ← extract k x
  let t := Mont.exportInt k.tp k.tMod
  if t = 0 then .err .invalidArgument
  else .ok (em.map fun c => Sym.removeErrorCoeff k.p.w k.p.modulus t (Mont.exportInt k.p c))

/-! ### Compression with a PRNG -/

/-- `EncryptWithPrng` (symmetric_encryption_with_prng.h:70-83): `s` is the state of `prng`, `t` of
`prng_encryption`. -/
def encryptWithPrng {τ : Type} (P : Gen σ) (Q : Gen τ) (fuel : ℕ) (k : Key) :
    List (List ℕ) → σ → τ → Outcome (List (List ℕ) × σ × τ)
  | [], s, t => .ok ([], s, t)
  | m :: ms, s, t => do
    let (a, s) ← samplePolynomial P k.p fuel k.key.length s
    let (c0, t) ← encryptWithPad Q k m a t
    let (c0s, s, t) ← encryptWithPrng P Q fuel k ms s t
    .ok (c0 :: c0s, s, t)

/-- `ExpandFromPrng` (symmetric_encryption_with_prng.h:91-109). -/
def expandFromPrng (P : Gen σ) (fuel : ℕ) (p : MParams) (bEnc : ℕ) :
    List (List ℕ) → σ → Outcome (List Ct × σ)
  | [], s => .ok ([], s)
  | c0 :: c0s, s => do
    let (a, s) ← samplePolynomial P p fuel c0.length s
    let (cts, s) ← expandFromPrng P fuel p bEnc c0s s
    .ok (⟨[c0, Poly.negate p a], 1, bEnc⟩ :: cts, s)

/-! ### Serialization of ciphertexts and secret keys -/

/-- `SerializedNttPolynomial`: `num_coeffs` and `coeffs` (serialization.proto:23-30). -/
abbrev SPoly := ℤ × List ℕ

/-- `Polynomial::Serialize` (polynomial.h:282-289) into the message. -/
def serPoly (p : MParams) (x : List ℕ) : Outcome SPoly := do
  let r ← Poly.serialize p x
  .ok ((r.1 : ℤ), r.2)

/-- `Polynomial::Deserialize` (polynomial.h:291-308). -/
def desPoly (p : MParams) (s : SPoly) : Outcome (List ℕ) := Poly.deserialize p s.1 s.2

/-- `SerializedSymmetricRlweCiphertext` (serialization.proto:33-42). -/
structure SCt where
  c : List SPoly
  power : ℤ
  error : ℕ

/-- `SymmetricRlweCiphertext::Serialize` (symmetric_encryption.h:534-544). -/
def Ct.serialize (p : MParams) (x : Ct) : Outcome SCt := do
  let c ← x.c.mapM (serPoly p)
  .ok ⟨c, x.power, x.error⟩

/-- `SymmetricRlweCiphertext::Deserialize` (symmetric_encryption.h:546-569). -/
def Ct.deserialize (p : MParams) (s : SCt) : Outcome Ct :=
  if s.c.length ≤ 0 then .err .invalidArgument
  else if s.c.length > Mont.kMaxNumCoeffs then .err .invalidArgument
  else do
    let c ← s.c.mapM (desPoly p)
    .ok ⟨c, s.power, s.error⟩

/-- `SymmetricRlweKey::Serialize` (symmetric_encryption.h:651-653). -/
def Key.serialize (k : Key) : Outcome SPoly := serPoly k.p k.key

/-- `SymmetricRlweKey::Deserialize` (symmetric_encryption.h:666-689); `log_modulus - 1` is unsigned
32-bit arithmetic. -/
def Key.deserialize (variance logT : ℕ) (s : SPoly) (p tp : MParams) (q : Ntt.NttParams) :
    Outcome Key :=
  if logT > trunc 32 ((p.logModulus : ℤ) - 1) then .err .invalidArgument
  else do
    let key ← desPoly p s
    let t ← Sym.plaintextModulus tp.w logT
    .ok ⟨p, q, key, variance, logT, tp, Mont.importInt tp t⟩

/-! ### Seeds -/

/-- The generator classes selected by a `PrngType`: `Create(seed)` and the two calls
(relinearization_key.cc:428-437). -/
structure Rng (σ : Type) where
  create : PrngType → List ℕ → Outcome σ
  gen : PrngType → Gen σ

/-- The selection by `prng_type` (relinearization_key.cc:428-437 and the like). -/
def Rng.start (R : Rng σ) (t : PrngType) (seed : List ℕ) : Outcome σ :=
  if t = .invalid then .err .invalidArgument else R.create t seed

/-! ### Relinearization keys -/

/-- `RelinearizationKeyPart` (relinearization_key.h:117-157). -/
structure Part where
  row0 : List (List ℕ)
  row1 : List (List ℕ)
  logDecomp : ℕ
  deriving DecidableEq

/-- `RelinearizationKey` (relinearization_key.h:184-216). -/
structure RKey where
  dimension : ℕ
  numParts : ℤ
  logDecomp : ℕ
  decompModulus : ℕ
  power : ℤ
  p : MParams
  q : Ntt.NttParams
  parts : List Part
  seed : List ℕ
  prng : PrngType

/-- `PowersOfT` (relinearization_key.cc:56-74): `i` counts up, `cur` is `key_to_i`. -/
def powersOfT (p : MParams) (T : ℕ) : ℕ → ℕ → List ℕ → Outcome (List (List ℕ))
  | 0, _, _ => .ok []
  | d + 1, i, cur => do
    let cur ← (if i ≠ 0 then Poly.copying (Poly.mulScalarInPlace p cur T) else .ok cur :
      Outcome (List ℕ))
    let rest ← powersOfT p T d (i + 1) cur
    .ok (cur :: rest)

/-- One column (relinearization_key.cc:117-138) with `SampleOrthogonalFromPrng`
(relinearization_key.cc:40-53). -/
def column {τ : Type} (P : Gen σ) (Q : Gen τ) (fuel : ℕ) (k : Key) (keyPowerLen : ℕ) (pt : List ℕ)
    (s : σ) (t : τ) : Outcome ((List ℕ × List ℕ) × σ × τ) := do
  let (r, s) ← samplePolynomial P k.p fuel k.key.length s
  let rTop ← Poly.mul k.p r k.key
  let rTop := Poly.negate k.p rTop
  let (error, t) ← sampleError Q k.p keyPowerLen k.variance t
  let e ← Poly.convertToNtt k.p k.q error
  let e ← Poly.copying (Poly.mulScalarInPlace k.p e k.tMod)
  let e ← Poly.copying (Poly.addInPlace k.p e rTop)
  let e ← Poly.copying (Poly.addInPlace k.p e pt)
  .ok ((e, r), s, t)

/-- The columns of `RelinearizationKeyPart::Create` (relinearization_key.cc:119-138), one for each
power of `T`. -/
def columns {τ : Type} (P : Gen σ) (Q : Gen τ) (fuel : ℕ) (k : Key) (keyPowerLen : ℕ) :
    List (List ℕ) → σ → τ → Outcome (List (List ℕ × List ℕ) × σ × τ)
  | [], s, t => .ok ([], s, t)
  | pt :: pts, s, t => do
    let (col, s, t) ← column P Q fuel k keyPowerLen pt s t
    let (cols, s, t) ← columns P Q fuel k keyPowerLen pts s t
    .ok (col :: cols, s, t)

/-- `RelinearizationKeyPart::Create` (relinearization_key.cc:99-141). -/
def Part.create {τ : Type} (P : Gen σ) (Q : Gen τ) (fuel : ℕ) (keyPower : List ℕ) (k : Key)
    (logDecomp T dimension : ℕ) (s : σ) (t : τ) : Outcome (Part × σ × τ) := do
  let powers ← powersOfT k.p T dimension 0 keyPower
  let (cols, s, t) ← columns P Q fuel k keyPower.length powers s t
  .ok (⟨cols.map Prod.fst, cols.map Prod.snd, logDecomp⟩, s, t)

/-- The loop of `Create` (relinearization_key.cc:268-280): `cnt` iterations left. -/
def createParts {τ : Type} (P : Gen σ) (Q : Gen τ) (fuel : ℕ) (k : Key) (base : List ℕ)
    (logDecomp T dim : ℕ) :
    ℕ → ℕ → List ℕ → σ → τ → Outcome (List Part × σ × τ)
  | 0, _, _, s, t => .ok ([], s, t)
  | cnt + 1, i, keyPower, s, t => do
    let keyPower ← (if i ≠ 1 then Poly.copying (Poly.mulInPlace k.p keyPower base) else .ok keyPower :
      Outcome (List ℕ))
    let (part, s, t) ← Part.create P Q fuel keyPower k logDecomp T dim s t
    let (parts, s, t) ← createParts P Q fuel k base logDecomp T dim cnt (i + 1) keyPower s t
    .ok (part :: parts, s, t)

/-- `RelinearizationKey::Create` (relinearization_key.cc:211-286): `seed` and `seedE` are the results
of `GenerateSeed`. Only the key polynomial of `key.Substitute(..)` is used. `substitution_power` is
taken to fit an `int`. -/
def RKey.create (R : Rng σ) (fuel : ℕ) (k : Key) (prng : PrngType) (numParts : ℤ) (logDecomp : ℕ)
    (power : ℤ) (seed seedE : List ℕ) : Outcome RKey :=
  if numParts < (if power = 1 then 3 else 2) then .err .invalidArgument
  else if logDecomp = 0 then .err .invalidArgument
  else if logDecomp > k.p.logModulus then .err .invalidArgument
  else do
    let one ← Transcription.shl k.p.w 1 logDecomp
    let T := Mont.importInt k.p one
    let base ← Poly.substitute k.q k.key power
    let s ← R.start prng seed
    let t ← R.start prng seedE
    let dim ← Gadget.gadgetSize k.p.logModulus logDecomp
    let first := Relin.firstKeyIndex power
    let (parts, _, _) ← createParts (R.gen prng) (R.gen prng) fuel k base logDecomp T dim
      (numParts - first).toNat first base s t
    .ok ⟨dim, numParts, logDecomp, T, power, k.p, k.q, parts, seed, prng⟩

/-- `SerializedRelinearizationKey` (serialization.proto:52-73). -/
structure SRKey where
  c : List SPoly
  logDecomp : ℤ
  numParts : ℤ
  seed : List ℕ
  prng : PrngType
  power : ℤ

/-- `RelinearizationKey::Serialize` (relinearization_key.cc:346-362); `Matrix()` is the first row. -/
def RKey.serialize (rk : RKey) : Outcome SRKey := do
  let c ← (rk.parts.flatMap Part.row0).mapM (serPoly rk.p)
  .ok ⟨c, rk.logDecomp, rk.numParts, rk.seed, rk.prng, rk.power⟩

/-- The loop of `RelinearizationKeyPart::Deserialize` (relinearization_key.cc:180-188). -/
def desColumns (P : Gen σ) (fuel : ℕ) (p : MParams) :
    List SPoly → σ → Outcome (List (List ℕ × List ℕ) × σ)
  | [], s => .ok ([], s)
  | x :: xs, s => do
    let b ← desPoly p x
    let (a, s) ← samplePolynomial P p fuel b.length s
    let (cols, s) ← desColumns P fuel p xs s
    .ok ((b, a) :: cols, s)

/-- `RelinearizationKeyPart::Deserialize` (relinearization_key.cc:164-191). -/
def Part.deserialize (P : Gen σ) (fuel : ℕ) (p : MParams) (xs : List SPoly) (logDecomp : ℕ) (s : σ) :
    Outcome (Part × σ) := do
  let (cols, s) ← desColumns P fuel p xs s
  .ok (⟨cols.map Prod.fst, cols.map Prod.snd, logDecomp⟩, s)

/-- The loop over the parts (relinearization_key.cc:442-451): chunks of `per` polynomials. -/
def desParts (P : Gen σ) (fuel : ℕ) (p : MParams) (logDecomp per : ℕ) (c : List SPoly) :
    ℕ → ℕ → σ → Outcome (List Part × σ)
  | 0, _, s => .ok ([], s)
  | cnt + 1, i, s => do
    let chunk := (c.drop (i * per)).take per
    let (part, s) ← Part.deserialize P fuel p chunk logDecomp s
    let (parts, s) ← desParts P fuel p logDecomp per c cnt (i + 1) s
    .ok (part :: parts, s)

/-- `RelinearizationKey::Deserialize` (relinearization_key.cc:364-454). -/
def RKey.deserialize (R : Rng σ) (fuel : ℕ) (x : SRKey) (p : MParams) (q : Ntt.NttParams) :
    Outcome RKey :=
  let first : ℤ := Relin.firstKeyIndex x.power
  if x.numParts ≤ first then .err .invalidArgument
  else
    let expected := (x.numParts - first).toNat
    if x.c.length % expected ≠ 0 then .err .invalidArgument
    else if x.logDecomp ≤ 0 then .err .invalidArgument
    else if x.logDecomp > p.logModulus then .err .invalidArgument
    else do
      let per := x.c.length / expected
      let dim ← Gadget.gadgetSize p.logModulus x.logDecomp.toNat
      if per ≠ dim then .err .invalidArgument
      else do
        let one ← Transcription.shl p.w 1 x.logDecomp.toNat
        let T := Mont.importInt p one
        let s ← R.start x.prng x.seed
        let (parts, _) ← desParts (R.gen x.prng) fuel p x.logDecomp.toNat per x.c expected 0 s
        .ok ⟨per, x.numParts, x.logDecomp.toNat, T, x.power, p, q, parts, x.seed, x.prng⟩

/-- `GaloisKey::Create` (galois_key.h:52-60). -/
def galoisCreate (R : Rng σ) (fuel : ℕ) (k : Key) (prng : PrngType) (power : ℤ) (logDecomp : ℕ)
    (seed seedE : List ℕ) : Outcome RKey :=
  RKey.create R fuel k prng 2 logDecomp power seed seedE

/-! ### Public keys -/

/-- `PublicRlweKey` (public_key_encryption.h:115-124). -/
structure PKey where
  a : List ℕ
  b : List ℕ
  seed : List ℕ
  prng : PrngType
  tMod : ℕ
  p : MParams
  q : Ntt.NttParams

/-- `PublicRlweKey::Create` (public_key_encryption.cc:47-115). -/
def PKey.create (R : Rng σ) (fuel : ℕ) (k : Key) (variance : ℤ) (prng : PrngType)
    (seed seedE : List ℕ) : Outcome PKey :=
  if variance ≤ 0 then .err .invalidArgument
  else do
    let s ← R.start prng seed
    let t ← R.start prng seedE
    let (a, _) ← samplePolynomial (R.gen prng) k.p fuel k.key.length s
    let (e, _) ← sampleError (R.gen prng) k.p k.key.length variance.toNat t
    let b ← Poly.convertToNtt k.p k.q e
    let b ← Poly.copying (Poly.mulScalarInPlace k.p b k.tMod)
    let b ← Poly.copying (Poly.fusedMulAddInPlace k.p b a k.key)
    .ok ⟨Poly.negate k.p a, b, seed, prng, k.tMod, k.p, k.q⟩

/-- `PublicRlweKey::Serialize` (public_key_encryption.cc:170-178): seed, type and `b`. -/
def PKey.serialize (pk : PKey) : Outcome (List ℕ × PrngType × SPoly) := do
  let b ← serPoly pk.p pk.b
  .ok (pk.seed, pk.prng, b)

/-- `PublicRlweKey::Deserialize` (public_key_encryption.cc:180-219). -/
def PKey.deserialize (R : Rng σ) (fuel : ℕ) (x : List ℕ × PrngType × SPoly) (tMod : ℕ) (p : MParams)
    (q : Ntt.NttParams) : Outcome PKey := do
  let s ← R.start x.2.1 x.1
  let (a, _) ← samplePolynomial (R.gen x.2.1) p fuel q.numberCoeffs s
  let b ← desPoly p x.2.2
  .ok ⟨Poly.negate p a, b, x.1, x.2.1, tMod, p, q⟩

/-! ### Keys with an auxiliary modulus -/

/-- `struct KeyComponent` (aux_relinearization_key.h:152-182). -/
structure Comp where
  bMain : List ℕ
  aMain : List ℕ
  bAux : List ℕ
  aAux : List ℕ
  deriving DecidableEq

/-- `class AuxModRelinearizationKey` (aux_relinearization_key.h:207-234). -/
structure AKey where
  p : MParams
  q : Ntt.NttParams
  pAux : MParams
  qAux : Ntt.NttParams
  seed : List ℕ
  prng : PrngType
  keys : List Comp
  t : ℕ
  power : ℤ

/-- `KeyComponent::Create` (aux_relinearization_key.cc:32-86). -/
def Comp.create {τ : Type} (P : Gen σ) (Q : Gen τ) (fuel : ℕ) (k : Key) (sTargetAux : List ℕ)
    (sSource : List ℕ) (pAux : MParams) (qAux : Ntt.NttParams) (tAux : ℕ) (s : σ) (t : τ) :
    Outcome (Comp × σ × τ) := do
  let (aMain, s) ← samplePolynomial P k.p fuel k.key.length s
  let (aAux, s) ← samplePolynomial P pAux fuel k.key.length s
  let (e, t) ← sampleError Q k.p k.key.length k.variance t
  let eAux := Convert.convertModulusBalanced e k.p pAux
  let bMain ← Poly.convertToNtt k.p k.q e
  let bAux ← Poly.convertToNtt pAux qAux eAux
  let bMain ← Poly.copying (Poly.mulScalarInPlace k.p bMain k.tMod)
  let bAux ← Poly.copying (Poly.mulScalarInPlace pAux bAux tAux)
  let bMain ← Poly.copying (Poly.fusedMulAddInPlace k.p bMain aMain k.key)
  let bAux ← Poly.copying (Poly.fusedMulAddInPlace pAux bAux aAux sTargetAux)
  let bMain ← Poly.copying (Poly.addInPlace k.p bMain sSource)
  .ok (⟨bMain, Poly.negate k.p aMain, bAux, Poly.negate pAux aAux⟩, s, t)

/-- The loop of `Create` (aux_relinearization_key.cc:176-189): `cnt` components left, `i` done. -/
def createComps {τ : Type} (P : Gen σ) (Q : Gen τ) (fuel : ℕ) (k : Key) (sTargetAux base : List ℕ)
    (same : Bool) (pAux : MParams) (qAux : Ntt.NttParams) (tAux : ℕ) :
    ℕ → ℕ → List ℕ → σ → τ → Outcome (List Comp × σ × τ)
  | 0, _, _, s, t => .ok ([], s, t)
  | cnt + 1, i, sPower, s, t => do
    let sPower ← (if same || decide (i > 0) then Poly.copying (Poly.mulInPlace k.p sPower base)
      else .ok sPower : Outcome (List ℕ))
    let (c, s, t) ← Comp.create P Q fuel k sTargetAux sPower pAux qAux tAux s t
    let (cs, s, t) ← createComps P Q fuel k sTargetAux base same pAux qAux tAux cnt (i + 1) sPower s t
    .ok (c :: cs, s, t)

/-- `AuxModRelinearizationKey::Create` (aux_relinearization_key.cc:88-193). -/
def AKey.create (R : Rng σ) (fuel : ℕ) (k : Key) (prng : PrngType) (degree : ℤ) (pAux : MParams)
    (qAux : Ntt.NttParams) (power : ℤ) (seed seedE : List ℕ) : Outcome AKey :=
  if degree ≤ 0 then .err .invalidArgument
  else if power ≤ 0 then .err .invalidArgument
  else do
    let s ← R.start prng seed
    let t ← R.start prng seedE
    let pMain := Mont.importInt k.p pAux.modulus
    let tInt := Mont.exportInt k.p k.tMod
    let tAux := Mont.importInt pAux tInt
    let sMain ← Poly.inverseNtt k.p k.q k.key
    let sAux ← Poly.convertToNtt pAux qAux (Convert.convertModulusBalanced sMain k.p pAux)
    let base ← Poly.substitute k.q k.key power
    let sPower ← Poly.mulScalar k.p base pMain
    let len := if power = 1 then degree - 1 else degree
    let (keys, _, _) ← createComps (R.gen prng) (R.gen prng) fuel k sAux base (power = 1) pAux qAux
      tAux len.toNat 0 sPower s t
    .ok ⟨k.p, k.q, pAux, qAux, seed, prng, keys, tInt, power⟩

/-- `SerializedAuxModRelinearizationKey` (serialization.proto:92-109). -/
structure SAKey where
  b : List SPoly
  numComponents : ℤ
  seed : List ℕ
  prng : PrngType
  power : ℤ

/-- The polynomials written for each component (aux_relinearization_key.cc:329-332). -/
def serComps (p pAux : MParams) : List Comp → Outcome (List SPoly)
  | [] => .ok []
  | c :: cs => do
    let x ← serPoly p c.bMain
    let y ← serPoly pAux c.bAux
    let rest ← serComps p pAux cs
    .ok (x :: y :: rest)

/-- `AuxModRelinearizationKey::Serialize` (aux_relinearization_key.cc:320-334). -/
def AKey.serialize (ak : AKey) : Outcome SAKey := do
  let b ← serComps ak.p ak.pAux ak.keys
  .ok ⟨b, ak.keys.length, ak.seed, ak.prng, ak.power⟩

/-- The loop of `Deserialize` (aux_relinearization_key.cc:389-406), as written:
`for (i = 0; i < key_length; i += 2)`; `cnt` bounds the number of iterations. -/
def desComps (P : Gen σ) (fuel : ℕ) (p : MParams) (q : Ntt.NttParams) (pAux : MParams)
    (qAux : Ntt.NttParams) (b : List SPoly) (keyLength : ℕ) :
    ℕ → ℕ → σ → Outcome (List Comp × σ)
  | 0, _, s => .ok ([], s)
  | cnt + 1, i, s =>
    if i < keyLength then do
      let x ← rd b i
      let bMain ← desPoly p x
      let y ← rd b (i + 1)
      let bAux ← desPoly pAux y
      let (aMain, s) ← samplePolynomial P p fuel q.numberCoeffs s
      let (aAux, s) ← samplePolynomial P pAux fuel qAux.numberCoeffs s
      let (cs, s) ← desComps P fuel p q pAux qAux b keyLength cnt (i + 2) s
      .ok (⟨bMain, Poly.negate p aMain, bAux, Poly.negate pAux aAux⟩ :: cs, s)
    else .ok ([], s)

/-- `AuxModRelinearizationKey::Deserialize` (aux_relinearization_key.cc:336-412). -/
def AKey.deserialize (R : Rng σ) (fuel : ℕ) (x : SAKey) (p : MParams) (q : Ntt.NttParams)
    (pAux : MParams) (qAux : Ntt.NttParams) (t : ℕ) : Outcome AKey :=
  if x.numComponents ≤ 0 then .err .invalidArgument
  else if (x.b.length : ℤ) ≠ x.numComponents * 2 then .err .invalidArgument
  else do
    let s ← R.start x.prng x.seed
    let (keys, _) ← desComps (R.gen x.prng) fuel p q pAux qAux x.b x.numComponents.toNat
      x.numComponents.toNat 0 s
    .ok ⟨p, q, pAux, qAux, x.seed, x.prng, keys, t, x.power⟩

end Shell.Word
