import Verif.Model.RnsCiphertext
import Verif.Model.Sampler
/-!
# `rns/error_distribution.h`, `rns/rns_secret_key.{h,cc}`, `rns/rns_public_key.{h,cc}`,
`rns/rns_bgv_public_key.h`, `rns/rns_bfv_public_key.h`

A `SecurePrng` is the interface `Gen` with its state; pointers are not null.
-/

namespace Shell.Rns
variable {σ τ : Type}

/-! ### Samplers -/

/-- The loops of `SampleUniform` (rns/rns_polynomial.h:643-653). -/
def uniformVectors (G : Gen σ) (fuel n : ℕ) : List Modulus → σ → Outcome (List (List ℕ) × σ)
  | [], s => .ok ([], s)
  | m :: ms, s => do
    let (v, s) ← loop n (fun _ (r : List ℕ × σ) => do
      let (c, s) ← Sampler.importRandom G m.p fuel r.2
      .ok (r.1 ++ [c], s)) ([], s)
    let (vs, s) ← uniformVectors G fuel n ms s
    return (v :: vs, s)

/-- `RnsPolynomial::SampleUniform` (rns/rns_polynomial.h:627-656). -/
def sampleUniform (G : Gen σ) (fuel : ℕ) (logN : ℤ) (ms : List Modulus) (s : σ) : Outcome (RPoly × σ) :=
  if logN ≤ 0 then .err .invalidArgument
  else if ms.isEmpty then .err .invalidArgument
  else do
    let n ← shl1 logN.toNat
    let (vs, s) ← uniformVectors G fuel n ms s
    return (⟨logN.toNat, vs, true⟩, s)

/-- `SampleError` (rns/error_distribution.h:39-64). -/
def sampleErr (G : Gen σ) (logN variance : ℤ) (ms : List Modulus) (s : σ) : Outcome (RPoly × σ) :=
  if logN ≤ 0 then .err .invalidArgument
  else if variance ≤ 0 then .err .invalidArgument
  else match ms with
    | [] => .err .invalidArgument
    | m :: _ => do
      let n ← shl1 logN.toNat
      let (v, s) ← Sampler.sampleError G m.p n variance.toNat s
      let x ← convertBalancedFrom v m.p ms
      return (x, s)

/-- `SampleUniformTernary` (rns/error_distribution.h:68-85). -/
def sampleTernary (G : Gen σ) (fuel : ℕ) (logN : ℤ) (ms : List Modulus) (s : σ) : Outcome (RPoly × σ) :=
  if logN ≤ 0 then .err .invalidArgument
  else match ms with
    | [] => .err .invalidArgument
    | m :: _ => do
      let n ← shl1 logN.toNat
      let (v, s) ← Sampler.sampleTernary G m.p fuel n s
      let x ← convertBalancedFrom v m.p ms
      return (x, s)

/-! ### Encoders as used by the keys -/

/-- The interface of the template parameter `Encoder` of the encryption and decryption functions
(rns/rns_secret_key.h:62-105). -/
structure Encoder where
  t : ℕ
  encodeBgv : List ℕ → List Modulus → Outcome RPoly
  decodeBgv : RPoly → List Modulus → Outcome (List ℕ)
  encodeBfv : List ℕ → List Modulus → Outcome RPoly
  decodeBfv : RPoly → List Modulus → Outcome (List ℕ)

/-- `CoefficientEncoder` (rns/coefficient_encoder.h): `PlaintextModulus()` is the context's, and
`EncodeBfv` scales by default (rns/coefficient_encoder.h:33-79). -/
def coefficientEncoder (est : Estimate) (c : Ctx) : Encoder where
  t := c.t
  encodeBgv := encodeBgv c
  decodeBgv := decodeBgv c
  encodeBfv := fun v ms => encodeBfv c v ms true
  decodeBfv := decodeBfv est c

/-- `FiniteFieldEncoder` (rns/finite_field_encoder.h) (rns/finite_field_encoder.h:40-125). -/
def finiteFieldEncoder (est : Estimate) (e : FFEncoder) : Encoder where
  t := e.ctx.t
  encodeBgv := ffEncodeBgv e
  decodeBgv := ffDecodeBgv e
  encodeBfv := fun v ms => ffEncodeBfv e v ms true
  decodeBfv := ffDecodeBfv est e

/-! ### Secret keys -/

/-- `RnsRlweSecretKey` (rns/rns_secret_key.h:157-164). -/
structure RKey where
  key : RPoly
  ms : List Modulus
  variance : ℤ
  deriving Repr

/-- `Sample` (rns/rns_secret_key.cc:36-57). -/
def RKey.sample (G : Gen σ) (logN variance : ℤ) (ms : List Modulus) (s : σ) : Outcome (RKey × σ) :=
  if logN ≤ 0 then .err .invalidArgument
  else if variance ≤ 0 then .err .invalidArgument
  else if ms.isEmpty then .err .invalidArgument
  else do
    let (k, s) ← sampleErr G logN variance ms s
    return (⟨k, ms, variance⟩, s)

/-- The loop body of `RawDecrypt` (rns/rns_secret_key.cc:67-82) on `(s_power, output)`. -/
def RKey.rawStep (k : RKey) (x : RCt) (i : ℕ) (s : RPoly × RPoly) : Outcome (RPoly × RPoly) := do
  let ci ← x.component i
  let sp ← (if i > 1 then Rns.mul k.ms s.1 k.key else .ok s.1 : Outcome RPoly)
  let ci ← (if i > 0 then Rns.mul k.ms ci sp else .ok ci : Outcome RPoly)
  let out ← Rns.add k.ms s.2 ci
  return (sp, out)

/-- `RawDecrypt` (rns/rns_secret_key.cc:59-84). -/
def RKey.rawDecrypt (k : RKey) (x : RCt) : Outcome RPoly := do
  let zero ← createZero k.key.logN k.ms true
  let s ← loop x.c.length (k.rawStep x) (k.key, zero)
  return s.2

/-- `ModReduce` (rns/rns_secret_key.cc:86-95). -/
def RKey.modReduce (k : RKey) : Outcome RKey :=
  if k.ms.length ≤ 1 then .err .failedPrecondition
  else do
    let (_, key) ← detachLast k.key
    return { k with key, ms := k.ms.dropLast }

/-- The conversion of the plaintext to NTT form (rns/rns_secret_key.h:180-183, 327-329,
rns/rns_bgv_public_key.h:101-103, rns/rns_bfv_public_key.h:101-103). -/
def plainNtt (ms : List Modulus) (x : RPoly) : Outcome RPoly := if !x.ntt then toNtt ms x else .ok x

/-- `EncryptPolynomialBgv` (rns/rns_secret_key.h:188-231); `t` is the encoder's `PlaintextModulus()`. -/
def RKey.encryptPolynomialBgv (G : Gen σ) (fuel : ℕ) (k : RKey) (pt : RPoly) (t : ℕ) (s : σ) :
    Outcome (RCt × σ) :=
  if !pt.ntt then .err .invalidArgument
  else do
    let (a, s) ← sampleUniform G fuel k.key.logN k.ms s
    let (c0, s) ← sampleErr G k.key.logN k.variance k.ms s
    let c0 ← mulInt k.ms c0 t
    let c0 ← add k.ms c0 pt
    let c0 ← fusedMulAdd k.ms c0 a k.key
    let a ← negateInPlace k.ms a
    return (⟨[c0, a], k.ms, 1⟩, s)

/-- `EncryptBgv` (rns/rns_secret_key.h:166-186). -/
def RKey.encryptBgv (G : Gen σ) (fuel : ℕ) (k : RKey) (E : Encoder) (messages : List ℕ) (s : σ) :
    Outcome (RCt × σ) := do
  let pt ← E.encodeBgv messages k.ms
  let pt ← plainNtt k.ms pt
  k.encryptPolynomialBgv G fuel pt E.t s

/-- `EncryptBfv` (rns/rns_secret_key.h:304-353): the error is sampled from `prng`, `a` from `prng_pad`. -/
def RKey.encryptBfv (G : Gen σ) (Gp : Gen τ) (fuel : ℕ) (k : RKey) (E : Encoder) (messages : List ℕ)
    (s : σ) (sp : τ) : Outcome (RCt × σ × τ) := do
  let pt ← E.encodeBfv messages k.ms
  let pt ← plainNtt k.ms pt
  let (a, sp) ← sampleUniform Gp fuel k.key.logN k.ms sp
  let (c0, s) ← sampleErr G k.key.logN k.variance k.ms s
  let c0 ← add k.ms c0 pt
  let c0 ← fusedMulAdd k.ms c0 a k.key
  let a ← negateInPlace k.ms a
  return (⟨[c0, a], k.ms, 1⟩, s, sp)

/-- `EncryptBfv` with one generator (rns/rns_secret_key.h:355-362): `a` is sampled before the error. -/
def RKey.encryptBfv1 (G : Gen σ) (fuel : ℕ) (k : RKey) (E : Encoder) (messages : List ℕ) (s : σ) :
    Outcome (RCt × σ) := do
  let pt ← E.encodeBfv messages k.ms
  let pt ← plainNtt k.ms pt
  let (a, s) ← sampleUniform G fuel k.key.logN k.ms s
  let (c0, s) ← sampleErr G k.key.logN k.variance k.ms s
  let c0 ← add k.ms c0 pt
  let c0 ← fusedMulAdd k.ms c0 a k.key
  let a ← negateInPlace k.ms a
  return (⟨[c0, a], k.ms, 1⟩, s)

/-- The checks of `DecryptBgv`, `DecryptBgvWithCrt` and `DecryptBfv`
(rns/rns_secret_key.h:239-254, 274-291, 370-385). -/
def RKey.decryptChecks (k : RKey) (x : RCt) : Outcome Unit :=
  if x.power ≠ 1 then .err .invalidArgument
  else do
    let n ← x.logN
    if n ≠ k.key.logN then .err .invalidArgument
    else if x.ms.length ≠ k.ms.length then .err .invalidArgument
    else .ok ()

/-- `DecryptBgv` (rns/rns_secret_key.h:233-263). -/
def RKey.decryptBgv (k : RKey) (E : Encoder) (x : RCt) : Outcome (List ℕ) := do
  k.decryptChecks x
  let r ← k.rawDecrypt x
  E.decodeBgv r k.ms

/-- `DecryptBgvWithCrt` (rns/rns_secret_key.h:266-301) with the finite field encoder. -/
def RKey.decryptBgvWithCrt (W : ℕ) (k : RKey) (e : FFEncoder) (x : RCt) (hats hatInvs : List ℕ) :
    Outcome (List ℕ) := do
  k.decryptChecks x
  if hats.length ≠ hatInvs.length ∨ hats.length ≠ k.ms.length then .err .invalidArgument
  else do
    let r ← k.rawDecrypt x
    ffDecodeBgvWithCrt W e r k.ms hats hatInvs

/-- `DecryptBfv` (rns/rns_secret_key.h:364-394). -/
def RKey.decryptBfv (k : RKey) (E : Encoder) (x : RCt) : Outcome (List ℕ) := do
  k.decryptChecks x
  let r ← k.rawDecrypt x
  E.decodeBfv r k.ms

/-! ### Public keys -/

/-- `RnsRlwePublicKey` (rns/rns_public_key.h:85-99), without the seed of the pad. -/
structure RPub where
  a : RPoly
  b : RPoly
  ms : List Modulus
  variance : ℤ
  deriving Repr

/-- `Create` (rns/rns_public_key.cc:36-95) on the generators created from the two fresh seeds. -/
def RPub.create (Gp : Gen τ) (G : Gen σ) (fuel : ℕ) (k : RKey) (variance : ℤ) (scalar : ℕ) (sp : τ) (s : σ) :
    Outcome RPub :=
  if variance ≤ 0 then .err .invalidArgument
  else do
    let (u, _) ← sampleUniform Gp fuel k.key.logN k.ms sp
    let (b, _) ← sampleErr G k.key.logN variance k.ms s
    let b ← mulInt k.ms b scalar
    let b ← fusedMulAdd k.ms b u k.key
    let u ← negateInPlace k.ms u
    return ⟨u, b, k.ms, variance⟩

/-- `RnsBgvPublicKey::Encrypt` (rns/rns_bgv_public_key.h:82-130). -/
def RPub.encryptBgv (G : Gen σ) (k : RPub) (E : Encoder) (messages : List ℕ) (s : σ) :
    Outcome (RCt × σ) := do
  let pt ← E.encodeBgv messages k.ms
  let pt ← plainNtt k.ms pt
  let (r, s) ← sampleErr G k.a.logN k.variance k.ms s
  let (c0, s) ← sampleErr G k.a.logN k.variance k.ms s
  let c0 ← mulInt k.ms c0 E.t
  let c0 ← fusedMulAdd k.ms c0 k.b r
  let c0 ← add k.ms c0 pt
  let (c1, s) ← sampleErr G k.a.logN k.variance k.ms s
  let c1 ← mulInt k.ms c1 E.t
  let c1 ← fusedMulAdd k.ms c1 k.a r
  return (⟨[c0, c1], k.ms, 1⟩, s)

/-- `RnsBfvPublicKey::Encrypt` (rns/rns_bfv_public_key.h:81-127). -/
def RPub.encryptBfv (G : Gen σ) (k : RPub) (E : Encoder) (messages : List ℕ) (s : σ) :
    Outcome (RCt × σ) := do
  let pt ← E.encodeBfv messages k.ms
  let pt ← plainNtt k.ms pt
  let (r, s) ← sampleErr G k.a.logN k.variance k.ms s
  let (c0, s) ← sampleErr G k.a.logN k.variance k.ms s
  let c0 ← fusedMulAdd k.ms c0 k.b r
  let c0 ← add k.ms c0 pt
  let (c1, s) ← sampleErr G k.a.logN k.variance k.ms s
  let c1 ← fusedMulAdd k.ms c1 k.a r
  return (⟨[c0, c1], k.ms, 1⟩, s)

end Shell.Rns
