import Verif.Model.Relin
/-!
Model of `PublicRlweKey` (shell_encryption/public_key_encryption.{h,cc}) on residue vectors.

The pads and errors drawn from the PRNGs are arguments; that errors are small is C38.  Null parameter
pointers and failures of the PRNG itself are not modelled.
-/

namespace Shell.Pub
open Sym Relin
variable {C : Ctx}

/-- `kMaxVariance` (constants.h:67). -/
def kMaxVariance : ℤ := 256

/-- The state of `PublicRlweKey` (public_key_encryption.h:115-124): `key_a_`, `key_b_`, `t_mod_`. -/
structure PKey (C : Ctx) where
  a : C.Poly
  b : C.Poly
  t : ZMod C.q

/-- `PublicRlweKey::Create` (public_key_encryption.cc:47-115): `a` is the uniform polynomial, `e` the
coefficients sampled by `SampleFromErrorDistribution`, which rejects large variances
(sample_error.h:46-49). -/
def create (k : Key C) (variance : ℤ) (prng : PrngType) (a e : C.Poly) : Outcome (PKey C) :=
  if variance ≤ 0 then .err .invalidArgument
  else if prng = .invalid then .err .invalidArgument
  else if variance > kMaxVariance then .err .invalidArgument
  else
    let b := C.toNtt e
    let b := scalarMul k.tUnderQ b
    let b := b + a * k.key
    .ok { a := -a, b := b, t := k.tUnderQ }

/-- `PublicRlweKey::Encrypt` (public_key_encryption.cc:117-168): `m` is the plaintext in NTT form,
`v`, `e0`, `e1` the sampled coefficients. -/
def encrypt (pk : PKey C) (m : C.Poly) (variance : ℤ) (prngNull : Bool) (v e0 e1 : C.Poly) :
    Outcome (Ct C) :=
  if variance ≤ 0 then .err .invalidArgument
  else if prngNull then .err .invalidArgument
  else if variance > kMaxVariance then .err .invalidArgument
  else
    let v := C.toNtt v
    let c0 := C.toNtt e0
    let c0 := scalarMul pk.t c0
    let c0 := c0 + pk.b * v
    let c0 := c0 + m
    let c1 := C.toNtt e1
    let c1 := scalarMul pk.t c1
    let c1 := c1 + pk.a * v
    .ok { c := [c0, c1], power := 1 }

end Shell.Pub
