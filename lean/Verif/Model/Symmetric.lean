import Verif.Model.NttRing
import Verif.Model.Loop
import Verif.Model.Transcription
/-!
# `shell_encryption/symmetric_encryption.h`

Polynomials are vectors of residues (see `Verif/Model/NttRing.lean`): a stored word `n_` is replaced by
the residue it represents, so `ExportInt` is `ZMod.val` and `ImportInt` is the cast.  All polynomials of
a context have the context's length `n = 2^l`; the errors for other lengths are the ones of C17.
The floating-point error estimate carried by a ciphertext has no influence on any operation; it is modelled in
`Verif/Model/ErrorTrack.lean`.
-/

namespace Shell

/-- What `ModulusParams` and `NttParameters` provide: word width, modulus, log of the number of
coefficients and the root of unity of the NTT (montgomery.h:78-202, ntt_parameters.h:161-179). -/
structure Ctx where
  w : ℕ
  q : ℕ
  l : ℕ
  psi : ZMod q

namespace Ctx
variable (C : Ctx)

/-- The number of coefficients (`number_coeffs`, ntt_parameters.h:161-179). -/
abbrev n : ℕ := 2 ^ C.l

/-- A `Polynomial<ModularInt>` (or a coefficient vector) (polynomial.h:348). -/
abbrev Poly := Fin (2 ^ C.l) → ZMod C.q

/-- `Polynomial::ConvertToNtt` (polynomial.h:69-79). -/
def toNtt (f : C.Poly) : C.Poly := NttRing.ntt C.psi C.l f

/-- `Polynomial::InverseNtt` (polynomial.h:96-112). -/
def fromNtt (F : C.Poly) : C.Poly := NttRing.intt C.psi C.l F

/-- `Polynomial::Substitute` (polynomial.h:216-250). -/
def substitute (F : C.Poly) (power : ℤ) : Outcome C.Poly :=
  if 0 > power ∨ power.tmod 2 = 0 then .err .invalidArgument
  else if power ≥ 2 * C.n then .err .invalidArgument
  else .ok (NttRing.subst C.l power.toNat F)

end Ctx

/-- A constant polynomial times a scalar: `MulInPlace(scalar)` (polynomial.h:134-137). -/
def scalarMul {n q : ℕ} (c : ZMod q) (f : Fin n → ZMod q) : Fin n → ZMod q := fun i => c * f i

namespace Sym
variable {C : Ctx}

/-- `class SymmetricRlweCiphertext` (symmetric_encryption.h:585-603): components and `power_of_s_`,
plus the accumulators of the lazy mode.  A `LazyPolynomial` is represented by the residues it exports
(this is C23). -/
structure Ct (C : Ctx) where
  c : List C.Poly
  power : ℤ
  lazy : List C.Poly := []

/-! ### Addition and subtraction -/

/-- `c_.resize(that.c_.size(), zero)` when shorter (symmetric_encryption.h:124-127, 166-169); reading
`that.c_[0]` is in range because `that` is longer. -/
def padTo (a b : List C.Poly) : List C.Poly :=
  if a.length < b.length then a ++ List.replicate (b.length - a.length) 0 else a

/-- `AddInPlace` (symmetric_encryption.h:118-136); on error the object is unchanged. -/
def addInPlace (x y : Ct C) : Outcome (Ct C) :=
  if x.power ≠ y.power then .err .invalidArgument
  else do
    let c ← loop y.c.length (fun i c => do
      let u ← rd c i
      let v ← rd y.c i
      wr c i (u + v)) (padTo x.c y.c)
    return { x with c := c }

/-- `SubInPlace` (symmetric_encryption.h:160-178). -/
def subInPlace (x y : Ct C) : Outcome (Ct C) :=
  if x.power ≠ y.power then .err .invalidArgument
  else do
    let c ← loop y.c.length (fun i c => do
      let u ← rd c i
      let v ← rd y.c i
      wr c i (u - v)) (padTo x.c y.c)
    return { x with c := c }

/-! ### Absorption and multiplication -/

/-- `AbsorbInPlace(polynomial)` (symmetric_encryption.h:221-227). -/
def absorb (x : Ct C) (f : C.Poly) : Ct C := { x with c := x.c.map (· * f) }

/-- `AbsorbInPlace(scalar)` (symmetric_encryption.h:238-244). -/
def absorbScalar (x : Ct C) (s : ZMod C.q) : Ct C := { x with c := x.c.map (scalarMul s) }

/-- The components `c_[i] += a.c_[i] * b` and the appended products of `FusedAbsorbAddInPlace`
(symmetric_encryption.h:258-271). -/
def fusedComponents (b : C.Poly) : List C.Poly → List C.Poly → List C.Poly
  | c, [] => c
  | [], a :: as => a * b :: fusedComponents b [] as
  | c :: cs, a :: as => (c + a * b) :: fusedComponents b cs as

/-- `FusedAbsorbAddInPlace` (symmetric_encryption.h:250-275) and `FusedAbsorbConstantAddInPlace`
(symmetric_encryption.h:364-391), which computes the same residues (C16). -/
def fusedAbsorbAdd (x a : Ct C) (b : C.Poly) : Outcome (Ct C) :=
  if x.power ≠ a.power then .err .invalidArgument
  else .ok { x with c := fusedComponents b x.c a.c }

/-- `FusedAbsorbAddInPlaceLazily` (symmetric_encryption.h:285-335).  The loop runs over `lazy_.size()`
and reads `a.c_[j]`. -/
def fusedAbsorbAddLazily (x a : Ct C) (b : C.Poly) : Outcome (Ct C) :=
  if x.power ≠ a.power then .err .invalidArgument
  else if a.c.length = 0 then .ok x
  else if x.lazy.length = 0 then .ok { x with lazy := a.c.map (· * b) }
  else do
    let lz := padTo x.lazy a.c
    let lz ← loop lz.length (fun j lz => do
      let u ← rd lz j
      let v ← rd a.c j
      wr lz j (u + v * b)) lz
    return { x with lazy := lz }

/-- `c_[i] += lazy_[i]`, appending the rest (symmetric_encryption.h:351-359). -/
def mergeComponents : List C.Poly → List C.Poly → List C.Poly
  | c, [] => c
  | [], a :: as => a :: mergeComponents [] as
  | c :: cs, a :: as => (c + a) :: mergeComponents cs as

/-- `MergeLazyOperations` (symmetric_encryption.h:340-362). -/
def mergeLazy (x : Ct C) : Outcome (Ct C) :=
  if x.lazy = [] then .err .failedPrecondition
  else .ok { x with c := mergeComponents x.c x.lazy, lazy := [] }

/-- `operator*` of two ciphertexts (symmetric_encryption.h:408-435).  The check for empty polynomials
cannot fail here. -/
def mul (x y : Ct C) : Outcome (Ct C) :=
  if x.power ≠ y.power then .err .invalidArgument
  else if x.c.length ≤ 0 ∨ y.c.length ≤ 0 then .err .invalidArgument
  else do
    let r ← loop x.c.length (fun i r =>
      loop y.c.length (fun j r => do
        let t ← rd r (i + j)
        let u ← rd x.c i
        let v ← rd y.c j
        wr r (i + j) (t + u * v)) r) (List.replicate (x.c.length + y.c.length - 1) 0)
    return { c := r, power := x.power }

/-! ### Substitution -/

/-- `Substitute` (symmetric_encryption.h:517-532): `power_of_s_ * substitution_power` and
`2 * c_[0].Len()` are `int` expressions; `c_[0]` must exist. -/
def substitute (x : Ct C) (k : ℤ) : Outcome (Ct C) := do
  let c ← x.c.mapM (fun f => C.substitute f k)
  let pr ← Transcription.int32 (x.power * k)
  if x.c.length = 0 then .ub .outOfBounds
  else return { c := c, power := pr.tmod (2 * C.n) }

/-! ### Keys -/

/-- `class SymmetricRlweKey` (symmetric_encryption.h:836-855).  `ptq` is the modulus of
`plaintext_modulus_params_` and `tMod` the residue `t_mod_` represents under these parameters. -/
structure Key (C : Ctx) where
  key : C.Poly
  variance : ℕ
  logT : ℕ
  ptq : ℕ
  tMod : ZMod ptq

/-- The `Int` expression `(One() << log_t) + One()` for `w`-bit words (e.g. symmetric_encryption.h:644-645).
Narrow words are promoted to `int`, so the shift is undefined from 32 bits on. -/
def plaintextModulus (w logT : ℕ) : Outcome ℕ := do
  let s ← Transcription.shl w 1 logT
  return (s + 1) % 2 ^ w

/-- `SymmetricRlweKey::Sample` (symmetric_encryption.h:634-649); `s` is the output of
`SampleFromErrorDistribution`. -/
def Key.sample (s : C.Poly) (variance logT : ℕ) : Outcome (Key C) := do
  let t ← plaintextModulus C.w logT
  return { key := C.toNtt s, variance := variance, logT := logT, ptq := C.q, tMod := t }

/-- `SymmetricRlweKey::NullKey` (symmetric_encryption.h:825-835). -/
def Key.null (C : Ctx) (variance logT : ℕ) : Outcome (Key C) := do
  let t ← plaintextModulus C.w logT
  return { key := 0, variance := variance, logT := logT, ptq := C.q, tMod := t }

/-- `SymmetricRlweKey::Substitute` (symmetric_encryption.h:749-760): `t_mod_` is imported again under
`modulus_params_`, but kept with `plaintext_modulus_params_`: the stored word `t * 2^w mod q` is
reinterpreted. -/
def Key.substitute (k : Key C) (power : ℤ) : Outcome (Key C) := do
  let t ← plaintextModulus C.w k.logT
  let sub ← C.substitute k.key power
  return { k with key := sub
                  tMod := (((t : ZMod C.q) * 2 ^ C.w).val : ZMod k.ptq) * (2 ^ C.w : ZMod k.ptq)⁻¹ }

/-- `t_mod_ != other_key.t_mod_` compares stored words (montgomery.h:602). -/
def Key.tWord (k : Key C) : ℕ := (k.tMod * 2 ^ C.w).val

/-- The common checks of `Add` and `Sub` (symmetric_encryption.h:779-795, 804-820). -/
def Key.compatible (k k' : Key C) : Bool :=
  k.variance = k'.variance && k.logT = k'.logT && k.tWord = k'.tWord

/-- `SymmetricRlweKey::Add` (symmetric_encryption.h:777-801). -/
def Key.add (k k' : Key C) : Outcome (Key C) :=
  if k.compatible k' then .ok { k with key := k.key + k'.key } else .err .invalidArgument

/-- `SymmetricRlweKey::Sub` (symmetric_encryption.h:803-822). -/
def Key.sub (k k' : Key C) : Outcome (Key C) :=
  if k.compatible k' then .ok { k with key := k.key - k'.key } else .err .invalidArgument

/-! ### Encryption and decryption -/

/-- The residue modulo `q` represented by the stored word of `t_mod_`, as used by
`c0.MulInPlace(key.PlaintextModulus(), key.ModulusParams())` (symmetric_encryption.h:955-956). -/
def Key.tUnderQ (k : Key C) : ZMod C.q := (k.tWord : ZMod C.q) * (2 ^ C.w : ZMod C.q)⁻¹

/-- `internal::Encrypt` (symmetric_encryption.h:940-961): `m` is the plaintext in NTT form, `a` the pad
and `e` the coefficients of the sampled error. -/
def encryptWithPad (k : Key C) (m a e : C.Poly) : C.Poly :=
  let c0 := C.toNtt e
  let c0 := scalarMul k.tUnderQ c0
  let c0 := c0 + m
  c0 + a * k.key

/-- `Encrypt` (symmetric_encryption.h:1006-1023). -/
def encrypt (k : Key C) (m a e : C.Poly) : Ct C :=
  { c := [encryptWithPad k m a e, -a], power := 1 }

/-- `internal::ExtractErrorAndMessage` (symmetric_encryption.h:966-1000): the loop over the components
on `(error_and_message_ntt, key_powers)`. -/
def extract (k : Key C) (x : Ct C) : Outcome C.Poly := do
  let s ← loop x.c.length (fun i (s : C.Poly × C.Poly) => do
    let ci ← rd x.c i
    let kp := if i > 1 then s.2 * k.key else s.2
    let ci := if i > 0 then ci * kp else ci
    return (s.1 + ci, kp)) (0, k.key)
  return C.fromNtt s.1

/-- `RemoveError` (symmetric_encryption.h:1084-1111) on one exported coefficient. -/
def removeErrorCoeff (w q t x : ℕ) : ℕ :=
  if t = 0 then x
  else
    let x := if x > q >>> 1 then trunc w ((x : ℤ) - (q % t : ℕ)) else x
    x % t

/-- `Decrypt` (symmetric_encryption.h:1138-1152). -/
def decrypt (k : Key C) (x : Ct C) : Outcome (Fin C.n → ℕ) := do
  let em ← extract k x
  let t := k.tMod.val
  if t = 0 then .err .invalidArgument
  else return fun i => removeErrorCoeff C.w C.q t (em i).val

/-- `MeasureError` (symmetric_encryption.h:1118-1136): largest absolute value of the centred
coefficients. -/
def measureError (q : ℕ) (em : List ℕ) : ℕ :=
  em.foldl (fun mx c =>
    let c := if c > q >>> 1 then q - c else c
    if c > mx then c else mx) 0

/-! ### Modulus switching -/

/-- One coefficient of `SymmetricRlweCiphertext::SwitchModulus` (symmetric_encryption.h:471-496) from
modulus `p` to `q`, on `w`-bit words: `int_q`.  (Narrow words are promoted to `int`; since only
`int_p - int_q` can be negative, and only for `q > p`, the wrapping value is used throughout.) -/
def switchCoeff (w p q t x : ℕ) : ℕ :=
  let y := (x * q / p) % 2 ^ w
  let delta := trunc w ((x : ℤ) - y) % t
  let y := (y + delta) % 2 ^ w
  if delta ≥ t >>> 1 then trunc w ((y : ℤ) + (q - t)) else y

/-- `SymmetricRlweCiphertext::SwitchModulus` (symmetric_encryption.h:442-507) from context `C` to `D`
(of the same number of coefficients). -/
def switchModulus (D : Ctx) (h : C.l = D.l) (x : Ct C) (t : ℕ) : Outcome (Ct D) :=
  if t = 0 then .ub .divByZero
  else if C.q % t ≠ D.q % t then .err .invalidArgument
  else .ok { c := x.c.map fun f => D.toNtt fun i =>
                (switchCoeff C.w C.q D.q t (C.fromNtt f (Fin.cast (by rw [h]) i)).val : ZMod D.q)
             power := x.power }

/-- One coefficient of `SymmetricRlweKey::SwitchModulus` (symmetric_encryption.h:719-726). -/
def switchKeyCoeff (w p q x : ℕ) : ℕ :=
  if x > p >>> 1 then trunc w ((x : ℤ) - (p % q : ℕ)) else x

/-- `SymmetricRlweKey::SwitchModulus` (symmetric_encryption.h:704-744). -/
def Key.switchModulus (D : Ctx) (h : C.l = D.l) (k : Key C) : Outcome (Key D) := do
  let t ← plaintextModulus D.w k.logT
  if t = 0 then .ub .divByZero
  else if C.q % t ≠ D.q % t then .err .invalidArgument
  else return {
    key := D.toNtt fun i =>
      (switchKeyCoeff C.w C.q D.q (C.fromNtt k.key (Fin.cast (by rw [h]) i)).val : ZMod D.q)
    variance := k.variance, logT := k.logT, ptq := D.q, tMod := t }

end Sym
end Shell
