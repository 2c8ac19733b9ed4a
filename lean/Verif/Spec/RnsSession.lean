import Verif.Spec.RnsLevelled
import Verif.Spec.Sampler
import Verif.Model.RnsKeys
import Mathlib.Data.Nat.Prime.Basic
/-!
# A session with the RNS schemes

The calls by which a user of the library obtains what a computation needs: a context, an encoder, a secret key and its
reductions, a public key, key switching keys, and encryptions.
-/

namespace Shell.Spec
open Rns
variable {σ τ : Type}

/-- What the user chooses. -/
structure SchemeChoice where
  /-- The bits of words, the logarithm of the dimension, the main and auxiliary moduli and the plaintext modulus. -/
  w : ℕ
  l : ℕ
  qs : List ℕ
  ps : List ℕ
  t : ℕ
  /-- The error variance. -/
  v : ℤ
  /-- The bits of the digits modulo every prime modulus, for every number of moduli. -/
  logBs : ℕ → List ℕ
  /-- For which numbers of moduli there are relinearization keys, and, with the substitution power, Galois keys. -/
  relins : List ℕ
  galois : List (ℕ × ℕ)

/-- The moduli are distinct odd primes with room for the errors, and digits have fewer than 31 bits. -/
structure SchemeChoice.Valid (C : SchemeChoice) : Prop where
  word : C.w ≤ 128
  prime : ∀ q ∈ C.qs ++ C.ps, q.Prime
  distinct : (C.qs ++ C.ps).Nodup
  plain : C.t.Prime
  small : C.t < 2 ^ C.w
  first : ∀ q ∈ C.qs.head?, C.t < q ∧ 2 * C.v ≤ q
  other : ∀ q ∈ C.qs ++ C.ps, q ≠ C.t
  level : ∀ a, a ∈ C.relins ∨ a ∈ C.galois.map (·.1) → 0 < a ∧ a ≤ C.qs.length ∧ (C.logBs a).length = a ∧
    ∀ b ∈ C.logBs a, 0 < b ∧ b < 31 ∧ b < C.w

/-- `g` is the gadget created from the constants of the context for the first `lev` moduli. -/
def SchemeChoice.Gadget (C : SchemeChoice) (c : Rns.Ctx) (lev : ℕ) (g : RGadget) : Prop :=
  ∃ hats hatInvs, c.complements (lev - 1) = .ok hats ∧ c.crtFactors (lev - 1) = .ok hatInvs ∧
    RGadget.create C.l (C.logBs lev) hats hatInvs (c.qs.take lev) = .ok g

/-- Keys: `k lev` is the secret key for the first `lev` moduli, and `v` has the encoder, the relinearization keys of
degree 2 and the Galois keys.  `G` and `Gp` are the generators of errors and pads, `fuel` bounds rejection sampling, and
errors are multiplied by `z`: `t` for BGV and 1 for BFV. -/
structure KeySession (G : Gen σ) (Gp : Gen τ) (fuel : ℕ) (C : SchemeChoice) (z : ℕ) (c : Rns.Ctx) (k : ℕ → RKey)
    (v : LEnv) : Prop where
  encoder : ffCreate c = .ok v.e
  secret : ∃ s s', RKey.sample G C.l C.v c.qs s = .ok (k c.qs.length, s')
  reduced : ∀ lev, 0 < lev → lev < c.qs.length → (k (lev + 1)).modReduce = .ok (k lev)
  relin : ∀ lev ∈ C.relins, ∃ g prng sp s, C.Gadget c lev g ∧
    RRelin.create Gp G fuel (k lev) 2 C.v g prng z sp s = .ok (v.relin lev)
  galois : ∀ a ∈ C.galois, ∃ g prng sp s, C.Gadget c a.1 g ∧
    RGalois.create Gp G fuel (k a.1) a.2 C.v g prng z sp s = .ok (v.galois a.1 a.2)

/-- Messages are words, at most one for every slot. -/
def SchemeChoice.Messages (C : SchemeChoice) (m : List ℕ) : Prop := (∀ a ∈ m, a < 2 ^ C.w) ∧ m.length ≤ 2 ^ C.l

/-- The results of the calls for BGV: a context, keys, and ciphertexts `v.x i` that encrypt the vectors `m i` with the
secret key, and `v.y i` that encrypt `m' i` with the public key `pk`. -/
structure BgvSession (G : Gen σ) (Gp : Gen τ) (fuel : ℕ) (est : Estimate) (C : SchemeChoice) (c : Rns.Ctx)
    (k : ℕ → RKey) (pk : RPub) (v : LEnv) (m m' : ℕ → List ℕ) : Prop where
  context : createForBgvFiniteField C.w C.l C.qs C.ps C.t = .ok c
  keys : KeySession G Gp fuel C C.t c k v
  pub : ∃ sp s, RPub.create Gp G fuel (k c.qs.length) C.v C.t sp s = .ok pk
  messages : ∀ i, C.Messages (m i) ∧ C.Messages (m' i)
  encrypt : ∀ i, ∃ s s', (k c.qs.length).encryptBgv G fuel (finiteFieldEncoder est v.e) (m i) s = .ok (v.x i, s')
  receive : ∀ i, ∃ s s', pk.encryptBgv G (finiteFieldEncoder est v.e) (m' i) s = .ok (v.y i, s')

/-- The bits of all digits: a modulus of `s` bits has `⌈s / b⌉` digits of `b` bits. -/
def gadgetLogs (qs logBs : List ℕ) : List ℕ :=
  digitLogs logBs (List.zipWith (fun q b => (Nat.size q + (b - 1)) / b) qs logBs)

/-- The start of the analysis: every error is at most twice the variance. -/
def SchemeChoice.params (C : SchemeChoice) : LParams where
  l := C.l
  w := C.w
  t := C.t
  qs := C.qs
  fresh := C.t / 2 + C.t * (2 * C.v)
  sent := C.t / 2 + C.t * (2 * C.v * (2 ^ C.l * (2 * C.v) + 1 + 2 ^ C.l * (2 * C.v)))
  secret := 2 ^ C.l * (2 * C.v)
  switch lev := digitNoise C.l C.t (2 * C.v) (gadgetLogs (C.qs.take lev) (C.logBs lev))
  relins := C.relins
  galois := C.galois

end Shell.Spec
