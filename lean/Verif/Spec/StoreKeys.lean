import Verif.Model.StoreKeys
import Verif.Spec.Store
import Verif.Spec.WordSwitch
import Verif.Model.ErrorTrack
/-!
# Programs with key switching

The machine of `Spec/Store.lean` with relinearization and Galois keys.  Key switching adds noise that depends on the
keys and the ciphertext; to the machine it is an unknown polynomial `e` of bounded size, multiplied with the plaintext
modulus `t`.
-/

namespace Shell.Spec
open Store ErrorTrack
variable {n : ℕ}

/-- A key for ciphertexts of `numParts` components under `s(X^power)` with digits of `logBase` bits.  The key of an
automorphism has `numParts = 2` and `power ≠ 1`. -/
structure KeyShape where
  numParts : ℕ
  logBase : ℕ
  power : ℕ

/-- The number of components that the key removes or moves to another secret. -/
def KeyShape.count (K : KeyShape) : ℕ := K.numParts - (if K.power = 1 then 2 else 1)

/-- What `Error()` grows by: `8 / √3 * t * digits * σ * n * base * count`. -/
noncomputable def KeyShape.estimate (P : ErrorParams) (n : ℕ) (K : KeyShape) : ℝ :=
  8 / √3 * P.exportT * ((K.logBase + P.logModulus - 1) / K.logBase : ℕ) * P.sigma * n * (2 ^ K.logBase : ℕ) * K.count

/-- A bound of the noise polynomial, without the factor `t`, if the sampled errors are at most `B` and the modulus has
`logModulus` bits. -/
def KeyShape.noise (n logModulus B : ℕ) (K : KeyShape) : ℕ :=
  switchNoise n 1 K.count ((logModulus + (K.logBase - 1)) / K.logBase) K.logBase B

/-- A call of `Spec/Store.lean`, or the key number `r` applied to the ciphertext number `a`. -/
inductive IdealKeyed (n : ℕ) where
  | plain (c : IdealCall n)
  | relinearize (a r : ℕ)
  | galois (a r : ℕ)

/-- The call of the library for the modulus `N`. -/
def IdealKeyed.call (p : MParams) (N : ℕ) : IdealKeyed n → Store.KeyedCall ℝ
  | plain c => .plain (c.call p N)
  | relinearize a r => .relinearize a r
  | galois a r => .galois a r

/-- What a call does to the machine, or the error it returns.  The value of a ciphertext does not change but for the
noise `t * e`; the result is a ciphertext of two components under the secret key itself.  Ciphertexts with another
number of components, and for Galois keys those of another power, are rejected. -/
noncomputable def IdealKeyed.ideal (σ : Fin n → ℤ) (P : ErrorParams) (N t : ℕ) (keys : List KeyShape) (e : Fin n → ℤ)
    (M : IdealMem n) : IdealKeyed n → Except Status (IdealMem n)
  | plain c => c.ideal σ (P.bPlaintext n) N M
  | relinearize a r => do
      let X ← object M.cts a
      let K ← object keys r
      if X.size ≠ K.numParts then .error .invalidArgument
      else .ok { M with cts := M.cts ++ [⟨2, 1, fun j => X.value j + t * e j, X.error + K.estimate P n, 0, 0⟩] }
  | galois a r => do
      let X ← object M.cts a
      let K ← object keys r
      if X.power ≠ K.power ∨ X.size ≠ K.numParts then .error .invalidArgument
      else .ok { M with cts := M.cts ++ [⟨2, 1, fun j => X.value j + t * e j, X.error + K.estimate P n, 0, 0⟩] }

/-- The statuses and the objects at the end, if the `i`-th call adds the noise `e i`; a rejected call changes
nothing. -/
noncomputable def keyedRun (σ : Fin n → ℤ) (P : ErrorParams) (N t : ℕ) (keys : List KeyShape) :
    (ℕ → Fin n → ℤ) → IdealMem n → List (IdealKeyed n) → List (Outcome Unit) × IdealMem n
  | _, M, [] => ([], M)
  | e, M, c :: cs =>
    match c.ideal σ P N t keys (e 0) M with
    | .ok M' => (.ok () :: (keyedRun σ P N t keys (fun i => e (i + 1)) M' cs).1,
        (keyedRun σ P N t keys (fun i => e (i + 1)) M' cs).2)
    | .error s => (.err s :: (keyedRun σ P N t keys (fun i => e (i + 1)) M cs).1,
        (keyedRun σ P N t keys (fun i => e (i + 1)) M cs).2)

/-- The objects exist, and a ciphertext to be relinearized is one under the secret that the key is made for, if it has
the number of components that the key is made for (`RelinearizationKey::ApplyTo` does not compare the powers). -/
def IdealKeyed.Proper (w : ℕ) (keys : List KeyShape) (M : IdealMem n) : IdealKeyed n → Prop
  | plain c => c.Proper w M
  | relinearize a r => ∃ X K, M.cts[a]? = some X ∧ keys[r]? = some K ∧ (X.size = K.numParts → X.power = K.power)
  | galois a r => a < M.cts.length ∧ r < keys.length

/-- Every call of the program is proper at its time; that does not depend on the noise. -/
def KeyedProper (σ : Fin n → ℤ) (P : ErrorParams) (N w : ℕ) (keys : List KeyShape) :
    IdealMem n → List (IdealKeyed n) → Prop
  | _, [] => True
  | M, c :: cs => c.Proper w keys M ∧
    match c.ideal σ P N 1 keys 0 M with
    | .ok M' => KeyedProper σ P N w keys M' cs
    | .error _ => KeyedProper σ P N w keys M cs

/-- `rk` is the key that `RelinearizationKey::Create` (or `GaloisKey::Create`, for two parts) returns. -/
def Made {ρ : Type} (R : Word.Rng ρ) (fuel : ℕ) (k : Word.Key) (rk : Word.RKey) (K : KeyShape) : Prop :=
  K.logBase < 31 ∧ ∃ prng seed seedE,
    Word.RKey.create R fuel k prng K.numParts K.logBase K.power seed seedE = .ok rk

end Shell.Spec
