import Verif.Model.Core
/-!
# The parameters the library ships

Model of shell_encryption/constants.h and shell_encryption/rns/constants.h.
-/

namespace Shell.Constants

/-- `kNewhopeModulus` (constants.h:33). -/
def kNewhopeModulus : ℕ := 12289
/-- `kNewhopeLogDegreeBound` (constants.h:34). -/
def kNewhopeLogDegreeBound : ℕ := 10
/-- `kNewhopeDegreeBound` (constants.h:35). -/
def kNewhopeDegreeBound : ℕ := 1 <<< kNewhopeLogDegreeBound

/-- `kModulus59` (constants.h:38). -/
def kModulus59 : ℕ := 332366567264636929
/-- `kInvModulus59` (constants.h:39). -/
def kInvModulus59 : ℕ := 7124357790306815999
/-- `kLogDegreeBound59` (constants.h:40). -/
def kLogDegreeBound59 : ℕ := 10
/-- `kDegreeBound59` (constants.h:41). -/
def kDegreeBound59 : ℕ := 1 <<< kLogDegreeBound59

/-- `kModulus44` (constants.h:44). -/
def kModulus44 : ℕ := 17592169240577
/-- `kLogDegreeBound44` (constants.h:45). -/
def kLogDegreeBound44 : ℕ := 10
/-- `kDegreeBound44` (constants.h:46). -/
def kDegreeBound44 : ℕ := 1 <<< kLogDegreeBound44

/-- `kModulus29` (constants.h:51). -/
def kModulus29 : ℕ := 463187969
/-- `kLogDegreeBound29` (constants.h:52). -/
def kLogDegreeBound29 : ℕ := 10
/-- `kDegreeBound29` (constants.h:53). -/
def kDegreeBound29 : ℕ := 1 <<< kLogDegreeBound29
/-- `kModulus25` (constants.h:54). -/
def kModulus25 : ℕ := 33538049
/-- `kLogDegreeBound25` (constants.h:55). -/
def kLogDegreeBound25 : ℕ := 10
/-- `kDegreeBound25` (constants.h:56). -/
def kDegreeBound25 : ℕ := 1 <<< kLogDegreeBound25

/-- `kModulus80` (constants.h:60-61): `absl::MakeUint128(35026, 3764636248688824321)`. -/
def kModulus80 : ℕ := 35026 * 2 ^ 64 + 3764636248688824321
/-- `kLogDegreeBound80` (constants.h:62). -/
def kLogDegreeBound80 : ℕ := 11
/-- `kDegreeBound80` (constants.h:63). -/
def kDegreeBound80 : ℕ := 1 <<< kLogDegreeBound80

/-- `kMaxNumCoeffs` (constants.h:65). -/
def kMaxNumCoeffs : ℕ := 1 <<< 15
/-- `kMaxLogNumCoeffs` (constants.h:66). -/
def kMaxLogNumCoeffs : ℕ := 15
/-- `kMaxVariance` (constants.h:67). -/
def kMaxVariance : ℕ := 256

/-- The moduli of constants.h with their degree bounds (constants.h:33-63): modulus, logarithm of the degree
bound, degree bound. -/
def shipped : List (ℕ × ℕ × ℕ) :=
  [(kNewhopeModulus, kNewhopeLogDegreeBound, kNewhopeDegreeBound),
   (kModulus59, kLogDegreeBound59, kDegreeBound59),
   (kModulus44, kLogDegreeBound44, kDegreeBound44),
   (kModulus29, kLogDegreeBound29, kDegreeBound29),
   (kModulus25, kLogDegreeBound25, kDegreeBound25),
   (kModulus80, kLogDegreeBound80, kDegreeBound80)]

/-- One set of RNS parameters: main primes, auxiliary primes, `log N`, plaintext modulus
(rns/constants.h:33-43; `RnsParameters`, rns/testing/parameters.h:75). -/
structure RnsSet where
  qs : List ℕ
  ps : List ℕ
  logN : ℕ
  t : ℕ

/-- `k60BitModulus*` (rns/constants.h:33-37). -/
def k60Bit : RnsSet := ⟨[974849, 765953], [557057], 11, 17⟩

/-- `k59BitModulus*` (rns/constants.h:40-43). -/
def k59Bit : RnsSet := ⟨[536375297], [1073655809], 11, 17⟩

end Shell.Constants
