import Verif.Model.Rns
import Mathlib.Algebra.Order.Field.Basic
import Mathlib.Data.Rat.Cast.Order
/-!
# What an RNS polynomial stands for

An integer vector `F` (the coefficients of a polynomial modulo `X^n + 1`) is represented by an RNS
polynomial when, for every modulus `q_i`, the numbers `ExportInt` returns for its coefficient form are
the remainders of `F` modulo `q_i`.  Nothing is said about the size of `F`: it matters only modulo the
product of the moduli.
-/

namespace Shell.Spec
open Rns

/-- A modulus as `RnsContext` builds it: a prime for which the Montgomery parameters and the NTT
parameters of dimension `2^l` could be created with `w`-bit words. -/
structure GoodModulus (w l : ℕ) (m : Modulus) : Prop where
  prime : m.N.Prime
  create : MParams.create w m.N = .ok m.p
  init : Ntt.initNtt m.p l = .ok m.q

/-- The stored words `v` are `n` words modulo `m` in coefficient form that export to `F` modulo `m`. -/
def CoeffsAre (m : Modulus) (n : ℕ) (v : List ℕ) (F : Fin n → ℤ) : Prop :=
  v.length = n ∧ (∀ a ∈ v, a ≤ m.N) ∧
    ∀ i : Fin n, (Mont.exportInt m.p (v.getD i 0) : ℤ) = F i % m.N

/-- The same in either form: in NTT form, after the inverse transform. -/
def Holds (l : ℕ) (m : Modulus) (isNtt : Bool) (v : List ℕ) (F : Fin (2 ^ l) → ℤ) : Prop :=
  if isNtt then v.length = 2 ^ l ∧ (∀ a ∈ v, a ≤ m.N) ∧
    ∃ r, Ntt.inverse m.p m.q v = .ok r ∧ CoeffsAre m (2 ^ l) r F
  else CoeffsAre m (2 ^ l) v F

/-- The RNS polynomial `x` with respect to the moduli `ms` represents `F`. -/
def Represents (l : ℕ) (ms : List Modulus) (x : RPoly) (F : Fin (2 ^ l) → ℤ) : Prop :=
  x.logN = l ∧ List.Forall₂ (fun m v => Holds l m x.ntt v F) ms x.coeffs

/-- The product of the moduli. -/
def modulusProd (ms : List Modulus) : ℕ := (ms.map (·.N)).prod

/-- The stored words `c` are the residues of the integer `z` modulo the moduli `ms`. -/
def RnsIntIs (ms : List Modulus) (c : List ℕ) (z : ℤ) : Prop :=
  List.Forall₂ (fun m a => a ≤ m.N ∧ (Mont.exportInt m.p a : ℤ) = z % m.N) ms c

/-- The stored words `c` are inverses of the integer `q` modulo the moduli `ms`. -/
def InverseIs (ms : List Modulus) (c : List ℕ) (q : ℤ) : Prop :=
  List.Forall₂ (fun m a => a ≤ m.N ∧ (m.N : ℤ) ∣ Mont.exportInt m.p a * q - 1) ms c

/-- The stored words `c` are the inverses of the complements `Q / q_i` modulo `q_i`. -/
def HatInvs (ms : List Modulus) (c : List ℕ) : Prop :=
  List.Forall₂ (fun m a => a ≤ m.N ∧
    (m.N : ℤ) ∣ Mont.exportInt m.p a * (modulusProd ms / m.N : ℕ) - 1) ms c

/-- The rows of `t` are the residues of the complements `Q / q_i` modulo the moduli `outs`. -/
def HatResidues (ms outs : List Modulus) (t : List (List ℕ)) : Prop :=
  List.Forall₂ (fun m row => RnsIntIs outs row (modulusProd ms / m.N : ℕ)) ms t

/-- Row `j` of the table holds the inverses of the moduli `ms` modulo the `j`-th output modulus. -/
def InvRows (ms outs : List Modulus) (t : List (List ℕ)) : Prop :=
  List.Forall₂ (fun pj row => List.Forall₂ (fun m a => a ≤ pj.N ∧
    (pj.N : ℤ) ∣ Mont.exportInt pj.p a * m.N - 1) ms (row.take ms.length)) outs t

/-- The rounded floating-point sum `est` of at most `k` quotients `x / q` with `x < q` is within `1/2 + ε` of the
exact sum. -/
def EstimateWithin (k : ℕ) (ε : ℚ) (est : Estimate) : Prop :=
  ∀ c, c.length ≤ k → (∀ xq ∈ c, xq.1 < xq.2) → |(est c : ℚ) - (c.map fun xq => (xq.1 : ℚ) / xq.2).sum| ≤ 1 / 2 + ε

end Shell.Spec
