import Verif.Spec.RnsScheme
import Verif.Model.RnsGadget
/-!
# Gadgets and key-switching keys
-/

namespace Shell.Spec
open Rns

/-- `z_1 D_1 + .. + z_k D_k`. -/
def combine {n : ℕ} : List ℤ → List (Fin n → ℤ) → Fin n → ℤ
  | z :: zs, D :: Ds => (fun i => z * D i) + combine zs Ds
  | _, _ => 0

/-- `D_1 E_1 + .. + D_k E_k` modulo `X^n + 1`. -/
def sumMul {n : ℕ} : List (Fin n → ℤ) → List (Fin n → ℤ) → Fin n → ℤ
  | D :: Ds, E :: Es => negMul D E + sumMul Ds Es
  | _, _ => 0

/-- The logarithm of the base of every digit, for `dims` digits in base `2^logBs` per modulus. -/
def digitLogs : List ℕ → List ℕ → List ℕ
  | b :: bs, k :: ks => List.replicate k b ++ digitLogs bs ks
  | _, _ => []

/-- `g` is a gadget for the moduli `ms`: its components are the integers `Gs` modulo the product `Q` of the
moduli, and every polynomial decomposes into digits, the `k`-th below `2^logs[k]` in absolute value, whose
combination with `Gs` is the polynomial modulo `Q`. -/
structure GadgetFor (l : ℕ) (ms : List Modulus) (g : RGadget) (Gs : List ℤ) (logs : List ℕ) : Prop where
  dim : g.gs.length = g.dimension
  comps : List.Forall₂ (RnsIntIs ms) g.gs Gs
  decompose : ∀ a (F : Fin (2 ^ l) → ℤ), a.ntt = false → Represents l ms a F →
    ∃ (xs : List RPoly) (Ds : List (Fin (2 ^ l) → ℤ)), g.decompose a ms = .ok xs ∧
      List.Forall₂ (fun x D => x.ntt = false ∧ Represents l ms x D) xs Ds ∧
      List.Forall₂ (fun b D => ∀ i, |D i| < 2 ^ b) logs Ds ∧ Ds.length = Gs.length ∧
      CongMod (modulusProd ms) (combine Gs Ds) F

/-- The columns `as` and `bs` of a key for the secret `S`: with errors `Es`, `b_k + a_k S` is `t E_k + T_k`
modulo `X^n + 1` and the product of the moduli. -/
def KeyColumns (l : ℕ) (ms : List Modulus) (t : ℤ) (S : Fin (2 ^ l) → ℤ) :
    List (Fin (2 ^ l) → ℤ) → List RPoly → List RPoly → List (Fin (2 ^ l) → ℤ) → Prop
  | T :: Ts, a :: as, b :: bs, E :: Es =>
    (∃ A B, a.ntt = true ∧ Represents l ms a A ∧ b.ntt = true ∧ Represents l ms b B ∧
      B + negMul A S = (fun i => t * E i) + T) ∧ KeyColumns l ms t S Ts as bs Es
  | [], [], [], [] => True
  | _, _, _, _ => False

/-- The multiples of a polynomial by the components of a gadget. -/
def gadgetMultiples {n : ℕ} (Gs : List ℤ) (F : Fin n → ℤ) : List (Fin n → ℤ) := Gs.map fun z i => z * F i

/-- `F^k` modulo `X^n + 1`. -/
def polyPow {n : ℕ} (F : Fin n → ℤ) : ℕ → Fin n → ℤ
  | 0 => fun i => if (i : ℕ) = 0 then 1 else 0
  | k + 1 => negMul (polyPow F k) F

/-- What a relinearization key of degree `d` encrypts: the multiples of `S^2, .., S^d`. -/
def relinTargets {n : ℕ} (Gs : List ℤ) (S : Fin n → ℤ) (d : ℕ) : List (Fin n → ℤ) :=
  (List.range (d - 1)).flatMap fun i => gadgetMultiples Gs (polyPow S (i + 2))

/-- A Galois key for the secret `S`: its columns encrypt the multiples of `S(X^power)` with errors of at
most `B`, scaled by `t`. -/
structure GaloisFor (l : ℕ) (S : Fin (2 ^ l) → ℤ) (t B : ℤ) (key : RGalois) (Gs : List ℤ) (logs : List ℕ) :
    Prop where
  power : 0 ≤ key.power
  gadget : GadgetFor l key.ms key.gadget Gs logs
  columns : ∃ Es, KeyColumns l key.ms t S (gadgetMultiples Gs (substPow key.power.toNat S)) key.as key.bs Es ∧
    ∀ E ∈ Es, ∀ i, |E i| ≤ B

/-- A relinearization key for the secret `S`: its columns encrypt the multiples of `S^2, .., S^degree`. -/
structure RelinFor (l : ℕ) (S : Fin (2 ^ l) → ℤ) (t B : ℤ) (key : RRelin) (Gs : List ℤ) (logs : List ℕ) :
    Prop where
  degree : 2 ≤ key.degree
  gadget : GadgetFor l key.ms key.gadget Gs logs
  columns : ∃ Es, KeyColumns l key.ms t S (relinTargets Gs S key.degree.toNat) key.as key.bs Es ∧
    ∀ E ∈ Es, ∀ i, |E i| ≤ B

end Shell.Spec
