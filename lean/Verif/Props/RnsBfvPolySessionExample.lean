import Verif.Props.RnsBfvPolySession
import Verif.Props.RnsBfvSessionExample
/-!
# Property C79: a concrete session

Polynomials modulo `X^4 + 1` and 15, the moduli 65537 and 40961, two auxiliary moduli, a relinearization key for both
moduli, and a Galois key for one.
-/

namespace Shell
open Spec Rns

/-- The same parameters with a plaintext modulus that is not prime. -/
def exBfvPolyChoice : SchemeChoice := { exBfvChoice with t := 15 }

theorem exBfvPolyChoice_valid : exBfvPolyChoice.ValidPoly where
  word := by decide
  prime := exBfvChoice_valid.prime
  distinct := by decide
  small := by decide
  first := by
    intro q hq
    have hq : q = 65537 := by simpa [exBfvPolyChoice, exBfvChoice] using hq.symm
    subst hq
    decide
  other := by decide
  level := exBfvChoice_valid.level

structure ExBfvPolySession where
  c : Rns.Ctx
  k2 : RKey
  k1 : RKey
  pk : RPub
  x : RCt
  y : RCt
  relin : RRelin
  galois : RGalois

def exBfvPolySession : Outcome ExBfvPolySession := do
  let c ← createForBfv 32 (2 : ℕ) [65537, 40961] [12289, 114689] 15
  let (k2, _) ← RKey.sample lcg (2 : ℕ) 1 c.qs 3
  let k1 ← k2.modReduce
  let pk ← RPub.create lcg lcg 100 k2 1 1 5 7
  let (x, _) ← k2.encryptBfv1 lcg 100 (coefficientEncoder exactEstimate c) [1, 2, 3, 4] 11
  let (y, _) ← pk.encryptBfv lcg (coefficientEncoder exactEstimate c) [5, 6] 13
  let g2 ← exBfvGadgetAt c 2
  let relin ← RRelin.create lcg lcg 100 k2 2 1 g2 .hkdf 1 17 19
  let g1 ← exBfvGadgetAt c 1
  let galois ← RGalois.create lcg lcg 100 k1 (5 : ℕ) 1 g1 .hkdf 1 23 29
  return ⟨c, k2, k1, pk, x, y, relin, galois⟩

/-- The session, as a run of the library. -/
theorem exBfvPolySession_ok (est : Estimate) : ∃ k pk v, BfvPolySession lcg lcg 100 est exBfvPolyChoice k pk v (fun _ => [1, 2, 3, 4])
    (fun _ => [5, 6]) := by
  have hrun : (match exBfvPolySession with | .ok s => s.c.qs.length == 2 | _ => false) = true := by decide +kernel
  cases h : exBfvPolySession with
  | err e => rw [h] at hrun; cases hrun
  | ub e => rw [h] at hrun; cases hrun
  | ok s =>
    rw [h] at hrun
    have hlen : s.c.qs.length = 2 := by simpa using hrun
    unfold exBfvPolySession at h
    obtain ⟨c, h1, h⟩ := Outcome.bind_eq_ok.mp h
    obtain ⟨⟨k2, s1⟩, h3, h⟩ := Outcome.bind_eq_ok.mp h
    obtain ⟨k1, h4, h⟩ := Outcome.bind_eq_ok.mp h
    obtain ⟨pk, h5, h⟩ := Outcome.bind_eq_ok.mp h
    obtain ⟨⟨x, s2⟩, h6, h⟩ := Outcome.bind_eq_ok.mp h
    obtain ⟨⟨y, s3⟩, h7, h⟩ := Outcome.bind_eq_ok.mp h
    obtain ⟨g2, h8, h⟩ := Outcome.bind_eq_ok.mp h
    obtain ⟨relin, h9, h⟩ := Outcome.bind_eq_ok.mp h
    obtain ⟨g1, h10, h⟩ := Outcome.bind_eq_ok.mp h
    obtain ⟨galois, h11, h⟩ := Outcome.bind_eq_ok.mp h
    obtain rfl := Outcome.ok.inj h
    dsimp only at hlen h3 h4 h5 h6 h7 h9
    have hw : ∀ a ∈ [1, 2, 3, 4], a < 2 ^ 32 := by decide
    refine ⟨fun lev => if lev = 2 then k2 else k1, pk, ⟨c, fun _ => x, fun _ => y, fun _ => relin, fun _ _ => galois⟩,
      h1, ⟨?_, ?_, ?_, ?_⟩, ?_, fun _ => ⟨⟨hw, by decide⟩, by decide, by decide⟩, fun _ => ?_, fun _ => ⟨_, _, h7⟩⟩
    · rw [hlen]; exact ⟨_, _, h3⟩
    · intro lev l0 l1
      rw [hlen] at l1
      obtain rfl : lev = 1 := by omega
      exact h4
    · intro lev hl
      obtain rfl : lev = 2 := by simpa [exBfvPolyChoice, exBfvChoice] using hl
      exact ⟨g2, .hkdf, 17, 19, exBfvGadgetAt_ok h8, h9⟩
    · intro a ha
      obtain rfl : a = (1, 5) := by simpa [exBfvPolyChoice, exBfvChoice] using ha
      exact ⟨g1, .hkdf, 23, 29, exBfvGadgetAt_ok h10, h11⟩
    · rw [hlen]; exact ⟨_, _, h5⟩
    · rw [hlen]; exact Or.inl ⟨_, _, h6⟩

/-- A product of an encryption and a received encryption, moved by a plaintext polynomial, relinearized, reduced by a
modulus, multiplied by an unscaled plaintext polynomial, and substituted. -/
def exBfvPolyComputation : QCircuit :=
  .subst (.mulSimple (.reduce (.relin (.addPoly (.mul (.input 0) (.received 0)) [1, 2]))) [2, 1]) 5

/-- The hypotheses of `c79_circuit` are met; `((1 + 2X + 3X² + 4X³)(5 + 6X) + 1 + 2X)(2 + X)` at `X^5` is
`1 + 12X + 12X² + 2X³`. -/
example : ∃ k pk v, BfvPolySession lcg lcg 100 exactEstimate exBfvPolyChoice k pk v (fun _ => [1, 2, 3, 4]) (fun _ => [5, 6]) ∧
    ∃ r, exBfvPolyComputation.run exactEstimate v = .ok r ∧
      (k 1).decryptBfv (coefficientEncoder exactEstimate v.c) r = .ok [1, 12, 12, 2] := by
  obtain ⟨k, pk, v, h⟩ := exBfvPolySession_ok exactEstimate
  refine ⟨k, pk, v, h, ?_⟩
  have hu : (match exBfvPolyComputation.analyse (exBfvPolyChoice.bfvParams 0) with
    | some x => x.level == 1 && decide (x.noise < (1 / 2 - 0) * 65537)
    | none => false) = true := by decide +kernel
  cases hx : exBfvPolyComputation.analyse (exBfvPolyChoice.bfvParams 0) with
  | none => rw [hx] at hu; cases hu
  | some x =>
    rw [hx] at hu
    obtain ⟨h1, h2⟩ : x.level = 1 ∧ x.noise < (1 / 2 - 0) * 65537 := by
      rw [Bool.and_eq_true, beq_iff_eq, decide_eq_true_eq] at hu
      exact hu
    obtain ⟨r, r1, r2⟩ := c79_circuit lcg_words (exactEstimate_within _) le_rfl (by norm_num) exBfvPolyChoice_valid (by decide) (by decide)
      (by decide) (by decide) h exBfvPolyComputation hx (by
        rw [h1]
        have : (([65537, 40961] : List ℕ).take 1).prod = 65537 := by decide
        show x.noise < (1 / 2 - 0) * ((([65537, 40961] : List ℕ).take 1).prod : ℕ)
        rw [this]
        exact h2)
    refine ⟨r, r1, ?_⟩
    rw [h1] at r2
    rw [r2]
    decide +kernel

end Shell
