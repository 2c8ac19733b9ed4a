import Verif.Props.RnsPolySession
import Verif.Props.RnsSessionExample
/-!
# Property C78: a concrete session

Polynomials modulo `X^4 + 1` and 10, the moduli 12289 and 40961, a relinearization key for both moduli, and a Galois key
for one.
-/

namespace Shell
open Spec Rns

/-- The same parameters with a plaintext modulus that is not prime. -/
def exPolyChoice : SchemeChoice := { exChoice with t := 10 }

theorem exPolyChoice_valid : exPolyChoice.ValidPoly where
  word := by decide
  prime := exChoice_valid.prime
  distinct := by decide
  small := by decide
  first := by
    intro q hq
    have hq : q = 12289 := by simpa [exPolyChoice, exChoice] using hq.symm
    subst hq
    decide
  other := by decide
  level := exChoice_valid.level

structure ExPolySession where
  c : Rns.Ctx
  k2 : RKey
  k1 : RKey
  pk : RPub
  x : RCt
  y : RCt
  relin : RRelin
  galois : RGalois

def exPolySession : Outcome ExPolySession := do
  let c ← createCtx 32 (2 : ℕ) [12289, 40961] [113] 10
  let (k2, _) ← RKey.sample lcg (2 : ℕ) 1 c.qs 3
  let k1 ← k2.modReduce
  let pk ← RPub.create lcg lcg 100 k2 1 10 5 7
  let (x, _) ← k2.encryptBgv lcg 100 (coefficientEncoder exEstimate c) [1, 2, 3, 4] 11
  let (y, _) ← pk.encryptBgv lcg (coefficientEncoder exEstimate c) [5, 6] 13
  let g2 ← exGadgetAt c 2
  let relin ← RRelin.create lcg lcg 100 k2 2 1 g2 .hkdf 10 17 19
  let g1 ← exGadgetAt c 1
  let galois ← RGalois.create lcg lcg 100 k1 (5 : ℕ) 1 g1 .hkdf 10 23 29
  return ⟨c, k2, k1, pk, x, y, relin, galois⟩

/-- The session, as a run of the library. -/
theorem exPolySession_ok : ∃ k pk v, BgvPolySession lcg lcg 100 exEstimate exPolyChoice k pk v (fun _ => [1, 2, 3, 4])
    (fun _ => [5, 6]) := by
  have hrun : (match exPolySession with | .ok s => s.c.qs.length == 2 | _ => false) = true := by decide +kernel
  cases h : exPolySession with
  | err e => rw [h] at hrun; cases hrun
  | ub e => rw [h] at hrun; cases hrun
  | ok s =>
    rw [h] at hrun
    have hlen : s.c.qs.length = 2 := by simpa using hrun
    unfold exPolySession at h
    obtain ⟨c, h1, h⟩ := Outcome.bind_eq_ok.mp h
    obtain ⟨⟨k2, s1⟩, h3, h⟩ := Outcome.bind_eq_ok.mp h
    obtain ⟨k1, h4, h⟩ := Outcome.bind_eq_ok.mp h
    obtain ⟨pk, h5, h⟩ := Outcome.bind_eq_ok.mp h
    obtain ⟨⟨x, s2⟩, h6, h⟩ := Outcome.bind_eq_ok.mp h
    obtain ⟨⟨y, s3⟩, h7, h⟩ := Outcome.bind_eq_ok.mp h
    obtain ⟨g2, h8, h⟩ := Outcome.bind_eq_ok.mp h
    obtain ⟨relin, h9, h⟩ := Outcome.bind_eq_ok.mp h
    obtain ⟨g1, h10, h⟩ := Outcome.bind_eq_ok.mp h
    obtain ⟨galois, h11, h⟩ := Outcome.bind_eq_ok.mp h
    obtain rfl := Outcome.ok.inj h
    dsimp only at hlen h3 h4 h5 h6 h7 h9
    refine ⟨fun lev => if lev = 2 then k2 else k1, pk, ⟨c, fun _ => x, fun _ => y, fun _ => relin, fun _ _ => galois⟩,
      h1, ⟨?_, ?_, ?_, ?_⟩, ?_, fun _ => ⟨by decide, by decide⟩, fun _ => ?_, fun _ => ⟨_, _, h7⟩⟩
    · rw [hlen]; exact ⟨_, _, h3⟩
    · intro lev l0 l1
      rw [hlen] at l1
      obtain rfl : lev = 1 := by omega
      exact h4
    · intro lev hl
      obtain rfl : lev = 2 := by simpa [exPolyChoice, exChoice] using hl
      exact ⟨g2, .hkdf, 17, 19, exGadgetAt_ok h8, h9⟩
    · intro a ha
      obtain rfl : a = (1, 5) := by simpa [exPolyChoice, exChoice] using ha
      exact ⟨g1, .hkdf, 23, 29, exGadgetAt_ok h10, h11⟩
    · rw [hlen]; exact ⟨_, _, h5⟩
    · rw [hlen]; exact ⟨_, _, h6⟩

/-- A product of an encryption and a received encryption, relinearized, reduced by a modulus, moved by a plaintext
polynomial, and substituted. -/
def exPolyComputation : PCircuit :=
  .subst (.addPoly (.reduce (.relin (.mul (.input 0) (.received 0)))) [1, 2]) 5

/-- The hypotheses of `c78_circuit` are met; `(1 + 2X + 3X² + 4X³)(5 + 6X) + 1 + 2X` at `X^5` is `2 + 2X + 7X² + 2X³`. -/
example : ∃ k pk v, BgvPolySession lcg lcg 100 exEstimate exPolyChoice k pk v (fun _ => [1, 2, 3, 4]) (fun _ => [5, 6]) ∧
    ∃ r, exPolyComputation.run v = .ok r ∧
      (k 1).decryptBgv (coefficientEncoder exEstimate v.c) r = .ok [2, 2, 7, 2] := by
  obtain ⟨k, pk, v, h⟩ := exPolySession_ok
  refine ⟨k, pk, v, h, ?_⟩
  have hu : (match exPolyComputation.analyse exPolyChoice.params with
    | some x => x.level == 1 && decide (2 * lsbBound 10 [] x.noise < 12289)
    | none => false) = true := by decide +kernel
  cases hx : exPolyComputation.analyse exPolyChoice.params with
  | none => rw [hx] at hu; cases hu
  | some x =>
    rw [hx] at hu
    obtain ⟨h1, h2⟩ : x.level = 1 ∧ 2 * lsbBound 10 [] x.noise < 12289 := by simpa using hu
    obtain ⟨r, r1, r2⟩ := c78_circuit lcg_words exPolyChoice_valid h exPolyComputation hx (by
      intro q hq
      have hq : q = 12289 := by simpa [exPolyChoice, exChoice] using hq.symm
      subst hq
      rw [h1]
      exact h2)
    refine ⟨r, r1, ?_⟩
    rw [h1] at r2
    rw [r2]
    decide +kernel

end Shell
