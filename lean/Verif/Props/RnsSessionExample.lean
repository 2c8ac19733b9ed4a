import Verif.Props.RnsSession
/-!
# Property C75: a concrete session

Four slots modulo 17, the moduli 12289 and 40961, a relinearization key for both moduli, and a Galois key for one.
-/

namespace Shell
open Spec Rns

def exChoice : SchemeChoice where
  w := 32
  l := 2
  qs := [12289, 40961]
  ps := [113]
  t := 17
  v := 1
  logBs lev := List.replicate lev 2
  relins := [2]
  galois := [(1, 5)]

theorem exChoice_valid : exChoice.Valid where
  word := by decide
  prime := by
    intro q hq
    have hq : q = 12289 ∨ q = 40961 ∨ q = 113 := by simpa [exChoice] using hq
    rcases hq with rfl | rfl | rfl <;> norm_num
  distinct := by decide
  plain := by show Nat.Prime 17; norm_num
  small := by decide
  first := by
    intro q hq
    have hq : q = 12289 := by simpa [exChoice] using hq.symm
    subst hq
    decide
  other := by decide
  level := by
    intro a ha
    have ha : a = 2 ∨ a = 1 := by simpa [exChoice] using ha
    rcases ha with rfl | rfl <;> decide

/-- The gadget for the first `lev` moduli. -/
def exGadgetAt (c : Rns.Ctx) (lev : ℕ) : Outcome RGadget := do
  let hats ← c.complements (lev - 1)
  let hatInvs ← c.crtFactors (lev - 1)
  RGadget.create 2 (List.replicate lev 2) hats hatInvs (c.qs.take lev)

/-- Estimates are not used in BGV. -/
def exEstimate : Estimate := fun _ => 0

structure ExSession where
  c : Rns.Ctx
  k2 : RKey
  k1 : RKey
  pk : RPub
  e : FFEncoder
  x : RCt
  y : RCt
  relin : RRelin
  galois : RGalois

def exSession : Outcome ExSession := do
  let c ← createForBgvFiniteField 32 (2 : ℕ) [12289, 40961] [113] 17
  let e ← ffCreate c
  let (k2, _) ← RKey.sample lcg (2 : ℕ) 1 c.qs 3
  let k1 ← k2.modReduce
  let pk ← RPub.create lcg lcg 100 k2 1 17 5 7
  let (x, _) ← k2.encryptBgv lcg 100 (finiteFieldEncoder exEstimate e) [1, 2, 3, 4] 11
  let (y, _) ← pk.encryptBgv lcg (finiteFieldEncoder exEstimate e) [5, 6] 13
  let g2 ← exGadgetAt c 2
  let relin ← RRelin.create lcg lcg 100 k2 2 1 g2 .hkdf 17 17 19
  let g1 ← exGadgetAt c 1
  let galois ← RGalois.create lcg lcg 100 k1 (5 : ℕ) 1 g1 .hkdf 17 23 29
  return ⟨c, k2, k1, pk, e, x, y, relin, galois⟩

theorem exGadgetAt_ok {c : Rns.Ctx} {lev : ℕ} {g : RGadget} (h : exGadgetAt c lev = .ok g) :
    exChoice.Gadget c lev g := by
  unfold exGadgetAt at h
  obtain ⟨hats, h1, h⟩ := Outcome.bind_eq_ok.mp h
  obtain ⟨hatInvs, h2, h⟩ := Outcome.bind_eq_ok.mp h
  exact ⟨hats, hatInvs, h1, h2, h⟩

/-- The session, as a run of the library. -/
theorem exSession_ok : ∃ c k pk v, BgvSession lcg lcg 100 exEstimate exChoice c k pk v (fun _ => [1, 2, 3, 4])
    (fun _ => [5, 6]) := by
  have hrun : (match exSession with | .ok s => s.c.qs.length == 2 | _ => false) = true := by decide +kernel
  cases h : exSession with
  | err e => rw [h] at hrun; cases hrun
  | ub e => rw [h] at hrun; cases hrun
  | ok s =>
    rw [h] at hrun
    have hlen : s.c.qs.length = 2 := by simpa using hrun
    unfold exSession at h
    obtain ⟨c, h1, h⟩ := Outcome.bind_eq_ok.mp h
    obtain ⟨e, h2, h⟩ := Outcome.bind_eq_ok.mp h
    obtain ⟨⟨k2, s1⟩, h3, h⟩ := Outcome.bind_eq_ok.mp h
    obtain ⟨k1, h4, h⟩ := Outcome.bind_eq_ok.mp h
    obtain ⟨pk, h5, h⟩ := Outcome.bind_eq_ok.mp h
    obtain ⟨⟨x, s2⟩, h6, h⟩ := Outcome.bind_eq_ok.mp h
    obtain ⟨⟨y, s3⟩, h7, h⟩ := Outcome.bind_eq_ok.mp h
    obtain ⟨g2, h8, h⟩ := Outcome.bind_eq_ok.mp h
    obtain ⟨relin, h9, h⟩ := Outcome.bind_eq_ok.mp h
    obtain ⟨g1, h10, h⟩ := Outcome.bind_eq_ok.mp h
    obtain ⟨galois, h11, h⟩ := Outcome.bind_eq_ok.mp h
    obtain rfl := Outcome.ok.inj h
    dsimp only at hlen h3 h4 h5 h6 h7 h9
    have hw : ∀ a ∈ [1, 2, 3, 4], a < 2 ^ 32 := by decide
    refine ⟨c, fun lev => if lev = 2 then k2 else k1, pk, ⟨e, fun _ => x, fun _ => y, fun _ => relin, fun _ _ => galois⟩,
      h1, ⟨h2, ?_, ?_, ?_, ?_⟩, ?_, fun _ => ⟨⟨hw, by decide⟩, by decide, by decide⟩, fun _ => ?_, fun _ => ⟨_, _, h7⟩⟩
    · rw [hlen]; exact ⟨_, _, h3⟩
    · intro lev l0 l1
      obtain rfl : lev = 1 := by omega
      exact h4
    · intro lev hl
      obtain rfl : lev = 2 := by simpa [exChoice] using hl
      exact ⟨g2, .hkdf, 17, 19, exGadgetAt_ok h8, h9⟩
    · intro a ha
      obtain rfl : a = (1, 5) := by simpa [exChoice] using ha
      exact ⟨g1, .hkdf, 23, 29, exGadgetAt_ok h10, h11⟩
    · rw [hlen]; exact ⟨_, _, h5⟩
    · rw [hlen]; exact ⟨_, _, h6⟩

/-- A product of an encryption and a received encryption, relinearized, reduced by a modulus, moved by a plaintext
vector, and rotated. -/
def exComputation : LCircuit := .rotate (.addVec (.reduce (.relin (.mul (.input 0) (.received 0)))) [1, 2]) 1

/-- The hypotheses of `c75_circuit` are met, and the result is `(1·5 + 1, 2·6 + 2, 0, 0)` with its halves rotated. -/
example : ∃ c k pk v, BgvSession lcg lcg 100 exEstimate exChoice c k pk v (fun _ => [1, 2, 3, 4]) (fun _ => [5, 6]) ∧
    ∃ r, exComputation.run 2 v = .ok r ∧
      (k 1).decryptBgv (finiteFieldEncoder exEstimate v.e) r = .ok [14, 6, 0, 0] := by
  obtain ⟨c, k, pk, v, h⟩ := exSession_ok
  refine ⟨c, k, pk, v, h, ?_⟩
  have hu : (match exComputation.analyse exChoice.params with
    | some x => x.level == 1 && decide (2 * lsbBound 17 [] x.noise < 12289)
    | none => false) = true := by decide +kernel
  cases hx : exComputation.analyse exChoice.params with
  | none => rw [hx] at hu; cases hu
  | some x =>
    rw [hx] at hu
    obtain ⟨h1, h2⟩ : x.level = 1 ∧ 2 * lsbBound 17 [] x.noise < 12289 := by simpa using hu
    obtain ⟨r, r1, r2⟩ := c75_circuit lcg_words exChoice_valid h exComputation hx (by
      intro q hq
      have hq : q = 12289 := by simpa [exChoice] using hq.symm
      subst hq
      rw [h1]
      exact h2)
    refine ⟨r, r1, ?_⟩
    rw [h1] at r2
    rw [r2]
    decide +kernel

/-- The hypotheses of `c75_circuit_crt` are met by a product at both moduli. -/
example : ∃ c k pk v, BgvSession lcg lcg 100 exEstimate exChoice c k pk v (fun _ => [1, 2, 3, 4]) (fun _ => [5, 6]) ∧
    ∃ r hatInvs, (LCircuit.relin (.mul (.input 0) (.received 0))).run 2 v = .ok r ∧ c.crtFactors (1 : ℕ) = .ok hatInvs ∧
      (k 2).decryptBgvWithCrt 64 v.e r (modulusComplements 64 (k 2).ms) hatInvs = .ok [5, 12, 0, 0] := by
  obtain ⟨c, k, pk, v, h⟩ := exSession_ok
  refine ⟨c, k, pk, v, h, ?_⟩
  have hu : (match (LCircuit.relin (.mul (.input 0) (.received 0))).analyse exChoice.params with
    | some x => x.level == 2 && decide (2 * x.noise < 503369729)
    | none => false) = true := by decide +kernel
  cases hx : (LCircuit.relin (.mul (.input 0) (.received 0))).analyse exChoice.params with
  | none => rw [hx] at hu; cases hu
  | some x =>
    rw [hx] at hu
    obtain ⟨h1, h2⟩ : x.level = 2 ∧ 2 * x.noise < 503369729 := by simpa using hu
    obtain ⟨r, a, r1, r2, r3⟩ := c75_circuit_crt (W := 64) lcg_words exChoice_valid h _ hx
      (by rw [h1]; decide) (by
        rw [h1]
        have : (([12289, 40961] : List ℕ).take 2).prod = 503369729 := by decide
        show 2 * x.noise < ((([12289, 40961] : List ℕ).take 2).prod : ℕ)
        rw [this]
        exact h2)
    rw [h1] at r2 r3
    refine ⟨r, a, r1, r2, ?_⟩
    rw [r3]
    decide +kernel

end Shell
