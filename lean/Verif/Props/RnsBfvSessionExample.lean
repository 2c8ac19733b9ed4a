import Verif.Props.RnsBfvSession
/-!
# Property C76: a concrete session

Four slots modulo 17, the moduli 65537 and 40961, two auxiliary moduli, a relinearization key for both moduli, and a Galois
key for one.
-/

namespace Shell
open Spec Rns

def exBfvChoice : SchemeChoice where
  w := 32
  l := 2
  qs := [65537, 40961]
  ps := [12289, 114689]
  t := 17
  v := 1
  logBs lev := List.replicate lev 2
  relins := [2]
  galois := [(1, 5)]

theorem exBfvChoice_valid : exBfvChoice.Valid where
  word := by decide
  prime := by
    intro q hq
    have hq : q = 65537 ∨ q = 40961 ∨ q = 12289 ∨ q = 114689 := by simpa [exBfvChoice] using hq
    rcases hq with rfl | rfl | rfl | rfl <;> norm_num
  distinct := by decide
  plain := by show Nat.Prime 17; norm_num
  small := by decide
  first := by
    intro q hq
    have hq : q = 65537 := by simpa [exBfvChoice] using hq.symm
    subst hq
    decide
  other := by decide
  level := by
    intro a ha
    have ha : a = 2 ∨ a = 1 := by simpa [exBfvChoice] using ha
    rcases ha with rfl | rfl <;> decide

/-- The gadget for the first `lev` moduli. -/
def exBfvGadgetAt (c : Rns.Ctx) (lev : ℕ) : Outcome RGadget := do
  let hats ← c.complements (lev - 1)
  let hatInvs ← c.crtFactors (lev - 1)
  RGadget.create 2 (List.replicate lev 2) hats hatInvs (c.qs.take lev)

structure ExBfvSession where
  c : Rns.Ctx
  k2 : RKey
  k1 : RKey
  pk : RPub
  e : FFEncoder
  x : RCt
  y : RCt
  relin : RRelin
  galois : RGalois

def exBfvSession : Outcome ExBfvSession := do
  let c ← createForBfvFiniteField 32 (2 : ℕ) [65537, 40961] [12289, 114689] 17
  let e ← ffCreate c
  let (k2, _) ← RKey.sample lcg (2 : ℕ) 1 c.qs 3
  let k1 ← k2.modReduce
  let pk ← RPub.create lcg lcg 100 k2 1 1 5 7
  let (x, _) ← k2.encryptBfv1 lcg 100 (finiteFieldEncoder exactEstimate e) [1, 2, 3, 4] 11
  let (y, _) ← pk.encryptBfv lcg (finiteFieldEncoder exactEstimate e) [5, 6] 13
  let g2 ← exBfvGadgetAt c 2
  let relin ← RRelin.create lcg lcg 100 k2 2 1 g2 .hkdf 1 17 19
  let g1 ← exBfvGadgetAt c 1
  let galois ← RGalois.create lcg lcg 100 k1 (5 : ℕ) 1 g1 .hkdf 1 23 29
  return ⟨c, k2, k1, pk, e, x, y, relin, galois⟩

theorem exBfvGadgetAt_ok {c : Rns.Ctx} {lev : ℕ} {g : RGadget} (h : exBfvGadgetAt c lev = .ok g) :
    exBfvChoice.Gadget c lev g := by
  unfold exBfvGadgetAt at h
  obtain ⟨hats, h1, h⟩ := Outcome.bind_eq_ok.mp h
  obtain ⟨hatInvs, h2, h⟩ := Outcome.bind_eq_ok.mp h
  exact ⟨hats, hatInvs, h1, h2, h⟩

/-- The session, as a run of the library. -/
theorem exBfvSession_ok (est : Estimate) : ∃ c k pk v, BfvSession lcg lcg 100 est exBfvChoice c k pk v (fun _ => [1, 2, 3, 4])
    (fun _ => [5, 6]) := by
  have hrun : (match exBfvSession with | .ok s => s.c.qs.length == 2 | _ => false) = true := by decide +kernel
  cases h : exBfvSession with
  | err e => rw [h] at hrun; cases hrun
  | ub e => rw [h] at hrun; cases hrun
  | ok s =>
    rw [h] at hrun
    have hlen : s.c.qs.length = 2 := by simpa using hrun
    unfold exBfvSession at h
    obtain ⟨c, h1, h⟩ := Outcome.bind_eq_ok.mp h
    obtain ⟨e, h2, h⟩ := Outcome.bind_eq_ok.mp h
    obtain ⟨⟨k2, s1⟩, h3, h⟩ := Outcome.bind_eq_ok.mp h
    obtain ⟨k1, h4, h⟩ := Outcome.bind_eq_ok.mp h
    obtain ⟨pk, h5, h⟩ := Outcome.bind_eq_ok.mp h
    obtain ⟨⟨x, s2⟩, h6, h⟩ := Outcome.bind_eq_ok.mp h
    obtain ⟨⟨y, s3⟩, h7, h⟩ := Outcome.bind_eq_ok.mp h
    obtain ⟨g2, h8, h⟩ := Outcome.bind_eq_ok.mp h
    obtain ⟨relin, h9, h⟩ := Outcome.bind_eq_ok.mp h
    obtain ⟨g1, h10, h⟩ := Outcome.bind_eq_ok.mp h
    obtain ⟨galois, h11, h⟩ := Outcome.bind_eq_ok.mp h
    obtain rfl := Outcome.ok.inj h
    dsimp only at hlen h3 h4 h5 h6 h7 h9
    have hw : ∀ a ∈ [1, 2, 3, 4], a < 2 ^ 32 := by decide
    refine ⟨c, fun lev => if lev = 2 then k2 else k1, pk, ⟨e, fun _ => x, fun _ => y, fun _ => relin, fun _ _ => galois⟩,
      h1, ⟨h2, ?_, ?_, ?_, ?_⟩, ?_, fun _ => ⟨⟨hw, by decide⟩, by decide, by decide⟩, fun _ => ?_, fun _ => ⟨_, _, h7⟩⟩
    · rw [hlen]; exact ⟨_, _, h3⟩
    · intro lev l0 l1
      obtain rfl : lev = 1 := by omega
      exact h4
    · intro lev hl
      obtain rfl : lev = 2 := by simpa [exBfvChoice] using hl
      exact ⟨g2, .hkdf, 17, 19, exBfvGadgetAt_ok h8, h9⟩
    · intro a ha
      obtain rfl : a = (1, 5) := by simpa [exBfvChoice] using ha
      exact ⟨g1, .hkdf, 23, 29, exBfvGadgetAt_ok h10, h11⟩
    · rw [hlen]; exact ⟨_, _, h5⟩
    · rw [hlen]; exact Or.inl ⟨_, _, h6⟩

/-- A product of an encryption and a received encryption, moved by a plaintext vector, relinearized, reduced by a modulus,
multiplied by an unscaled plaintext vector, and rotated. -/
def exBfvComputation : VCircuit :=
  .rotate (.mulSimple (.reduce (.relin (.addVec (.mul (.input 0) (.received 0)) [1, 2]))) [2, 1]) 1

/-- The hypotheses of `c76_circuit` are met, and the result is `((1·5 + 1)·2, 2·6 + 2, 0, 0)` with its halves rotated. -/
example : ∃ c k pk v, BfvSession lcg lcg 100 exactEstimate exBfvChoice c k pk v (fun _ => [1, 2, 3, 4]) (fun _ => [5, 6]) ∧
    ∃ r, exBfvComputation.run exactEstimate 2 v = .ok r ∧
      (k 1).decryptBfv (finiteFieldEncoder exactEstimate v.e) r = .ok [14, 12, 0, 0] := by
  obtain ⟨c, k, pk, v, h⟩ := exBfvSession_ok exactEstimate
  refine ⟨c, k, pk, v, h, ?_⟩
  have hu : (match exBfvComputation.analyse (exBfvChoice.bfvParams 0) with
    | some x => x.level == 1 && decide (x.noise < (1 / 2 - 0) * 65537)
    | none => false) = true := by decide +kernel
  cases hx : exBfvComputation.analyse (exBfvChoice.bfvParams 0) with
  | none => rw [hx] at hu; cases hu
  | some x =>
    rw [hx] at hu
    obtain ⟨h1, h2⟩ : x.level = 1 ∧ x.noise < (1 / 2 - 0) * 65537 := by
      rw [Bool.and_eq_true, beq_iff_eq, decide_eq_true_eq] at hu
      exact hu
    obtain ⟨r, r1, r2⟩ := c76_circuit lcg_words (exactEstimate_within _) le_rfl (by norm_num) exBfvChoice_valid (by decide)
      (by decide) (by decide) h exBfvComputation hx (by
        rw [h1]
        have : (([65537, 40961] : List ℕ).take 1).prod = 65537 := by decide
        show x.noise < (1 / 2 - 0) * ((([65537, 40961] : List ℕ).take 1).prod : ℕ)
        rw [this]
        exact h2)
    refine ⟨r, r1, ?_⟩
    rw [h1] at r2
    rw [r2]
    decide +kernel

end Shell
