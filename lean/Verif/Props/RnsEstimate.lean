import Verif.Lemmas.RnsEstimate
import Verif.Lemmas.InPlace
import Verif.Props.DoubleError
import Verif.Props.InPlace
/-!
# C96 (second part): the error estimates of programs on RNS ciphertexts
-/

namespace Shell
open Spec DoubleError Rns Rns.Res RnsCtStore RnsEstimate RnsErrorTrack

/-! ### In exact arithmetic the estimates are those of C66 -/

section
variable (P : RErrorParams)

/-- The constants of C66. -/
noncomputable def RnsEstimate.realConsts : Consts ℝ :=
  ⟨P.bPlaintext, P.bSecretKey, P.bPublicKey, P.boundOnKeySwitching⟩

variable {P} {v : Given} {pts : List RPoly} {cts : List RTracked}

theorem RnsEstimate.rd_mapped {α β : Type} (f : α → β) {l : List α} {a : ℕ} {x : α} (h : rd l a = .ok x) :
    rd (l.map f) a = .ok (f x) := by rw [DoubleError.rd_map, h]; rfl

theorem RnsEstimate.bgvOp_tracked {x z : RTracked} {op : RnsCtStore.Op}
    (h : bgvTrackedOp P v pts cts x op = .ok z) :
    (op.run v ⟨pts, cts.map (·.ct)⟩ x.ct).value = .ok z.ct ∧
      bgvOp (realConsts P) (cts.map (·.error)) x.error op = .ok z.error := by
  cases op with
  | negate =>
    obtain ⟨c, hc, h⟩ := bind_inv h
    cases h
    exact ⟨(RCt.value_negateIn _).trans hc, by trivial⟩
  | add b =>
    obtain ⟨y, hy, h⟩ := bind_inv h
    obtain ⟨c, hc, h⟩ := bind_inv h
    cases h
    simp only [RnsCtStore.Op.run, bgvOp, value_withTemp, rd_mapped _ hy, Outcome.bind_ok]
    exact ⟨(RCt.value_addIn _ _).trans hc, by trivial⟩
  | sub b =>
    obtain ⟨y, hy, h⟩ := bind_inv h
    obtain ⟨c, hc, h⟩ := bind_inv h
    cases h
    simp only [RnsCtStore.Op.run, bgvOp, value_withTemp, rd_mapped _ hy, Outcome.bind_ok]
    exact ⟨(RCt.value_subIn _ _).trans hc, by trivial⟩
  | addPlain i =>
    obtain ⟨y, hy, h⟩ := bind_inv h
    obtain ⟨c, hc, h⟩ := bind_inv h
    cases h
    simp only [RnsCtStore.Op.run, bgvOp, value_withTemp, hy, Outcome.bind_ok]
    exact ⟨(RCt.value_addPlainIn _ _).trans hc, by trivial⟩
  | subPlain i =>
    obtain ⟨y, hy, h⟩ := bind_inv h
    obtain ⟨c, hc, h⟩ := bind_inv h
    cases h
    simp only [RnsCtStore.Op.run, bgvOp, value_withTemp, hy, Outcome.bind_ok]
    exact ⟨(RCt.value_subPlainIn _ _).trans hc, by trivial⟩
  | absorb i =>
    obtain ⟨y, hy, h⟩ := bind_inv h
    obtain ⟨c, hc, h⟩ := bind_inv h
    cases h
    simp only [RnsCtStore.Op.run, bgvOp, value_withTemp, hy, Outcome.bind_ok]
    exact ⟨(RCt.value_absorbIn _ _).trans hc, by trivial⟩
  | scale k =>
    obtain ⟨c, hc, h⟩ := bind_inv h
    cases h
    exact ⟨(RCt.value_absorbIntIn _ _).trans hc, by simp [bgvOp]⟩
  | fused b i =>
    obtain ⟨y, hy, h⟩ := bind_inv h
    obtain ⟨p, hp, h⟩ := bind_inv h
    obtain ⟨c, hc, h⟩ := bind_inv h
    cases h
    simp only [RnsCtStore.Op.run, bgvOp, value_withTemp, rd_mapped _ hy, hp, Outcome.bind_ok]
    exact ⟨(RCt.value_fusedAbsorbAddIn _ _ _).trans hc, by trivial⟩
  | reduce =>
    obtain ⟨y, hy, h⟩ := bind_inv h
    obtain ⟨c, hc, h⟩ := bind_inv h
    cases h
    simp only [RnsCtStore.Op.run, bgvOp, value_withTemp, hy, Outcome.bind_ok]
    exact ⟨(RCt.value_modReduceBgvIn _ _ _).trans hc, by trivial⟩

theorem RnsEstimate.bfvOp_tracked {est : Estimate} {x z : RTracked} {op : RnsBfvStore.Op}
    (h : bfvTrackedOp P est v pts cts x op = .ok z) :
    (op.run est v ⟨pts, cts.map (·.ct)⟩ x.ct).value = .ok z.ct ∧
      bfvOp (realConsts P) (cts.map (·.error)) x.error op = .ok z.error := by
  cases op with
  | negate =>
    obtain ⟨c, hc, h⟩ := bind_inv h
    cases h
    exact ⟨(RCt.value_negateIn _).trans hc, by trivial⟩
  | add b =>
    obtain ⟨y, hy, h⟩ := bind_inv h
    obtain ⟨c, hc, h⟩ := bind_inv h
    cases h
    simp only [RnsBfvStore.Op.run, bfvOp, value_withTemp, rd_mapped _ hy, Outcome.bind_ok]
    exact ⟨(RCt.value_addIn _ _).trans hc, by trivial⟩
  | sub b =>
    obtain ⟨y, hy, h⟩ := bind_inv h
    obtain ⟨c, hc, h⟩ := bind_inv h
    cases h
    simp only [RnsBfvStore.Op.run, bfvOp, value_withTemp, rd_mapped _ hy, Outcome.bind_ok]
    exact ⟨(RCt.value_subIn _ _).trans hc, by trivial⟩
  | addPlain i =>
    obtain ⟨y, hy, h⟩ := bind_inv h
    obtain ⟨c, hc, h⟩ := bind_inv h
    cases h
    simp only [RnsBfvStore.Op.run, bfvOp, value_withTemp, hy, Outcome.bind_ok]
    exact ⟨(RCt.value_addPlainIn _ _).trans hc, by trivial⟩
  | subPlain i =>
    obtain ⟨y, hy, h⟩ := bind_inv h
    obtain ⟨c, hc, h⟩ := bind_inv h
    cases h
    simp only [RnsBfvStore.Op.run, bfvOp, value_withTemp, hy, Outcome.bind_ok]
    exact ⟨(RCt.value_subPlainIn _ _).trans hc, by trivial⟩
  | absorb i =>
    obtain ⟨y, hy, h⟩ := bind_inv h
    obtain ⟨c, hc, h⟩ := bind_inv h
    cases h
    simp only [RnsBfvStore.Op.run, bfvOp, value_withTemp, hy, Outcome.bind_ok]
    exact ⟨(RCt.value_absorbBfvIn _ _ _ _).trans hc, by trivial⟩
  | absorbSimple i =>
    obtain ⟨y, hy, h⟩ := bind_inv h
    obtain ⟨c, hc, h⟩ := bind_inv h
    cases h
    simp only [RnsBfvStore.Op.run, bfvOp, value_withTemp, hy, Outcome.bind_ok]
    exact ⟨(RCt.value_absorbSimpleIn _ _).trans hc, by trivial⟩
  | scale k =>
    obtain ⟨c, hc, h⟩ := bind_inv h
    cases h
    exact ⟨(RCt.value_absorbIntIn _ _).trans hc, by simp [bfvOp]⟩
  | fused b i =>
    obtain ⟨y, hy, h⟩ := bind_inv h
    obtain ⟨p, hp, h⟩ := bind_inv h
    obtain ⟨c, hc, h⟩ := bind_inv h
    cases h
    simp only [RnsBfvStore.Op.run, bfvOp, value_withTemp, rd_mapped _ hy, hp, Outcome.bind_ok]
    exact ⟨(RCt.value_fusedAbsorbAddIn _ _ _).trans hc, by trivial⟩
  | reduce =>
    obtain ⟨c, hc, h⟩ := bind_inv h
    cases h
    exact ⟨(RCt.value_modReduceBfvIn _ _).trans hc, by trivial⟩

theorem RnsEstimate.afterSwitch_tracked {g : RGadget} {n b : ℕ} {e s : ℝ} (hb : logGadgetBase g = .ok b)
    (hs : P.boundOnKeySwitching n b g.dimension = .ok s) : afterSwitch (realConsts P) g n e = .ok (e + s) := by
  unfold afterSwitch
  rw [hb, Outcome.bind_ok]
  show (do let s ← P.boundOnKeySwitching n b g.dimension; return e + s) = _
  rw [hs]; rfl

theorem RnsEstimate.step_push {E : Type} {m : Mem} {es : List E} {x : RCt} {e : E} :
    step m es (newCt m (.ok x)) (.push (.ok e)) = (({ m with cts := m.cts ++ [x] }, es ++ [e]), .ok ()) := rfl

/-- **C96.** In exact arithmetic a call of a BGV program makes the ciphertext, with the estimate, that the operations
of C66 make, or puts it in place of an operand. -/
theorem c96_rns_bgv_rules (k : RnsCtStore.Call) (z : RTracked) :
    (bgvTrackedNew P v pts cts k = some (.ok z) →
      bgvRun (realConsts P) v ⟨pts, cts.map (·.ct)⟩ (cts.map (·.error)) [k] =
        ([.ok ()], ⟨pts, (cts ++ [z]).map (·.ct)⟩, (cts ++ [z]).map (·.error))) ∧
    ∀ a op x, k = .opIn a op → rd cts a = .ok x → bgvTrackedOp P v pts cts x op = .ok z →
      bgvRun (realConsts P) v ⟨pts, cts.map (·.ct)⟩ (cts.map (·.error)) [k] =
        ([.ok ()], ⟨pts, (cts.set a z).map (·.ct)⟩, (cts.set a z).map (·.error)) := by
  refine ⟨fun h => ?_, fun a op x hk hx h => ?_⟩
  · have done : ∀ {o : Outcome RCt} {e : Outcome ℝ}, o = .ok z.ct → e = .ok z.error →
        k.run v ⟨pts, cts.map (·.ct)⟩ = newCt ⟨pts, cts.map (·.ct)⟩ o →
        bgvEffect (realConsts P) v ⟨pts, cts.map (·.ct)⟩ (cts.map (·.error)) k = .push e →
        bgvRun (realConsts P) v ⟨pts, cts.map (·.ct)⟩ (cts.map (·.error)) [k] =
        ([.ok ()], ⟨pts, (cts ++ [z]).map (·.ct)⟩, (cts ++ [z]).map (·.error)) := by
      rintro o e rfl rfl h1 h2
      unfold bgvRun runWith
      rw [h1, h2, step_push]
      simp [runWith]
    cases k with
    | encode u lev => cases h
    | input i => cases h; exact done rfl rfl rfl rfl
    | received i => cases h; exact done rfl rfl rfl rfl
    | copy a =>
      have h : rd cts a = .ok z := by simpa [bgvTrackedNew] using h
      exact done (rd_mapped _ h) (rd_mapped _ h) rfl rfl
    | opIn a op => cases h
    | opNew a op =>
      have h := Option.some.inj h
      obtain ⟨x, hx, h⟩ := bind_inv h
      obtain ⟨h1, h2⟩ := bgvOp_tracked h
      refine done h1 h2 ?_ ?_
      · simp only [RnsCtStore.Call.run, rd_mapped _ hx]; rfl
      · simp only [bgvEffect, rd_mapped _ hx]; rfl
    | mul a b =>
      have h := Option.some.inj h
      obtain ⟨x, hx, h⟩ := bind_inv h
      obtain ⟨y, hy, h⟩ := bind_inv h
      obtain ⟨c, hc, h⟩ := bind_inv h
      cases h
      refine done (o := x.ct.mul y.ct) (e := .ok (x.error * y.error)) hc rfl ?_ ?_
      · simp only [RnsCtStore.Call.run, rd_mapped _ hx, rd_mapped _ hy]; rfl
      · simp only [bgvEffect, rd_mapped _ hx, rd_mapped _ hy]; rfl
    | substitute a j =>
      have h := Option.some.inj h
      obtain ⟨x, hx, h⟩ := bind_inv h
      obtain ⟨c, hc, h⟩ := bind_inv h
      cases h
      refine done (o := x.ct.substitute j) (e := .ok x.error) hc rfl ?_ ?_
      · simp only [RnsCtStore.Call.run, rd_mapped _ hx]; rfl
      · simp only [bgvEffect, rd_mapped _ hx]
    | relin a lev =>
      have h := Option.some.inj h
      obtain ⟨x, hx, h⟩ := bind_inv h
      obtain ⟨c, hc, h⟩ := bind_inv h
      obtain ⟨b, hb, h⟩ := bind_inv h
      obtain ⟨s, hs, h⟩ := bind_inv h
      cases h
      refine done (o := (v.relin lev).applyTo x.ct) (e := .ok (x.error + s)) hc rfl ?_ ?_
      · simp only [RnsCtStore.Call.run, rd_mapped _ hx]; rfl
      · simp only [bgvEffect, rd_mapped _ hx, Outcome.bind_ok, afterSwitch_tracked hb hs]
    | galois a lev p =>
      have h := Option.some.inj h
      obtain ⟨x, hx, h⟩ := bind_inv h
      obtain ⟨c, hc, h⟩ := bind_inv h
      obtain ⟨b, hb, h⟩ := bind_inv h
      obtain ⟨s, hs, h⟩ := bind_inv h
      cases h
      refine done (o := (v.galois lev p).applyTo x.ct) (e := .ok (x.error + s)) hc rfl ?_ ?_
      · simp only [RnsCtStore.Call.run, rd_mapped _ hx]; rfl
      · simp only [bgvEffect, rd_mapped _ hx, Outcome.bind_ok, afterSwitch_tracked hb hs]
  · subst hk
    obtain ⟨h1, h2⟩ := bgvOp_tracked h
    have e1 := value_inv h1
    have e2 := RnsEstimate.value_ok h1
    unfold bgvRun runWith
    simp only [RnsCtStore.Call.run, bgvEffect, rd_mapped _ hx, Outcome.bind_ok, withTemp, h2, step, e1, e2]
    simp [runWith, List.map_set]

/-- **C96.** The same for BFV programs. -/
theorem c96_rns_bfv_rules (est : Estimate) (k : RnsBfvStore.Call) (z : RTracked) :
    (bfvTrackedNew P est v pts cts k = some (.ok z) →
      bfvRun (realConsts P) est v ⟨pts, cts.map (·.ct)⟩ (cts.map (·.error)) [k] =
        ([.ok ()], ⟨pts, (cts ++ [z]).map (·.ct)⟩, (cts ++ [z]).map (·.error))) ∧
    ∀ a op x, k = .opIn a op → rd cts a = .ok x → bfvTrackedOp P est v pts cts x op = .ok z →
      bfvRun (realConsts P) est v ⟨pts, cts.map (·.ct)⟩ (cts.map (·.error)) [k] =
        ([.ok ()], ⟨pts, (cts.set a z).map (·.ct)⟩, (cts.set a z).map (·.error)) := by
  refine ⟨fun h => ?_, fun a op x hk hx h => ?_⟩
  · have done : ∀ {o : Outcome RCt} {e : Outcome ℝ}, o = .ok z.ct → e = .ok z.error →
        k.run est v ⟨pts, cts.map (·.ct)⟩ = newCt ⟨pts, cts.map (·.ct)⟩ o →
        bfvEffect (realConsts P) v ⟨pts, cts.map (·.ct)⟩ (cts.map (·.error)) k = .push e →
        bfvRun (realConsts P) est v ⟨pts, cts.map (·.ct)⟩ (cts.map (·.error)) [k] =
        ([.ok ()], ⟨pts, (cts ++ [z]).map (·.ct)⟩, (cts ++ [z]).map (·.error)) := by
      rintro o e rfl rfl h1 h2
      unfold bfvRun runWith
      rw [h1, h2, step_push]
      simp [runWith]
    cases k with
    | encode u lev scaled => cases h
    | input i => cases h; exact done rfl rfl rfl rfl
    | received i => cases h; exact done rfl rfl rfl rfl
    | copy a =>
      have h : rd cts a = .ok z := by simpa [bfvTrackedNew] using h
      exact done (rd_mapped _ h) (rd_mapped _ h) rfl rfl
    | opIn a op => cases h
    | opNew a op =>
      have h := Option.some.inj h
      obtain ⟨x, hx, h⟩ := bind_inv h
      obtain ⟨h1, h2⟩ := bfvOp_tracked h
      refine done h1 h2 ?_ ?_
      · simp only [RnsBfvStore.Call.run, rd_mapped _ hx]; rfl
      · simp only [bfvEffect, rd_mapped _ hx]; rfl
    | mul a b =>
      have h := Option.some.inj h
      obtain ⟨x, hx, h⟩ := bind_inv h
      obtain ⟨y, hy, h⟩ := bind_inv h
      obtain ⟨c, hc, h⟩ := bind_inv h
      cases h
      refine done (o := x.ct.mulBfv est v.c y.ct) (e := .ok (x.error * y.error)) hc rfl ?_ ?_
      · simp only [RnsBfvStore.Call.run, rd_mapped _ hx, rd_mapped _ hy]; rfl
      · simp only [bfvEffect, rd_mapped _ hx, rd_mapped _ hy]; rfl
    | substitute a j =>
      have h := Option.some.inj h
      obtain ⟨x, hx, h⟩ := bind_inv h
      obtain ⟨c, hc, h⟩ := bind_inv h
      cases h
      refine done (o := x.ct.substitute j) (e := .ok x.error) hc rfl ?_ ?_
      · simp only [RnsBfvStore.Call.run, rd_mapped _ hx]; rfl
      · simp only [bfvEffect, rd_mapped _ hx]
    | relin a lev =>
      have h := Option.some.inj h
      obtain ⟨x, hx, h⟩ := bind_inv h
      obtain ⟨c, hc, h⟩ := bind_inv h
      obtain ⟨b, hb, h⟩ := bind_inv h
      obtain ⟨s, hs, h⟩ := bind_inv h
      cases h
      refine done (o := (v.relin lev).applyTo x.ct) (e := .ok (x.error + s)) hc rfl ?_ ?_
      · simp only [RnsBfvStore.Call.run, rd_mapped _ hx]; rfl
      · simp only [bfvEffect, rd_mapped _ hx, Outcome.bind_ok, afterSwitch_tracked hb hs]
    | galois a lev p =>
      have h := Option.some.inj h
      obtain ⟨x, hx, h⟩ := bind_inv h
      obtain ⟨c, hc, h⟩ := bind_inv h
      obtain ⟨b, hb, h⟩ := bind_inv h
      obtain ⟨s, hs, h⟩ := bind_inv h
      cases h
      refine done (o := (v.galois lev p).applyTo x.ct) (e := .ok (x.error + s)) hc rfl ?_ ?_
      · simp only [RnsBfvStore.Call.run, rd_mapped _ hx]; rfl
      · simp only [bfvEffect, rd_mapped _ hx, Outcome.bind_ok, afterSwitch_tracked hb hs]
  · subst hk
    obtain ⟨h1, h2⟩ := bfvOp_tracked h
    have e1 := value_inv h1
    have e2 := RnsEstimate.value_ok h1
    unfold bfvRun runWith
    simp only [RnsBfvStore.Call.run, bfvEffect, rd_mapped _ hx, Outcome.bind_ok, withTemp, h2, step, e1, e2]
    simp [runWith, List.map_set]

end

/-! ### Estimates do not influence anything else -/

theorem RnsEstimate.gadgetBases_lt {ms : List Modulus} {bs : List ℕ} {r : List (ℕ × ℕ)} (h : gadgetBases ms bs = .ok r) :
    ∀ b ∈ bs, b < 31 := by
  induction ms generalizing bs r with
  | nil => cases bs with
    | nil => simp
    | cons b bs => cases h
  | cons m ms ih => cases bs with
    | nil => cases h
    | cons b bs =>
      obtain ⟨s, hs, h⟩ := bind_inv h
      obtain ⟨k, -, h⟩ := bind_inv h
      obtain ⟨r', hr, -⟩ := bind_inv h
      intro x hx
      rcases List.mem_cons.mp hx with rfl | hx
      · unfold shl1 at hs
        by_contra hn
        rw [if_neg hn] at hs
        cases hs
      · exact ih hr x hx

/-- **C96.** Every gadget that `RnsGadget::Create` makes can be used. -/
theorem c96_gadget_usable {logN : ℤ} {logBs qHats qHatInvs : List ℕ} {ms : List Modulus} {g : RGadget}
    (h : RGadget.create logN logBs qHats qHatInvs ms = .ok g) : UsableGadget g := by
  unfold RGadget.create at h
  split_ifs at h with _ h1 h2
  obtain ⟨bks, hb, h⟩ := bind_inv h
  obtain ⟨gs, -, h⟩ := bind_inv h
  cases h
  refine ⟨fun e => h1 ?_, gadgetBases_lt hb⟩
  have h2 := not_not.mp h2
  change logBs = [] at e
  rw [e] at h2
  exact List.isEmpty_iff.mpr (List.length_eq_zero_iff.mp h2.symm)

section
variable {E : Type} [Add E] [Mul E] [Div E] [NatCast E] [Sqrt E] {P : RParams E}

/-- **C96.** A BGV program returns the statuses and computes the objects of the program of C97, which has no estimates,
and there is one estimate for every ciphertext. -/
theorem c96_rns_bgv_objects (hP : P.logN < 31) (v : Given) (cs : List RnsCtStore.Call) (hcs : BgvUsable v cs) {m : Mem}
    {es : List E} (hl : es.length = m.cts.length) :
    let D := bgvRun (consts P) v m es cs
    (D.1, D.2.1) = RnsCtStore.runAll v m cs ∧ D.2.2.length = D.2.1.cts.length := by
  induction cs generalizing m es with
  | nil => exact ⟨rfl, hl⟩
  | cons k cs ih =>
    have h1 : BgvUsable v [k] := ⟨fun a lev h => hcs.1 a lev (by simp at h; simp [h]),
      fun a lev p h => hcs.2 a lev p (by simp at h; simp [h])⟩
    obtain ⟨e1, e2, e3⟩ := step_fits hl (bgv_fits hl hP v h1)
    obtain ⟨i1, i2⟩ := ih ⟨fun a lev h => hcs.1 a lev (List.mem_cons_of_mem _ h),
      fun a lev p h => hcs.2 a lev p (List.mem_cons_of_mem _ h)⟩ e3
    refine ⟨?_, i2⟩
    rw [RnsCtStore.runAll, ← e1, ← i1, ← e2]
    rfl

/-- **C96.** The same for BFV programs and C98. -/
theorem c96_rns_bfv_objects (hP : P.logN < 31) (est : Estimate) (v : Given) (cs : List RnsBfvStore.Call)
    (hcs : BfvUsable v cs) {m : Mem} {es : List E} (hl : es.length = m.cts.length) :
    let D := bfvRun (consts P) est v m es cs
    (D.1, D.2.1) = RnsBfvStore.runAll est v m cs ∧ D.2.2.length = D.2.1.cts.length := by
  induction cs generalizing m es with
  | nil => exact ⟨rfl, hl⟩
  | cons k cs ih =>
    have h1 : BfvUsable v [k] := ⟨fun a lev h => hcs.1 a lev (by simp at h; simp [h]),
      fun a lev p h => hcs.2 a lev p (by simp at h; simp [h])⟩
    obtain ⟨e1, e2, e3⟩ := step_fits hl (bfv_fits hl hP est v h1)
    obtain ⟨i1, i2⟩ := ih ⟨fun a lev h => hcs.1 a lev (List.mem_cons_of_mem _ h),
      fun a lev p h => hcs.2 a lev p (List.mem_cons_of_mem _ h)⟩ e3
    refine ⟨?_, i2⟩
    rw [RnsBfvStore.runAll, ← e1, ← i1, ← e2]
    rfl

end

/-! ### Rounding -/

section
variable {c : ℕ} {cast : ℕ → ℝ}

theorem RnsEstimate.same_estimates {hc : Converts c cast} {ℓ : ℕ} {noMul : Prop} {l : List (Est c cast hc)}
    (h : ∀ e ∈ l, e.count.n ≤ 2 ^ ℓ * (6 * c + 10 + (6 * c + 10) + 2) ∧
      (noMul → e.count.n ≤ 6 * c + 10 + ℓ * (6 * c + 10 + 2))) :
    SameEstimates c ℓ noMul (l.map Est.real) (l.map Est.dbl) := by
  refine ⟨by simp, fun a r hr => ?_⟩
  rw [List.getElem?_map] at hr
  cases hx : l[a]? with
  | none => rw [hx] at hr; cases hr
  | some x =>
    rw [hx] at hr
    cases hr
    obtain ⟨h1, h2⟩ := h x (List.mem_of_getElem? hx)
    refine ⟨x.dbl, by rw [List.getElem?_map, hx]; rfl, x.ok.mono (h1.trans (Nat.mul_le_mul_left _ (by omega))),
      fun hn hl => ?_⟩
    have h3 : x.count.n ≤ (6 * c + 12) * (ℓ + 1) := by
      refine (h2 hn).trans ?_
      ring_nf
      omega
    refine (c96_relative hl (x.ok.mono h3)).trans_eq ?_
    push_cast
    ring

/-- **C96.** A BGV program of `ℓ` calls whose estimates come from rns/rns_error_params.h, run with `double`s, returns
the statuses and computes the objects of the same program with exact estimates; without products of ciphertexts every
estimate has a relative error of at most `(12 c + 24) (ℓ + 1) / 2^53`, where `c` is 1 or 2 according to the conversion
of integers. -/
theorem c96_rns_bgv_session (hc : Converts c cast) (P : RParams (Dbl cast)) (hs : 0 ≤ P.sigma.val) (v : Given)
    (pts : List RPoly) (cs : List RnsCtStore.Call) :
    let R := bgvRun (exactConsts P) v ⟨pts, []⟩ [] cs
    let D := bgvRun (consts P) v ⟨pts, []⟩ [] cs
    D.1 = R.1 ∧ D.2.1 = R.2.1 ∧ SameEstimates c cs.length (BgvNoMul cs) R.2.2 D.2.2 := by
  let Q : RParams (Est c cast hc) := ⟨P.logN, P.logT, ⟨⟨0⟩, P.sigma.val, P.sigma, within_refl hs⟩⟩
  have eR := runWith_map Est.real (run := fun m k => RnsCtStore.Call.run v m k)
    (bgvEffect_map hom_real (consts Q) v) ⟨pts, []⟩ [] cs
  have eD := runWith_map Est.dbl (run := fun m k => RnsCtStore.Call.run v m k)
    (bgvEffect_map hom_dbl (consts Q) v) ⟨pts, []⟩ [] cs
  have eK := runWith_map Est.count (run := fun m k => RnsCtStore.Call.run v m k)
    (bgvEffect_map hom_count (consts Q) v) ⟨pts, []⟩ [] cs
  rw [consts_map hom_real (fun _ => rfl), show consts _ = exactConsts P from real_consts P] at eR
  rw [consts_map hom_dbl (fun _ => rfl)] at eD
  rw [consts_map hom_count (fun _ => rfl)] at eK
  intro R D
  have eR' : R = _ := eR
  have eD' : D = _ := eD
  rw [eR', eD']
  refine ⟨rfl, rfl, same_estimates fun e he => ?_⟩
  have cnt := runWith_le (run := fun m k => RnsCtStore.Call.run v m k) (N := 6 * c + 10)
    (f := bgvEffect (consts (⟨P.logN, P.logT, ⟨0⟩⟩ : RParams (Count c))) v)
    (noMul := fun k => ∀ a b, k ≠ RnsCtStore.Call.mul a b)
    (fun M m es k hM hes => bgvEffect_le (consts_le _ _) (by omega) hes hM v m k) le_rfl ⟨pts, []⟩ (es := [])
    (by simp) cs e.count (by
      have : e.count ∈ (runWith (fun m k => RnsCtStore.Call.run v m k)
        (bgvEffect (consts (⟨P.logN, P.logT, ⟨0⟩⟩ : RParams (Count c))) v) ⟨pts, []⟩ [] cs).2.2 := by
        have e2 : (runWith (fun m k => RnsCtStore.Call.run v m k)
          (bgvEffect (consts (⟨P.logN, P.logT, ⟨0⟩⟩ : RParams (Count c))) v) ⟨pts, []⟩ [] cs) = _ := eK
        rw [e2]
        exact List.mem_map_of_mem he
      exact this)
  exact ⟨cnt.1, fun hn => cnt.2 fun k hk a b h => hn a b (h ▸ hk)⟩

/-- **C96.** The same for BFV programs. -/
theorem c96_rns_bfv_session (hc : Converts c cast) (P : RParams (Dbl cast)) (hs : 0 ≤ P.sigma.val) (est : Estimate)
    (v : Given) (pts : List RPoly) (cs : List RnsBfvStore.Call) :
    let R := bfvRun (exactConsts P) est v ⟨pts, []⟩ [] cs
    let D := bfvRun (consts P) est v ⟨pts, []⟩ [] cs
    D.1 = R.1 ∧ D.2.1 = R.2.1 ∧ SameEstimates c cs.length (BfvNoMul cs) R.2.2 D.2.2 := by
  let Q : RParams (Est c cast hc) := ⟨P.logN, P.logT, ⟨⟨0⟩, P.sigma.val, P.sigma, within_refl hs⟩⟩
  have eR := runWith_map Est.real (run := fun m k => RnsBfvStore.Call.run est v m k)
    (bfvEffect_map hom_real (consts Q) v) ⟨pts, []⟩ [] cs
  have eD := runWith_map Est.dbl (run := fun m k => RnsBfvStore.Call.run est v m k)
    (bfvEffect_map hom_dbl (consts Q) v) ⟨pts, []⟩ [] cs
  have eK := runWith_map Est.count (run := fun m k => RnsBfvStore.Call.run est v m k)
    (bfvEffect_map hom_count (consts Q) v) ⟨pts, []⟩ [] cs
  rw [consts_map hom_real (fun _ => rfl), show consts _ = exactConsts P from real_consts P] at eR
  rw [consts_map hom_dbl (fun _ => rfl)] at eD
  rw [consts_map hom_count (fun _ => rfl)] at eK
  intro R D
  have eR' : R = _ := eR
  have eD' : D = _ := eD
  rw [eR', eD']
  refine ⟨rfl, rfl, same_estimates fun e he => ?_⟩
  have cnt := runWith_le (run := fun m k => RnsBfvStore.Call.run est v m k) (N := 6 * c + 10)
    (f := bfvEffect (consts (⟨P.logN, P.logT, ⟨0⟩⟩ : RParams (Count c))) v)
    (noMul := fun k => ∀ a b, k ≠ RnsBfvStore.Call.mul a b)
    (fun M m es k hM hes => bfvEffect_le (consts_le _ _) (by omega) hes hM v m k) le_rfl ⟨pts, []⟩ (es := [])
    (by simp) cs e.count (by
      have : e.count ∈ (runWith (fun m k => RnsBfvStore.Call.run est v m k)
        (bfvEffect (consts (⟨P.logN, P.logT, ⟨0⟩⟩ : RParams (Count c))) v) ⟨pts, []⟩ [] cs).2.2 := by
        have e2 : (runWith (fun m k => RnsBfvStore.Call.run est v m k)
          (bfvEffect (consts (⟨P.logN, P.logT, ⟨0⟩⟩ : RParams (Count c))) v) ⟨pts, []⟩ [] cs) = _ := eK
        rw [e2]
        exact List.mem_map_of_mem he
      exact this)
  exact ⟨cnt.1, fun hn => cnt.2 fun k hk a b h => hn a b (h ▸ hk)⟩

end

/-! ### The hypotheses can be met -/

/-- A program whose last call fails. -/
def exEstimates : List RnsCtStore.Call :=
  [.input 0, .received 0, .opIn 0 (.add 1), .opNew 0 (.scale 6), .mul 1 0, .opIn 1 (.absorb 0), .opIn 2 (.add 3)]

/-- Ciphertexts of C77; the program needs neither a context nor keys. -/
def exEstimateGiven : Given :=
  ⟨⟨2, exMs, [], 17, none, [], [], [], [], [], [], [], [], 0, 0, [], [], [], [], [], []⟩, fun _ => exInPlaceCt,
    fun _ => exInPlaceCt, fun _ => ⟨[], [], ⟨[], [], []⟩, 2, []⟩, fun _ _ => ⟨[], [], ⟨[], [], []⟩, 5, []⟩⟩

/-- The estimates are 3 and 5, then 3 + 5, (3 + 5) * 6 / 2, 5 * (3 + 5) and 5 * 10. -/
example :
    let D := bgvRun (⟨10, 3, 5, fun _ _ _ => .ok 100⟩ : Consts ℚ) exEstimateGiven ⟨[exPoly true], []⟩ [] exEstimates
    D.1 = [.ok (), .ok (), .ok (), .ok (), .ok (), .ok (), .err .invalidArgument] ∧ D.2.2 = [8, 50, 24, 40] := by
  decide +kernel

/-- Its keys can be used: there are none. -/
example : BgvUsable exEstimateGiven exEstimates :=
  ⟨fun a lev h => by simp [exEstimates] at h, fun a lev p h => by simp [exEstimates] at h⟩

/-- With `double`s it gives estimates within 2^-45 of the exact ones if there is no product. -/
example (P : RParams (Dbl Double.castNearest))
    (hs : 0 ≤ P.sigma.val) :
    let v := exEstimateGiven
    let cs : List RnsCtStore.Call := [.input 0, .received 0, .opIn 0 (.add 1), .opNew 0 (.scale 6)]
    ∀ (a : ℕ) (e : ℝ), (bgvRun (exactConsts P) v ⟨[], []⟩ [] cs).2.2[a]? = some e →
      ∃ d : Dbl Double.castNearest, (bgvRun (consts P) v ⟨[], []⟩ [] cs).2.2[a]? = some d ∧
        |d.val - e| ≤ e * (180 / 2 ^ 53) := by
  intro v cs a e he
  obtain ⟨-, -, -, h⟩ := c96_rns_bgv_session c96_converts.1 P hs v [] cs
  obtain ⟨d, h1, -, h2⟩ := h a e he
  refine ⟨d, h1, (h2 (by intro a b; simp [cs]) (by simp [cs])).trans_eq ?_⟩
  simp [cs]
  norm_num

end Shell
