import Verif.Props.RnsDisk
import Verif.Props.RnsSlotStoreExample
import Verif.Props.RnsBfvSlotStoreExample
/-!
# Runs of programs on RNS ciphertexts that save, crash and load
-/

namespace Shell
open Spec Rns

instance {μ π κ β : Type} (A : Machine μ π κ β) [∀ M c, Decidable (A.proper M c)] (s : IdealDisk μ π κ)
    (c : RnsDisk.Call β) : Decidable (A.diskProper s c) := by
  cases c <;> unfold Machine.diskProper <;> infer_instance

/-- Whether a program is proper can be computed. -/
def diskProgram {μ π κ β : Type} (A : Machine μ π κ β) [∀ M c, Decidable (A.proper M c)] :
    (s : IdealDisk μ π κ) → (cs : List (RnsDisk.Call β)) → Decidable (A.diskProgram s cs)
  | _, [] => .isTrue trivial
  | s, c :: cs => by
    unfold Machine.diskProgram
    cases A.diskCall s c with
    | ok s' => have := diskProgram A s' cs; infer_instance
    | error e => have := diskProgram A s cs; infer_instance

instance {μ π κ β : Type} (A : Machine μ π κ β) [∀ M c, Decidable (A.proper M c)] (s : IdealDisk μ π κ)
    (cs : List (RnsDisk.Call β)) : Decidable (A.diskProgram s cs) := diskProgram A s cs

instance {l t : ℕ} (P : LParams) (f g : ℕ → Fin (2 ^ l) → ZMod t) (M : IdealBgvMem l t) (c : RnsCtStore.Call) :
    Decidable ((bgvMachine P f g).proper M c) := inferInstanceAs (Decidable (BgvProper P M c))

instance {l t : ℕ} (P : VParams) (f g : ℕ → Fin (2 ^ l) → ZMod t) (M : IdealBfvMem l t) (c : RnsBfvStore.Call) :
    Decidable ((bfvMachine P f g).proper M c) := inferInstanceAs (Decidable (BfvProper P M c))

instance {l t : ℕ} (P : LParams) (z : ZMod t) (f g : ℕ → Fin (2 ^ l) → ZMod t) (M : IdealBgvMem l t)
    (c : RnsSlotStore.Call) : Decidable ((slotMachine P z f g).proper M c) := inferInstanceAs (Decidable (SlotProper P M c))

instance {l t : ℕ} (P : VParams) (z : ZMod t) (f g : ℕ → Fin (2 ^ l) → ZMod t) (M : IdealBfvMem l t)
    (c : RnsBfvSlotStore.Call) : Decidable ((bfvSlotMachine P z f g).proper M c) :=
  inferInstanceAs (Decidable (BfvSlotProper P M c))

/-- Saves a product and a plaintext, crashes, loads both, the product twice, and computes with them; three calls fail: a
plaintext saved with too many moduli, and each message loaded with the wrong number of moduli. -/
def exDisk {β : Type} (product : List β) (encode relin reduce plain : β) : List (RnsDisk.Call β) :=
  product.map .call ++ [.saveCt 2, .call encode, .savePt 0 2, .savePt 0 1, .crash, .loadCt 0 1, .loadCt 0 2, .loadCt 0 2,
    .loadPt 0 2, .loadPt 0 1, .call relin, .call reduce, .call plain]

/-- The statuses of the program. -/
def exDiskStatuses : List (Outcome Unit) :=
  [.ok (), .ok (), .ok (), .ok (), .ok (), .err .invalidArgument, .ok (), .ok (), .err .invalidArgument, .ok (), .ok (),
    .err .invalidArgument, .ok (), .ok (), .ok (), .ok ()]

/-- The program of the example below. -/
def exBgvDisk := exDisk (β := RnsCtStore.Call) [.input 0, .received 0, .mul 0 1] (.encode [1, 2] 1) (.relin 0 2) (.opIn 2 .reduce)
  (.opIn 2 (.addPlain 0))

/-- The machine of the example below. -/
abbrev exBgvDiskIdeal := bgvMachine exPolyChoice.params (exStoreMessage [1, 2, 3, 4]) (exStoreMessage [5, 6])

/-- The hypotheses of `c101_program` are met. -/
example : ∃ k pk v, BgvPolySession lcg lcg 100 exEstimate exPolyChoice k pk (givenEnv v) (fun _ => [1, 2, 3, 4])
      (fun _ => [5, 6]) ∧
    (RnsDisk.runAll (fun m c => RnsCtStore.Call.run v m c) v.c.qs ⟨⟨[], []⟩, [], []⟩ exBgvDisk).1 = exDiskStatuses ∧
    ∃ r, (RnsDisk.runAll (fun m c => RnsCtStore.Call.run v m c) v.c.qs ⟨⟨[], []⟩, [], []⟩ exBgvDisk).2.mem.cts[2]? = some r ∧
      (k 1).decryptBgv (coefficientEncoder exEstimate v.c) r = .ok [2, 8, 7, 8] := by
  obtain ⟨k, pk, v, h⟩ : ∃ k pk v, BgvPolySession lcg lcg 100 exEstimate exPolyChoice k pk (givenEnv v) (fun _ => [1, 2, 3, 4])
      (fun _ => [5, 6]) := by
    obtain ⟨k, pk, v, h⟩ := exPolySession_ok
    exact ⟨k, pk, ⟨v.c, v.x, v.y, v.relin, v.galois⟩, h⟩
  refine ⟨k, pk, v, h, ?_⟩
  have hp : exBgvDiskIdeal.diskProgram exBgvDiskIdeal.start
      exBgvDisk := by decide +kernel
  obtain ⟨e1, ⟨-, e3, -⟩, e4⟩ := c101_program lcg_words exPolyChoice_valid (by decide) h
    exBgvDisk hp
  have h5 : (match (exBgvDiskIdeal.diskRun exBgvDiskIdeal.start
      exBgvDisk).2.mem.cts[2]? with
    | some X => X.level == 1 && X.power == 1 && decide (2 * lsbBound 10 [] X.noise < 12289) &&
        (List.ofFn fun i => (X.value i).val) == [2, 8, 7, 8]
    | none => false) = true := by decide +kernel
  refine ⟨e1.trans (by decide +kernel), ?_⟩
  cases hX : (exBgvDiskIdeal.diskRun exBgvDiskIdeal.start
      exBgvDisk).2.mem.cts[2]? with
  | none => rw [hX] at h5; cases h5
  | some X =>
    rw [hX] at h5
    simp only [Bool.and_eq_true, beq_iff_eq, decide_eq_true_eq] at h5
    obtain ⟨⟨⟨a1, a2⟩, a3⟩, a4⟩ := h5
    have hlt := (List.getElem?_eq_some_iff.mp hX).1
    have hr := List.getElem?_eq_getElem (l := (RnsDisk.runAll (fun m c => RnsCtStore.Call.run v m c)
      v.c.qs ⟨⟨[], []⟩, [], []⟩ exBgvDisk).2.mem.cts) (i := 2) (by rw [e3]; exact hlt)
    obtain ⟨-, -, -, b1, -⟩ := e4 2 _ X hr hX
    refine ⟨_, hr, ?_⟩
    have := b1 a2 (by
      intro q hq
      have hq : q = 12289 := by simpa [exPolyChoice, exChoice] using hq.symm
      subst hq
      rw [a1]
      exact a3)
    rw [a1, a4] at this
    exact this

/-- The program of the example below. -/
def exBfvDisk := exDisk (β := RnsBfvStore.Call) [.input 0, .received 0, .mul 0 1] (.encode [2, 1] 1 false) (.relin 0 2) (.opIn 2 .reduce)
  (.opIn 2 (.absorbSimple 0))

/-- The machine of the example below. -/
abbrev exBfvDiskIdeal := bfvMachine (exBfvPolyChoice.bfvParams 0) (exBfvStoreMessage [1, 2, 3, 4]) (exBfvStoreMessage [5, 6])

/-- The hypotheses of `c102_program_partial` are met. -/
example : ∃ k pk v, BfvPolySession lcg lcg 100 exactEstimate exBfvPolyChoice k pk (givenEnv v) (fun _ => [1, 2, 3, 4])
      (fun _ => [5, 6]) ∧
    (RnsDisk.runAll (fun m c => RnsBfvStore.Call.run exactEstimate v m c) v.c.qs ⟨⟨[], []⟩, [], []⟩ exBfvDisk).1 = exDiskStatuses ∧
    ∃ r, (RnsDisk.runAll (fun m c => RnsBfvStore.Call.run exactEstimate v m c) v.c.qs ⟨⟨[], []⟩, [], []⟩ exBfvDisk).2.mem.cts[2]? = some r ∧
      (k 1).decryptBfv (coefficientEncoder exactEstimate v.c) r = .ok [14, 13, 10, 13] := by
  obtain ⟨k, pk, v, h⟩ : ∃ k pk v, BfvPolySession lcg lcg 100 exactEstimate exBfvPolyChoice k pk (givenEnv v) (fun _ => [1, 2, 3, 4])
      (fun _ => [5, 6]) := by
    obtain ⟨k, pk, v, h⟩ := exBfvPolySession_ok exactEstimate
    exact ⟨k, pk, ⟨v.c, v.x, v.y, v.relin, v.galois⟩, h⟩
  refine ⟨k, pk, v, h, ?_⟩
  have hp : exBfvDiskIdeal.diskProgram exBfvDiskIdeal.start
      exBfvDisk := by decide +kernel
  obtain ⟨e1, ⟨-, e3, -⟩, e4⟩ := c102_program_partial lcg_words
    (exactEstimate_within _) le_rfl (by norm_num) exBfvPolyChoice_valid (by decide) (by decide) (by decide) (by decide)
    (by decide) h
    exBfvDisk hp
  have h5 : (match (exBfvDiskIdeal.diskRun exBfvDiskIdeal.start
      exBfvDisk).2.mem.cts[2]? with
    | some X => X.level == 1 && X.power == 1 && decide (X.noise < (1 / 2 - 0) * 65537) &&
        (List.ofFn fun i => (X.value i).val) == [14, 13, 10, 13]
    | none => false) = true := by decide +kernel
  refine ⟨e1.trans (by decide +kernel), ?_⟩
  cases hX : (exBfvDiskIdeal.diskRun exBfvDiskIdeal.start
      exBfvDisk).2.mem.cts[2]? with
  | none => rw [hX] at h5; cases h5
  | some X =>
    rw [hX] at h5
    simp only [Bool.and_eq_true, beq_iff_eq, decide_eq_true_eq] at h5
    obtain ⟨⟨⟨a1, a2⟩, a3⟩, a4⟩ := h5
    have hlt := (List.getElem?_eq_some_iff.mp hX).1
    have hr := List.getElem?_eq_getElem (l := (RnsDisk.runAll (fun m c => RnsBfvStore.Call.run exactEstimate v m c)
      v.c.qs ⟨⟨[], []⟩, [], []⟩ exBfvDisk).2.mem.cts) (i := 2) (by rw [e3]; exact hlt)
    obtain ⟨-, -, -, b1, -⟩ := e4 2 _ X hr hX
    refine ⟨_, hr, ?_⟩
    have := b1 a2 (by
      rw [a1]
      have : (([65537, 40961] : List ℕ).take 1).prod = 65537 := by decide
      show X.noise < (1 / 2 - 0) * ((([65537, 40961] : List ℕ).take 1).prod : ℕ)
      rw [this]
      exact a3)
    rw [a1, a4] at this
    exact this

/-- The program of the example below. -/
def exSlotDisk := exDisk (β := RnsSlotStore.Call) [.call (.input 0), .call (.received 0), .call (.mul 0 1)] (.encodeSlots [1, 2] 1)
  (.call (.relin 0 2)) (.call (.opIn 2 .reduce)) (.call (.opIn 2 (.addPlain 0)))

/-- The machine of the example below. -/
abbrev exSlotDiskIdeal (zeta : ZMod exChoice.t) := slotMachine exChoice.params zeta (exSlotMessage [1, 2, 3, 4]) (exSlotMessage [5, 6])

/-- What the machine says, for every root. -/
theorem exSlotDiskMachine : ∀ zeta : ZMod exChoice.t, zeta ^ 4 = -1 →
    let A := exSlotDiskIdeal zeta
    A.diskProgram A.start exSlotDisk ∧ (A.diskRun A.start exSlotDisk).1 = exDiskStatuses ∧
    (match (A.diskRun A.start exSlotDisk).2.mem.cts[2]? with
    | some X => X.level == 1 && X.power == 1 && decide (2 * lsbBound 17 [] X.noise < 12289) &&
        (List.ofFn fun i => (X.value i).val) == [6, 14, 0, 0]
    | none => false) = true := by decide +kernel

/-- The hypotheses of `c101_slots` are met. -/
example : ∃ c k pk v, BgvSession lcg lcg 100 exEstimate exChoice c k pk (slotEnv v) (fun _ => [1, 2, 3, 4])
      (fun _ => [5, 6]) ∧
    (RnsDisk.runAll (fun m c => RnsSlotStore.Call.run v m c) c.qs ⟨⟨[], []⟩, [], []⟩ exSlotDisk).1 = exDiskStatuses ∧
    ∃ r, (RnsDisk.runAll (fun m c => RnsSlotStore.Call.run v m c) c.qs ⟨⟨[], []⟩, [], []⟩ exSlotDisk).2.mem.cts[2]? = some r ∧
      (k 1).decryptBgv (finiteFieldEncoder exEstimate v.e) r = .ok [6, 14, 0, 0] := by
  obtain ⟨c, k, pk, v, h⟩ : ∃ c k pk v, BgvSession lcg lcg 100 exEstimate exChoice c k pk (slotEnv v) (fun _ => [1, 2, 3, 4])
      (fun _ => [5, 6]) := by
    obtain ⟨c, k, pk, v, h⟩ := exSession_ok
    exact ⟨c, k, pk, ⟨v.e, v.x, v.y, v.relin, v.galois⟩, h⟩
  refine ⟨c, k, pk, v, h, ?_⟩
  obtain ⟨zeta, hz, hprog⟩ := c101_slots lcg_words exChoice_valid (by decide) h
  obtain ⟨hp, hs, h5⟩ := exSlotDiskMachine zeta hz
  obtain ⟨e1, ⟨-, e3, -⟩, e4⟩ := hprog exSlotDisk hp
  refine ⟨e1.trans hs, ?_⟩
  cases hX : ((exSlotDiskIdeal zeta).diskRun (exSlotDiskIdeal zeta).start
      exSlotDisk).2.mem.cts[2]? with
  | none => rw [hX] at h5; cases h5
  | some X =>
    rw [hX] at h5
    simp only [Bool.and_eq_true, beq_iff_eq, decide_eq_true_eq] at h5
    obtain ⟨⟨⟨a1, a2⟩, a3⟩, a4⟩ := h5
    have hlt := (List.getElem?_eq_some_iff.mp hX).1
    have hr := List.getElem?_eq_getElem (l := (RnsDisk.runAll (fun m c => RnsSlotStore.Call.run v m c)
      c.qs ⟨⟨[], []⟩, [], []⟩ exSlotDisk).2.mem.cts) (i := 2) (by rw [e3]; exact hlt)
    obtain ⟨-, -, -, b1, -⟩ := e4 2 _ X hr hX
    refine ⟨_, hr, ?_⟩
    have := (b1 a2 (by
      intro q hq
      have hq : q = 12289 := by simpa [exChoice] using hq.symm
      subst hq
      rw [a1]
      exact a3)).1
    rw [a1, a4] at this
    exact this

/-- The program of the example below. -/
def exBfvSlotDisk := exDisk (β := RnsBfvSlotStore.Call) [.call (.input 0), .call (.received 0), .call (.mul 0 1)]
  (.encodeSlots [2, 1, 1, 3] 1 false) (.call (.relin 0 2)) (.call (.opIn 2 .reduce)) (.call (.opIn 2 (.absorbSimple 0)))

/-- The machine of the example below. -/
abbrev exBfvSlotDiskIdeal (zeta : ZMod exBfvChoice.t) := bfvSlotMachine (exBfvChoice.bfvParams 0) zeta (exBfvSlotMessage [1, 2, 3, 4]) (exBfvSlotMessage [5, 6])

/-- What the machine says, for every root. -/
theorem exBfvSlotDiskMachine : ∀ zeta : ZMod exBfvChoice.t, zeta ^ 4 = -1 →
    let A := exBfvSlotDiskIdeal zeta
    A.diskProgram A.start exBfvSlotDisk ∧ (A.diskRun A.start exBfvSlotDisk).1 = exDiskStatuses ∧
    (match (A.diskRun A.start exBfvSlotDisk).2.mem.cts[2]? with
    | some X => X.level == 1 && X.power == 1 && decide (X.noise < (1 / 2 - 0) * 65537) &&
        (List.ofFn fun i => (X.value i).val) == [10, 12, 0, 0]
    | none => false) = true := by decide +kernel

/-- The hypotheses of `c102_slots_partial` are met. -/
example : ∃ c k pk v, BfvSession lcg lcg 100 exactEstimate exBfvChoice c k pk (slotEnv v) (fun _ => [1, 2, 3, 4])
      (fun _ => [5, 6]) ∧
    (RnsDisk.runAll (fun m c => RnsBfvSlotStore.Call.run exactEstimate v m c) c.qs ⟨⟨[], []⟩, [], []⟩ exBfvSlotDisk).1 = exDiskStatuses ∧
    ∃ r, (RnsDisk.runAll (fun m c => RnsBfvSlotStore.Call.run exactEstimate v m c) c.qs ⟨⟨[], []⟩, [], []⟩ exBfvSlotDisk).2.mem.cts[2]? = some r ∧
      (k 1).decryptBfv (finiteFieldEncoder exactEstimate v.e) r = .ok [10, 12, 0, 0] := by
  obtain ⟨c, k, pk, v, h⟩ : ∃ c k pk v, BfvSession lcg lcg 100 exactEstimate exBfvChoice c k pk (slotEnv v) (fun _ => [1, 2, 3, 4])
      (fun _ => [5, 6]) := by
    obtain ⟨c, k, pk, v, h⟩ := exBfvSession_ok exactEstimate
    exact ⟨c, k, pk, ⟨v.e, v.x, v.y, v.relin, v.galois⟩, h⟩
  refine ⟨c, k, pk, v, h, ?_⟩
  obtain ⟨zeta, hz, hprog⟩ := c102_slots_partial lcg_words
    (exactEstimate_within _) le_rfl (by norm_num) exBfvChoice_valid (by decide) (by decide) (by decide) (by decide) h
  obtain ⟨hp, hs, h5⟩ := exBfvSlotDiskMachine zeta hz
  obtain ⟨e1, ⟨-, e3, -⟩, e4⟩ := hprog exBfvSlotDisk hp
  refine ⟨e1.trans hs, ?_⟩
  cases hX : ((exBfvSlotDiskIdeal zeta).diskRun (exBfvSlotDiskIdeal zeta).start
      exBfvSlotDisk).2.mem.cts[2]? with
  | none => rw [hX] at h5; cases h5
  | some X =>
    rw [hX] at h5
    simp only [Bool.and_eq_true, beq_iff_eq, decide_eq_true_eq] at h5
    obtain ⟨⟨⟨a1, a2⟩, a3⟩, a4⟩ := h5
    have hlt := (List.getElem?_eq_some_iff.mp hX).1
    have hr := List.getElem?_eq_getElem (l := (RnsDisk.runAll (fun m c => RnsBfvSlotStore.Call.run exactEstimate v m c)
      c.qs ⟨⟨[], []⟩, [], []⟩ exBfvSlotDisk).2.mem.cts) (i := 2) (by rw [e3]; exact hlt)
    obtain ⟨-, -, -, b1, -⟩ := e4 2 _ X hr hX
    refine ⟨_, hr, ?_⟩
    have := (b1 a2 (by
      rw [a1]
      have : (([65537, 40961] : List ℕ).take 1).prod = 65537 := by decide
      show X.noise < (1 / 2 - 0) * ((([65537, 40961] : List ℕ).take 1).prod : ℕ)
      rw [this]
      exact a3)).1
    rw [a1, a4] at this
    exact this

end Shell
