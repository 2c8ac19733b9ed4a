import Verif.Model.RnsDisk
import Verif.Spec.RnsBfvSlotStore
/-!
# Programs that save and load RNS plaintexts and ciphertexts, and crash

The machine that such a program is meant to be: a kept message is a snapshot of an object of the machine.
-/

namespace Shell.Spec
open Rns
variable {μ π κ β : Type}

/-- A machine with a list of plaintexts and a list of ciphertexts, of up to `levels` moduli. -/
structure Machine (μ π κ β : Type) where
  levels : ℕ
  call : μ → β → Except Status μ
  proper : μ → β → Prop
  empty : μ
  pts : μ → List π
  cts : μ → List κ
  addPt : μ → π → μ
  addCt : μ → κ → μ
  ptLevel : π → ℕ
  ctLevel : κ → ℕ

/-- The machine of programs on RNS BGV ciphertexts (C97). -/
def bgvMachine {l t : ℕ} (P : LParams) (f g : ℕ → Fin (2 ^ l) → ZMod t) :
    Machine (IdealBgvMem l t) (IdealBgvPt l t) (IdealBgvCt l t) RnsCtStore.Call where
  levels := P.qs.length
  call := idealBgvCall P f g
  proper := BgvProper P
  empty := ⟨[], []⟩
  pts M := M.pts
  cts M := M.cts
  addPt M F := { M with pts := M.pts ++ [F] }
  addCt M X := { M with cts := M.cts ++ [X] }
  ptLevel F := F.level
  ctLevel X := X.level

/-- The machine of programs on RNS BFV ciphertexts (C98). -/
def bfvMachine {l t : ℕ} (P : VParams) (f g : ℕ → Fin (2 ^ l) → ZMod t) :
    Machine (IdealBfvMem l t) (IdealBfvPt l t) (IdealBgvCt l t) RnsBfvStore.Call where
  levels := P.qs.length
  call := idealBfvCall P f g
  proper := BfvProper P
  empty := ⟨[], []⟩
  pts M := M.pts
  cts M := M.cts
  addPt M F := { M with pts := M.pts ++ [F] }
  addCt M X := { M with cts := M.cts ++ [X] }
  ptLevel F := F.level
  ctLevel X := X.level

/-- The machine of programs on packed RNS BGV ciphertexts (C99). -/
def slotMachine {l t : ℕ} (P : LParams) (zeta : ZMod t) (f g : ℕ → Fin (2 ^ l) → ZMod t) :
    Machine (IdealBgvMem l t) (IdealBgvPt l t) (IdealBgvCt l t) RnsSlotStore.Call :=
  { bgvMachine P f g with call := idealSlotCall P zeta f g, proper := SlotProper P }

/-- The machine of programs on packed RNS BFV ciphertexts (C100). -/
def bfvSlotMachine {l t : ℕ} (P : VParams) (zeta : ZMod t) (f g : ℕ → Fin (2 ^ l) → ZMod t) :
    Machine (IdealBfvMem l t) (IdealBfvPt l t) (IdealBgvCt l t) RnsBfvSlotStore.Call :=
  { bfvMachine P f g with call := idealBfvSlotCall P zeta f g, proper := BfvSlotProper P }

/-- The objects and the kept snapshots. -/
structure IdealDisk (μ π κ : Type) where
  mem : μ
  pts : List π
  cts : List κ

namespace Machine
variable (A : Machine μ π κ β)

/-- What a call does, or the error it returns: objects are saved and loaded with the moduli that they have. -/
def diskCall (s : IdealDisk μ π κ) : RnsDisk.Call β → Except Status (IdealDisk μ π κ)
  | .call c => do .ok { s with mem := ← A.call s.mem c }
  | .savePt i lev => do
      let F ← bgvObject (A.pts s.mem) i
      if A.ptLevel F = lev then .ok { s with pts := s.pts ++ [F] } else .error .invalidArgument
  | .saveCt a => do .ok { s with cts := s.cts ++ [← bgvObject (A.cts s.mem) a] }
  | .loadPt j lev => do
      let F ← bgvObject s.pts j
      if A.ptLevel F = lev then .ok { s with mem := A.addPt s.mem F } else .error .invalidArgument
  | .loadCt j lev => do
      let X ← bgvObject s.cts j
      if A.ctLevel X = lev then .ok { s with mem := A.addCt s.mem X } else .error .invalidArgument
  | .crash => .ok { s with mem := A.empty }

/-- The statuses that the calls return, and the state at the end; a rejected call changes nothing. -/
def diskRun : IdealDisk μ π κ → List (RnsDisk.Call β) → List (Outcome Unit) × IdealDisk μ π κ
  | s, [] => ([], s)
  | s, c :: cs =>
    match A.diskCall s c with
    | .ok s' => (.ok () :: (diskRun s' cs).1, (diskRun s' cs).2)
    | .error e => (.err e :: (diskRun s cs).1, (diskRun s cs).2)

/-- The objects and messages exist. -/
def diskProper (s : IdealDisk μ π κ) : RnsDisk.Call β → Prop
  | .call c => A.proper s.mem c
  | .savePt i lev => i < (A.pts s.mem).length ∧ lev ≤ A.levels
  | .saveCt a => a < (A.cts s.mem).length
  | .loadPt j lev => j < s.pts.length ∧ lev ≤ A.levels
  | .loadCt j lev => j < s.cts.length ∧ lev ≤ A.levels
  | .crash => True

/-- Every call of the program is proper at its time. -/
def diskProgram : IdealDisk μ π κ → List (RnsDisk.Call β) → Prop
  | _, [] => True
  | s, c :: cs => A.diskProper s c ∧
    match A.diskCall s c with
    | .ok s' => diskProgram s' cs
    | .error _ => diskProgram s cs

/-- Nothing yet. -/
def start : IdealDisk μ π κ := ⟨A.empty, [], []⟩

end Machine
end Shell.Spec
