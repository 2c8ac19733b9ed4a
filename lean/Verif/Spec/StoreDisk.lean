import Verif.Model.StoreDisk
import Verif.Spec.StoreKeys
/-!
# Programs that save and load polynomials, symmetric-key ciphertexts and keys, and crash

The machine of `Spec/StoreKeys.lean` with saves: a kept message is a snapshot of an object of the machine.
-/

namespace Shell.Spec
open Store ErrorTrack
variable {n : ℕ}

/-- The objects, the keys, and the kept snapshots. -/
structure SavedMachine (n : ℕ) where
  mem : IdealMem n
  keys : List KeyShape
  savedPolys : List (Fin n → ℤ)
  savedCts : List (IdealCt n)
  savedKeys : List KeyShape

/-- A call of `Spec/StoreKeys.lean`, a save, a load, or a crash. -/
inductive SavingCall (n : ℕ) where
  | call (c : IdealKeyed n)
  | savePoly (i : ℕ)
  | saveCt (a : ℕ)
  | saveKey (r : ℕ)
  | loadPoly (j : ℕ)
  | loadCt (j : ℕ)
  | loadKey (j : ℕ)
  | crash

/-- The call of the library for the modulus `N`. -/
def SavingCall.call' (p : MParams) (N : ℕ) : SavingCall n → DiskCall ℝ
  | call c => .call (c.call p N)
  | savePoly i => .savePoly i
  | saveCt a => .saveCt a
  | saveKey r => .saveKey r
  | loadPoly j => .loadPoly j
  | loadCt j => .loadCt j
  | loadKey j => .loadKey j
  | crash => .crash

/-- What a call does to the machine, or the error it returns.  Loading returns what was saved, but for the products that
were collected and not merged before the save: these are lost, and `Error()` still counts them.  A ciphertext without
components, or with more than 32768, is not loaded. -/
noncomputable def SavingCall.ideal (σ : Fin n → ℤ) (P : ErrorParams) (N t : ℕ) (e : Fin n → ℤ) (s : SavedMachine n) :
    SavingCall n → Except Status (SavedMachine n)
  | call c => do .ok { s with mem := ← c.ideal σ P N t s.keys e s.mem }
  | savePoly i => do .ok { s with savedPolys := s.savedPolys ++ [← object s.mem.polys i] }
  | saveCt a => do .ok { s with savedCts := s.savedCts ++ [← object s.mem.cts a] }
  | saveKey r => do .ok { s with savedKeys := s.savedKeys ++ [← object s.keys r] }
  | loadPoly j => do
      let f ← object s.savedPolys j
      .ok { s with mem := { s.mem with polys := s.mem.polys ++ [f] } }
  | loadCt j => do
      let X ← object s.savedCts j
      if X.size = 0 ∨ X.size > 32768 then .error .invalidArgument
      else .ok { s with mem := { s.mem with cts := s.mem.cts ++ [{ X with pendingSize := 0, pending := 0 }] } }
  | loadKey j => do .ok { s with keys := s.keys ++ [← object s.savedKeys j] }
  | crash => .ok { s with mem := ⟨[], []⟩, keys := [] }

/-- The statuses and the state at the end, if the `i`-th call adds the noise `e i`; a rejected call changes nothing. -/
noncomputable def savingRun (σ : Fin n → ℤ) (P : ErrorParams) (N t : ℕ) :
    (ℕ → Fin n → ℤ) → SavedMachine n → List (SavingCall n) → List (Outcome Unit) × SavedMachine n
  | _, s, [] => ([], s)
  | e, s, c :: cs =>
    match c.ideal σ P N t (e 0) s with
    | .ok s' => (.ok () :: (savingRun σ P N t (fun i => e (i + 1)) s' cs).1,
        (savingRun σ P N t (fun i => e (i + 1)) s' cs).2)
    | .error x => (.err x :: (savingRun σ P N t (fun i => e (i + 1)) s cs).1,
        (savingRun σ P N t (fun i => e (i + 1)) s cs).2)

/-- The objects, keys and messages exist, and the other calls are proper as in `Spec/StoreKeys.lean`. -/
def SavingCall.Proper (w : ℕ) (s : SavedMachine n) : SavingCall n → Prop
  | call c => c.Proper w s.keys s.mem
  | savePoly i => i < s.mem.polys.length
  | saveCt a => a < s.mem.cts.length
  | saveKey r => r < s.keys.length
  | loadPoly j => j < s.savedPolys.length
  | loadCt j => j < s.savedCts.length
  | loadKey j => j < s.savedKeys.length
  | crash => True

/-- Every call of the program is proper at its time; that does not depend on the noise. -/
def SavingProper (σ : Fin n → ℤ) (P : ErrorParams) (N w : ℕ) : SavedMachine n → List (SavingCall n) → Prop
  | _, [] => True
  | s, c :: cs => c.Proper w s ∧
    match c.ideal σ P N 1 0 s with
    | .ok s' => SavingProper σ P N w s' cs
    | .error _ => SavingProper σ P N w s cs

end Shell.Spec
