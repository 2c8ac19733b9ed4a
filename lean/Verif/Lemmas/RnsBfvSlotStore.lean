import Verif.Lemmas.RnsSlotStore
import Verif.Spec.RnsBfvSlotStore
/-!
# Programs on RNS BFV ciphertexts with packed plaintexts: the two machines
-/

namespace Shell
open Spec Rns NttRing
open SlotStore (toVec toVec_add toVec_sub toVec_neg toVec_smul toVec_mul toVec_subst mapCt object_map)
variable {w l t : ℕ} {zeta : ZMod t}

namespace BfvSlotStore

/-- The machine on polynomials, seen in slots. -/
def mapPt (zeta : ZMod t) (X : IdealBfvPt l t) : IdealBfvPt l t := { X with value := toVec zeta X.value }

def mapMem (zeta : ZMod t) (M : IdealBfvMem l t) : IdealBfvMem l t :=
  ⟨M.pts.map (mapPt zeta), M.cts.map (mapCt zeta)⟩

theorem mapPt_seen (F : IdealBfvPt l t) : (mapPt zeta F).seen = toVec zeta F.seen := by
  unfold IdealBfvPt.seen mapPt
  dsimp only
  split
  · rfl
  · funext i
    simp [toVec, slotValue]

theorem mapPt_noise (F : IdealBfvPt l t) : (mapPt zeta F).noise = F.noise := rfl

section
variable {P : VParams} {M : IdealBfvMem l t} {X : IdealBgvCt l t}

theorem map_op (h : zeta ^ 2 ^ l = -1) (h1 : 1 ≤ l) (op : RnsBfvStore.Op) :
    idealBfvSlotOp P (mapMem zeta M) (mapCt zeta X) op = (idealBfvOp P M X op).map (mapCt zeta) := by
  have hsame : ∀ Y : IdealBgvCt l t, SameKind (mapCt zeta X) (mapCt zeta Y) = SameKind X Y := fun _ => rfl
  cases op with
  | negate =>
    dsimp only [idealBfvSlotOp, idealBfvOp, Except.map, mapCt]
    rw [toVec_neg]
  | add b =>
    dsimp only [idealBfvSlotOp, idealBfvOp, mapMem]
    rw [object_map]
    cases bgvObject M.cts b with
    | error e => rfl
    | ok Y =>
      by_cases hs : SameKind X Y
      · simp only [Except.map, bind, Except.bind, hsame, if_pos hs]
        dsimp only [mapCt]
        rw [toVec_add]
      · simp only [Except.map, bind, Except.bind, hsame, if_neg hs]
  | sub b =>
    dsimp only [idealBfvSlotOp, idealBfvOp, mapMem]
    rw [object_map]
    cases bgvObject M.cts b with
    | error e => rfl
    | ok Y =>
      by_cases hs : SameKind X Y
      · simp only [Except.map, bind, Except.bind, hsame, if_pos hs]
        dsimp only [mapCt]
        rw [toVec_sub]
      · simp only [Except.map, bind, Except.bind, hsame, if_neg hs]
  | addPlain i =>
    dsimp only [idealBfvSlotOp, idealBfvOp, mapMem]
    rw [object_map]
    cases bgvObject M.pts i with
    | error e => rfl
    | ok F =>
      have hl : ((mapCt zeta X).level = (mapPt zeta F).level) = (X.level = F.level) := rfl
      by_cases hs : X.level = F.level
      · simp only [Except.map, bind, Except.bind, hl, if_pos hs]
        rw [mapPt_seen, mapPt_noise]
        dsimp only [mapCt]
        rw [toVec_add]
      · simp only [Except.map, bind, Except.bind, hl, if_neg hs]
  | subPlain i =>
    dsimp only [idealBfvSlotOp, idealBfvOp, mapMem]
    rw [object_map]
    cases bgvObject M.pts i with
    | error e => rfl
    | ok F =>
      have hl : ((mapCt zeta X).level = (mapPt zeta F).level) = (X.level = F.level) := rfl
      by_cases hs : X.level = F.level
      · simp only [Except.map, bind, Except.bind, hl, if_pos hs]
        rw [mapPt_seen, mapPt_noise]
        dsimp only [mapCt]
        rw [toVec_sub]
      · simp only [Except.map, bind, Except.bind, hl, if_neg hs]
  | absorb i =>
    dsimp only [idealBfvSlotOp, idealBfvOp, mapMem]
    rw [object_map]
    cases bgvObject M.pts i with
    | error e => rfl
    | ok F =>
      have hl : ((mapCt zeta X).level = P.qs.length ∧ (mapCt zeta X).level = (mapPt zeta F).level) =
        (X.level = P.qs.length ∧ X.level = F.level) := rfl
      by_cases hs : X.level = P.qs.length ∧ X.level = F.level
      · simp only [Except.map, bind, Except.bind, hl, if_pos hs]
        rw [mapPt_seen, mapPt_noise]
        dsimp only [mapCt]
        rw [toVec_mul h h1]
      · simp only [Except.map, bind, Except.bind, hl, if_neg hs]
  | absorbSimple i =>
    dsimp only [idealBfvSlotOp, idealBfvOp, mapMem]
    rw [object_map]
    cases bgvObject M.pts i with
    | error e => rfl
    | ok F =>
      have hl : ((mapCt zeta X).level = (mapPt zeta F).level) = (X.level = F.level) := rfl
      by_cases hs : X.level = F.level
      · simp only [Except.map, bind, Except.bind, hl, if_pos hs]
        dsimp only [mapCt, mapPt]
        rw [toVec_mul h h1]
      · simp only [Except.map, bind, Except.bind, hl, if_neg hs]
  | scale a =>
    dsimp only [idealBfvSlotOp, idealBfvOp, Except.map, mapCt]
    rw [toVec_smul]
  | fused b i =>
    dsimp only [idealBfvSlotOp, idealBfvOp, mapMem]
    rw [object_map, object_map]
    cases bgvObject M.cts b with
    | error e => rfl
    | ok Y =>
      cases bgvObject M.pts i with
      | error e => rfl
      | ok F =>
        have hl : (mapCt zeta X).level = (mapPt zeta F).level ↔ X.level = F.level := Iff.rfl
        by_cases hs : SameKind X Y ∧ X.level = F.level
        · simp only [Except.map, bind, Except.bind, hsame, hl, if_pos hs]
          dsimp only [mapCt, mapPt]
          rw [toVec_add X.value (negMul Y.value F.value), toVec_mul h h1]
        · simp only [Except.map, bind, Except.bind, hsame, hl, if_neg hs]
  | reduce =>
    dsimp only [idealBfvSlotOp, idealBfvOp]
    by_cases hs : X.level ≤ 1
    · rw [if_pos (show (mapCt zeta X).level ≤ 1 from hs), if_pos hs]; rfl
    · rw [if_neg (show ¬(mapCt zeta X).level ≤ 1 from hs), if_neg hs]; rfl

theorem map_append_ct (Z : IdealBgvCt l t) :
    mapMem zeta { M with cts := M.cts ++ [Z] } =
      { mapMem zeta M with cts := (mapMem zeta M).cts ++ [mapCt zeta Z] } := by
  unfold mapMem
  simp

variable {f g : ℕ → Fin (2 ^ l) → ZMod t}

theorem map_call (h : zeta ^ 2 ^ l = -1) (h1 : 1 ≤ l) (c : RnsBfvStore.Call) :
    idealBfvSlotCall P zeta (fun i => toVec zeta (f i)) (fun i => toVec zeta (g i)) (mapMem zeta M) (.call c) =
      (idealBfvCall P f g M c).map (mapMem zeta) := by
  have hct : (mapMem zeta M).cts = M.cts.map (mapCt zeta) := rfl
  cases c with
  | encode u lev sc =>
    dsimp only [idealBfvSlotCall, idealBfvCall]
    by_cases hs : u.length ≤ 2 ^ l ∧ 0 < lev ∧ (sc = true → lev = P.qs.length)
    · rw [if_pos hs, if_pos hs]
      simp [Except.map, mapMem, mapPt]
      rfl
    · rw [if_neg hs, if_neg hs]; rfl
  | input i =>
    dsimp only [idealBfvSlotCall, idealBfvCall, Except.map]
    rw [map_append_ct]; rfl
  | received i =>
    dsimp only [idealBfvSlotCall, idealBfvCall, Except.map]
    rw [map_append_ct]; rfl
  | copy a =>
    dsimp only [idealBfvSlotCall, idealBfvCall]
    rw [hct, object_map]
    cases bgvObject M.cts a with
    | error e => rfl
    | ok X => simp only [Except.map, bind, Except.bind]; rw [map_append_ct]; rfl
  | opNew a op =>
    dsimp only [idealBfvSlotCall, idealBfvCall]
    rw [hct, object_map]
    cases bgvObject M.cts a with
    | error e => rfl
    | ok X =>
      have := map_op (P := P) (M := M) (X := X) h h1 op
      simp only [Except.map, bind, Except.bind] at this ⊢
      rw [this]
      cases idealBfvOp P M X op with
      | error e => rfl
      | ok Y => dsimp only; rw [map_append_ct]; rfl
  | opIn a op =>
    dsimp only [idealBfvSlotCall, idealBfvCall]
    rw [hct, object_map]
    cases bgvObject M.cts a with
    | error e => rfl
    | ok X =>
      have := map_op (P := P) (M := M) (X := X) h h1 op
      simp only [Except.map, bind, Except.bind] at this ⊢
      rw [this]
      cases idealBfvOp P M X op with
      | error e => rfl
      | ok Y => simp [mapMem, List.map_set]
  | mul a b =>
    dsimp only [idealBfvSlotCall, idealBfvCall]
    rw [hct, object_map, object_map]
    cases bgvObject M.cts a with
    | error e => rfl
    | ok X =>
      cases bgvObject M.cts b with
      | error e => rfl
      | ok Y =>
        have hl : ((mapCt zeta X).level = P.qs.length ∧ (mapCt zeta X).level = (mapCt zeta Y).level ∧
            (mapCt zeta X).power = (mapCt zeta Y).power) =
          (X.level = P.qs.length ∧ X.level = Y.level ∧ X.power = Y.power) := rfl
        by_cases hs : X.level = P.qs.length ∧ X.level = Y.level ∧ X.power = Y.power
        · simp only [Except.map, bind, Except.bind, hl, if_pos hs]
          rw [map_append_ct]
          dsimp only [mapCt]
          rw [toVec_mul h h1]; rfl
        · simp only [Except.map, bind, Except.bind, hl, if_neg hs]
  | substitute a k =>
    dsimp only [idealBfvSlotCall, idealBfvCall]
    rw [hct, object_map]
    cases bgvObject M.cts a with
    | error e => rfl
    | ok X =>
      by_cases hs : 0 ≤ k ∧ k % 2 = 1 ∧ k < 2 * 2 ^ l
      · simp only [Except.map, bind, Except.bind, if_pos hs]
        rw [map_append_ct]
        dsimp only [mapCt]
        rw [toVec_subst h h1 (by omega)]; rfl
      · simp only [Except.map, bind, Except.bind, if_neg hs]
  | relin a lev =>
    dsimp only [idealBfvSlotCall, idealBfvCall]
    rw [hct, object_map]
    cases bgvObject M.cts a with
    | error e => rfl
    | ok X =>
      have hl : ((mapCt zeta X).comps ≤ 3 ∧ (mapCt zeta X).level = lev ∧ (mapCt zeta X).power = 1) =
        (X.comps ≤ 3 ∧ X.level = lev ∧ X.power = 1) := rfl
      by_cases hs : X.comps ≤ 3 ∧ X.level = lev ∧ X.power = 1
      · simp only [Except.map, bind, Except.bind, hl, if_pos hs]
        rw [map_append_ct]; rfl
      · simp only [Except.map, bind, Except.bind, hl, if_neg hs]
  | galois a lev p =>
    dsimp only [idealBfvSlotCall, idealBfvCall]
    rw [hct, object_map]
    cases bgvObject M.cts a with
    | error e => rfl
    | ok X =>
      have hl : ((mapCt zeta X).comps = 2 ∧ (mapCt zeta X).level = lev ∧ (mapCt zeta X).power = p) =
        (X.comps = 2 ∧ X.level = lev ∧ X.power = p) := rfl
      by_cases hs : X.comps = 2 ∧ X.level = lev ∧ X.power = p
      · simp only [Except.map, bind, Except.bind, hl, if_pos hs]
        rw [map_append_ct]; rfl
      · simp only [Except.map, bind, Except.bind, hl, if_neg hs]

theorem map_opProper (op : RnsBfvStore.Op) : BfvOpProper P (mapMem zeta M) op ↔ BfvOpProper P M op := by
  cases op <;> simp [BfvOpProper, mapMem, mapPt]

theorem map_inPlace (a : ℕ) (op : RnsBfvStore.Op) :
    BfvInPlaceProper P (mapMem zeta M) a op ↔ BfvInPlaceProper P M a op := by
  cases op with
  | absorb i =>
    dsimp only [BfvInPlaceProper, mapMem]
    rw [List.getElem?_map, List.getElem?_map]
    cases M.cts[a]? with
    | none => simp
    | some X =>
      cases M.pts[i]? with
      | none => simp
      | some F => simp [mapCt, mapPt]
  | _ => rfl

theorem map_proper (c : RnsBfvStore.Call) : BfvProper P (mapMem zeta M) c ↔ BfvProper P M c := by
  cases c with
  | substitute a k =>
    dsimp only [BfvProper, mapMem]
    rw [List.getElem?_map]
    cases M.cts[a]? with
    | none => simp
    | some X => simp [mapCt]
  | opNew a op => dsimp only [BfvProper]; rw [map_opProper]; simp [mapMem]
  | opIn a op => dsimp only [BfvProper]; rw [map_opProper, map_inPlace]; simp [mapMem]
  | _ => simp [BfvProper, mapMem]

end
end BfvSlotStore
end Shell
