import Verif.Spec.RnsSlotStore
import Verif.Props.FiniteField
/-!
# Programs on RNS BGV ciphertexts with packed plaintexts: the two machines
-/

namespace Shell
open Spec Rns NttRing
variable {w l t : ℕ} {zeta : ZMod t}

namespace SlotStore

/-- The slots of a polynomial. -/
def toVec (zeta : ZMod t) (F : Fin (2 ^ l) → ZMod t) : Fin (2 ^ l) → ZMod t := fun i => slotValue zeta l F i

theorem toVec_add (F G : Fin (2 ^ l) → ZMod t) :
    toVec zeta (fun i => F i + G i) = fun i => toVec zeta F i + toVec zeta G i := funext fun _ => ev_add F G _

theorem toVec_sub (F G : Fin (2 ^ l) → ZMod t) :
    toVec zeta (fun i => F i - G i) = fun i => toVec zeta F i - toVec zeta G i := funext fun _ => ev_sub F G _

theorem toVec_neg (F : Fin (2 ^ l) → ZMod t) : toVec zeta (fun i => -F i) = fun i => -toVec zeta F i :=
  funext fun _ => ev_neg F _

theorem toVec_smul (c : ZMod t) (F : Fin (2 ^ l) → ZMod t) :
    toVec zeta (fun i => c * F i) = fun i => c * toVec zeta F i := funext fun _ => ev_smul c F _

theorem toVec_mul (h : zeta ^ 2 ^ l = -1) (h1 : 1 ≤ l) (F G : Fin (2 ^ l) → ZMod t) :
    toVec zeta (negMul F G) = fun i => toVec zeta F i * toVec zeta G i :=
  funext fun i => ev_negMul F G _ (slot_pow h h1 i)

/-- The odd numbers below `2 * 2^l` are the exponents of the slots. -/
theorem exists_slot (h1 : 1 ≤ l) {a : ℕ} (ha : a % 2 = 1) (hlt : a < 2 * 2 ^ l) :
    ∃ j : Fin (2 ^ l), slotPower l j % (2 * 2 ^ l) = a := by
  have hpos : 0 < 2 * 2 ^ l := by positivity
  have hb : ∀ i : ℕ, (slotPower l i % (2 * 2 ^ l) - 1) / 2 < 2 ^ l := fun i => by
    have := Nat.mod_lt (slotPower l i) hpos
    omega
  have hsurj : Function.Surjective
      (fun i : Fin (2 ^ l) => (⟨(slotPower l i % (2 * 2 ^ l) - 1) / 2, hb i⟩ : Fin (2 ^ l))) := by
    refine Finite.surjective_of_injective fun i j h => Fin.ext (slotPower_inj h1 i.2 j.2 ?_)
    have h := Fin.mk.inj h
    have a1 := slot_odd h1 i
    have a2 := slot_odd h1 j
    omega
  obtain ⟨j, hj⟩ := hsurj ⟨(a - 1) / 2, by omega⟩
  have hj := Fin.mk.inj hj
  have a1 := slot_odd h1 j
  exact ⟨j, by omega⟩

theorem source_spec (h1 : 1 ≤ l) {k : ℕ} (hk : k % 2 = 1) (i : Fin (2 ^ l)) :
    slotPower l (slotSource l k i) % (2 * 2 ^ l) = slotPower l i * k % (2 * 2 ^ l) := by
  have hpos : 0 < 2 * 2 ^ l := by positivity
  have hodd : slotPower l i * k % (2 * 2 ^ l) % 2 = 1 := by
    rw [Nat.mod_mod_of_dvd _ ⟨2 ^ l, rfl⟩, Nat.mul_mod, hk]
    have := slot_odd h1 i
    rw [Nat.mod_mod_of_dvd _ ⟨2 ^ l, rfl⟩] at this
    rw [this]
  obtain ⟨j, hj⟩ := exists_slot h1 hodd (Nat.mod_lt _ hpos)
  unfold slotSource
  cases hf : (List.finRange (2 ^ l)).find? fun j : Fin (2 ^ l) =>
      decide (slotPower l j % (2 * 2 ^ l) = slotPower l i * k % (2 * 2 ^ l)) with
  | none =>
    have := List.find?_eq_none.mp hf j (List.mem_finRange j)
    simp [hj] at this
  | some j' => simpa using List.find?_some hf

theorem source_unique (h1 : 1 ≤ l) {k : ℕ} (hk : k % 2 = 1) {i : Fin (2 ^ l)} {j : ℕ} (hj : j < 2 ^ l)
    (h : slotPower l i * k ≡ slotPower l j [MOD 2 * 2 ^ l]) : (slotSource l k i : ℕ) = j :=
  slotPower_inj h1 (slotSource l k i).2 hj ((source_spec h1 hk i).trans h)

theorem toVec_subst (h : zeta ^ 2 ^ l = -1) (h1 : 1 ≤ l) {k : ℕ} (hk : k % 2 = 1) (F : Fin (2 ^ l) → ZMod t) :
    toVec zeta (substPow k F) = fun i => toVec zeta F (slotSource l k i) := by
  funext i
  show ev (substPow k F) _ = ev F _
  rw [ev_substPow _ _ _ (slot_pow h h1 i), ← pow_mul, ← pow_mod_two_n h, ← source_spec h1 hk i, pow_mod_two_n h]

/-- The machine on polynomials, seen in slots. -/
def mapPt (zeta : ZMod t) (X : IdealBgvPt l t) : IdealBgvPt l t := { X with value := toVec zeta X.value }

def mapCt (zeta : ZMod t) (X : IdealBgvCt l t) : IdealBgvCt l t := { X with value := toVec zeta X.value }

def mapMem (zeta : ZMod t) (M : IdealBgvMem l t) : IdealBgvMem l t :=
  ⟨M.pts.map (mapPt zeta), M.cts.map (mapCt zeta)⟩

theorem object_map {α β : Type} (f : α → β) (xs : List α) (i : ℕ) :
    bgvObject (xs.map f) i = (bgvObject xs i).map f := by
  unfold bgvObject
  rw [List.getElem?_map]
  cases xs[i]? <;> rfl

section
variable {P : LParams} {M : IdealBgvMem l t} {X : IdealBgvCt l t}

theorem map_op (h : zeta ^ 2 ^ l = -1) (h1 : 1 ≤ l) (op : RnsCtStore.Op) :
    idealSlotOp P (mapMem zeta M) (mapCt zeta X) op = (idealBgvOp P M X op).map (mapCt zeta) := by
  have hsame : ∀ Y : IdealBgvCt l t, SameKind (mapCt zeta X) (mapCt zeta Y) = SameKind X Y := fun _ => rfl
  cases op with
  | negate =>
    dsimp only [idealSlotOp, idealBgvOp, Except.map, mapCt]
    rw [toVec_neg]
  | add b =>
    dsimp only [idealSlotOp, idealBgvOp, mapMem]
    rw [object_map]
    cases bgvObject M.cts b with
    | error e => rfl
    | ok Y =>
      by_cases hs : SameKind X Y
      · simp only [Except.map, bind, Except.bind, hsame, if_pos hs]
        dsimp only [mapCt]
        rw [toVec_add]
      · simp only [Except.map, bind, Except.bind, hsame, if_neg hs]
  | sub b =>
    dsimp only [idealSlotOp, idealBgvOp, mapMem]
    rw [object_map]
    cases bgvObject M.cts b with
    | error e => rfl
    | ok Y =>
      by_cases hs : SameKind X Y
      · simp only [Except.map, bind, Except.bind, hsame, if_pos hs]
        dsimp only [mapCt]
        rw [toVec_sub]
      · simp only [Except.map, bind, Except.bind, hsame, if_neg hs]
  | addPlain i =>
    dsimp only [idealSlotOp, idealBgvOp, mapMem]
    rw [object_map]
    cases bgvObject M.pts i with
    | error e => rfl
    | ok F =>
      have hl : ((mapCt zeta X).level = (mapPt zeta F).level) = (X.level = F.level) := rfl
      by_cases hs : X.level = F.level
      · simp only [Except.map, bind, Except.bind, hl, if_pos hs]
        dsimp only [mapCt, mapPt]
        rw [toVec_add]
      · simp only [Except.map, bind, Except.bind, hl, if_neg hs]
  | subPlain i =>
    dsimp only [idealSlotOp, idealBgvOp, mapMem]
    rw [object_map]
    cases bgvObject M.pts i with
    | error e => rfl
    | ok F =>
      have hl : ((mapCt zeta X).level = (mapPt zeta F).level) = (X.level = F.level) := rfl
      by_cases hs : X.level = F.level
      · simp only [Except.map, bind, Except.bind, hl, if_pos hs]
        dsimp only [mapCt, mapPt]
        rw [toVec_sub]
      · simp only [Except.map, bind, Except.bind, hl, if_neg hs]
  | absorb i =>
    dsimp only [idealSlotOp, idealBgvOp, mapMem]
    rw [object_map]
    cases bgvObject M.pts i with
    | error e => rfl
    | ok F =>
      have hl : ((mapCt zeta X).level = (mapPt zeta F).level) = (X.level = F.level) := rfl
      by_cases hs : X.level = F.level
      · simp only [Except.map, bind, Except.bind, hl, if_pos hs]
        dsimp only [mapCt, mapPt]
        rw [toVec_mul h h1]
      · simp only [Except.map, bind, Except.bind, hl, if_neg hs]
  | scale a =>
    dsimp only [idealSlotOp, idealBgvOp, Except.map, mapCt]
    rw [toVec_smul]
  | fused b i =>
    dsimp only [idealSlotOp, idealBgvOp, mapMem]
    rw [object_map, object_map]
    cases bgvObject M.cts b with
    | error e => rfl
    | ok Y =>
      cases bgvObject M.pts i with
      | error e => rfl
      | ok F =>
        have hl : (mapCt zeta X).level = (mapPt zeta F).level ↔ X.level = F.level := Iff.rfl
        by_cases hs : SameKind X Y ∧ X.level = F.level
        · simp only [Except.map, bind, Except.bind, hsame, hl, if_pos hs]
          dsimp only [mapCt, mapPt]
          rw [toVec_add X.value (negMul Y.value F.value), toVec_mul h h1]
        · simp only [Except.map, bind, Except.bind, hsame, hl, if_neg hs]
  | reduce =>
    dsimp only [idealSlotOp, idealBgvOp]
    by_cases hs : X.level ≤ 1
    · rw [if_pos (show (mapCt zeta X).level ≤ 1 from hs), if_pos hs]; rfl
    · rw [if_neg (show ¬(mapCt zeta X).level ≤ 1 from hs), if_neg hs]; rfl

theorem map_append_ct (Z : IdealBgvCt l t) :
    mapMem zeta { M with cts := M.cts ++ [Z] } =
      { mapMem zeta M with cts := (mapMem zeta M).cts ++ [mapCt zeta Z] } := by
  unfold mapMem
  simp

variable {f g : ℕ → Fin (2 ^ l) → ZMod t}

theorem map_call (h : zeta ^ 2 ^ l = -1) (h1 : 1 ≤ l) (c : RnsCtStore.Call) :
    idealSlotCall P zeta (fun i => toVec zeta (f i)) (fun i => toVec zeta (g i)) (mapMem zeta M) (.call c) =
      (idealBgvCall P f g M c).map (mapMem zeta) := by
  have hct : (mapMem zeta M).cts = M.cts.map (mapCt zeta) := rfl
  cases c with
  | encode u lev =>
    dsimp only [idealSlotCall, idealBgvCall]
    by_cases hs : u.length ≤ 2 ^ l ∧ 0 < lev
    · rw [if_pos hs, if_pos hs]
      simp [Except.map, mapMem, mapPt]
      rfl
    · rw [if_neg hs, if_neg hs]; rfl
  | input i =>
    dsimp only [idealSlotCall, idealBgvCall, Except.map]
    rw [map_append_ct]; rfl
  | received i =>
    dsimp only [idealSlotCall, idealBgvCall, Except.map]
    rw [map_append_ct]; rfl
  | copy a =>
    dsimp only [idealSlotCall, idealBgvCall]
    rw [hct, object_map]
    cases bgvObject M.cts a with
    | error e => rfl
    | ok X => simp only [Except.map, bind, Except.bind]; rw [map_append_ct]; rfl
  | opNew a op =>
    dsimp only [idealSlotCall, idealBgvCall]
    rw [hct, object_map]
    cases bgvObject M.cts a with
    | error e => rfl
    | ok X =>
      have := map_op (P := P) (M := M) (X := X) h h1 op
      simp only [Except.map, bind, Except.bind] at this ⊢
      rw [this]
      cases idealBgvOp P M X op with
      | error e => rfl
      | ok Y => dsimp only; rw [map_append_ct]; rfl
  | opIn a op =>
    dsimp only [idealSlotCall, idealBgvCall]
    rw [hct, object_map]
    cases bgvObject M.cts a with
    | error e => rfl
    | ok X =>
      have := map_op (P := P) (M := M) (X := X) h h1 op
      simp only [Except.map, bind, Except.bind] at this ⊢
      rw [this]
      cases idealBgvOp P M X op with
      | error e => rfl
      | ok Y => simp [mapMem, List.map_set]
  | mul a b =>
    dsimp only [idealSlotCall, idealBgvCall]
    rw [hct, object_map, object_map]
    cases bgvObject M.cts a with
    | error e => rfl
    | ok X =>
      cases bgvObject M.cts b with
      | error e => rfl
      | ok Y =>
        have hl : ((mapCt zeta X).level = (mapCt zeta Y).level ∧ (mapCt zeta X).power = (mapCt zeta Y).power) =
          (X.level = Y.level ∧ X.power = Y.power) := rfl
        by_cases hs : X.level = Y.level ∧ X.power = Y.power
        · simp only [Except.map, bind, Except.bind, hl, if_pos hs]
          rw [map_append_ct]
          dsimp only [mapCt]
          rw [toVec_mul h h1]; rfl
        · simp only [Except.map, bind, Except.bind, hl, if_neg hs]
  | substitute a k =>
    dsimp only [idealSlotCall, idealBgvCall]
    rw [hct, object_map]
    cases bgvObject M.cts a with
    | error e => rfl
    | ok X =>
      by_cases hs : 0 ≤ k ∧ k % 2 = 1 ∧ k < 2 * 2 ^ l
      · simp only [Except.map, bind, Except.bind, if_pos hs]
        rw [map_append_ct]
        dsimp only [mapCt]
        rw [toVec_subst h h1 (by omega)]; rfl
      · simp only [Except.map, bind, Except.bind, if_neg hs]
  | relin a lev =>
    dsimp only [idealSlotCall, idealBgvCall]
    rw [hct, object_map]
    cases bgvObject M.cts a with
    | error e => rfl
    | ok X =>
      have hl : ((mapCt zeta X).comps ≤ 3 ∧ (mapCt zeta X).level = lev ∧ (mapCt zeta X).power = 1) =
        (X.comps ≤ 3 ∧ X.level = lev ∧ X.power = 1) := rfl
      by_cases hs : X.comps ≤ 3 ∧ X.level = lev ∧ X.power = 1
      · simp only [Except.map, bind, Except.bind, hl, if_pos hs]
        rw [map_append_ct]; rfl
      · simp only [Except.map, bind, Except.bind, hl, if_neg hs]
  | galois a lev p =>
    dsimp only [idealSlotCall, idealBgvCall]
    rw [hct, object_map]
    cases bgvObject M.cts a with
    | error e => rfl
    | ok X =>
      have hl : ((mapCt zeta X).comps = 2 ∧ (mapCt zeta X).level = lev ∧ (mapCt zeta X).power = p) =
        (X.comps = 2 ∧ X.level = lev ∧ X.power = p) := rfl
      by_cases hs : X.comps = 2 ∧ X.level = lev ∧ X.power = p
      · simp only [Except.map, bind, Except.bind, hl, if_pos hs]
        rw [map_append_ct]; rfl
      · simp only [Except.map, bind, Except.bind, hl, if_neg hs]

theorem map_opProper (op : RnsCtStore.Op) : BgvOpProper P (mapMem zeta M) op ↔ BgvOpProper P M op := by
  cases op <;> simp [BgvOpProper, mapMem]

theorem map_proper (c : RnsCtStore.Call) : BgvProper P (mapMem zeta M) c ↔ BgvProper P M c := by
  cases c with
  | substitute a k =>
    dsimp only [BgvProper, mapMem]
    rw [List.getElem?_map]
    cases M.cts[a]? with
    | none => simp
    | some X => simp [mapCt]
  | opNew a op => dsimp only [BgvProper]; rw [map_opProper]; simp [mapMem]
  | opIn a op => dsimp only [BgvProper]; rw [map_opProper]; simp [mapMem]
  | _ => simp [BgvProper, mapMem]

end
end SlotStore
end Shell
