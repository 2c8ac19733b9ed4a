import Verif.Spec.RnsDisk
import Verif.Props.RnsSerialize
import Verif.Props.RnsCtStore
/-!
# Programs that save and load RNS plaintexts and ciphertexts, and crash: what holds after every call
-/

namespace Shell
open Spec Rns Rns.Res
open BgvStore (forall₂_object append_ok)
open RnsCtStore (Mem)
variable {μ π κ β : Type} {w l : ℕ} {ms : List Modulus}

namespace Disk

/-- The message of a polynomial has its dimension and as many vectors as there are moduli. -/
theorem serialize_form {x : RPoly} {s : Serialized} (h : Rns.serialize ms x = .ok s) :
    s.logN = x.logN ∧ s.vectors.length = ms.length := by
  unfold Rns.serialize at h
  split at h
  · cases h
  obtain ⟨vs, h1, h⟩ := Outcome.bind_eq_ok.mp h
  obtain rfl := Outcome.ok.inj h
  refine ⟨rfl, ?_⟩
  have hlen : ∀ {ms : List Modulus} {xs : List (List ℕ)} {vs : List (List ℕ)},
      perModulus (fun m v => Mont.serializeVector m.p v) ms xs = .ok vs → vs.length = ms.length := by
    intro ms
    induction ms with
    | nil =>
      intro xs vs h
      unfold perModulus at h
      cases xs with
      | nil => obtain rfl := Outcome.ok.inj h; rfl
      | cons => cases h
    | cons m ms ih =>
      intro xs vs h
      unfold perModulus at h
      cases xs with
      | nil => cases h
      | cons x xs =>
        obtain ⟨a, -, h⟩ := Outcome.bind_eq_ok.mp h
        obtain ⟨as, h2, h⟩ := Outcome.bind_eq_ok.mp h
        obtain rfl := Outcome.ok.inj h
        simp [ih h2]
  exact hlen h1

/-- A polynomial is saved and loaded with its moduli only. -/
theorem poly_ok {qs : List Modulus} (hg : ∀ m ∈ qs, GoodModulus w l m) (hw : w ≤ 128) (hw8 : 8 ≤ w) {lev : ℕ} (h0 : 0 < lev)
    (hle : lev ≤ qs.length) {p : RPoly} (hp : WellFormed l (qs.take lev) p) :
    (∃ s, Rns.serialize (qs.take lev) p = .ok s ∧ Rns.deserialize (qs.take lev) s = .ok p ∧
      ∀ lev' ≤ qs.length, lev' ≠ lev → Rns.deserialize (qs.take lev') s = .err .invalidArgument) ∧
    ∀ lev' ≤ qs.length, lev' ≠ lev → Rns.serialize (qs.take lev') p = .err .invalidArgument := by
  have hne : qs.take lev ≠ [] := by
    intro h
    have := congrArg List.length h
    rw [List.length_take, List.length_nil] at this
    omega
  obtain ⟨a, rest, ha⟩ := List.exists_cons_of_ne_nil hne
  obtain ⟨l0, l1⟩ := (hg a (List.mem_of_mem_take (by rw [ha]; exact List.mem_cons_self))).l15
  obtain ⟨s, s1, s2⟩ := c60_polynomial (fun m hm => (hg m (List.mem_of_mem_take hm)).create) hne hw hw8 l0 l1 hp
  refine ⟨⟨s, s1, s2, fun lev' h1 h2 => ?_⟩, fun lev' h1 h2 => ?_⟩
  · obtain ⟨-, f2⟩ := serialize_form s1
    unfold Rns.deserialize
    split
    · rfl
    · rw [if_pos]
      rw [f2, List.length_take, List.length_take]
      omega
  · unfold Rns.serialize
    rw [if_pos]
    rw [← hp.2.length_eq, List.length_take, List.length_take]
    omega

/-- A ciphertext is loaded with its moduli only. -/
theorem ct_ok {qs : List Modulus} (hg : ∀ m ∈ qs, GoodModulus w l m) (hw : w ≤ 128) (hw8 : 8 ≤ w) {lev : ℕ} (h0 : 0 < lev)
    (hle : lev ≤ qs.length) {x : RCt} (hms : x.ms = qs.take lev) (hne : x.c ≠ []) {Cs : List (Fin (2 ^ l) → ℤ)}
    (hx : Components l x Cs) :
    ∃ s, x.serialize = .ok s ∧ RCt.deserialize s (qs.take lev) = .ok x ∧
      ∀ lev' ≤ qs.length, lev' ≠ lev → RCt.deserialize s (qs.take lev') = .err .invalidArgument := by
  have hc := components_comp hx
  have hwf : ∀ c ∈ x.c, WellFormed l x.ms c := fun c hmem => by
    obtain ⟨i, hi, rfl⟩ := List.mem_iff_getElem.mp hmem
    have := (List.forall₂_iff_get.mp hc).2 i hi (by rw [← hc.length_eq]; exact hi)
    exact wellFormed_of_represents this.2
  have hn : qs.take lev ≠ [] := by
    intro h
    have := congrArg List.length h
    rw [List.length_take, List.length_nil] at this
    omega
  obtain ⟨a, rest, ha⟩ := List.exists_cons_of_ne_nil hn
  obtain ⟨l0, l1⟩ := (hg a (List.mem_of_mem_take (by rw [ha]; exact List.mem_cons_self))).l15
  obtain ⟨s, s1, s2⟩ := c60_ciphertext (l := l) (fun m hm => (hg m (by rw [hms] at hm; exact List.mem_of_mem_take hm)).create)
    (by rw [hms]; exact hn) hw hw8 l0 l1 hwf
  rw [hms] at s2
  refine ⟨s, s1, s2, fun lev' h1 h2 => ?_⟩
  obtain ⟨c, cs, hcc⟩ := List.exists_cons_of_ne_nil hne
  have hwc := hwf c (by rw [hcc]; exact List.mem_cons_self)
  rw [hms] at hwc
  obtain ⟨⟨d, d1, d2, d3⟩, -⟩ := poly_ok hg hw hw8 h0 hle hwc
  unfold RCt.serialize at s1
  rw [hcc, List.mapM_cons, hms, d1] at s1
  obtain ⟨ds, t1, s1⟩ := Outcome.bind_eq_ok.mp s1
  obtain rfl := Outcome.ok.inj s1
  rw [Outcome.bind_ok] at t1
  obtain ⟨rest', t2, t1⟩ := Outcome.bind_eq_ok.mp t1
  obtain rfl := Outcome.ok.inj t1
  unfold RCt.deserialize
  rw [List.mapM_cons, d3 lev' h1 h2]
  rfl

/-- What the relations between objects and the machine's objects must satisfy. -/
structure Sim (A : Machine μ π κ β) (base : Mem → β → Res Mem) (qs : List Modulus) (P : RPoly → π → Prop)
    (R : RCt → κ → Prop) : Prop where
  levels : A.levels = qs.length
  empty : A.pts A.empty = [] ∧ A.cts A.empty = []
  addPt : ∀ M F, A.pts (A.addPt M F) = A.pts M ++ [F] ∧ A.cts (A.addPt M F) = A.cts M
  addCt : ∀ M X, A.cts (A.addCt M X) = A.cts M ++ [X] ∧ A.pts (A.addCt M X) = A.pts M
  pt : ∀ {p F}, P p F → (∃ s, Rns.serialize (qs.take (A.ptLevel F)) p = .ok s ∧
      Rns.deserialize (qs.take (A.ptLevel F)) s = .ok p ∧
      ∀ lev ≤ qs.length, lev ≠ A.ptLevel F → Rns.deserialize (qs.take lev) s = .err .invalidArgument) ∧
    ∀ lev ≤ qs.length, lev ≠ A.ptLevel F → Rns.serialize (qs.take lev) p = .err .invalidArgument
  ct : ∀ {x X}, R x X → ∃ s, x.serialize = .ok s ∧ RCt.deserialize s (qs.take (A.ctLevel X)) = .ok x ∧
      ∀ lev ≤ qs.length, lev ≠ A.ctLevel X → RCt.deserialize s (qs.take lev) = .err .invalidArgument
  step : ∀ {m M c}, List.Forall₂ P m.pts (A.pts M) → List.Forall₂ R m.cts (A.cts M) → A.proper M c →
    match A.call M c with
    | .ok M' => ∃ m', base m c = (m', .ok ()) ∧ List.Forall₂ P m'.pts (A.pts M') ∧ List.Forall₂ R m'.cts (A.cts M')
    | .error e => base m c = (m, .err e)

/-- The state of the program is that of the machine. -/
structure StateOk (A : Machine μ π κ β) (qs : List Modulus) (P : RPoly → π → Prop) (R : RCt → κ → Prop) (s : RnsDisk.State)
    (T : IdealDisk μ π κ) : Prop where
  pts : List.Forall₂ P s.mem.pts (A.pts T.mem)
  cts : List.Forall₂ R s.mem.cts (A.cts T.mem)
  savedPts : List.Forall₂ (fun d F => ∃ p, P p F ∧ Rns.deserialize (qs.take (A.ptLevel F)) d = .ok p ∧
    ∀ lev ≤ qs.length, lev ≠ A.ptLevel F → Rns.deserialize (qs.take lev) d = .err .invalidArgument) s.pts T.pts
  savedCts : List.Forall₂ (fun d X => ∃ x, R x X ∧ RCt.deserialize d (qs.take (A.ctLevel X)) = .ok x ∧
    ∀ lev ≤ qs.length, lev ≠ A.ctLevel X → RCt.deserialize d (qs.take lev) = .err .invalidArgument) s.cts T.cts

variable {A : Machine μ π κ β} {base : Mem → β → Res Mem} {qs : List Modulus} {P : RPoly → π → Prop} {R : RCt → κ → Prop}
  {s : RnsDisk.State} {T : IdealDisk μ π κ}

/-- A call does what the machine does. -/
theorem call_ok (hA : Sim A base qs P R) (hs : StateOk A qs P R s T) {c : RnsDisk.Call β} (hp : A.diskProper T c) :
    match A.diskCall T c with
    | .ok T' => ∃ s', c.run base qs s = (s', .ok ()) ∧ StateOk A qs P R s' T'
    | .error e => c.run base qs s = (s, .err e) := by
  cases c with
  | call c =>
    have h := hA.step hs.pts hs.cts hp
    dsimp only [Machine.diskCall, RnsDisk.Call.run]
    cases hi : A.call T.mem c with
    | ok M' =>
      rw [hi] at h
      obtain ⟨m', e, h1, h2⟩ := h
      simp only [bind, Except.bind]
      rw [e]
      exact ⟨_, rfl, h1, h2, hs.savedPts, hs.savedCts⟩
    | error e =>
      rw [hi] at h
      dsimp only at h
      simp only [bind, Except.bind]
      rw [h]
  | savePt i lev =>
    obtain ⟨h1, h2⟩ := hp
    rw [hA.levels] at h2
    obtain ⟨p, F, p1, p2, hF⟩ := forall₂_object hs.pts h1
    obtain ⟨⟨d, d1, d2, d3⟩, d4⟩ := hA.pt hF
    dsimp only [Machine.diskCall, RnsDisk.Call.run]
    rw [p1, p2]
    by_cases hl : A.ptLevel F = lev
    · subst hl
      simp only [bind, Except.bind, withTemp, if_pos, d1]
      exact ⟨_, rfl, hs.pts, hs.cts, append_ok hs.savedPts ⟨p, hF, d2, d3⟩, hs.savedCts⟩
    · simp only [bind, Except.bind, withTemp, if_neg hl, d4 lev h2 (Ne.symm hl)]
  | saveCt a =>
    obtain ⟨x, X, x1, x2, hX⟩ := forall₂_object hs.cts hp
    obtain ⟨d, d1, d2, d3⟩ := hA.ct hX
    dsimp only [Machine.diskCall, RnsDisk.Call.run]
    rw [x1, x2]
    simp only [bind, Except.bind, withTemp, d1]
    exact ⟨_, rfl, hs.pts, hs.cts, hs.savedPts, append_ok hs.savedCts ⟨x, hX, d2, d3⟩⟩
  | loadPt j lev =>
    obtain ⟨h1, h2⟩ := hp
    rw [hA.levels] at h2
    obtain ⟨d, F, p1, p2, p, hF, d2, d3⟩ := forall₂_object hs.savedPts h1
    dsimp only [Machine.diskCall, RnsDisk.Call.run]
    rw [p1, p2]
    by_cases hl : A.ptLevel F = lev
    · subst hl
      simp only [bind, Except.bind, withTemp, if_pos, d2]
      exact ⟨_, rfl, by rw [(hA.addPt _ _).1]; exact append_ok hs.pts hF, by rw [(hA.addPt _ _).2]; exact hs.cts,
        hs.savedPts, hs.savedCts⟩
    · simp only [bind, Except.bind, withTemp, if_neg hl, d3 lev h2 (Ne.symm hl)]
  | loadCt j lev =>
    obtain ⟨h1, h2⟩ := hp
    rw [hA.levels] at h2
    obtain ⟨d, X, p1, p2, x, hX, d2, d3⟩ := forall₂_object hs.savedCts h1
    dsimp only [Machine.diskCall, RnsDisk.Call.run]
    rw [p1, p2]
    by_cases hl : A.ctLevel X = lev
    · subst hl
      simp only [bind, Except.bind, withTemp, if_pos, d2]
      exact ⟨_, rfl, by rw [(hA.addCt _ _).2]; exact hs.pts, by rw [(hA.addCt _ _).1]; exact append_ok hs.cts hX,
        hs.savedPts, hs.savedCts⟩
    · simp only [bind, Except.bind, withTemp, if_neg hl, d3 lev h2 (Ne.symm hl)]
  | crash =>
    exact ⟨_, rfl, by rw [hA.empty.1]; exact .nil, by rw [hA.empty.2]; exact .nil, hs.savedPts, hs.savedCts⟩

/-- A program does what the machine does. -/
theorem run_ok (hA : Sim A base qs P R) (prog : List (RnsDisk.Call β)) (hs : StateOk A qs P R s T)
    (hp : A.diskProgram T prog) :
    (RnsDisk.runAll base qs s prog).1 = (A.diskRun T prog).1 ∧
      StateOk A qs P R (RnsDisk.runAll base qs s prog).2 (A.diskRun T prog).2 := by
  induction prog generalizing s T with
  | nil => exact ⟨rfl, hs⟩
  | cons c prog ih =>
    obtain ⟨p1, p2⟩ := hp
    have h := call_ok hA hs p1
    unfold RnsDisk.runAll Machine.diskRun
    cases hi : A.diskCall T c with
    | ok T' =>
      rw [hi] at h p2
      obtain ⟨s', e, hs'⟩ := h
      obtain ⟨e1, e2⟩ := ih hs' p2
      rw [e]
      exact ⟨congrArg _ e1, e2⟩
    | error er =>
      rw [hi] at h p2
      dsimp only at h
      obtain ⟨e1, e2⟩ := ih hs p2
      rw [h]
      exact ⟨congrArg _ e1, e2⟩

/-- A program on related machines ends with related objects. -/
theorem program_ok (hA : Sim A base qs P R) (prog : List (RnsDisk.Call β)) (hp : A.diskProgram A.start prog) :
    let real := RnsDisk.runAll base qs ⟨⟨[], []⟩, [], []⟩ prog
    let ideal := A.diskRun A.start prog
    real.1 = ideal.1 ∧ (real.2.mem.pts.length = (A.pts ideal.2.mem).length ∧
      real.2.mem.cts.length = (A.cts ideal.2.mem).length ∧ real.2.pts.length = ideal.2.pts.length ∧
      real.2.cts.length = ideal.2.cts.length) ∧
      ∀ (a : ℕ) (x : RCt) (X : κ), real.2.mem.cts[a]? = some x → (A.cts ideal.2.mem)[a]? = some X → R x X := by
  intro real ideal
  obtain ⟨r1, r2⟩ := run_ok hA prog (s := ⟨⟨[], []⟩, [], []⟩) (T := A.start)
    ⟨by rw [show A.pts A.start.mem = [] from hA.empty.1]; exact .nil,
      by rw [show A.cts A.start.mem = [] from hA.empty.2]; exact .nil, .nil, .nil⟩ hp
  refine ⟨r1, ⟨r2.pts.length_eq, r2.cts.length_eq, r2.savedPts.length_eq, r2.savedCts.length_eq⟩, fun a x X hx hX => ?_⟩
  obtain ⟨x', X', e1, e2, e3⟩ := forall₂_object r2.cts (List.getElem?_eq_some_iff.mp hX).1
  unfold rd at e1
  unfold bgvObject at e2
  rw [hx] at e1
  rw [hX] at e2
  obtain rfl := Outcome.ok.inj e1
  obtain rfl := Except.ok.inj e2
  exact e3

/-- Lists related through a map. -/
theorem forall₂_image {α α' γ : Type} {f : α' → γ} {Q : α → α' → Prop} {xs : List α} {Xs : List γ}
    (h : List.Forall₂ (fun x X => ∃ Y, X = f Y ∧ Q x Y) xs Xs) : ∃ Ys, Xs = Ys.map f ∧ List.Forall₂ Q xs Ys := by
  induction h with
  | nil => exact ⟨[], rfl, .nil⟩
  | cons h _ ih =>
    obtain ⟨Y, rfl, hY⟩ := h
    obtain ⟨Ys, rfl, hYs⟩ := ih
    exact ⟨Y :: Ys, rfl, .cons hY hYs⟩

theorem forall₂_map {α α' γ : Type} {f : α' → γ} {Q : α → α' → Prop} {xs : List α} {Ys : List α'}
    (h : List.Forall₂ Q xs Ys) : List.Forall₂ (fun x X => ∃ Y, X = f Y ∧ Q x Y) xs (Ys.map f) := by
  induction h with
  | nil => exact .nil
  | cons h _ ih => exact .cons ⟨_, rfl, h⟩ ih

end Disk
end Shell
