import Verif.Spec.StoreDisk
import Verif.Lemmas.StoreKeys
import Verif.Props.Serialize
/-!
Saves, loads and crashes in programs: every call simulates the call of the machine.
-/

namespace Shell.Store
open Rns Rns.Res Spec ErrorTrack Sym WordCt NttRing MParams Ntt Expand Word

/-! ### The machine respects congruence -/

/-- Congruent states. -/
structure SCong {n : ℕ} (t : ℕ) (s s' : SavedMachine n) : Prop where
  mem : Cong t s.mem s'.mem
  keys : s.keys = s'.keys
  savedPolys : s.savedPolys = s'.savedPolys
  savedCts : List.Forall₂ (CongCt t) s.savedCts s'.savedCts
  savedKeys : s.savedKeys = s'.savedKeys

section
variable {n t : ℕ}

theorem saving_cong (σ : Fin n → ℤ) (P : ErrorParams) (N t' : ℕ) (e : Fin n → ℤ) {s s' : SavedMachine n}
    (h : SCong t s s') (c : SavingCall n) : ExRel (SCong t) (c.ideal σ P N t' 0 s) (c.ideal σ P N t e s') := by
  cases c with
  | call c =>
    show ExRel _ (_ >>= _) (_ >>= _)
    rw [← h.keys]
    exact (keyed_cong σ P N t' s.keys e h.mem c).bind fun _ _ hm => ⟨hm, rfl, h.savedPolys, h.savedCts, h.savedKeys⟩
  | savePoly i =>
    show ExRel _ (_ >>= _) (_ >>= _)
    rw [← h.mem.polys]
    refine (ExRel.refl (object s.mem.polys i)).bind fun f f' hf => ?_
    subst hf
    exact ⟨h.mem, h.keys, by show _ ++ _ = _ ++ _; rw [h.savedPolys], h.savedCts, h.savedKeys⟩
  | saveCt a =>
    exact (object_cong h.mem.cts a).bind fun X X' hX =>
      ⟨h.mem, h.keys, h.savedPolys, forall₂_append h.savedCts (.cons hX .nil), h.savedKeys⟩
  | saveKey r =>
    show ExRel _ (_ >>= _) (_ >>= _)
    rw [← h.keys]
    refine (ExRel.refl (object s.keys r)).bind fun f f' hf => ?_
    subst hf
    exact ⟨h.mem, rfl, h.savedPolys, h.savedCts, by show _ ++ _ = _ ++ _; rw [h.savedKeys]⟩
  | loadPoly j =>
    show ExRel _ (_ >>= _) (_ >>= _)
    rw [← h.savedPolys]
    refine (ExRel.refl (object s.savedPolys j)).bind fun f f' hf => ?_
    subst hf
    exact ⟨⟨by show _ ++ _ = _ ++ _; rw [h.mem.polys], h.mem.cts⟩, h.keys, rfl, h.savedCts, h.savedKeys⟩
  | loadCt j =>
    refine (object_cong h.savedCts j).bind fun X X' hX => ?_
    refine ite_cong (by rw [hX.size]) (fun _ => rfl) fun _ => ?_
    exact ⟨cong_ct h.mem (forall₂_append h.mem.cts (.cons ⟨hX.size, hX.power, hX.value, hX.error, rfl, rfl⟩ .nil)),
      h.keys, h.savedPolys, h.savedCts, h.savedKeys⟩
  | loadKey j =>
    show ExRel _ (_ >>= _) (_ >>= _)
    rw [← h.savedKeys]
    refine (ExRel.refl (object s.savedKeys j)).bind fun f f' hf => ?_
    subst hf
    exact ⟨h.mem, by show _ ++ _ = _ ++ _; rw [h.keys], h.savedPolys, h.savedCts, rfl⟩
  | crash => exact ⟨⟨rfl, .nil⟩, rfl, h.savedPolys, h.savedCts, h.savedKeys⟩

theorem savingProper_cong {w : ℕ} {s s' : SavedMachine n} (h : SCong t s s') {c : SavingCall n}
    (hc : c.Proper w s) : c.Proper w s' := by
  cases c with
  | call c =>
    show c.Proper w s'.keys s'.mem
    rw [← h.keys]
    exact keyedProper_cong h.mem hc
  | savePoly i => show i < _; rw [← h.mem.polys]; exact hc
  | saveCt a => show a < _; rw [← h.mem.cts.length_eq]; exact hc
  | saveKey r => show r < _; rw [← h.keys]; exact hc
  | loadPoly j => show j < _; rw [← h.savedPolys]; exact hc
  | loadCt j => show j < _; rw [← h.savedCts.length_eq]; exact hc
  | loadKey j => show j < _; rw [← h.savedKeys]; exact hc
  | crash => trivial

/-- A run without noise and one with noise return the same and end with congruent states. -/
theorem savingRun_cong (σ : Fin n → ℤ) (P : ErrorParams) (N : ℕ) :
    ∀ {cs : List (SavingCall n)} {s s' : SavedMachine n} (e : ℕ → Fin n → ℤ), SCong t s s' →
    (savingRun σ P N t 0 s cs).1 = (savingRun σ P N t e s' cs).1 ∧
    SCong t (savingRun σ P N t 0 s cs).2 (savingRun σ P N t e s' cs).2
  | [], s, s', e, h => ⟨rfl, h⟩
  | c :: cs, s, s', e, h => by
    have key := saving_cong σ P N t (e 0) h c
    simp only [savingRun, Pi.zero_apply]
    generalize c.ideal σ P N t 0 s = x at key
    generalize c.ideal σ P N t (e 0) s' = y at key
    cases x with
    | ok K =>
      cases y with
      | error e => exact key.elim
      | ok K' =>
        obtain ⟨i1, i2⟩ := savingRun_cong σ P N (fun i => e (i + 1)) key (cs := cs)
        exact ⟨congrArg₂ List.cons rfl i1, i2⟩
    | error x =>
      cases y with
      | ok K => exact key.elim
      | error x' =>
        obtain rfl : x = x' := key
        obtain ⟨i1, i2⟩ := savingRun_cong σ P N (fun i => e (i + 1)) h (cs := cs)
        exact ⟨congrArg₂ List.cons rfl i1, i2⟩

end

/-! ### Serialization -/

variable {C : Ctx} {p : MParams} {q : NttParams} {ρ : Type}

theorem valid_of_rep {v : List ℕ} {F : C.Poly} (h : Poly.Rep p C.q C.n v F) : ValidPoly C.q C.n v := by
  refine ⟨h.len, fun a ha => ?_⟩
  obtain ⟨i, hi, rfl⟩ := List.getElem_of_mem ha
  have := h.le i (by rw [← h.len]; exact hi)
  rwa [List.getD_eq_getElem _ _ hi] at this

/-- What is saved of a ciphertext. -/
def SavedCt (C : Ctx) (p : MParams) (σ : Fin C.n → ℤ) (d : SObj ℝ) (X : IdealCt C.n) : Prop :=
  if X.size = 0 ∨ X.size > 32768 then Obj.deserialize p d = .err .invalidArgument
  else ∃ x, Obj.deserialize p d = .ok x ∧ CRel C p σ x { X with pendingSize := 0, pending := 0 }

theorem savedCt_of (hC : Fit C p) (ht : Tables p C.w C.q C.l C.psi q) (hw : C.w ≤ 128) (hw8 : 8 ≤ C.w)
    (hcr : create C.w C.q = .ok p) {σ : Fin C.n → ℤ} {x : Obj ℝ} {X : IdealCt C.n} (h : CRel C p σ x X) :
    ∃ d, x.serialize p = .ok d ∧ SavedCt C p σ d X := by
  obtain ⟨Y, y1, y2⟩ := h
  have hv : ∀ c ∈ x.c, c ≠ [] ∧ c.length ≤ 2 ^ 15 ∧ ∀ a ∈ c, a ≤ C.q := by
    intro c hc
    obtain ⟨F, -, hF⟩ := (List.forall₂_iff_get.mp y1.c |> fun h => by
      obtain ⟨i, hi, rfl⟩ := List.getElem_of_mem hc
      exact ⟨_, trivial, h.2 i hi (by rw [← h.1]; exact hi)⟩ : ∃ F, True ∧ Poly.Rep p C.q C.n c F)
    exact valid_ser Nat.one_le_two_pow (Nat.pow_le_pow_right (by norm_num) ht.l15) (valid_of_rep hF)
  obtain ⟨ss, s1, s2⟩ := polys_roundtrip hcr hw hw8 hv
  have hlen : ss.length = X.size := by rw [s2.length_eq, y1.c.length_eq, y2.size]
  refine ⟨⟨ss, x.power, x.error⟩, by unfold Obj.serialize; rw [s1]; rfl, ?_⟩
  unfold SavedCt
  split
  · rename_i h
    unfold Obj.deserialize Mont.kMaxNumCoeffs
    dsimp only
    rw [hlen]
    split_ifs <;> first | rfl | omega
  · rename_i h
    refine ⟨⟨x.c, x.power, x.error, []⟩, ?_, ⟨⟨{ Y.ct with lazy := [] }, Y.error⟩, ⟨y1.c, y1.power, y1.error, .nil⟩,
      ⟨y2.size, y2.power, y2.value, y2.error, rfl, ?_, y2.odd, y2.lt⟩⟩⟩
    · unfold Obj.deserialize Mont.kMaxNumCoeffs
      dsimp only
      rw [if_neg (by omega), if_neg (by omega), mapM_des s2]; rfl
    · have h0 : modq C.q (0 : Fin C.n → ℤ) = 0 := by funext i; simp [modq]
      show C.toNtt (modq C.q 0) = phase _ []
      rw [phase_nil, h0, toNtt_zero]

/-- A key of the program, which can be saved and loaded. -/
def KeyOk (R : Rng ρ) (fuel : ℕ) (C : Ctx) (p : MParams) (q : NttParams) (σ : Fin C.n → ℤ) (P : ErrorParams) (t A : ℕ)
    (rk : Word.RKey) (K : KeyShape) : Prop :=
  KRel C p q σ P t A rk K ∧ ∃ d, rk.serialize = .ok d ∧ Word.RKey.deserialize R fuel d p q = .ok rk

/-- The state of the program stands for that of the machine. -/
structure DRel (R : Rng ρ) (fuel : ℕ) (C : Ctx) (p : MParams) (q : NttParams) (σ : Fin C.n → ℤ) (P : ErrorParams)
    (t A : ℕ) (s : Disk ℝ) (S : SavedMachine C.n) : Prop where
  mem : MRel C p σ s.mem S.mem
  keys : List.Forall₂ (KeyOk R fuel C p q σ P t A) s.keys S.keys
  savedPolys : List.Forall₂ (fun d f => ∃ v, desPoly p d = .ok v ∧ PRel C p v f) s.savedPolys S.savedPolys
  savedCts : List.Forall₂ (SavedCt C p σ) s.savedCts S.savedCts
  savedKeys : List.Forall₂ (fun d K => ∃ rk, Word.RKey.deserialize R fuel d p q = .ok rk ∧ KeyOk R fuel C p q σ P t A rk K)
    s.savedKeys S.savedKeys

/-! ### Programs -/

/-- Every call simulates the call of the machine with some noise. -/
theorem saving_match (R : Rng ρ) (fuel : ℕ) (hC : Fit C p) (ht : Tables p C.w C.q C.l C.psi q) (hw : C.w ≤ 128)
    (hw8 : 8 ≤ C.w) (hcr : create C.w C.q = .ok p) (P : ErrorParams) {σ : Fin C.n → ℤ} {t A : ℕ}
    {s : Disk ℝ} {S : SavedMachine C.n} (hS : DRel R fuel C p q σ P t A s S) {c : SavingCall C.n} (hc : c.Proper C.w S) :
    ∃ e : Fin C.n → ℤ, (∀ j, |e j| ≤ (A : ℤ)) ∧ MatchRes (DRel R fuel C p q σ P t A) s S
      ((c.call' p C.q).run R fuel ⟨p, q, P.bPlaintext C.n⟩ (P.bRelinearize C.n) s) (c.ideal σ P C.q t e S) := by
  have h0 : ∀ j : Fin C.n, |(0 : Fin C.n → ℤ) j| ≤ (A : ℤ) := fun j => by simp
  cases c with
  | call c =>
    obtain ⟨e, e1, e2⟩ := keyed_match hC ht P (hS.keys.imp fun _ _ h => h.1) hS.mem hc
    refine ⟨e, e1, ?_⟩
    show MatchRes _ _ _ _ (_ >>= _)
    cases hx : c.ideal σ P C.q t S.keys e S.mem with
    | ok M =>
      rw [hx] at e2
      exact ⟨e2.1, e2.2, hS.keys, hS.savedPolys, hS.savedCts, hS.savedKeys⟩
    | error x =>
      rw [hx] at e2
      exact ⟨e2.1, e2.2, hS.keys, hS.savedPolys, hS.savedCts, hS.savedKeys⟩
  | savePoly i =>
    refine ⟨0, h0, ?_⟩
    obtain ⟨v, f, a1, a2, a3, a4⟩ := forall₂_object hS.mem.polys hc
    obtain ⟨v1, v2, v3⟩ := valid_ser (N := C.q) Nat.one_le_two_pow (Nat.pow_le_pow_right (by norm_num) ht.l15)
      (valid_of_rep a4)
    obtain ⟨d, d1, d2⟩ := poly_roundtrip hcr hw hw8 v1 v2 v3
    simp only [SavingCall.call', DiskCall.run, SavingCall.ideal, a1, a2, d1, withTemp_ok, except_bind]
    exact ⟨rfl, hS.mem, hS.keys, forall₂_append hS.savedPolys (.cons ⟨v, d2, a4⟩ .nil), hS.savedCts, hS.savedKeys⟩
  | saveCt a =>
    refine ⟨0, h0, ?_⟩
    obtain ⟨x, X, a1, a2, a3, a4⟩ := forall₂_object hS.mem.cts hc
    obtain ⟨d, d1, d2⟩ := savedCt_of hC ht hw hw8 hcr a4
    simp only [SavingCall.call', DiskCall.run, SavingCall.ideal, a1, a2, d1, withTemp_ok, except_bind]
    exact ⟨rfl, hS.mem, hS.keys, hS.savedPolys, forall₂_append hS.savedCts (.cons d2 .nil), hS.savedKeys⟩
  | saveKey r =>
    refine ⟨0, h0, ?_⟩
    obtain ⟨rk, K, a1, a2, a3, a4⟩ := forall₂_object hS.keys hc
    obtain ⟨d, d1, d2⟩ := a4.2
    simp only [SavingCall.call', DiskCall.run, SavingCall.ideal, a1, a2, d1, withTemp_ok, except_bind]
    exact ⟨rfl, hS.mem, hS.keys, hS.savedPolys, hS.savedCts, forall₂_append hS.savedKeys (.cons ⟨rk, d2, a4⟩ .nil)⟩
  | loadPoly j =>
    refine ⟨0, h0, ?_⟩
    obtain ⟨d, f, a1, a2, a3, v, a4, a5⟩ := forall₂_object hS.savedPolys hc
    simp only [SavingCall.call', DiskCall.run, SavingCall.ideal, a1, a2, a4, withTemp_ok, except_bind]
    exact ⟨rfl, ⟨forall₂_append hS.mem.polys (.cons a5 .nil), hS.mem.cts⟩, hS.keys, hS.savedPolys, hS.savedCts,
      hS.savedKeys⟩
  | loadCt j =>
    refine ⟨0, h0, ?_⟩
    obtain ⟨d, X, a1, a2, a3, a4⟩ := forall₂_object hS.savedCts hc
    simp only [SavingCall.call', DiskCall.run, SavingCall.ideal, a1, a2, withTemp_ok, except_bind]
    unfold SavedCt at a4
    split_ifs at a4 ⊢
    · rw [a4]
      exact ⟨rfl, hS⟩
    · obtain ⟨x, x1, x2⟩ := a4
      rw [x1, withTemp_ok]
      exact ⟨rfl, ⟨hS.mem.polys, forall₂_append hS.mem.cts (.cons x2 .nil)⟩, hS.keys, hS.savedPolys, hS.savedCts,
        hS.savedKeys⟩
  | loadKey j =>
    refine ⟨0, h0, ?_⟩
    obtain ⟨d, K, a1, a2, a3, rk, a4, a5⟩ := forall₂_object hS.savedKeys hc
    simp only [SavingCall.call', DiskCall.run, SavingCall.ideal, a1, a2, a4, withTemp_ok, except_bind]
    exact ⟨rfl, hS.mem, forall₂_append hS.keys (.cons a5 .nil), hS.savedPolys, hS.savedCts, hS.savedKeys⟩
  | crash => exact ⟨0, h0, rfl, ⟨.nil, .nil⟩, .nil, hS.savedPolys, hS.savedCts, hS.savedKeys⟩

/-- Every program simulates the machine with some noise. -/
theorem savingRun_match (R : Rng ρ) (fuel : ℕ) (hC : Fit C p) (ht : Tables p C.w C.q C.l C.psi q) (hw : C.w ≤ 128)
    (hw8 : 8 ≤ C.w) (hcr : create C.w C.q = .ok p) (P : ErrorParams) {σ : Fin C.n → ℤ} {t A : ℕ} :
    ∀ {cs : List (SavingCall C.n)} {s : Disk ℝ} {S₀ S : SavedMachine C.n}, SCong t S₀ S →
      DRel R fuel C p q σ P t A s S → SavingProper σ P C.q C.w S₀ cs →
      ∃ e : ℕ → Fin C.n → ℤ, (∀ i j, |e i j| ≤ (A : ℤ)) ∧
      (runDisk R fuel ⟨p, q, P.bPlaintext C.n⟩ (P.bRelinearize C.n) s (cs.map (·.call' p C.q))).1 =
        (savingRun σ P C.q t e S cs).1 ∧
      DRel R fuel C p q σ P t A
        (runDisk R fuel ⟨p, q, P.bPlaintext C.n⟩ (P.bRelinearize C.n) s (cs.map (·.call' p C.q))).2
        (savingRun σ P C.q t e S cs).2
  | [], s, S₀, S, _, hS, _ => ⟨0, fun i j => by simp, rfl, hS⟩
  | c :: cs, s, S₀, S, hcg, hS, hp => by
    obtain ⟨h1, h2⟩ := hp
    obtain ⟨e0, he0, key⟩ := saving_match R fuel hC ht hw hw8 hcr P hS (savingProper_cong hcg h1)
    have hex := saving_cong σ P C.q 1 e0 hcg c
    have fin : ∀ {s' : Disk ℝ} {S₀' S' : SavedMachine C.n} {x : Outcome Unit}, SCong t S₀' S' →
        DRel R fuel C p q σ P t A s' S' →
        SavingProper σ P C.q C.w S₀' cs → ∃ e : ℕ → Fin C.n → ℤ, e 0 = e0 ∧ (∀ i j, |e i j| ≤ (A : ℤ)) ∧
        (x :: (runDisk R fuel ⟨p, q, P.bPlaintext C.n⟩ (P.bRelinearize C.n) s' (cs.map (·.call' p C.q))).1) =
          x :: (savingRun σ P C.q t (fun i => e (i + 1)) S' cs).1 ∧
        DRel R fuel C p q σ P t A
          (runDisk R fuel ⟨p, q, P.bPlaintext C.n⟩ (P.bRelinearize C.n) s' (cs.map (·.call' p C.q))).2
          (savingRun σ P C.q t (fun i => e (i + 1)) S' cs).2 := by
      intro s' S₀' S' x g1 g2 g3
      obtain ⟨e, i1, i2, i3⟩ := savingRun_match R fuel hC ht hw hw8 hcr P g1 g2 g3
      refine ⟨fun i => Nat.casesOn i e0 e, rfl, fun i => ?_, by rw [i2], i3⟩
      cases i with
      | zero => exact he0
      | succ i => exact i1 i
    simp only [List.map_cons, runDisk, savingRun]
    cases hx : c.ideal σ P C.q 1 0 S₀ with
    | ok N₀ =>
      rw [hx] at hex h2
      cases hy : c.ideal σ P C.q t e0 S with
      | ok N =>
        rw [hy] at hex key
        obtain ⟨k1, k2⟩ := key
        obtain ⟨e, f0, f1, f2, f3⟩ := fin (x := .ok ()) hex k2 h2
        refine ⟨e, f1, ?_⟩
        rw [f0, hy, k1]
        exact ⟨f2, f3⟩
      | error s => rw [hy] at hex; exact hex.elim
    | error s =>
      rw [hx] at hex h2
      cases hy : c.ideal σ P C.q t e0 S with
      | ok N => rw [hy] at hex; exact hex.elim
      | error s' =>
        rw [hy] at hex key
        obtain ⟨k1, k2⟩ := key
        obtain ⟨e, f0, f1, f2, f3⟩ := fin (x := .err s') hcg k2 h2
        refine ⟨e, f1, ?_⟩
        rw [f0, hy, k1]
        exact ⟨f2, f3⟩

end Shell.Store
