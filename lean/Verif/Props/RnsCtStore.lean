import Verif.Lemmas.RnsCtStore
import Verif.Props.RnsPolySession
/-!
# Property C97: programs on RNS BGV ciphertexts, with calls that fail, compute on polynomials
-/

namespace Shell
open Spec Rns Rns.Res RnsCtStore BgvStore
variable {σ τ : Type} {w l t : ℕ} {S : Fin (2 ^ l) → ℤ}

namespace BgvStore

/-- The objects of the program are those of the machine. -/
structure MemOk (l : ℕ) (c : Rns.Ctx) (t : ℕ) (S : Fin (2 ^ l) → ℤ) (m : Mem) (M : IdealBgvMem l t) : Prop where
  pts : List.Forall₂ (PtOk l c t) m.pts M.pts
  cts : List.Forall₂ (CtOk l c t S) m.cts M.cts

/-- What the machine's parameters say about the context, ciphertexts and keys. -/
structure GivenOk (w l : ℕ) (t : ℕ) (S : Fin (2 ^ l) → ℤ) (P : LParams) (v : Given)
    (f g : ℕ → Fin (2 ^ l) → ZMod t) : Prop where
  ctx : GoodCtx w l v.c
  l30 : l ≤ 30
  word : P.w = w
  mod : v.c.t = t
  qs : P.qs = v.c.qs.map (·.N)
  secret : ((norm1 S : ℤ) : ℚ) ≤ P.secret
  input : ∀ i, CtOk l v.c t S (v.x i) ⟨P.qs.length, 2, 1, P.fresh, f i⟩
  received : ∀ i, CtOk l v.c t S (v.y i) ⟨P.qs.length, 2, 1, P.sent, g i⟩
  relin : ∀ lev ∈ P.relins, lev ≤ v.c.qs.length ∧ (v.relin lev).degree = 2 ∧
    RelinOk l S t (v.c.qs.take lev) (P.switch lev) (v.relin lev)
  galois : ∀ a ∈ P.galois, a.1 ≤ v.c.qs.length ∧
    GaloisOk l S t (v.c.qs.take a.1) (P.switch a.1) a.2 (v.galois a.1 a.2)

theorem forall₂_object {α β : Type} {R : α → β → Prop} {xs : List α} {ys : List β} (h : List.Forall₂ R xs ys) {i : ℕ}
    (hi : i < ys.length) : ∃ x y, rd xs i = .ok x ∧ bgvObject ys i = .ok y ∧ R x y := by
  induction h generalizing i with
  | nil => simp at hi
  | @cons a b as bs h1 h2 ih =>
    cases i with
    | zero => exact ⟨a, b, rfl, rfl, h1⟩
    | succ i =>
      obtain ⟨x, y, e1, e2, e3⟩ := ih (i := i) (by simpa using hi)
      exact ⟨x, y, by simpa [rd] using e1, by simpa [bgvObject] using e2, e3⟩

theorem forall₂_set {α β : Type} {R : α → β → Prop} {xs : List α} {ys : List β} (h : List.Forall₂ R xs ys) {x : α} {y : β}
    (hxy : R x y) (i : ℕ) : List.Forall₂ R (xs.set i x) (ys.set i y) := by
  induction h generalizing i with
  | nil => exact .nil
  | cons h1 h2 ih =>
    cases i with
    | zero => exact .cons hxy h2
    | succ i => exact .cons h1 (ih i)

theorem set_same {α : Type} {xs : List α} {i : ℕ} {x : α} (h : rd xs i = .ok x) : xs.set i x = xs := by
  unfold rd at h
  split at h
  · next h' => cases h; exact List.ext_getElem? fun j => by rw [List.getElem?_set]; split <;> [(next e => subst e; split <;> simp_all); rfl]
  · cases h

section
variable {P : LParams} {v : Given} {f g : ℕ → Fin (2 ^ l) → ZMod t} {m : Mem} {M : IdealBgvMem l t}

/-- A call on a ciphertext does what the machine does. -/
theorem op_ok (hv : GivenOk w l t S P v f g) (hm : MemOk l v.c t S m M) {x : RCt} {X : IdealBgvCt l t}
    (hx : CtOk l v.c t S x X) {op : Op} (hp : BgvOpProper P M op) :
    match idealBgvOp P M X op with
    | .ok X' => ∃ x', op.run v m x = (x', .ok ()) ∧ CtOk l v.c t S x' X'
    | .error e => op.run v m x = (x, .err e) := by
  have hc := hv.ctx
  cases op with
  | negate => exact ok_negate hc hx
  | add b =>
    obtain ⟨y, Y, y1, y2, hy⟩ := forall₂_object hm.cts hp
    dsimp only [idealBgvOp, Op.run]
    rw [y1, y2]
    by_cases hs : SameKind X Y
    · simp only [bind, Except.bind, if_pos hs]; exact ok_add hc hx hy hs
    · simp only [bind, Except.bind, if_neg hs]; exact (err_add hx hy hs).1
  | sub b =>
    obtain ⟨y, Y, y1, y2, hy⟩ := forall₂_object hm.cts hp
    dsimp only [idealBgvOp, Op.run]
    rw [y1, y2]
    by_cases hs : SameKind X Y
    · simp only [bind, Except.bind, if_pos hs]; exact ok_sub hc hx hy hs
    · simp only [bind, Except.bind, if_neg hs]; exact (err_add hx hy hs).2.1
  | addPlain i =>
    obtain ⟨p, F, p1, p2, hp⟩ := forall₂_object hm.pts hp
    dsimp only [idealBgvOp, Op.run]
    rw [p1, p2]
    by_cases hs : X.level = F.level
    · simp only [bind, Except.bind, if_pos hs]; exact ok_addPlain hc hx hp hs
    · simp only [bind, Except.bind, if_neg hs]; exact (err_plain hx hp hs).1
  | subPlain i =>
    obtain ⟨p, F, p1, p2, hp⟩ := forall₂_object hm.pts hp
    dsimp only [idealBgvOp, Op.run]
    rw [p1, p2]
    by_cases hs : X.level = F.level
    · simp only [bind, Except.bind, if_pos hs]; exact ok_subPlain hc hx hp hs
    · simp only [bind, Except.bind, if_neg hs]; exact (err_plain hx hp hs).2.1
  | absorb i =>
    obtain ⟨p, F, p1, p2, hp⟩ := forall₂_object hm.pts hp
    dsimp only [idealBgvOp, Op.run]
    rw [p1, p2]
    by_cases hs : X.level = F.level
    · simp only [bind, Except.bind, if_pos hs]; exact ok_absorb hc hx hp hs
    · simp only [bind, Except.bind, if_neg hs]; exact (err_plain hx hp hs).2.2
  | scale a => exact ok_scale hc hx (by rw [← hv.word]; exact hp)
  | fused b i =>
    obtain ⟨y, Y, y1, y2, hy⟩ := forall₂_object hm.cts hp.1
    obtain ⟨p, F, p1, p2, hp⟩ := forall₂_object hm.pts hp.2
    dsimp only [idealBgvOp, Op.run]
    rw [y1, y2, p1, p2]
    by_cases hs : SameKind X Y ∧ X.level = F.level
    · simp only [bind, Except.bind, if_pos hs]; exact ok_fused hc hx hy hp hs.1 hs.2
    · simp only [bind, Except.bind, if_neg hs]; exact err_fused hx hy hp hs
  | reduce =>
    dsimp only [idealBgvOp, Op.run]
    by_cases hs : X.level ≤ 1
    · rw [if_pos hs]
      have hlt : X.level - 1 < v.c.qs.length := by have := hx.le; have := hx.pos; omega
      obtain ⟨row, r1, -⟩ := hc.inverses.primeQInvs _ _ (List.getElem?_eq_getElem hlt)
      have : rd v.c.primeQInvs (x.ms.length - 1) = .ok row := by unfold rd; rw [hx.len, r1]
      rw [this]
      exact err_reduce hx hs _ _
    · rw [if_neg hs]
      obtain ⟨row, z, r1, r2, r3⟩ := ok_reduce hc hv.mod hx (by omega) hv.secret hv.qs
      exact ⟨z, by rw [r1]; exact r2, r3⟩

theorem append_ok {α β : Type} {R : α → β → Prop} {xs : List α} {ys : List β} (h : List.Forall₂ R xs ys) {x : α} {y : β}
    (hxy : R x y) : List.Forall₂ R (xs ++ [x]) (ys ++ [y]) := List.rel_append h (.cons hxy .nil)

/-- A call does what the machine does. -/
theorem call_ok (hv : GivenOk w l t S P v f g) (hm : MemOk l v.c t S m M) {op : RnsCtStore.Call}
    (hp : BgvProper P M op) :
    match idealBgvCall P f g M op with
    | .ok M' => ∃ m', op.run v m = (m', .ok ()) ∧ MemOk l v.c t S m' M'
    | .error e => op.run v m = (m, .err e) := by
  have hc := hv.ctx
  have hqs : P.qs.length = v.c.qs.length := by rw [hv.qs, List.length_map]
  have hnew : ∀ {o : Outcome RCt} {z : RCt} {Z : IdealBgvCt l t}, o = .ok z → CtOk l v.c t S z Z →
      ∃ m', newCt m o = (m', .ok ()) ∧ MemOk l v.c t S m' { M with cts := M.cts ++ [Z] } := by
    intro o z Z e hz
    exact ⟨{ m with cts := m.cts ++ [z] }, by rw [e]; rfl, hm.pts, append_ok hm.cts hz⟩
  cases op with
  | encode u lev =>
    dsimp only [idealBgvCall, RnsCtStore.Call.run]
    by_cases hs : u.length ≤ 2 ^ l ∧ 0 < lev
    · rw [if_pos hs]
      obtain ⟨p, p1, p2⟩ := ok_encode hc hv.mod hs.2 (by rw [← hqs]; exact hp) hs.1
      exact ⟨{ m with pts := m.pts ++ [p] }, by rw [p1]; rfl, append_ok hm.pts p2, hm.cts⟩
    · rw [if_neg hs]
      have := c48_encode_rejects hc hv.l30 (v.c.qs.take lev) u (by
        by_cases h1 : u.length ≤ 2 ^ l
        · right
          obtain rfl : lev = 0 := by
            by_contra h0
            exact hs ⟨h1, by omega⟩
          rfl
        · left; omega)
      rw [this]
      rfl
  | input i => exact hnew rfl (hv.input i)
  | received i => exact hnew rfl (hv.received i)
  | copy a =>
    obtain ⟨x, X, x1, x2, hx⟩ := forall₂_object hm.cts hp
    dsimp only [idealBgvCall, RnsCtStore.Call.run]
    rw [x2]
    exact hnew x1 hx
  | opNew a op =>
    obtain ⟨x, X, x1, x2, hx⟩ := forall₂_object hm.cts hp.1
    have h := op_ok hv hm hx hp.2
    dsimp only [idealBgvCall, RnsCtStore.Call.run]
    rw [x1, x2]
    simp only [bind, Except.bind, withTemp]
    cases hi : idealBgvOp P M X op with
    | ok X' =>
      rw [hi] at h
      obtain ⟨x', e, hx'⟩ := h
      rw [e]
      exact hnew rfl hx'
    | error e =>
      rw [hi] at h
      dsimp only at h
      rw [h]
      rfl
  | opIn a op =>
    obtain ⟨x, X, x1, x2, hx⟩ := forall₂_object hm.cts hp.1
    have h := op_ok hv hm hx hp.2
    dsimp only [idealBgvCall, RnsCtStore.Call.run]
    rw [x1, x2]
    simp only [bind, Except.bind, withTemp]
    cases hi : idealBgvOp P M X op with
    | ok X' =>
      rw [hi] at h
      obtain ⟨x', e, hx'⟩ := h
      rw [e]
      exact ⟨_, rfl, hm.pts, forall₂_set hm.cts hx' a⟩
    | error e =>
      rw [hi] at h
      dsimp only at h
      rw [h]
      dsimp only
      rw [set_same x1]
  | mul a b =>
    obtain ⟨x, X, x1, x2, hx⟩ := forall₂_object hm.cts hp.1
    obtain ⟨y, Y, y1, y2, hy⟩ := forall₂_object hm.cts hp.2
    dsimp only [idealBgvCall, RnsCtStore.Call.run]
    rw [x1, x2, y1, y2]
    by_cases hs : X.level = Y.level ∧ X.power = Y.power
    · simp only [bind, Except.bind, withTemp, if_pos hs]
      obtain ⟨z, z1, z2⟩ := ok_mul hc hx hy hs.1 hs.2
      exact hnew z1 z2
    · simp only [bind, Except.bind, withTemp, if_neg hs]
      rw [err_mul hx hy hs]; rfl
  | substitute a k =>
    obtain ⟨X', hX', hov⟩ := hp
    have ha : a < M.cts.length := (List.getElem?_eq_some_iff.mp hX').1
    obtain ⟨x, X, x1, x2, hx⟩ := forall₂_object hm.cts ha
    obtain rfl : X' = X := by
      unfold bgvObject at x2
      rw [hX'] at x2
      exact Except.ok.inj x2
    dsimp only [idealBgvCall, RnsCtStore.Call.run]
    rw [x1, x2]
    by_cases hs : 0 ≤ k ∧ k % 2 = 1 ∧ k < 2 * 2 ^ l
    · simp only [bind, Except.bind, withTemp, if_pos hs]
      obtain ⟨k, rfl⟩ := Int.eq_ofNat_of_zero_le hs.1
      obtain ⟨z, z1, z2⟩ := ok_substitute hc hx (k := k) (by have := hs.2.1; omega) (by exact_mod_cast hs.2.2)
        (hov hs.1 hs.2.2)
      exact hnew z1 z2
    · simp only [bind, Except.bind, withTemp, if_neg hs]
      rw [err_substitute hc hx hs]; rfl
  | relin a lev =>
    obtain ⟨x, X, x1, x2, hx⟩ := forall₂_object hm.cts hp.1
    obtain ⟨r1, r2, r3⟩ := hv.relin lev hp.2
    dsimp only [idealBgvCall, RnsCtStore.Call.run]
    rw [x1, x2]
    by_cases hs : X.comps ≤ 3 ∧ X.level = lev ∧ X.power = 1
    · simp only [bind, Except.bind, withTemp, if_pos hs]
      obtain ⟨z, z1, z2⟩ := ok_relin hc hx hs.1 hs.2.2 (by rw [hs.2.1]; exact r3)
      exact hnew z1 z2
    · simp only [bind, Except.bind, withTemp, if_neg hs]
      rw [err_relin hx r1 r3 r2 hs]; rfl
  | galois a lev p =>
    obtain ⟨x, X, x1, x2, hx⟩ := forall₂_object hm.cts hp.1
    obtain ⟨r1, r3⟩ := hv.galois (lev, p) hp.2
    dsimp only [idealBgvCall, RnsCtStore.Call.run]
    rw [x1, x2]
    by_cases hs : X.comps = 2 ∧ X.level = lev ∧ X.power = p
    · simp only [bind, Except.bind, withTemp, if_pos hs]
      obtain ⟨z, z1, z2⟩ := ok_galois hc hx hs.1 hs.2.2 (by rw [hs.2.1]; exact r3)
      exact hnew z1 z2
    · simp only [bind, Except.bind, withTemp, if_neg hs]
      rw [err_galois hx r1 r3 hs]; rfl

/-- A program does what the machine does. -/
theorem run_ok (hv : GivenOk w l t S P v f g) (prog : List RnsCtStore.Call) (hm : MemOk l v.c t S m M)
    (hp : BgvProgram P f g M prog) :
    (runAll v m prog).1 = (idealBgvRun P f g M prog).1 ∧
      MemOk l v.c t S (runAll v m prog).2 (idealBgvRun P f g M prog).2 := by
  induction prog generalizing m M with
  | nil => exact ⟨rfl, hm⟩
  | cons op prog ih =>
    obtain ⟨p1, p2⟩ := hp
    have h := call_ok hv hm p1
    unfold runAll idealBgvRun
    cases hi : idealBgvCall P f g M op with
    | ok M' =>
      rw [hi] at h p2
      obtain ⟨m', e, hm'⟩ := h
      obtain ⟨e1, e2⟩ := ih hm' p2
      rw [e]
      exact ⟨congrArg _ e1, e2⟩
    | error er =>
      rw [hi] at h p2
      dsimp only at h
      obtain ⟨e1, e2⟩ := ih hm p2
      rw [h]
      exact ⟨congrArg _ e1, e2⟩

end
end BgvStore

/-- **C97.** For `n ≤ 2^14` substitutions of the ciphertexts of a program are always proper, whatever the power. -/
theorem c97_substitute_proper (hl : l ≤ 14) (P : LParams) (f g : ℕ → Fin (2 ^ l) → ZMod t)
    (prog : List RnsCtStore.Call) (a : ℕ) (k : ℤ) :
    BgvProper P (idealBgvRun P f g ⟨[], []⟩ prog).2 (.substitute a k) ↔
      a < (idealBgvRun P f g ⟨[], []⟩ prog).2.cts.length := by
  have hobj : ∀ {M : IdealBgvMem l t} {b : ℕ} {X}, bgvObject M.cts b = .ok X → X ∈ M.cts := by
    intro M b X h
    unfold bgvObject at h
    split at h
    · next h' => cases h; exact List.mem_of_getElem? h'
    · cases h
  have hop : ∀ (M : IdealBgvMem l t) (X X' : IdealBgvCt l t) (op : Op), idealBgvOp P M X op = .ok X' →
      X'.power = X.power := by
    intro M X X' op h
    cases op <;> simp only [idealBgvOp, bind, Except.bind] at h <;> repeat' split at h
    all_goals first | cases h; rfl | cases h
  have hcall : ∀ (M M' : IdealBgvMem l t) (op : RnsCtStore.Call), (∀ X ∈ M.cts, X.power < 2 * 2 ^ l) →
      idealBgvCall P f g M op = .ok M' → ∀ X ∈ M'.cts, X.power < 2 * 2 ^ l := by
    intro M M' op hM h
    have h1 : 1 < 2 * 2 ^ l := by have := Nat.one_le_two_pow (n := l); omega
    have hnew : ∀ Z : IdealBgvCt l t, Z.power < 2 * 2 ^ l → ∀ X ∈ M.cts ++ [Z], X.power < 2 * 2 ^ l := by
      intro Z hZ X hX
      rcases List.mem_append.mp hX with h | h
      · exact hM X h
      · rw [List.mem_singleton.mp h]; exact hZ
    cases op with
    | opNew a op =>
      simp only [idealBgvCall, bind, Except.bind] at h
      repeat' split at h
      all_goals first
        | cases h; exact hnew _ ((hop _ _ _ _ ‹_›).trans_lt (hM _ (hobj ‹_›)))
        | cases h
    | opIn a op =>
      simp only [idealBgvCall, bind, Except.bind] at h
      repeat' split at h
      all_goals first
        | cases h
          intro X hX
          rcases List.mem_or_eq_of_mem_set hX with e | e
          · exact hM _ e
          · rw [e]; exact (hop _ _ _ _ ‹_›).trans_lt (hM _ (hobj ‹_›))
        | cases h
    | mul a b =>
      simp only [idealBgvCall, bind, Except.bind] at h
      split at h
      · cases h
      · next X hX =>
        split at h
        · cases h
        · split at h
          · cases h; exact hnew _ (show X.power < _ from hM _ (hobj hX))
          · cases h
    | relin a lev =>
      simp only [idealBgvCall, bind, Except.bind] at h
      split at h
      · cases h
      · next X hX =>
        split at h
        · cases h; exact hnew _ (show X.power < _ from hM _ (hobj hX))
        · cases h
    | _ =>
      simp only [idealBgvCall, bind, Except.bind] at h
      repeat' split at h
      all_goals first
        | cases h; exact hM
        | cases h; exact hnew _ h1
        | cases h; exact hnew _ (Nat.mod_lt _ (by omega))
        | cases h; exact hnew _ (hM _ (hobj ‹_›))
        | cases h
  have hrun : ∀ (prog : List RnsCtStore.Call) (M : IdealBgvMem l t), (∀ X ∈ M.cts, X.power < 2 * 2 ^ l) →
      ∀ X ∈ (idealBgvRun P f g M prog).2.cts, X.power < 2 * 2 ^ l := by
    intro prog
    induction prog with
    | nil => intro M hM; exact hM
    | cons op prog ih =>
      intro M hM
      unfold idealBgvRun
      cases hi : idealBgvCall P f g M op with
      | ok M' => exact ih M' (hcall M M' op hM hi)
      | error e => exact ih M hM
  refine ⟨fun ⟨X, hX, _⟩ => (List.getElem?_eq_some_iff.mp hX).1, fun ha => ⟨_, List.getElem?_eq_getElem ha, fun k0 k1 => ?_⟩⟩
  have hpw := hrun prog ⟨[], []⟩ (by simp) _ (List.getElem_mem ha)
  have hl' : 2 ^ l ≤ 2 ^ 14 := Nat.pow_le_pow_right (by norm_num) hl
  generalize (idealBgvRun P f g ⟨[], []⟩ prog).2.cts[a].power = q at *
  obtain ⟨k, rfl⟩ := Int.eq_ofNat_of_zero_le k0
  have k1 : k < 2 * 2 ^ l := by exact_mod_cast k1
  have : q * k < 2 ^ 31 := by
    calc q * k ≤ 2 ^ 15 * 2 ^ 15 := Nat.mul_le_mul (by omega) (by omega)
      _ < 2 ^ 31 := by norm_num
  exact_mod_cast this

variable {G : Gen σ} {Gp : Gen τ} {fuel : ℕ} {est : Estimate} {C : SchemeChoice} {k : ℕ → RKey} {pk : RPub}
  {v : Given} {m m' : ℕ → List ℕ}

/-- The session delivers what the machine's parameters say, and decryption is right. -/
theorem BgvStore.session_ok (hG : Words G) (hC : C.ValidPoly)
    (h : BgvPolySession G Gp fuel est C k pk (givenEnv v) m m') :
    ∃ S : Fin (2 ^ C.l) → ℤ, GivenOk C.w C.l C.t S C.params v (fun i j => ((m i).getD j 0 : ℕ))
      (fun i j => ((m' i).getD j 0 : ℕ)) ∧ ∀ (x : RCt) (X : IdealBgvCt C.l C.t), CtOk C.l v.c C.t S x X →
    x.ms = v.c.qs.take X.level ∧ x.c.length = X.comps ∧ x.power = X.power ∧
    (X.power = 1 → (∀ q ∈ C.qs.head?, 2 * lsbBound C.t (C.qs.take X.level).tail.reverse X.noise < q) →
      (k X.level).decryptBgv (coefficientEncoder est v.c) x = .ok (List.ofFn fun i => (X.value i).val)) ∧
    ∀ lev, 0 < lev → lev ≤ C.qs.length → lev ≠ X.level ∨ X.power ≠ 1 →
      (k lev).decryptBgv (coefficientEncoder est v.c) x = .err .invalidArgument := by
  obtain ⟨hc, hqs, ht⟩ := h.contextOk hC
  obtain ⟨S, hv0, hS, hk⟩ := h.keys.secretOk hG hC hc hqs
  change GoodCtx C.w C.l v.c at hc
  change v.c.qs.map (·.N) = C.qs at hqs
  change v.c.t = C.t at ht
  have hne : v.c.qs ≠ [] := by
    intro hn
    obtain ⟨s, s', hs⟩ := h.keys.secret
    unfold RKey.sample at hs
    rw [if_pos (show (givenEnv v).c.qs.isEmpty = true by rw [List.isEmpty_iff]; exact hn)] at hs
    split at hs
    · cases hs
    · split at hs <;> cases hs
  have hlq : v.c.qs.length = C.qs.length := by rw [← hqs, List.length_map]
  have h0 : 0 < v.c.qs.length := List.length_pos_iff.mpr hne
  obtain ⟨t1, t2, t3⟩ := hk v.c.qs.length h0 le_rfl
  have t1 : (k v.c.qs.length).ms = v.c.qs := by rw [t1]; exact List.take_length
  have hin := h.inputs hG hC t3 t1 t2 hv0 hS hne
  have hsec : ((norm1 S : ℤ) : ℚ) ≤ C.params.secret := by
    show ((norm1 S : ℤ) : ℚ) ≤ 2 ^ C.l * (2 * C.v)
    exact_mod_cast hS
  have hsound : ∀ {x : RCt} {b : ℚ} {u : List ℕ},
      PSound C.l v.c S x ⟨C.qs.length, 2, b⟩ (fun j => (u.getD j 0 : ℕ)) →
      CtOk C.l v.c C.t S x ⟨C.params.qs.length, 2, 1, b, fun j => (u.getD j 0 : ℕ)⟩ := by
    intro x b u hx
    obtain ⟨h1, h2, h3, h4, h5, h6, h7⟩ := hx
    rw [ht] at h7
    exact ⟨h1, h2, h3, h4, h5, h6, h7⟩
  have hl15 : C.l ≤ 15 := (hin 0).1.l15 hc
  have hv : GivenOk C.w C.l C.t S C.params v (fun i j => ((m i).getD j 0 : ℕ))
      (fun i j => ((m' i).getD j 0 : ℕ)) := by
    refine ⟨hc, by omega, rfl, ht, hqs.symm, hsec, fun i => hsound (hin i).1, fun i => hsound (hin i).2, ?_, ?_⟩
    · intro lev hl
      obtain ⟨l0, l1, -, -⟩ := hC.level lev (Or.inl hl)
      refine ⟨by omega, ?_, h.keys.relinOk hG hC hc hqs hC.small hv0 hk hl⟩
      obtain ⟨g, prng, sp, s, hg, hr⟩ := h.keys.relin lev hl
      obtain ⟨Gs, hgad⟩ := gadget_ok hC hc hqs (Or.inl hl) hg
      obtain ⟨k1, k2, k3⟩ := hk lev l0 (by show lev ≤ v.c.qs.length; omega)
      exact (c52_relin_create Gp G hG k3 (by rw [k1]; exact hgad) (by rw [← k2]; exact k3.variance) hC.small hr).1
    · intro a ha
      obtain ⟨l0, l1, -, -⟩ := hC.level a.1 (Or.inr (List.mem_map_of_mem ha))
      exact ⟨by omega, h.keys.galoisOk hG hC hc hqs hC.small hv0 hk ha⟩
  refine ⟨S, hv, fun x X hxX => ?_⟩
  refine ⟨hxX.ms, hxX.comps, hxX.power, fun hpw hb => ?_, fun lev l0 l1 hlev => ?_⟩
  · obtain ⟨Φ, s7, s8, s9⟩ := hxX.phase
    have s4 := hxX.pos
    have s5 := hxX.le
    obtain ⟨k1, k2, k3⟩ := hk X.level s4 s5
    obtain ⟨m0, rest, hq0⟩ := List.exists_cons_of_ne_nil hne
    have htake : v.c.qs.take X.level = m0 :: rest.take (X.level - 1) := by
      rw [hq0]
      conv_lhs => rw [show X.level = X.level - 1 + 1 by omega, List.take_succ_cons]
    have k1 : (k X.level).ms = m0 :: rest.take (X.level - 1) := k1.trans htake
    have hkne : (k X.level).ms ≠ [] := by rw [k1]; simp
    obtain ⟨p, p1, p2, p3, -, -⟩ := c55_decrypt k3.good hkne k3.key (by rw [hxX.ms, htake, k1])
      (by rw [hxX.power, hpw]; rfl) hxX.cne s7
    rw [p3]
    have hhead : m0.N ∈ C.qs.head? := by rw [← hqs, hq0]; rfl
    rw [k1] at p2
    have hdrop : (C.qs.take X.level).tail.reverse = dropOrder (m0 :: rest.take (X.level - 1)) := by
      rw [← hqs, ← List.map_take, htake]
      rfl
    have hdec := c48_decode hc htake (by rw [ht]; exact (hC.first _ hhead).1) p2
      (fun i => by
        have h1 := hb m0.N hhead
        rw [hdrop] at h1
        rw [ht]
        have h2 := lsbBound_mono (t := C.t) (dropOrder (m0 :: rest.take (X.level - 1))) (s9 i)
        linarith)
    show decodeBgv v.c p (k X.level).ms = _
    rw [k1, hdec]
    congr 1
    congr 1
    funext i
    have htp : 0 < C.t := by rw [← ht]; exact hc.pos
    haveI : NeZero C.t := ⟨htp.ne'⟩
    rw [← s8 i, ht]
    have h1 : ((Φ i % C.t).toNat : ℤ) = Φ i % C.t := Int.toNat_of_nonneg (Int.emod_nonneg _ (by omega))
    have h2 := ZMod.val_intCast (n := C.t) (Φ i)
    omega
  · obtain ⟨k1, k2, k3⟩ := hk lev l0 (by show lev ≤ v.c.qs.length; omega)
    obtain ⟨b, bs, hb, -, hb'⟩ := hxX.first
    refine (c55_decrypt_rejects (k lev) _ x (n := C.l) (by unfold RCt.logN; rw [hb, ← hb']; rfl) ?_).1
    rcases hlev with hl | hl
    · right; right
      rw [hxX.len, k1]
      show _ ≠ (v.c.qs.take lev).length
      rw [List.length_take]
      omega
    · left
      rw [hxX.power]
      exact_mod_cast hl

/-- **C97.** For every choice of parameters, every plaintext modulus, every generator and all messages: if the library
delivers a context, keys and encryptions, then every program that encodes plaintexts, copies ciphertexts, calls their
members, new or in place, and applies relinearization and Galois keys, in any order and with calls that fail among them,
gets the statuses of the machine on polynomials modulo `t`, in particular no call is undefined; a call that fails changes
nothing, and every ciphertext the program holds at the end has the moduli, components and power of the machine's.  It is
decrypted to the machine's polynomial by the key for its moduli if its power is 1 and its noise, as the machine bounds it,
is small enough for them; the keys for other moduli, and all keys if its power is not 1, reject it. -/
theorem c97_program (hG : Words G) (hC : C.ValidPoly)
    (h : BgvPolySession G Gp fuel est C k pk (givenEnv v) m m') (prog : List RnsCtStore.Call) :
    let f : (ℕ → List ℕ) → ℕ → Fin (2 ^ C.l) → ZMod C.t := fun m i j => ((m i).getD j 0 : ℕ)
    BgvProgram C.params (f m) (f m') ⟨[], []⟩ prog →
    let real := runAll v ⟨[], []⟩ prog
    let ideal := idealBgvRun C.params (f m) (f m') ⟨[], []⟩ prog
    real.1 = ideal.1 ∧ real.2.pts.length = ideal.2.pts.length ∧ real.2.cts.length = ideal.2.cts.length ∧
      ∀ (a : ℕ) (x : RCt) (X : IdealBgvCt C.l C.t), real.2.cts[a]? = some x → ideal.2.cts[a]? = some X →
        x.ms = v.c.qs.take X.level ∧ x.c.length = X.comps ∧ x.power = X.power ∧
        (X.power = 1 → (∀ q ∈ C.qs.head?, 2 * lsbBound C.t (C.qs.take X.level).tail.reverse X.noise < q) →
          (k X.level).decryptBgv (coefficientEncoder est v.c) x = .ok (List.ofFn fun i => (X.value i).val)) ∧
        ∀ lev, 0 < lev → lev ≤ C.qs.length → lev ≠ X.level ∨ X.power ≠ 1 →
          (k lev).decryptBgv (coefficientEncoder est v.c) x = .err .invalidArgument := by
  intro f hp real ideal
  obtain ⟨S, hv, hd⟩ := session_ok hG hC h
  obtain ⟨r1, r2⟩ := run_ok hv prog (m := ⟨[], []⟩) (M := ⟨[], []⟩) ⟨.nil, .nil⟩ hp
  refine ⟨r1, r2.pts.length_eq, r2.cts.length_eq, fun a x X hx hX => hd x X ?_⟩
  obtain ⟨x', X', e1, e2, e3⟩ := forall₂_object r2.cts (List.getElem?_eq_some_iff.mp hX).1
  unfold rd at e1
  unfold bgvObject at e2
  rw [hx] at e1
  rw [hX] at e2
  obtain rfl := Outcome.ok.inj e1
  obtain rfl := Except.ok.inj e2
  exact e3

end Shell
