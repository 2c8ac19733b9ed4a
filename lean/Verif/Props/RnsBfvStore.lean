import Verif.Lemmas.RnsBfvStore
import Verif.Props.RnsBfvPolySession
import Verif.Props.RnsCtStore
/-!
# Property C98: programs on RNS BFV ciphertexts, with calls that fail, compute on polynomials
-/

namespace Shell
open Spec Rns Rns.Res
open RnsCtStore hiding Op Call runAll
open RnsBfvStore hiding Call runAll
open BgvStore (forall₂_object forall₂_set set_same append_ok)
variable {σ τ : Type} {w l t : ℕ} {S : Fin (2 ^ l) → ℤ} {ε : ℚ} {est : Estimate}

namespace BfvStore

/-- The objects of the program are those of the machine. -/
structure MemOk (l : ℕ) (c : Rns.Ctx) (t : ℕ) (S : Fin (2 ^ l) → ℤ) (m : Mem) (M : IdealBfvMem l t) : Prop where
  pts : List.Forall₂ (PtOk l c t) m.pts M.pts
  cts : List.Forall₂ (CtOk l c t S) m.cts M.cts

/-- What the machine's parameters say about the context, ciphertexts and keys. -/
structure GivenOk (w l : ℕ) (t : ℕ) (S : Fin (2 ^ l) → ℤ) (ε : ℚ) (est : Estimate) (P : VParams) (v : Given)
    (f g : ℕ → Fin (2 ^ l) → ZMod t) : Prop where
  ctx : GoodCtx w l v.c
  plain : PlainOk w v.c
  product : ProductOk w ε est v.c
  l30 : l ≤ 30
  log : P.l = l
  word : P.w = w
  mod : v.c.t = t
  plainMod : P.t = t
  qs : P.qs = v.c.qs.map (·.N)
  ps : P.ps = v.c.ps.map (·.N)
  rounding : P.h = 1 / 2 + ε
  secret : ((norm1 S : ℤ) : ℚ) ≤ P.secret
  input : ∀ i, CtOk l v.c t S (v.x i) ⟨P.qs.length, 2, 1, P.fresh, f i⟩
  received : ∀ i, CtOk l v.c t S (v.y i) ⟨P.qs.length, 2, 1, P.sent, g i⟩
  relin : ∀ lev ∈ P.relins, lev ≤ v.c.qs.length ∧ (v.relin lev).degree = 2 ∧
    ∃ b, t * b = P.switch lev ∧ RelinOk l S 1 (v.c.qs.take lev) b (v.relin lev)
  galois : ∀ a ∈ P.galois, a.1 ≤ v.c.qs.length ∧
    ∃ b, t * b = P.switch a.1 ∧ GaloisOk l S 1 (v.c.qs.take a.1) b a.2 (v.galois a.1 a.2)

section
variable {P : VParams} {v : Given} {f g : ℕ → Fin (2 ^ l) → ZMod t} {m : Mem} {M : IdealBfvMem l t}

/-- In place, the product with a plaintext is not for fewer than all moduli. -/
def WholeProduct (P : VParams) (M : IdealBfvMem l t) (X : IdealBgvCt l t) : Op → Prop
  | .absorb i => ∀ F, M.pts[i]? = some F → X.level = F.level → X.level = P.qs.length
  | _ => True

/-- A call on a ciphertext does what the machine does. -/
theorem op_ok (hv : GivenOk w l t S ε est P v f g) (hm : MemOk l v.c t S m M) {x : RCt} {X : IdealBgvCt l t}
    (hx : CtOk l v.c t S x X) {op : Op} (hp : BfvOpProper P M op) :
    match idealBfvOp P M X op with
    | .ok X' => ∃ x', op.run est v m x = (x', .ok ()) ∧ CtOk l v.c t S x' X'
    | .error e => (op.run est v m x).2 = .err e ∧ (WholeProduct P M X op → (op.run est v m x).1 = x) := by
  have hc := hv.ctx
  have hqs : P.qs.length = v.c.qs.length := by rw [hv.qs, List.length_map]
  have herr : ∀ {r : Res RCt} {e : Status} {Q : Prop}, r = (x, .err e) → r.2 = .err e ∧ (Q → r.1 = x) := by
    rintro r e Q rfl; exact ⟨rfl, fun _ => rfl⟩
  have hun : ∀ {i : ℕ} {F : IdealBfvPt l t}, (∃ F, M.pts[i]? = some F ∧ F.scaled = false) →
      bgvObject M.pts i = .ok F → F.scaled = false := by
    rintro i F ⟨F', h1, h2⟩ h3
    unfold bgvObject at h3
    rw [h1] at h3
    cases h3
    exact h2
  have hin : ∀ {i : ℕ}, (∃ F, M.pts[i]? = some F ∧ F.scaled = false) → i < M.pts.length := by
    rintro i ⟨F, h1, -⟩; exact (List.getElem?_eq_some_iff.mp h1).1
  cases op with
  | negate => exact ok_negate hc hx
  | add b =>
    obtain ⟨y, Y, y1, y2, hy⟩ := forall₂_object hm.cts hp
    dsimp only [idealBfvOp, RnsBfvStore.Op.run]
    rw [y1, y2]
    by_cases hs : SameKind X Y
    · simp only [bind, Except.bind, if_pos hs]; exact ok_add hc hx hy hs
    · simp only [bind, Except.bind, if_neg hs]; exact herr (err_add hx hy hs).1
  | sub b =>
    obtain ⟨y, Y, y1, y2, hy⟩ := forall₂_object hm.cts hp
    dsimp only [idealBfvOp, RnsBfvStore.Op.run]
    rw [y1, y2]
    by_cases hs : SameKind X Y
    · simp only [bind, Except.bind, if_pos hs]; exact ok_sub hc hx hy hs
    · simp only [bind, Except.bind, if_neg hs]; exact herr (err_add hx hy hs).2
  | addPlain i =>
    obtain ⟨p, F, p1, p2, hp⟩ := forall₂_object hm.pts hp
    dsimp only [idealBfvOp, RnsBfvStore.Op.run]
    rw [p1, p2]
    by_cases hs : X.level = F.level
    · simp only [bind, Except.bind, if_pos hs]; exact ok_addPlain hc hx hp hs
    · simp only [bind, Except.bind, if_neg hs]; exact herr (err_plain hx hp hs).1
  | subPlain i =>
    obtain ⟨p, F, p1, p2, hp⟩ := forall₂_object hm.pts hp
    dsimp only [idealBfvOp, RnsBfvStore.Op.run]
    rw [p1, p2]
    by_cases hs : X.level = F.level
    · simp only [bind, Except.bind, if_pos hs]; exact ok_subPlain hc hx hp hs
    · simp only [bind, Except.bind, if_neg hs]; exact herr (err_plain hx hp hs).2.1
  | absorb i =>
    obtain ⟨p, F, p1, p2, hp⟩ := forall₂_object hm.pts hp
    dsimp only [idealBfvOp, RnsBfvStore.Op.run]
    rw [p1, p2]
    by_cases hs : X.level = P.qs.length ∧ X.level = F.level
    · simp only [bind, Except.bind, if_pos hs]
      exact ok_absorb hc hv.mod hv.product hv.log hv.plainMod hv.qs hv.ps hv.rounding hv.secret hx hp
        (by rw [← hqs]; exact hs.1) hs.2
    · simp only [bind, Except.bind, if_neg hs]
      by_cases hl : X.level = F.level
      · have hlx : X.level ≠ P.qs.length := fun h => hs ⟨h, hl⟩
        refine ⟨?_, fun hw => absurd (hw F ?_ hl) hlx⟩
        · have := (RCt.value_absorbBfvIn est v.c x p).trans
            (err_absorb_level hc hv.product hx hp hl (by rw [← hqs]; exact hlx))
          dsimp only [withTemp]
          generalize RCt.absorbBfvIn est v.c x p = r at this
          obtain ⟨r, o⟩ := r
          cases o with
          | ok u => cases this
          | err e => cases this; rfl
          | ub e => cases this
        · unfold bgvObject at p2
          split at p2
          · next h => cases p2; exact h
          · cases p2
      · exact herr (err_absorb hc hx hp hl)
  | absorbSimple i =>
    have hf := hp
    obtain ⟨p, F, p1, p2, hp⟩ := forall₂_object hm.pts (hin hp)
    have hf := hun hf p2
    dsimp only [idealBfvOp, RnsBfvStore.Op.run]
    rw [p1, p2]
    by_cases hs : X.level = F.level
    · simp only [bind, Except.bind, if_pos hs]; exact ok_absorbSimple hc hx hp hf hs
    · simp only [bind, Except.bind, if_neg hs]; exact herr (err_plain hx hp hs).2.2
  | scale a => exact ok_scale hc hx (by rw [← hv.word]; exact hp)
  | fused b i =>
    obtain ⟨y, Y, y1, y2, hy⟩ := forall₂_object hm.cts hp.1
    have hf := hp.2
    obtain ⟨p, F, p1, p2, hp⟩ := forall₂_object hm.pts (hin hp.2)
    have hf := hun hf p2
    dsimp only [idealBfvOp, RnsBfvStore.Op.run]
    rw [y1, y2, p1, p2]
    by_cases hs : SameKind X Y ∧ X.level = F.level
    · simp only [bind, Except.bind, if_pos hs]; exact ok_fused hc hx hy hp hf hs.1 hs.2
    · simp only [bind, Except.bind, if_neg hs]; exact herr (err_fused hx hy hp hs)
  | reduce =>
    dsimp only [idealBfvOp, RnsBfvStore.Op.run]
    by_cases hs : X.level ≤ 1
    · rw [if_pos hs]; exact herr (err_reduce hx hs)
    · rw [if_neg hs]; exact ok_reduce hc hv.mod hv.qs hv.secret hx (by omega)

/-- A call does what the machine does. -/
theorem call_ok (hv : GivenOk w l t S ε est P v f g) (hm : MemOk l v.c t S m M) {op : RnsBfvStore.Call}
    (hp : BfvProper P M op) :
    match idealBfvCall P f g M op with
    | .ok M' => ∃ m', op.run est v m = (m', .ok ()) ∧ MemOk l v.c t S m' M'
    | .error e => op.run est v m = (m, .err e) := by
  have hc := hv.ctx
  have hqs : P.qs.length = v.c.qs.length := by rw [hv.qs, List.length_map]
  have hnew : ∀ {o : Outcome RCt} {z : RCt} {Z : IdealBgvCt l t}, o = .ok z → CtOk l v.c t S z Z →
      ∃ m', newCt m o = (m', .ok ()) ∧ MemOk l v.c t S m' { M with cts := M.cts ++ [Z] } := by
    intro o z Z e hz
    exact ⟨{ m with cts := m.cts ++ [z] }, by rw [e]; rfl, hm.pts, append_ok hm.cts hz⟩
  cases op with
  | encode u lev scaled =>
    obtain ⟨e1, e2⟩ := hp
    rw [hqs] at e1
    rw [hv.word] at e2
    dsimp only [idealBfvCall, RnsBfvStore.Call.run]
    by_cases hs : u.length ≤ 2 ^ l ∧ 0 < lev ∧ (scaled = true → lev = P.qs.length)
    · rw [if_pos hs]
      obtain ⟨p, p1, p2⟩ := ok_encode hc hv.mod hv.plain hs.2.1 e1 e2 hs.1 (by rw [← hqs]; exact hs.2.2)
      exact ⟨{ m with pts := m.pts ++ [p] }, by rw [p1]; rfl, append_ok hm.pts p2, hm.cts⟩
    · rw [if_neg hs, err_encode hc hv.plain hv.l30 e1 e2 (by rw [← hqs]; exact hs)]
      rfl
  | input i => exact hnew rfl (hv.input i)
  | received i => exact hnew rfl (hv.received i)
  | copy a =>
    obtain ⟨x, X, x1, x2, hx⟩ := forall₂_object hm.cts hp
    dsimp only [idealBfvCall, RnsBfvStore.Call.run]
    rw [x2]
    exact hnew x1 hx
  | opNew a op =>
    obtain ⟨x, X, x1, x2, hx⟩ := forall₂_object hm.cts hp.1
    have h := op_ok hv hm hx hp.2
    dsimp only [idealBfvCall, RnsBfvStore.Call.run]
    rw [x1, x2]
    simp only [bind, Except.bind, withTemp]
    cases hi : idealBfvOp P M X op with
    | ok X' =>
      rw [hi] at h
      obtain ⟨x', e, hx'⟩ := h
      rw [e]
      exact hnew rfl hx'
    | error e =>
      rw [hi] at h
      obtain ⟨h, -⟩ := h
      generalize op.run est v m x = r at h
      obtain ⟨r, o⟩ := r
      dsimp only at h
      subst h
      rfl
  | opIn a op =>
    obtain ⟨x, X, x1, x2, hx⟩ := forall₂_object hm.cts hp.1
    have h := op_ok hv hm hx hp.2.1
    have hX : M.cts[a]? = some X := by
      unfold bgvObject at x2
      split at x2
      · next h => cases x2; exact h
      · cases x2
    have hw : WholeProduct P M X op := by
      have := hp.2.2
      cases op with
      | absorb i => exact fun F hF hl => this X F hX hF hl
      | _ => trivial
    dsimp only [idealBfvCall, RnsBfvStore.Call.run]
    rw [x1, x2]
    simp only [bind, Except.bind, withTemp]
    cases hi : idealBfvOp P M X op with
    | ok X' =>
      rw [hi] at h
      obtain ⟨x', e, hx'⟩ := h
      rw [e]
      exact ⟨_, rfl, hm.pts, forall₂_set hm.cts hx' a⟩
    | error e =>
      rw [hi] at h
      obtain ⟨h1, h2⟩ := h
      rw [h1, h2 hw]
      dsimp only
      rw [set_same x1]
  | mul a b =>
    obtain ⟨x, X, x1, x2, hx⟩ := forall₂_object hm.cts hp.1
    obtain ⟨y, Y, y1, y2, hy⟩ := forall₂_object hm.cts hp.2
    dsimp only [idealBfvCall, RnsBfvStore.Call.run]
    rw [x1, x2, y1, y2]
    by_cases hs : X.level = P.qs.length ∧ X.level = Y.level ∧ X.power = Y.power
    · simp only [bind, Except.bind, withTemp, if_pos hs]
      obtain ⟨z, z1, z2⟩ := ok_mul hc hv.mod hv.product hv.log hv.plainMod hv.qs hv.ps hv.rounding hv.secret hx hy
        (by rw [← hqs]; exact hs.1) hs.2.1 hs.2.2
      exact hnew z1 z2
    · simp only [bind, Except.bind, withTemp, if_neg hs]
      rw [err_mul hc hv.product hx hy (by rw [← hqs]; exact hs)]; rfl
  | substitute a k =>
    obtain ⟨X', hX', hov⟩ := hp
    have ha : a < M.cts.length := (List.getElem?_eq_some_iff.mp hX').1
    obtain ⟨x, X, x1, x2, hx⟩ := forall₂_object hm.cts ha
    obtain rfl : X' = X := by
      unfold bgvObject at x2
      rw [hX'] at x2
      exact Except.ok.inj x2
    dsimp only [idealBfvCall, RnsBfvStore.Call.run]
    rw [x1, x2]
    by_cases hs : 0 ≤ k ∧ k % 2 = 1 ∧ k < 2 * 2 ^ l
    · simp only [bind, Except.bind, withTemp, if_pos hs]
      obtain ⟨k, rfl⟩ := Int.eq_ofNat_of_zero_le hs.1
      obtain ⟨z, z1, z2⟩ := ok_substitute hc hx (k := k) (by have := hs.2.1; omega) (by exact_mod_cast hs.2.2)
        (hov hs.1 hs.2.2)
      exact hnew z1 z2
    · simp only [bind, Except.bind, withTemp, if_neg hs]
      rw [err_substitute hc hx hs]; rfl
  | relin a lev =>
    obtain ⟨x, X, x1, x2, hx⟩ := forall₂_object hm.cts hp.1
    obtain ⟨r1, r2, b, rb, r3⟩ := hv.relin lev hp.2
    dsimp only [idealBfvCall, RnsBfvStore.Call.run]
    rw [x1, x2]
    by_cases hs : X.comps ≤ 3 ∧ X.level = lev ∧ X.power = 1
    · simp only [bind, Except.bind, withTemp, if_pos hs]
      obtain ⟨z, z1, z2⟩ := ok_relin hc hx hs.1 hs.2.2 (by rw [hs.2.1]; exact r3)
      rw [rb] at z2
      exact hnew z1 z2
    · simp only [bind, Except.bind, withTemp, if_neg hs]
      rw [err_relin hx r1 r3 r2 hs]; rfl
  | galois a lev p =>
    obtain ⟨x, X, x1, x2, hx⟩ := forall₂_object hm.cts hp.1
    obtain ⟨r1, b, rb, r3⟩ := hv.galois (lev, p) hp.2
    dsimp only [idealBfvCall, RnsBfvStore.Call.run]
    rw [x1, x2]
    by_cases hs : X.comps = 2 ∧ X.level = lev ∧ X.power = p
    · simp only [bind, Except.bind, withTemp, if_pos hs]
      obtain ⟨z, z1, z2⟩ := ok_galois hc hx hs.1 hs.2.2 (by rw [hs.2.1]; exact r3)
      rw [rb] at z2
      exact hnew z1 z2
    · simp only [bind, Except.bind, withTemp, if_neg hs]
      rw [err_galois hx r1 r3 hs]; rfl

/-- A program does what the machine does. -/
theorem run_ok (hv : GivenOk w l t S ε est P v f g) (prog : List RnsBfvStore.Call) (hm : MemOk l v.c t S m M)
    (hp : BfvProgram P f g M prog) :
    (RnsBfvStore.runAll est v m prog).1 = (idealBfvRun P f g M prog).1 ∧
      MemOk l v.c t S (RnsBfvStore.runAll est v m prog).2 (idealBfvRun P f g M prog).2 := by
  induction prog generalizing m M with
  | nil => exact ⟨rfl, hm⟩
  | cons op prog ih =>
    obtain ⟨p1, p2⟩ := hp
    have h := call_ok hv hm p1
    unfold RnsBfvStore.runAll idealBfvRun
    cases hi : idealBfvCall P f g M op with
    | ok M' =>
      rw [hi] at h p2
      obtain ⟨m', e, hm'⟩ := h
      obtain ⟨e1, e2⟩ := ih hm' p2
      rw [e]
      exact ⟨congrArg _ e1, e2⟩
    | error er =>
      rw [hi] at h p2
      dsimp only at h
      obtain ⟨e1, e2⟩ := ih hm p2
      rw [h]
      exact ⟨congrArg _ e1, e2⟩

end
end BfvStore

/-- **C98.** For `n ≤ 2^14` substitutions of the ciphertexts of a program are always proper, whatever the power. -/
theorem c98_substitute_proper (hl : l ≤ 14) (P : VParams) (f g : ℕ → Fin (2 ^ l) → ZMod t)
    (prog : List RnsBfvStore.Call) (a : ℕ) (k : ℤ) :
    BfvProper P (idealBfvRun P f g ⟨[], []⟩ prog).2 (.substitute a k) ↔
      a < (idealBfvRun P f g ⟨[], []⟩ prog).2.cts.length := by
  have hobj : ∀ {M : IdealBfvMem l t} {b : ℕ} {X}, bgvObject M.cts b = .ok X → X ∈ M.cts := by
    intro M b X h
    unfold bgvObject at h
    split at h
    · next h' => cases h; exact List.mem_of_getElem? h'
    · cases h
  have hop : ∀ (M : IdealBfvMem l t) (X X' : IdealBgvCt l t) (op : Op), idealBfvOp P M X op = .ok X' →
      X'.power = X.power := by
    intro M X X' op h
    cases op <;> simp only [idealBfvOp, bind, Except.bind] at h <;> repeat' split at h
    all_goals first | cases h; rfl | cases h
  have hcall : ∀ (M M' : IdealBfvMem l t) (op : RnsBfvStore.Call), (∀ X ∈ M.cts, X.power < 2 * 2 ^ l) →
      idealBfvCall P f g M op = .ok M' → ∀ X ∈ M'.cts, X.power < 2 * 2 ^ l := by
    intro M M' op hM h
    have h1 : 1 < 2 * 2 ^ l := by have := Nat.one_le_two_pow (n := l); omega
    have hnew : ∀ Z : IdealBgvCt l t, Z.power < 2 * 2 ^ l → ∀ X ∈ M.cts ++ [Z], X.power < 2 * 2 ^ l := by
      intro Z hZ X hX
      rcases List.mem_append.mp hX with h | h
      · exact hM X h
      · rw [List.mem_singleton.mp h]; exact hZ
    cases op with
    | opNew a op =>
      simp only [idealBfvCall, bind, Except.bind] at h
      repeat' split at h
      all_goals first
        | cases h; exact hnew _ ((hop _ _ _ _ ‹_›).trans_lt (hM _ (hobj ‹_›)))
        | cases h
    | opIn a op =>
      simp only [idealBfvCall, bind, Except.bind] at h
      repeat' split at h
      all_goals first
        | cases h
          intro X hX
          rcases List.mem_or_eq_of_mem_set hX with e | e
          · exact hM _ e
          · rw [e]; exact (hop _ _ _ _ ‹_›).trans_lt (hM _ (hobj ‹_›))
        | cases h
    | mul a b =>
      simp only [idealBfvCall, bind, Except.bind] at h
      split at h
      · cases h
      · next X hX =>
        split at h
        · cases h
        · split at h
          · cases h; exact hnew _ (show X.power < _ from hM _ (hobj hX))
          · cases h
    | relin a lev =>
      simp only [idealBfvCall, bind, Except.bind] at h
      split at h
      · cases h
      · next X hX =>
        split at h
        · cases h; exact hnew _ (show X.power < _ from hM _ (hobj hX))
        · cases h
    | _ =>
      simp only [idealBfvCall, bind, Except.bind] at h
      repeat' split at h
      all_goals first
        | cases h; exact hM
        | cases h; exact hnew _ h1
        | cases h; exact hnew _ (Nat.mod_lt _ (by omega))
        | cases h; exact hnew _ (hM _ (hobj ‹_›))
        | cases h
  have hrun : ∀ (prog : List RnsBfvStore.Call) (M : IdealBfvMem l t), (∀ X ∈ M.cts, X.power < 2 * 2 ^ l) →
      ∀ X ∈ (idealBfvRun P f g M prog).2.cts, X.power < 2 * 2 ^ l := by
    intro prog
    induction prog with
    | nil => intro M hM; exact hM
    | cons op prog ih =>
      intro M hM
      unfold idealBfvRun
      cases hi : idealBfvCall P f g M op with
      | ok M' => exact ih M' (hcall M M' op hM hi)
      | error e => exact ih M hM
  refine ⟨fun ⟨X, hX, _⟩ => (List.getElem?_eq_some_iff.mp hX).1, fun ha => ⟨_, List.getElem?_eq_getElem ha, fun k0 k1 => ?_⟩⟩
  have hpw := hrun prog ⟨[], []⟩ (by simp) _ (List.getElem_mem ha)
  have hl' : 2 ^ l ≤ 2 ^ 14 := Nat.pow_le_pow_right (by norm_num) hl
  generalize (idealBfvRun P f g ⟨[], []⟩ prog).2.cts[a].power = q at *
  obtain ⟨k, rfl⟩ := Int.eq_ofNat_of_zero_le k0
  have k1 : k < 2 * 2 ^ l := by exact_mod_cast k1
  have : q * k < 2 ^ 31 := by
    calc q * k ≤ 2 ^ 15 * 2 ^ 15 := Nat.mul_le_mul (by omega) (by omega)
      _ < 2 ^ 31 := by norm_num
  exact_mod_cast this

open BfvStore
variable {G : Gen σ} {Gp : Gen τ} {fuel : ℕ} {C : SchemeChoice} {k : ℕ → RKey} {pk : RPub}
  {v : Given} {m m' : ℕ → List ℕ}

/-- The session delivers what the machine's parameters say, and decryption is right. -/
theorem BfvStore.session_ok (hG : Words G) (hest : EstimateWithin (max C.qs.length C.ps.length) ε est) (h0 : 0 ≤ ε)
    (hε : ε < 1 / 2) (hC : C.ValidPoly) (ht1 : 1 < C.t) (hps : C.ps ≠ []) (hq : C.qs.length < 2 ^ C.w)
    (hpw : C.ps.length < 2 ^ C.w) (h : BfvPolySession G Gp fuel est C k pk (givenEnv v) m m') :
    ∃ S : Fin (2 ^ C.l) → ℤ, GivenOk C.w C.l C.t S ε est (C.bfvParams ε) v (fun i j => ((m i).getD j 0 : ℕ))
      (fun i j => ((m' i).getD j 0 : ℕ)) ∧ ∀ (x : RCt) (X : IdealBgvCt C.l C.t), CtOk C.l v.c C.t S x X →
    x.ms = v.c.qs.take X.level ∧ x.c.length = X.comps ∧ x.power = X.power ∧
    (X.power = 1 → X.noise < (1 / 2 - ε) * (C.qs.take X.level).prod →
      (k X.level).decryptBfv (coefficientEncoder est v.c) x = .ok (List.ofFn fun i => (X.value i).val)) ∧
    ∀ lev, 0 < lev → lev ≤ C.qs.length → lev ≠ X.level ∨ X.power ≠ 1 →
      (k lev).decryptBfv (coefficientEncoder est v.c) x = .err .invalidArgument := by
  obtain ⟨hc, hqs, hpN, ht, hpl⟩ := h.contextOk hC ht1
  obtain ⟨S, hv0, hS, hk⟩ := h.keys.secretOk hG hC hc hqs
  change GoodCtx C.w C.l v.c at hc
  change v.c.qs.map (·.N) = C.qs at hqs
  change v.c.ps.map (·.N) = C.ps at hpN
  change v.c.t = C.t at ht
  change PlainOk C.w v.c at hpl
  have hne : v.c.qs ≠ [] := by
    intro hn
    obtain ⟨s, s', hs⟩ := h.keys.secret
    unfold RKey.sample at hs
    rw [if_pos (show (givenEnv v).c.qs.isEmpty = true by rw [List.isEmpty_iff]; exact hn)] at hs
    split at hs
    · cases hs
    · split at hs <;> cases hs
  have hlq : v.c.qs.length = C.qs.length := by rw [← hqs, List.length_map]
  have hlp : v.c.ps.length = C.ps.length := by rw [← hpN, List.length_map]
  have h0q : 0 < v.c.qs.length := List.length_pos_iff.mpr hne
  obtain ⟨t1, t2, t3⟩ := hk v.c.qs.length h0q le_rfl
  have t1 : (k v.c.qs.length).ms = v.c.qs := by rw [t1]; exact List.take_length
  have hin := h.inputs (ε := ε) hG hC ht1 t3 t1 t2 hv0 hS hne
  have hsec : ((norm1 S : ℤ) : ℚ) ≤ (C.bfvParams ε).secret := by
    show ((norm1 S : ℤ) : ℚ) ≤ 2 ^ C.l * (2 * C.v)
    exact_mod_cast hS
  have hone : 1 < 2 ^ C.w := lt_of_le_of_lt ht1.le hC.small
  have hdig : ∀ lev, (C.t : ℚ) * digitNoise C.l 1 (2 * C.v) (gadgetLogs (C.qs.take lev) (C.logBs lev)) =
      (C.bfvParams ε).switch lev := by
    intro lev
    show _ = digitNoise C.l C.t (2 * C.v) (gadgetLogs (C.qs.take lev) (C.logBs lev))
    unfold digitNoise
    push_cast
    ring
  have hsound : ∀ {x : RCt} {b : ℚ} {u : List ℕ},
      BSound C.l v.c S x ⟨C.qs.length, 2, b⟩ (fun j => (u.getD j 0 : ℕ)) →
      CtOk C.l v.c C.t S x ⟨(C.bfvParams ε).qs.length, 2, 1, b, fun j => (u.getD j 0 : ℕ)⟩ := by
    intro x b u hx
    obtain ⟨h1, h2, h3, h4, h5, h6, h7⟩ := hx
    rw [ht] at h7
    exact ⟨h1, h2, h3, h4, h5, h6, h7⟩
  have hl15 : C.l ≤ 15 := (hin 0).1.l15 hc
  have hpr : ProductOk C.w ε est v.c := ⟨fun hn => hps (by rw [← hpN, hn]; rfl), by rw [hlq]; exact hq,
    by rw [hlp]; exact hpw, by rw [hlq, hlp]; exact hest, hε, h0⟩
  have hv : GivenOk C.w C.l C.t S ε est (C.bfvParams ε) v (fun i j => ((m i).getD j 0 : ℕ))
      (fun i j => ((m' i).getD j 0 : ℕ)) := by
    refine ⟨hc, hpl, hpr, by omega, rfl, rfl, ht, rfl, hqs.symm, hpN.symm, rfl, hsec, fun i => hsound (hin i).1,
      fun i => hsound (hin i).2, ?_, ?_⟩
    · intro lev hl
      obtain ⟨l0, l1, -, -⟩ := hC.level lev (Or.inl hl)
      refine ⟨by omega, ?_, _, hdig lev, h.keys.relinOk hG hC hc hqs hone hv0 hk hl⟩
      obtain ⟨g, prng, sp, s, hg, hr⟩ := h.keys.relin lev hl
      obtain ⟨Gs, hgad⟩ := gadget_ok hC hc hqs (Or.inl hl) hg
      obtain ⟨k1, k2, k3⟩ := hk lev l0 (by show lev ≤ v.c.qs.length; omega)
      exact (c52_relin_create Gp G hG k3 (by rw [k1]; exact hgad) (by rw [← k2]; exact k3.variance) hone hr).1
    · intro a ha
      obtain ⟨l0, l1, -, -⟩ := hC.level a.1 (Or.inr (List.mem_map_of_mem ha))
      exact ⟨by omega, _, hdig a.1, h.keys.galoisOk hG hC hc hqs hone hv0 hk ha⟩
  refine ⟨S, hv, fun x X hxX => ?_⟩
  refine ⟨hxX.ms, hxX.comps, hxX.power, fun hpw hb => ?_, fun lev l0 l1 hlev => ?_⟩
  · obtain ⟨N, s7, s8⟩ := hxX.phase
    have s4 := hxX.pos
    have s5 := hxX.le
    obtain ⟨k1, k2, k3⟩ := hk X.level s4 s5
    change (k X.level).ms = v.c.qs.take X.level at k1
    have hkne : (k X.level).ms ≠ [] := by rw [k1, ← hxX.ms]; exact hxX.ne
    have hprod : (modulusProd (k X.level).ms : ℚ) = ((C.qs.take X.level).prod : ℕ) := by
      rw [k1, ← hqs, ← List.map_take]
      rfl
    obtain ⟨mt, b1, b2, -, b4⟩ := hpl
    have s7 : BfvEncrypts C.l S v.c.t x N X.noise := by
      generalize X.noise = b at s7 ⊢
      rw [ht]
      exact s7
    have hdec := (c57_decrypt (within_mono hest (by rw [k1, List.length_take]; omega)) hε hc b4 b1 b2 k1 hkne
      (by rw [k1, List.length_take]; omega) k3.key (hxX.ms.trans k1.symm) hxX.cne
      (by rw [hxX.power, hpw]; rfl) s7 (by rw [hprod]; exact hb)).1
    rw [hdec]
    congr 1
    congr 1
    funext i
    have htp : 0 < C.t := by omega
    haveI : NeZero C.t := ⟨htp.ne'⟩
    rw [← s8 i, ht]
    have h1 : ((N i % C.t).toNat : ℤ) = N i % C.t := Int.toNat_of_nonneg (Int.emod_nonneg _ (by omega))
    have h2 := ZMod.val_intCast (n := C.t) (N i)
    omega
  · obtain ⟨k1, k2, k3⟩ := hk lev l0 (by show lev ≤ v.c.qs.length; omega)
    obtain ⟨b, bs, hb, -, hb'⟩ := hxX.first
    refine (c55_decrypt_rejects (k lev) _ x (n := C.l) (by unfold RCt.logN; rw [hb, ← hb']; rfl) ?_).2
    rcases hlev with hl | hl
    · right; right
      rw [hxX.len, k1]
      show _ ≠ (v.c.qs.take lev).length
      rw [List.length_take]
      omega
    · left
      rw [hxX.power]
      exact_mod_cast hl

/-- **C98, partial.** For every choice of parameters, every plaintext modulus `t > 1`, every generator, all messages and
estimates with an error `ε` below one half: if the library delivers a context, keys and encryptions, then every program
that encodes plaintexts, scaled or not, copies ciphertexts, calls their members, new or in place, multiplies, and applies
relinearization and Galois keys, in any order and with calls that fail among them, gets the statuses of the machine on
polynomials modulo `t`, in particular no call is undefined; a call that fails changes nothing, and every ciphertext the
program holds at the end has the moduli, components and power of the machine's.  It is decrypted to the machine's
polynomial by the key for its moduli if its power is 1 and its noise, as the machine bounds it, is small enough for them;
the keys for other moduli, and all keys if its power is not 1, reject it.  Programs do not multiply reduced ciphertexts
in place by plaintexts for the same moduli: such a call fails but damages the ciphertext (`c67_bfv_level_violated`). -/
theorem c98_program_partial (hG : Words G) (hest : EstimateWithin (max C.qs.length C.ps.length) ε est) (h0 : 0 ≤ ε)
    (hε : ε < 1 / 2) (hC : C.ValidPoly) (ht1 : 1 < C.t) (hps : C.ps ≠ []) (hq : C.qs.length < 2 ^ C.w)
    (hpw : C.ps.length < 2 ^ C.w) (h : BfvPolySession G Gp fuel est C k pk (givenEnv v) m m')
    (prog : List RnsBfvStore.Call) :
    let f : (ℕ → List ℕ) → ℕ → Fin (2 ^ C.l) → ZMod C.t := fun m i j => ((m i).getD j 0 : ℕ)
    BfvProgram (C.bfvParams ε) (f m) (f m') ⟨[], []⟩ prog →
    let real := RnsBfvStore.runAll est v ⟨[], []⟩ prog
    let ideal := idealBfvRun (C.bfvParams ε) (f m) (f m') ⟨[], []⟩ prog
    real.1 = ideal.1 ∧ real.2.pts.length = ideal.2.pts.length ∧ real.2.cts.length = ideal.2.cts.length ∧
      ∀ (a : ℕ) (x : RCt) (X : IdealBgvCt C.l C.t), real.2.cts[a]? = some x → ideal.2.cts[a]? = some X →
        x.ms = v.c.qs.take X.level ∧ x.c.length = X.comps ∧ x.power = X.power ∧
        (X.power = 1 → X.noise < (1 / 2 - ε) * (C.qs.take X.level).prod →
          (k X.level).decryptBfv (coefficientEncoder est v.c) x = .ok (List.ofFn fun i => (X.value i).val)) ∧
        ∀ lev, 0 < lev → lev ≤ C.qs.length → lev ≠ X.level ∨ X.power ≠ 1 →
          (k lev).decryptBfv (coefficientEncoder est v.c) x = .err .invalidArgument := by
  intro f hp real ideal
  obtain ⟨S, hv, hd⟩ := session_ok hG hest h0 hε hC ht1 hps hq hpw h
  obtain ⟨r1, r2⟩ := run_ok hv prog (m := ⟨[], []⟩) (M := ⟨[], []⟩) ⟨.nil, .nil⟩ hp
  refine ⟨r1, r2.pts.length_eq, r2.cts.length_eq, fun a x X hx hX => hd x X ?_⟩
  obtain ⟨x', X', e1, e2, e3⟩ := forall₂_object r2.cts (List.getElem?_eq_some_iff.mp hX).1
  unfold rd at e1
  unfold bgvObject at e2
  rw [hx] at e1
  rw [hX] at e2
  obtain rfl := Outcome.ok.inj e1
  obtain rfl := Except.ok.inj e2
  exact e3

end Shell
