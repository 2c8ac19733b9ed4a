import Verif.Lemmas.WordCtFail
import Verif.Props.ErrorTrack
/-!
# Properties C72 and C73: ciphertext operations on stored words
-/

namespace Shell
open Spec Rns WordCt ErrorTrack MParams Ntt NttRing
variable {σ τ : Type} {C : Ctx} {p : MParams}

/-! ## C73: rejected calls -/

/-- `kLogMaxLevel` exists for created parameters. -/
theorem logMaxLevel_of_create {w N : ℕ} (h : create w N = .ok p) (hw : w ≤ 128) : ∃ k, Lazy.logMaxLevel p = .ok k := by
  have g := Lazy.logGood_of_create h hw
  have e := (good_of_create h).hw
  unfold Lazy.logMaxLevel
  dsimp only
  rw [if_neg (by have := g.le; have := g.w2; rw [e]; omega)]
  exact ⟨_, rfl⟩

/-- **C73.** Every call that is rejected leaves the ciphertext as it was, if its components have one length and the
argument fits as `Harmless` says.  What is missing is the other case: see `c73_longer_witness` and
`c73_lazy_witness`. -/
theorem c73_unchanged_partial {E : Type} [Add E] [Mul E] [Div E] [NatCast E] {w N : ℕ} (h : create w N = .ok p) (hw : w ≤ 128) (B : E) {n m : ℕ}
    {x : Obj E} {op : Call E} (hx : Level n m x) (hop : Harmless n m x op) : Unchanged x (op.run p B x) :=
  run_unchanged (logMaxLevel_of_create h hw) hx hop

/-- **C73, violated.** Adding (or subtracting) a ciphertext with more components, of another length, is rejected but
leaves additional zero components behind, of the wrong length. -/
theorem c73_longer_witness {E : Type} [Add E] [Mul E] [Div E] [NatCast E] {n n' : ℕ} (B : E) {x y : Obj E} (hx : ∀ v ∈ x.c, v.length = n)
    (hy : ∀ v ∈ y.c, v.length = n') (hn : n ≠ n') (h0 : x.c ≠ []) (hl : x.c.length < y.c.length)
    (hp : x.power = y.power) :
    ((Call.add y).run p B x).2 = .err .invalidArgument ∧ ((Call.sub y).run p B x).2 = .err .invalidArgument ∧
    ((Call.add y).run p B x).1.c =
      x.c ++ List.replicate (y.c.length - x.c.length) (List.replicate n' 0) ∧
    ((Call.sub y).run p B x).1.c =
      x.c ++ List.replicate (y.c.length - x.c.length) (List.replicate n' 0) := by
  have hp' : ¬ x.power ≠ y.power := by simpa using hp
  show (WordCt.addIn p x y).2 = _ ∧ (WordCt.subIn p x y).2 = _ ∧ (WordCt.addIn p x y).1.c = _ ∧ (WordCt.subIn p x y).1.c = _
  unfold WordCt.addIn WordCt.subIn
  rw [if_neg hp', if_neg hp']
  have hpad : pad x.c y.c = x.c ++ List.replicate (y.c.length - x.c.length) (List.replicate n' 0) := by
    unfold pad
    rw [if_pos hl]
    cases hyc : y.c with
    | nil => rw [hyc] at hl; simp at hl
    | cons v vs => rw [← hy v (by rw [hyc]; simp)]; rfl
  rw [hpad]
  cases hxc : x.c with
  | nil => exact absurd hxc h0
  | cons c cs =>
    cases hyc : y.c with
    | nil => rw [hyc] at hl; simp at hl
    | cons v vs =>
      have hne : c.length ≠ v.length := by
        rw [hx c (by rw [hxc]; simp), hy v (by rw [hyc]; simp)]; exact hn
      have h1 : Res.vec (Poly.addInPlace p c v) = (c, .err .invalidArgument) := by
        unfold Poly.addInPlace; rw [if_pos hne]; rfl
      have h2 : Res.vec (Poly.subInPlace p c v) = (c, .err .invalidArgument) := by
        unfold Poly.subInPlace; rw [if_pos hne]; rfl
      rw [List.cons_append]
      simp only [forEach, h1, h2, onC, Res.andThen]
      exact ⟨trivial, trivial, trivial, trivial⟩

/-- **C73, violated.** A rejected lazy absorb-and-add has changed the error estimate. -/
theorem c73_lazy_witness {E : Type} [Add E] [Mul E] [Div E] [NatCast E] (B : E) {x a : Obj E} {f : List ℕ} (hp : x.power = a.power)
    (h0 : a.c ≠ []) (hz : x.lazy = []) (hl : ∀ v ∈ a.c, v.length ≠ f.length) :
    (Call.fusedLazily a f).run p B x =
      ({ x with error := x.error + a.error * B }, .err .invalidArgument) := by
  obtain ⟨c, pw, e, z⟩ := x
  obtain ⟨ac, apw, ae, az⟩ := a
  dsimp only at hp hz h0 hl
  subst hp hz
  cases ac with
  | nil => exact absurd rfl h0
  | cons v vs =>
    have h1 : Lazy.create p v f = .err .invalidArgument := by
      unfold Lazy.create
      rw [if_pos (hl v (by simp))]
    show fusedLazilyIn _ _ _ _ _ = _
    simp [fusedLazilyIn, lazyCreate, forBoth, h1, onLazy]

/-- A rejected addition that changes nothing, one that does, and a rejected lazy call that does. -/
example : (do
    let p ← create 16 97
    .ok [(Call.add ⟨[[1], [2]], 1, 3, []⟩).run p (5 : ℚ) ⟨[[10, 20], [30, 40]], 1, 7, []⟩,
      (Call.add ⟨[[1], [2], [3]], 1, 3, []⟩).run p 5 ⟨[[10, 20], [30, 40]], 1, 7, []⟩,
      (Call.fusedLazily ⟨[[1, 2]], 1, 3, []⟩ [4]).run p 5 ⟨[[10, 20], [30, 40]], 1, 7, []⟩]) =
    .ok [(⟨[[10, 20], [30, 40]], 1, 7, []⟩, .err .invalidArgument),
      (⟨[[10, 20], [30, 40], [0]], 1, 7, []⟩, .err .invalidArgument),
      (⟨[[10, 20], [30, 40]], 1, 22, []⟩, .err .invalidArgument)] := by decide +kernel

example : Level 2 0 (⟨[[10, 20], [30, 40]], 1, 7, []⟩ : Obj ℚ) ∧
    Harmless 2 0 (⟨[[10, 20], [30, 40]], 1, 7, []⟩ : Obj ℚ) (.add ⟨[[1], [2]], 1, 3, []⟩) :=
  ⟨⟨by simp, by simp⟩, 1, by simp, by simp⟩

/-! ## C72: the operations -/

/-- A context of created parameters. -/
theorem fit_of_create {w N : ℕ} (h : create w N = .ok p) (hw : w ≤ 128) (hp : N.Prime) {l : ℕ} {q : NttParams}
    (hq : initNtt p l = .ok q) : ∃ psi : ZMod N, Fit ⟨w, N, l, psi⟩ p ∧ Tables p w N l psi q := by
  have g := good_of_create h
  obtain ⟨l', hl', psi, t⟩ := tables_of_init h hp hq
  have : l' = l := by omega
  subst this
  exact ⟨psi, ⟨⟨hp, g.odd, g.lt, t.l1, t.l15, t.root⟩, g, Lazy.logGood_of_create h hw⟩, t⟩

/-- **C72.** Every in-place operation on words that represent residues returns what the operation on residues returns,
and then holds its result; a rejected one leaves the object as it was. -/
theorem c72_call (hC : Fit C p) (P : ErrorParams) {x : Obj ℝ} {X : Tracked C} (hx : Carries C p x X) {op : Call ℝ}
    {Op : RCall C} (hop : Denotes C p op Op) :
    Agrees C p (op.run p (P.bPlaintext C.n) x) (Op.run P X) ∧ Unchanged x (op.run p (P.bPlaintext C.n) x) := by
  have hlen : ∀ {v : List (List ℕ)} {V : List C.Poly}, List.Forall₂ (Poly.Rep p C.q C.n) v V →
      ∀ a ∈ v, a.length = C.n := by
    intro v V h
    induction h with
    | nil => simp
    | cons h1 _ ih => simpa using ⟨h1.len, ih⟩
  have hz : ∀ {v : List Lazy.LPoly} {V : List C.Poly}, List.Forall₂ (LazyRep p C.w C.q C.n) v V →
      ∀ s ∈ v, s.coeffs.length = C.n := by
    intro v V h
    induction h with
    | nil => simp
    | cons h1 _ ih =>
      obtain ⟨S, h1, -⟩ := h1
      simpa using ⟨h1.len, ih⟩
  have hlm : ∃ k, Lazy.logMaxLevel p = .ok k := by
    have g := hC.log
    have e := hC.good.hw
    unfold Lazy.logMaxLevel
    dsimp only
    rw [if_neg (by have := g.le; have := g.w2; rw [e]; omega)]
    exact ⟨_, rfl⟩
  have hL : Level C.n C.n x := ⟨hlen hx.c, hz hx.lazy⟩
  cases hop with
  | add hy => exact ⟨add_agrees hC hx hy, run_unchanged hlm hL ⟨C.n, hlen hy.c, Or.inl rfl⟩⟩
  | sub hy => exact ⟨sub_agrees hC hx hy, run_unchanged hlm hL ⟨C.n, hlen hy.c, Or.inl rfl⟩⟩
  | absorb hf => exact ⟨absorb_agrees hC hx hf, run_unchanged hlm hL trivial⟩
  | absorbScalar hs => exact ⟨absorbScalar_agrees hC hx hs, run_unchanged hlm hL trivial⟩
  | fused ha hf => exact ⟨fused_agrees hC hx ha hf, run_unchanged hlm hL ⟨C.n, hlen ha.c⟩⟩
  | fusedConst ha hf hb => exact ⟨fusedConst_agrees hC hx ha hf hb, run_unchanged hlm hL ⟨C.n, hlen ha.c⟩⟩
  | fusedLazily ha hf => exact ⟨lazily_agrees hC hx ha hf, run_unchanged hlm hL ⟨hf.len, hlen ha.c⟩⟩
  | merge => exact ⟨merge_agrees hC hx, run_unchanged hlm hL trivial⟩

/-- **C72.** After every history of calls, successful or not, the words hold the ciphertext that the successful calls
alone compute on residues. -/
theorem c72_history (hC : Fit C p) (P : ErrorParams) {ops : List (Call ℝ)} {Ops : List (RCall C)}
    (hops : List.Forall₂ (Denotes C p) ops Ops) {x : Obj ℝ} {X : Tracked C} (hx : Carries C p x X)
    (hd : Defined P X Ops) : Carries C p (objAfter p (P.bPlaintext C.n) x ops) (ctAfter P X Ops) := by
  induction hops generalizing x X with
  | nil => exact hx
  | @cons op Op ops Ops h1 _ ih =>
    obtain ⟨a1, a2⟩ := c72_call hC P hx h1
    show Carries C p (objAfter p _ (op.run p _ x).1 ops) (ctAfter P X (Op :: Ops))
    unfold ctAfter
    unfold Defined at hd
    cases hr : Op.run P X with
    | ok Y =>
      rw [hr] at a1 hd
      exact ih a1.2 hd
    | err e =>
      rw [hr] at a1 hd
      rw [a2 e a1]
      exact ih hx hd
    | ub u => rw [hr] at hd; exact hd.elim

/-- **C72.** Products of ciphertexts. -/
theorem c72_mul (hC : Fit C p) {x y : Obj ℝ} {X Y : Tracked C} (hx : Carries C p x X) (hy : Carries C p y Y) :
    AgreesNew C p (WordCt.mul p x y) (ErrorTrack.mul X Y) := mul_agrees hC hx hy

/-- **C72.** Substitutions, with every power. -/
theorem c72_substitute (hC : Fit C p) {q : NttParams} (ht : Tables p C.w C.q C.l C.psi q) {x : Obj ℝ} {X : Tracked C}
    (hx : Carries C p x X) (k : ℤ) : AgreesNew C p (WordCt.substitute q x k) (ErrorTrack.substitute X k) :=
  substitute_agrees hC ht hx k

/-- **C72.** Modulus switching. -/
theorem c72_switch (hC : Fit C p) {q : NttParams} (ht : Tables p C.w C.q C.l C.psi q) {D : Ctx} {p' : MParams}
    (hD : Fit D p') {q' : NttParams} (ht' : Tables p' D.w D.q D.l D.psi q') (hl : C.l = D.l) (hw : C.w = D.w)
    {Q : ErrorParams} {x : Obj ℝ} {X : Tracked C} (hx : Carries C p x X) (t : ℕ) :
    AgreesNew D p' (WordCt.switchModulus p p' q q' (Q.bScale D.n) x t) (ErrorTrack.switchModulus Q D hl X t) :=
  switch_agrees hC ht hD ht' hl hw hx t

/-! ## C72: programs, end to end -/

/-- `fresh_word` with the samples. -/
theorem fresh_drawn (G : Gen τ) (hG : Words G) {w N l : ℕ} (h : create w N = .ok p) (hp : N.Prime) {q : NttParams}
    {psi : ZMod N} (tb : Tables p w N l psi q) (k : Word.Key) (k1 : k.p = p) (k2 : k.q = q)
    (k6 : ValidPoly N (2 ^ l) k.key) (hvar : 2 * k.variance ≤ N) (k7 : k.tMod < N) {T : ℕ}
    (k8 : Mont.exportInt p k.tMod = T) (m : Fin (2 ^ l) → ℕ) {pt : List ℕ} (hv : ValidPoly N (2 ^ l) pt)
    (hpt : HasCoeffs p q N (2 ^ l) pt fun i => (m i : ZMod N)) {fuel bEnc : ℕ} {t t' : τ} {x : Word.Ct}
    (hx : Word.encrypt G fuel k pt bEnc t = .ok (x, t')) :
    ∃ (X : List (Fin (2 ^ l) → ZMod N)) (e : Fin (2 ^ l) → ℤ), List.Forall₂ (Poly.Rep p N (2 ^ l)) x.c X ∧ X ≠ [] ∧
      x.power = 1 ∧ (∀ i, |e i| ≤ 2 * k.variance) ∧
      ntt psi l (modq N fun i => (m i : ℤ) + T * e i) = phase (fun i : Fin (2 ^ l) => res p N (k.key.getD i 0)) X ∧
      ∃ a t₁ cs, Sampler.samplePolynomial G p fuel ((2 ^ l : ℕ) : ℤ) t = .ok (a, t₁) ∧
        Sampler.sampleError G p (2 ^ l) k.variance t₁ = .ok (cs, t') ∧ Poly.Rep p N (2 ^ l) cs (modq N e) := by
  have g := good_of_create h
  haveI : NeZero N := ⟨hp.ne_zero⟩
  unfold Word.encrypt at hx
  obtain ⟨⟨a, t₁⟩, ha, hx⟩ := Outcome.bind_eq_ok.mp hx
  obtain ⟨⟨c0, t₂⟩, hc, hx⟩ := Outcome.bind_eq_ok.mp hx
  cases hx
  rw [k1, k6.1] at ha
  have hA := Word.pad_rep G g fuel _ t t₁ a ha
  have hS := k6.rep (p := p)
  have hM := hv.rep (p := p)
  have hM' := (hasCoeffs_iff g hp tb hM).mp hpt
  rcases Word.encryptWithPad_word G hG h tb k k1 k2 hS hvar k7.le hM hA t₁ with
    ⟨_, _, e⟩ | ⟨_, _, e⟩ | ⟨c0', s'', e, e1, ⟨cs, d1, d2⟩, e2, e3⟩
  · rw [e] at hc; cases hc
  · rw [e] at hc; cases hc
  rw [e1] at hc
  cases hc
  have hN' := hA.negate g
  rw [k1]
  refine ⟨_, e, .cons e3 (.cons hN' .nil), by simp, rfl, e2, ?_, a, t₁, cs, ha, d1, d2⟩
  let C : Ctx := ⟨w, N, l, psi⟩
  have hr : res p N k.tMod = (T : ZMod N) := by
    rw [← res_export g k7.le]
    show ((Mont.exportInt p k.tMod : ℕ) : ZMod N) = _
    rw [k8]
  have e1 : (fun i => (m i : ℤ) + T * e i) = (fun i => (m i : ℤ)) + (fun i => (T : ℤ) * e i) := rfl
  have e2 : modq N (fun i => (m i : ℤ)) = fun i => (m i : ZMod N) := by
    funext i; unfold modq; push_cast; rfl
  rw [e1, modq_add]
  have a1' : ntt psi l (modq N (fun i => (m i : ℤ)) + modq N fun i => (T : ℤ) * e i) =
    ntt psi l (modq N fun i => (m i : ℤ)) + ntt psi l (modq N fun i => (T : ℤ) * e i) := toNtt_add (C := C) _ _
  have a2' : ntt psi l (scalarMul ((T : ℤ) : ZMod N) (modq N e)) =
    scalarMul ((T : ℤ) : ZMod N) (ntt psi l (modq N e)) := toNtt_smul (C := C) _ _
  have a3 := modq_smul (q := N) (T : ℤ) e
  rw [a1', a3, a2', e2, hM', phase_cons, phase_cons, phase_nil, hr]
  have a4 : (fun i => (T : ZMod N) * ntt psi l (modq N e) i) =
      scalarMul ((T : ℤ) : ZMod N) (ntt psi l (modq N e)) := by
    unfold scalarMul; push_cast; rfl
  rw [a4]
  ring

/-- The noisy plaintext of a fresh encryption on words. -/
theorem fresh_word (G : Gen τ) (hG : Words G) {w N l : ℕ} (h : create w N = .ok p) (hp : N.Prime) {q : NttParams}
    {psi : ZMod N} (tb : Tables p w N l psi q) (k : Word.Key) (k1 : k.p = p) (k2 : k.q = q)
    (k6 : ValidPoly N (2 ^ l) k.key) (hvar : 2 * k.variance ≤ N) (k7 : k.tMod < N) {T : ℕ}
    (k8 : Mont.exportInt p k.tMod = T) (m : Fin (2 ^ l) → ℕ) {pt : List ℕ} (hv : ValidPoly N (2 ^ l) pt)
    (hpt : HasCoeffs p q N (2 ^ l) pt fun i => (m i : ZMod N)) {fuel bEnc : ℕ} {t t' : τ} {x : Word.Ct}
    (hx : Word.encrypt G fuel k pt bEnc t = .ok (x, t')) :
    ∃ (X : List (Fin (2 ^ l) → ZMod N)) (e : Fin (2 ^ l) → ℤ), List.Forall₂ (Poly.Rep p N (2 ^ l)) x.c X ∧ X ≠ [] ∧
      x.power = 1 ∧ (∀ i, |e i| ≤ 2 * k.variance) ∧
      ntt psi l (modq N fun i => (m i : ℤ) + T * e i) = phase (fun i : Fin (2 ^ l) => res p N (k.key.getD i 0)) X := by
  obtain ⟨X, e, e1, e2, e3, e4, e5, -⟩ := fresh_drawn G hG h hp tb k k1 k2 k6 hvar k7 k8 m hv hpt hx
  exact ⟨X, e, e1, e2, e3, e4, e5⟩

/-- A program run on words computes the program on noisy plaintexts. -/
theorem program_noisy (hC : Fit C p) (P : ErrorParams) (S : C.Poly) {x : ℕ → Obj ℝ} {φ g : ℕ → Fin C.n → ℤ}
    {f : ℕ → List ℕ} (hx : ∀ i, ∃ X, Carries C p (x i) X ∧ Noisy S X.ct (φ i) ∧ X.ct.power = 1 ∧ X.ct.c ≠ [])
    (hf : ∀ j, Poly.Rep p C.q C.n (f j) (C.toNtt (modq C.q (g j)))) (u : Program) (hu : u.Fits C.w) :
    ∃ y Y, u.run p (P.bPlaintext C.n) x f = .ok y ∧ Carries C p y Y ∧ Noisy S Y.ct (u.eval φ g) ∧ Y.ct.power = 1 ∧
      Y.ct.c ≠ [] := by
  have value_ok : ∀ {r : Res (Obj ℝ)} {Y : Tracked C}, Agrees C p r (.ok Y) →
      ∃ y, r.value = .ok y ∧ Carries C p y Y := by
    intro r Y h
    obtain ⟨h1, h2⟩ := h
    exact ⟨r.1, by unfold Res.value; rw [h1], h2⟩
  induction u with
  | input i =>
    obtain ⟨X, h1, h2, h3, h4⟩ := hx i
    exact ⟨x i, X, rfl, h1, h2, h3, h4⟩
  | add u v ihu ihv =>
    obtain ⟨a, A, a1, a2, a3, a4, a5⟩ := ihu hu.1
    obtain ⟨b, B, b1, b2, b3, b4, b5⟩ := ihv hu.2
    obtain ⟨r, r1, r2, r3, r4⟩ := (c20_add S A.ct B.ct a3 b3).2 (by rw [a4, b4])
    have h := add_agrees hC a2 b2
    unfold ErrorTrack.add at h
    rw [r1, Outcome.bind_ok] at h
    obtain ⟨y, y1, y2⟩ := value_ok h
    refine ⟨y, _, ?_, y2, r2, by rw [r3, a4], ?_⟩
    · show (do ((Call.add (← v.run p _ x f)).run p _ (← u.run p _ x f)).value) = _
      rw [b1, Outcome.bind_ok, a1, Outcome.bind_ok]
      exact y1
    · have := List.length_pos_iff.mpr a5
      exact List.length_pos_iff.mp (by rw [r4]; omega)
  | sub u v ihu ihv =>
    obtain ⟨a, A, a1, a2, a3, a4, a5⟩ := ihu hu.1
    obtain ⟨b, B, b1, b2, b3, b4, b5⟩ := ihv hu.2
    obtain ⟨r, r1, r2, r3, r4⟩ := (c20_sub S A.ct B.ct a3 b3).2 (by rw [a4, b4])
    have h := sub_agrees hC a2 b2
    unfold ErrorTrack.sub at h
    rw [r1, Outcome.bind_ok] at h
    obtain ⟨y, y1, y2⟩ := value_ok h
    refine ⟨y, _, ?_, y2, r2, by rw [r3, a4], ?_⟩
    · show (do ((Call.sub (← v.run p _ x f)).run p _ (← u.run p _ x f)).value) = _
      rw [b1, Outcome.bind_ok, a1, Outcome.bind_ok]
      exact y1
    · have := List.length_pos_iff.mpr a5
      exact List.length_pos_iff.mp (by rw [r4]; omega)
  | mul u v ihu ihv =>
    obtain ⟨a, A, a1, a2, a3, a4, a5⟩ := ihu hu.1
    obtain ⟨b, B, b1, b2, b3, b4, b5⟩ := ihv hu.2
    obtain ⟨r, r1, r2, r3, r4⟩ := (c21_mul hC.ok S A.ct B.ct a3 b3).2 (by rw [a4, b4]) a5 b5
    have h := mul_agrees hC a2 b2
    unfold ErrorTrack.mul at h
    rw [r1, Outcome.bind_ok] at h
    obtain ⟨y, y1, y2⟩ := h
    refine ⟨y, _, ?_, y2, r2, by rw [r3, a4], ?_⟩
    · show (do WordCt.mul p (← u.run p _ x f) (← v.run p _ x f)) = _
      rw [a1, Outcome.bind_ok, b1, Outcome.bind_ok]
      exact y1
    · have := List.length_pos_iff.mpr a5
      have := List.length_pos_iff.mpr b5
      exact List.length_pos_iff.mp (by rw [r4]; omega)
  | absorb u j ihu =>
    obtain ⟨a, A, a1, a2, a3, a4, a5⟩ := ihu hu
    obtain ⟨r2, r3⟩ := (c21_absorb hC.ok S A.ct a3).1 (g j)
    obtain ⟨y, y1, y2⟩ := value_ok (absorb_agrees (P := P) hC a2 (hf j))
    refine ⟨y, _, ?_, y2, r2, by rw [← a4]; exact r3, ?_⟩
    · show (do ((Call.absorb (f j)).run p _ (← u.run p _ x f)).value) = _
      rw [a1, Outcome.bind_ok]
      exact y1
    · show A.ct.c.map _ ≠ []
      simpa using a5
  | scale u c ihu =>
    obtain ⟨a, A, a1, a2, a3, a4, a5⟩ := ihu hu.1
    obtain ⟨r2, r3⟩ := (c21_absorb hC.ok S A.ct a3).2 (c : ℤ)
    have hlt : Mont.importInt p c < C.q := importInt_lt hC.good _ hu.2
    have hcast : ((Mont.exportInt p (Mont.importInt p c) : ℕ) : ZMod C.q) = ((c : ℤ) : ZMod C.q) := by
      have e1 : ((Mont.exportInt p (Mont.importInt p c) : ℕ) : ZMod C.q) = res p C.q (Mont.importInt p c) :=
        res_export hC.good hlt.le
      rw [e1, res_import hC.good hu.2]
      push_cast
      rfl
    have h := absorbScalar_agrees hC a2 hlt.le
    rw [hcast] at h
    obtain ⟨y, y1, y2⟩ := value_ok h
    refine ⟨y, _, ?_, y2, r2, by rw [← a4]; exact r3, ?_⟩
    · show (do ((Call.absorbScalar (Mont.importInt p c)).run p _ (← u.run p _ x f)).value) = _
      rw [a1, Outcome.bind_ok]
      exact y1
    · show A.ct.c.map _ ≠ []
      simpa using a5

theorem Program.eval_le {l : ℕ} {φ g : ℕ → Fin (2 ^ l) → ℤ} {B G : ℕ} (hφ : ∀ i k, |φ i k| ≤ B)
    (hg : ∀ j k, |g j k| ≤ G) (u : Program) (k : Fin (2 ^ l)) : |u.eval φ g k| ≤ u.bound (2 ^ l) B G := by
  have hm : ∀ {F H : Fin (2 ^ l) → ℤ} {a b : ℕ}, (∀ i, |F i| ≤ a) → (∀ i, |H i| ≤ b) → ∀ i,
      |negMul F H i| ≤ ((2 ^ l * (a * b) : ℕ) : ℤ) := by
    intro F H a b hF hH i
    refine (negMul_bound F H b (by positivity) hH i).trans ?_
    unfold norm1
    have : ∑ i, |F i| ≤ (2 ^ l : ℕ) * (a : ℤ) := by
      refine (Finset.sum_le_sum fun i _ => hF i).trans ?_
      simp
    rw [← mul_assoc, Nat.cast_mul, Nat.cast_mul]
    exact mul_le_mul_of_nonneg_right this (by positivity)
  induction u generalizing k with
  | input i => exact hφ i k
  | add u v ihu ihv =>
    show |u.eval φ g k + v.eval φ g k| ≤ ((u.bound _ B G + v.bound _ B G : ℕ) : ℤ)
    rw [Nat.cast_add]
    exact (abs_add_le _ _).trans (add_le_add (ihu k) (ihv k))
  | sub u v ihu ihv =>
    show |u.eval φ g k - v.eval φ g k| ≤ ((u.bound _ B G + v.bound _ B G : ℕ) : ℤ)
    rw [Nat.cast_add]
    exact (abs_sub _ _).trans (add_le_add (ihu k) (ihv k))
  | mul u v ihu ihv => exact hm ihu ihv k
  | absorb u j ihu => exact hm ihu (hg j) k
  | scale u c ihu =>
    show |(c : ℤ) * u.eval φ g k| ≤ ((c * u.bound _ B G : ℕ) : ℤ)
    rw [abs_mul, Nat.cast_mul, Nat.abs_cast]
    exact mul_le_mul_of_nonneg_left (ihu k) (by positivity)

theorem Program.eval_modq {n t : ℕ} {φ m g : ℕ → Fin n → ℤ} (h : ∀ i, modq t (φ i) = modq t (m i)) (u : Program) :
    modq t (u.eval φ g) = modq t (u.eval m g) := by
  induction u with
  | input i => exact h i
  | add u v ihu ihv =>
    show modq t (u.eval φ g + v.eval φ g) = modq t (u.eval m g + v.eval m g)
    rw [modq_add, modq_add, ihu, ihv]
  | sub u v ihu ihv =>
    show modq t (u.eval φ g - v.eval φ g) = modq t (u.eval m g - v.eval m g)
    rw [modq_sub, modq_sub, ihu, ihv]
  | mul u v ihu ihv =>
    show modq t (negMul (u.eval φ g) (v.eval φ g)) = modq t (negMul (u.eval m g) (v.eval m g))
    rw [modq_negMul, modq_negMul, ihu, ihv]
  | absorb u j ihu =>
    show modq t (negMul (u.eval φ g) (g j)) = modq t (negMul (u.eval m g) (g j))
    rw [modq_negMul, modq_negMul, ihu]
  | scale u c ihu =>
    show modq t (fun i => (c : ℤ) * u.eval φ g i) = modq t (fun i => (c : ℤ) * u.eval m g i)
    rw [modq_smul, modq_smul, ihu]

/-- **C72, end to end.** For every word, prime modulus and ring degree for which the parameters can be created, every
generator, every sampled key, all messages below `t = 2^logT + 1`, all fresh encryptions of them, all plaintext
polynomials and every program of additions, subtractions, products, products with plaintexts and with constants: if
the bound of the program on the noisy plaintexts is below half the modulus, then every operation succeeds, and
`Decrypt` of the words returns the program evaluated on the messages modulo `X^n + 1` and `t`. -/
theorem c72_program (G : Gen σ) (G' : Gen τ) (hG' : Words G') {w N : ℕ} (h : create w N = .ok p) (hw : w ≤ 128)
    (hp : N.Prime) {l : ℕ} {q : NttParams} (hq : initNtt p l = .ok q) {variance logT : ℕ} {s s' : σ} {k : Word.Key}
    (hk : Word.Key.sample G p q l variance logT s = .ok (k, s')) (hT : 2 ^ logT + 1 < N) (hvar : 2 * variance ≤ N)
    (m : ℕ → Fin (2 ^ l) → ℕ) (hm : ∀ i j, m i j < 2 ^ logT + 1) (g : ℕ → Fin (2 ^ l) → ℤ) {Gb : ℕ}
    (hg : ∀ i j, |g i j| ≤ Gb) {pt f : ℕ → List ℕ} (hpt : ∀ i, ValidPoly N (2 ^ l) (pt i))
    (hpt' : ∀ i, HasCoeffs p q N (2 ^ l) (pt i) fun j => (m i j : ZMod N)) (hf : ∀ i, ValidPoly N (2 ^ l) (f i))
    (hf' : ∀ i, HasCoeffs p q N (2 ^ l) (f i) fun j => (g i j : ZMod N)) {fuel bEnc : ℕ} {t t' : ℕ → τ}
    {x : ℕ → Word.Ct} (hx : ∀ i, Word.encrypt G' fuel k (pt i) bEnc (t i) = .ok (x i, t' i)) (P : ErrorParams)
    (u : Program) (hu : u.Fits w) (hb : 2 * u.bound (2 ^ l) (2 ^ logT + 2 * variance * (2 ^ logT + 1)) Gb < N) :
    ∃ y, u.run p (P.bPlaintext (2 ^ l)) (fun i => ⟨(x i).c, (x i).power, (x i).error, []⟩) f = .ok y ∧
      Word.decrypt k ⟨y.c, y.power, bEnc⟩ =
        .ok (List.ofFn fun j => (u.eval (fun i j => (m i j : ℤ)) g j % (2 ^ logT + 1)).toNat) := by
  have gd := good_of_create h
  haveI : NeZero N := ⟨hp.ne_zero⟩
  obtain ⟨k1, k2, k3, k4, k5, k6, k7, k8⟩ := sample_word G h hp hq hk hT
  obtain ⟨psi, hC, tb⟩ := fit_of_create h hw hp hq
  let C : Ctx := ⟨w, N, l, psi⟩
  have hS := k6.rep (p := p)
  choose X e e1 e2 e3 e4 e5 using fun i =>
    fresh_word G' hG' h hp tb k k1 k2 k6 (by rw [k4]; exact hvar) k7 k8 (m i) (hpt i) (hpt' i) (hx i)
  obtain ⟨y, Y, y1, y2, y3, y4, y5⟩ := program_noisy (C := C) hC P (fun i => res p N (k.key.getD i 0))
    (x := fun i => ⟨(x i).c, (x i).power, (x i).error, []⟩)
    (φ := fun i j => (m i j : ℤ) + ((2 ^ logT + 1 : ℕ) : ℤ) * e i j) (g := g) (f := f)
    (fun i => ⟨⟨⟨X i, 1, []⟩, (x i).error⟩, ⟨e1 i, e3 i, rfl, .nil⟩, e5 i, rfl, e2 i⟩)
    (fun j => by
      have := (hf j).rep (p := p)
      have h2 := (hasCoeffs_iff gd hp tb this).mp (hf' j)
      show Poly.Rep p N (2 ^ l) (f j) (ntt psi l (modq N (g j)))
      have h3 : modq N (g j) = fun i => (g j i : ZMod N) := rfl
      rw [h3, h2]
      exact this) u hu
  refine ⟨y, y1, ?_⟩
  rw [Word.decrypt_word gd hp tb k k1 k2 hS (T := 2 ^ logT + 1) (by rw [k3, k8]) (Nat.succ_pos _) hT.le ⟨y.c, y.power, bEnc⟩
    y2.c]
  congr 2
  funext j
  have hph : ntt psi l (modq N (u.eval (fun i j => (m i j : ℤ) + ((2 ^ logT + 1 : ℕ) : ℤ) * e i j) g)) =
      phase (fun i : Fin (2 ^ l) => res p N (k.key.getD i 0)) Y.ct.c := y3
  rw [← hph, intt_ntt hp gd.odd tb.root (by have := tb.l15; omega)]
  have hle := Program.eval_le (l := l) (φ := fun i j => (m i j : ℤ) + ((2 ^ logT + 1 : ℕ) : ℤ) * e i j) (g := g)
    (B := 2 ^ logT + 2 * variance * (2 ^ logT + 1)) (G := Gb) (fun i k => by
      have h1 := e4 i k
      rw [k4] at h1
      have h2 := hm i k
      refine (abs_add_le _ _).trans ?_
      rw [abs_mul, Nat.abs_cast, Nat.abs_cast, Nat.cast_add (2 ^ logT) (2 * variance * (2 ^ logT + 1))]
      refine add_le_add (Int.ofNat_le.mpr (Nat.lt_succ_iff.mp h2)) ?_
      rw [mul_comm, Nat.cast_mul (2 * variance)]
      exact mul_le_mul_of_nonneg_right (by push_cast; exact h1) (by positivity)) hg u j
  have hmod := congrFun (Program.eval_modq (t := 2 ^ logT + 1) (φ := fun i j => (m i j : ℤ) + ((2 ^ logT + 1 : ℕ) : ℤ) * e i j)
    (m := fun i j => (m i j : ℤ)) (g := g) (fun i => by
      funext j
      show (((m i j : ℤ) + ((2 ^ logT + 1 : ℕ) : ℤ) * e i j : ℤ) : ZMod (2 ^ logT + 1)) = ((m i j : ℤ) : ZMod (2 ^ logT + 1))
      rw [Int.cast_add, Int.cast_mul, Int.cast_natCast (2 ^ logT + 1), ZMod.natCast_self, zero_mul, add_zero]) u) j
  show (centered N ((u.eval _ g j : ℤ) : ZMod N) % ((2 ^ logT + 1 : ℕ) : ℤ)).toNat = _
  have hbz : (2 : ℤ) * (u.bound (2 ^ l) (2 ^ logT + 2 * variance * (2 ^ logT + 1)) Gb : ℕ) < N := by exact_mod_cast hb
  have := abs_le.mp hle
  rw [centered_eq N _ (by omega) (by omega)]
  have hmod' := (ZMod.intCast_eq_intCast_iff' _ _ _).mp hmod
  rw [hmod']
  norm_cast

/-- `(m0 * m1) * g0 + 3 * m0 - m1`. -/
def exProgram : Program := .sub (.add (.absorb (.mul (.input 0) (.input 1)) 0) (.scale (.input 0) 3)) (.input 1)

/-- The program on encryptions of `3 + 4 X` and `2 + X` with the plaintext `1 - 2 X`, modulus 12289, `t = 5` and
variance 1: its bound is small enough, and the words decrypt to its value. -/
example : (do
    let p ← create 16 12289
    let q ← initNtt p 1
    let (k, _) ← Word.Key.sample toyGen p q 1 1 2 77
    let m0 ← Poly.convertToNtt p q ([3, 4].map (Mont.importInt p))
    let m1 ← Poly.convertToNtt p q ([2, 1].map (Mont.importInt p))
    let f ← Poly.convertToNtt p q ([1, 12287].map (Mont.importInt p))
    let (x0, s) ← Word.encrypt toyGen 8 k m0 0 5
    let (x1, _) ← Word.encrypt toyGen 8 k m1 0 s
    let y ← exProgram.run p (5 : ℚ) (fun i => if i = 0 then ⟨x0.c, x0.power, x0.error, []⟩ else
      ⟨x1.c, x1.power, x1.error, []⟩) (fun _ => f)
    let d ← Word.decrypt k ⟨y.c, y.power, 0⟩
    .ok (y.c.length, d, decide (2 * exProgram.bound (2 ^ 1) (2 ^ 2 + 2 * 1 * (2 ^ 2 + 1)) 2 < 12289))) =
    .ok (3, List.ofFn fun j => (exProgram.eval (fun i => if i = 0 then ![3, 4] else ![2, 1]) (fun _ => ![1, -2]) j %
      5).toNat, true) ∧ exProgram.Fits 16 := by
  refine ⟨by decide +kernel, ?_⟩
  simp [exProgram, Program.Fits]

/-- Words that carry a ciphertext, and a call with words for an argument. -/
example (hC : Fit C p) {a b : List ℕ} (ha : ValidPoly C.q C.n a) (hb : ValidPoly C.q C.n b) (e : ℝ) :
    ∃ X Op, Carries C p ⟨[a, b], 1, e, []⟩ X ∧ Denotes C p (.fusedLazily ⟨[a, b], 1, e, []⟩ a) Op ∧
      ∀ P, Defined P X [Op, .merge] := by
  have h : Carries C p ⟨[a, b], 1, e, []⟩ ⟨⟨[_, _], 1, []⟩, e⟩ :=
    ⟨.cons (ha.rep (p := p)) (.cons (hb.rep (p := p)) .nil), rfl, rfl, .nil⟩
  refine ⟨_, _, h, .fusedLazily h (ha.rep (p := p)), fun P => ?_⟩
  simp [Defined, RCall.run, ErrorTrack.fusedAbsorbAddLazily, Sym.fusedAbsorbAddLazily, ErrorTrack.mergeLazy,
    Sym.mergeLazy, Outcome.bind_ok]

end Shell
