import Verif.Lemmas.StorePlain
/-!
# Property C92: programs on polynomials and symmetric-key ciphertexts
-/

namespace Shell
open Spec Rns WordCt ErrorTrack MParams Ntt NttRing Sym Expand
variable {ρ τ : Type} {p : MParams}

section
variable {C : Ctx} (hC : Fit C p) {q : NttParams} (ht : Tables p C.w C.q C.l C.psi q)
include hC ht

theorem holdsPoly_iff {v : List ℕ} {f : Fin C.n → ℤ} : HoldsPoly p q C.q C.n v f ↔ Store.PRel C p v f := by
  constructor
  · rintro ⟨h1, h2⟩
    have h3 := h1.rep (p := p)
    have h4 := (hasCoeffs_iff hC.good hC.ok.prime ht h3).mp h2
    show Poly.Rep p C.q C.n v (ntt C.psi C.l (modq C.q f))
    rw [h4]
    exact h3
  · intro h
    exact ⟨h.valid, (hasCoeffs_iff hC.good hC.ok.prime ht h).mpr rfl⟩

theorem crel_of_holds {σ : Fin C.n → ℤ} {x : Obj ℝ} {X : IdealCt C.n} (h : HoldsCt p q C.q σ x X)
    (h1 : X.power % 2 = 1) (h2 : X.power < 2 * C.n) (h3 : X.pendingSize = 0) (h4 : X.pending = 0) :
    Store.CRel C p σ x X := by
  obtain ⟨cs, g1, g2⟩ := h.comps
  have h5 : x.lazy = [] := List.length_eq_zero_iff.mp (by rw [h.pending, h3])
  refine ⟨⟨⟨cs.map fun f => C.toNtt (modq C.q f), X.power, []⟩, X.error⟩,
    ⟨?_, h.power, h.error, by rw [h5]; exact .nil⟩, ?_, rfl, ?_, rfl, h3.symm, ?_, h1, h2⟩
  · show List.Forall₂ _ x.c (cs.map _)
    rw [List.forall₂_map_right_iff]
    exact g1.imp fun _ _ => (holdsPoly_iff hC ht).mp
  · show (cs.map _).length = _; rw [List.length_map, ← g1.length_eq, h.size]
  · show C.toNtt (modq C.q X.value) = phase _ (cs.map _)
    rw [← g2, Store.toNtt_horner hC]
  · have h0 : modq C.q (0 : Fin C.n → ℤ) = 0 := by funext i; simp [modq]
    show C.toNtt (modq C.q X.pending) = phase _ []
    rw [h4, phase_nil, h0, toNtt_zero]

theorem holds_of_crel {σ : Fin C.n → ℤ} {x : Obj ℝ} {X : IdealCt C.n} (h : Store.CRel C p σ x X) :
    HoldsCt p q C.q σ x X := by
  obtain ⟨Y, h1, h2⟩ := h
  have hl : ∀ Ls : List C.Poly, ∃ cs : List (Fin C.n → ℤ), cs.map (fun f => C.toNtt (modq C.q f)) = Ls := by
    intro Ls
    induction Ls with
    | nil => exact ⟨[], rfl⟩
    | cons F Ls ih =>
      obtain ⟨cs, e⟩ := ih
      obtain ⟨f, hf⟩ := exists_modq (q := C.q) (C.fromNtt F)
      exact ⟨f :: cs, by rw [List.map_cons, e, hf, toNtt_fromNtt hC.ok]⟩
  obtain ⟨cs, e⟩ := hl Y.ct.c
  refine ⟨⟨cs, ?_, ?_⟩, ?_, h1.power.trans h2.power, h1.error.trans h2.error, ?_⟩
  · have := h1.c
    rw [← e, List.forall₂_map_right_iff] at this
    exact this.imp fun _ _ => (holdsPoly_iff hC ht).mpr
  · have h3 := h2.value
    unfold Noisy at h3
    refine toNtt_inj hC.ok ?_
    rw [h3, Store.toNtt_horner hC, e]
  · rw [h1.c.length_eq, h2.size]
  · rw [h1.lazy.length_eq, h2.pendingSize]

end

/-- **C92.** A program may hold any number of polynomials and ciphertexts and make any calls on them, in place or not,
with operands that are objects of the program: every call returns the status that the machine on integer polynomials
modulo `X^n + 1` returns, and the objects are at the end those of the machine, with the polynomials and noisy
plaintexts reduced modulo the ciphertext modulus. -/
theorem c92_program {w N : ℕ} (h : create w N = .ok p) (hw : w ≤ 128) (hp : N.Prime) {l : ℕ} {q : NttParams}
    (hq : initNtt p l = .ok q) (σ : Fin (2 ^ l) → ℤ) (P : ErrorParams) {m : Store.Mem ℝ} {M : IdealMem (2 ^ l)}
    (hpolys : List.Forall₂ (HoldsPoly p q N (2 ^ l)) m.polys M.polys)
    (hcts : List.Forall₂ (HoldsCt p q N σ) m.cts M.cts)
    (hfresh : ∀ X ∈ M.cts, Admissible (2 ^ l) X.power ∧ X.pendingSize = 0 ∧ X.pending = 0)
    {cs : List (IdealCall (2 ^ l))} (hcs : IdealProper σ (P.bPlaintext (2 ^ l)) N w M cs) :
    (Store.runAll ⟨p, q, P.bPlaintext (2 ^ l)⟩ m (cs.map (·.call p N))).1 =
      (idealRun σ (P.bPlaintext (2 ^ l)) N M cs).1 ∧
    List.Forall₂ (HoldsPoly p q N (2 ^ l)) (Store.runAll ⟨p, q, P.bPlaintext (2 ^ l)⟩ m (cs.map (·.call p N))).2.polys
      (idealRun σ (P.bPlaintext (2 ^ l)) N M cs).2.polys ∧
    List.Forall₂ (HoldsCt p q N σ) (Store.runAll ⟨p, q, P.bPlaintext (2 ^ l)⟩ m (cs.map (·.call p N))).2.cts
      (idealRun σ (P.bPlaintext (2 ^ l)) N M cs).2.cts := by
  obtain ⟨psi, hC, ht⟩ := fit_of_create h hw hp hq
  let C : Ctx := ⟨w, N, l, psi⟩
  have hM : Store.MRel C p σ m M := by
    refine ⟨hpolys.imp fun _ _ => (holdsPoly_iff hC ht).mp, ?_⟩
    have : ∀ {xs : List (Obj ℝ)} {Xs : List (IdealCt (2 ^ l))}, List.Forall₂ (HoldsCt p q N σ) xs Xs →
        (∀ X ∈ Xs, Admissible (2 ^ l) X.power ∧ X.pendingSize = 0 ∧ X.pending = 0) →
        List.Forall₂ (Store.CRel C p σ) xs Xs := by
      intro xs Xs hx hX
      induction hx with
      | nil => exact .nil
      | cons h1 h2 ih =>
        obtain ⟨⟨a1, a2, a3⟩, b1, b2⟩ := hX _ List.mem_cons_self
        refine .cons (crel_of_holds hC ht h1 (by omega) ?_ b1 b2) (ih fun X hm => hX X (by simp [hm]))
        show _ < 2 * 2 ^ l
        exact_mod_cast a3
    exact this hcts hfresh
  obtain ⟨h1, h2⟩ := Store.run_match hC ht P hM hcs
  exact ⟨h1, h2.polys.imp fun _ _ => (holdsPoly_iff hC ht).mpr, h2.cts.imp fun _ _ => holds_of_crel hC ht⟩

theorem encrypt_shape (G : Gen τ) {fuel bEnc : ℕ} {k : Word.Key} {pt : List ℕ} {t t' : τ} {x : Word.Ct}
    (hx : Word.encrypt G fuel k pt bEnc t = .ok (x, t')) : x.c.length = 2 ∧ x.error = bEnc := by
  unfold Word.encrypt at hx
  obtain ⟨⟨a, t₁⟩, ha, hx⟩ := Outcome.bind_eq_ok.mp hx
  obtain ⟨⟨c0, t₂⟩, hc, hx⟩ := Outcome.bind_eq_ok.mp hx
  cases hx
  exact ⟨rfl, rfl⟩

/-- What a program that starts with encryptions of the messages `m i` and with the polynomials `gs` holds. -/
theorem session_start (G : Gen ρ) (G' : Gen τ) (hG' : Words G') {w N : ℕ} (h : create w N = .ok p) (hw : w ≤ 128)
    (hp : N.Prime) {l : ℕ} {q : NttParams} (hq : initNtt p l = .ok q) {variance logT : ℕ} {s s' : ρ} {k : Word.Key}
    (hk : Word.Key.sample G p q l variance logT s = .ok (k, s')) (hT : 2 ^ logT + 1 < N) (hvar : 2 * variance ≤ N)
    {c : ℕ} (m : Fin c → Fin (2 ^ l) → ℕ) {pt : Fin c → List ℕ}
    (hpt : ∀ i, HoldsPoly p q N (2 ^ l) (pt i) fun j => m i j) {fuel bEnc : ℕ} {t t' : Fin c → τ} {x : Fin c → Word.Ct}
    (hx : ∀ i, Word.encrypt G' fuel k (pt i) bEnc (t i) = .ok (x i, t' i)) {fs : List (List ℕ)}
    {gs : List (Fin (2 ^ l) → ℤ)} (hfs : List.Forall₂ (HoldsPoly p q N (2 ^ l)) fs gs) :
    ∃ (psi : ZMod N) (σ : Fin (2 ^ l) → ℤ) (e : Fin c → Fin (2 ^ l) → ℤ), Fit ⟨w, N, l, psi⟩ p ∧ Tables p w N l psi q ∧
      (Ctx.mk w N l psi).toNtt (modq N σ) = (fun i : Fin (2 ^ l) => res p N (k.key.getD i 0)) ∧
      HoldsPoly p q N (2 ^ l) k.key σ ∧ (∀ i j, |e i j| ≤ 2 * variance) ∧
      Store.Cong (2 ^ logT + 1) ⟨gs, List.ofFn fun i => ⟨2, 1, fun j => m i j, bEnc, 0, 0⟩⟩
        ⟨gs, List.ofFn fun i => ⟨2, 1, fun j => m i j + (2 ^ logT + 1) * e i j, bEnc, 0, 0⟩⟩ ∧
      Store.MRel ⟨w, N, l, psi⟩ p σ ⟨fs, List.ofFn fun i => ⟨(x i).c, (x i).power, (x i).error, []⟩⟩
        ⟨gs, List.ofFn fun i => ⟨2, 1, fun j => m i j + (2 ^ logT + 1) * e i j, bEnc, 0, 0⟩⟩ := by
  have gd := good_of_create h
  haveI : NeZero N := ⟨hp.ne_zero⟩
  obtain ⟨k1, k2, k3, k4, k5, k6, k7, k8⟩ := sample_word G h hp hq hk hT
  obtain ⟨psi, hC, ht⟩ := fit_of_create h hw hp hq
  let C : Ctx := ⟨w, N, l, psi⟩
  have hS := k6.rep (p := p)
  obtain ⟨σ, hσ⟩ := exists_modq (q := N) (C.fromNtt fun i : Fin (2 ^ l) => res p N (k.key.getD i 0))
  have hσ' : C.toNtt (modq N σ) = fun i : Fin (2 ^ l) => res p N (k.key.getD i 0) := by rw [hσ]; exact toNtt_fromNtt hC.ok _
  have hsec : Store.secret C σ 1 = fun i : Fin (2 ^ l) => res p N (k.key.getD i 0) := by
    show C.toNtt (modq N (substPow 1 σ)) = _
    rw [substPow_one, hσ']
  choose X e e1 e2 e3 e4 e5 using fun i =>
    fresh_word G' hG' h hp ht k k1 k2 k6 (by rw [k4]; exact hvar) k7 k8 (m i) (hpt i).1 (by
      have := (hpt i).2
      have h2 : (modq N fun j => (m i j : ℤ)) = fun j => (m i j : ZMod N) := by funext j; simp [modq]
      rwa [h2] at this) (hx i)
  refine ⟨psi, σ, e, hC, ht, hσ', (holdsPoly_iff hC ht).mpr ?_, fun i j => by rw [← k4]; exact e4 i j, ?_, ?_⟩
  · show Poly.Rep p N (2 ^ l) k.key (C.toNtt (modq N σ))
    rw [hσ']; exact hS
  · refine ⟨rfl, List.forall₂_iff_get.mpr ⟨by simp, fun i h1 h2 => ?_⟩⟩
    simp only [List.get_eq_getElem, List.getElem_ofFn]
    refine ⟨rfl, rfl, ?_, rfl, rfl, rfl⟩
    funext j
    show ((m _ j : ℤ) : ZMod (2 ^ logT + 1)) = (((m _ j : ℤ) + (2 ^ logT + 1) * e _ j : ℤ) : ZMod (2 ^ logT + 1))
    have h0 : ((2 : ZMod (2 ^ logT + 1)) ^ logT + 1) = 0 := by
      have := ZMod.natCast_self (2 ^ logT + 1)
      push_cast at this
      exact this
    push_cast
    rw [h0, zero_mul, add_zero]
  · refine ⟨hfs.imp fun _ _ => (holdsPoly_iff hC ht).mp,
      List.forall₂_iff_get.mpr ⟨by simp, fun i h1 h2 => ?_⟩⟩
    simp only [List.get_eq_getElem, List.getElem_ofFn]
    set i' : Fin c := ⟨i, by simpa using h1⟩
    obtain ⟨s1, s2⟩ := encrypt_shape G' (hx i')
    refine ⟨⟨⟨X i', 1, []⟩, (x i').error⟩, ⟨e1 i', e3 i', rfl, .nil⟩, ?_, rfl, ?_, by rw [s2], rfl, ?_, rfl, ?_⟩
    · show (X i').length = 2; rw [← (e1 i').length_eq, s1]
    · show C.toNtt (modq N fun j => (m i' j : ℤ) + (2 ^ logT + 1) * e i' j) = phase (Store.secret C σ 1) (X i')
      rw [hsec, ← e5 i']
      push_cast
      rfl
    · have h0 : modq C.q (0 : Fin C.n → ℤ) = 0 := by funext i; simp [modq]
      show C.toNtt (modq C.q 0) = phase _ []
      rw [phase_nil, h0, toNtt_zero]
    · show 1 < 2 * 2 ^ l; have := Nat.one_le_two_pow (n := l); omega

/-- A ciphertext of the program decrypts to the value that the machine computes without noise. -/
theorem decrypt_of_crel (G : Gen ρ) {w N : ℕ} (h : create w N = .ok p) (hp : N.Prime) {l : ℕ} {q : NttParams}
    (hq : initNtt p l = .ok q) {variance logT : ℕ} {s s' : ρ} {k : Word.Key}
    (hk : Word.Key.sample G p q l variance logT s = .ok (k, s')) (hT : 2 ^ logT + 1 < N) {psi : ZMod N}
    (ht : Tables p w N l psi q) {σ : Fin (2 ^ l) → ℤ}
    (hσ : (Ctx.mk w N l psi).toNtt (modq N σ) = (fun i : Fin (2 ^ l) => res p N (k.key.getD i 0))) {y : Obj ℝ}
    {Y Z : IdealCt (2 ^ l)} (hy : Store.CRel ⟨w, N, l, psi⟩ p σ y Z) (hYZ : Store.CongCt (2 ^ logT + 1) Y Z)
    (hpow : Y.power = 1) (hb : ∀ j, 2 * |Z.value j| < (N : ℤ)) (bEnc : ℕ) :
    Word.decrypt k ⟨y.c, y.power, bEnc⟩ = .ok (List.ofFn fun j => (Y.value j % (2 ^ logT + 1)).toNat) := by
  have gd := good_of_create h
  haveI : NeZero N := ⟨hp.ne_zero⟩
  obtain ⟨k1, k2, k3, k4, k5, k6, k7, k8⟩ := sample_word G h hp hq hk hT
  let C : Ctx := ⟨w, N, l, psi⟩
  have hS := k6.rep (p := p)
  have hsec : Store.secret C σ 1 = fun i : Fin (2 ^ l) => res p N (k.key.getD i 0) := by
    show C.toNtt (modq N (substPow 1 σ)) = _
    rw [substPow_one, hσ]
  obtain ⟨W, w1, w2⟩ := hy
  rw [Word.decrypt_word gd hp ht k k1 k2 hS (T := 2 ^ logT + 1) (by rw [k3, k8]) (Nat.succ_pos _) hT.le
    ⟨y.c, y.power, bEnc⟩ w1.c]
  congr 2
  funext j
  have hph := w2.value
  rw [← hYZ.power, hpow] at hph
  have hph : ntt psi l (modq N Z.value) = phase (Store.secret C σ 1) W.ct.c := hph
  rw [hsec] at hph
  rw [← hph, intt_ntt hp gd.odd ht.root (by have := ht.l15; omega)]
  show (centered N ((Z.value j : ℤ) : ZMod N) % ((2 ^ logT + 1 : ℕ) : ℤ)).toNat = _
  have h1 := hb j
  have h2 := abs_le.mp (le_refl |Z.value j|)
  rw [centered_eq N _ (by omega) (by omega)]
  have hmod := congrFun hYZ.value j
  have hmod' := (ZMod.intCast_eq_intCast_iff' _ _ _).mp hmod
  rw [← hmod']
  norm_cast

theorem crel_get {C : Ctx} {σ : Fin C.n → ℤ} {m : Store.Mem ℝ} {M : IdealMem C.n} (hM : Store.MRel C p σ m M) {a : ℕ}
    {y : Obj ℝ} {Z : IdealCt C.n} (hy : m.cts[a]? = some y) (hZ : M.cts[a]? = some Z) : Store.CRel C p σ y Z := by
  obtain ⟨ha, ha'⟩ := List.getElem?_eq_some_iff.mp hy
  obtain ⟨hb, hb'⟩ := List.getElem?_eq_some_iff.mp hZ
  have := hM.cts.get ha hb
  rw [← ha', ← hb']
  exact this

/-- **C92, from encryption to decryption.** A program that starts with encryptions of the messages `m i` and with the
polynomials `gs` returns the statuses, and its ciphertexts decrypt to the values, that the machine computes from the
messages themselves modulo the plaintext modulus `2^logT + 1`, as long as the machine's value for the messages with
their noise stays below half the ciphertext modulus. -/
theorem c92_session (G : Gen ρ) (G' : Gen τ) (hG' : Words G') {w N : ℕ} (h : create w N = .ok p) (hw : w ≤ 128)
    (hp : N.Prime) {l : ℕ} {q : NttParams} (hq : initNtt p l = .ok q) {variance logT : ℕ} {s s' : ρ} {k : Word.Key}
    (hk : Word.Key.sample G p q l variance logT s = .ok (k, s')) (hT : 2 ^ logT + 1 < N) (hvar : 2 * variance ≤ N)
    {c : ℕ} (m : Fin c → Fin (2 ^ l) → ℕ) {pt : Fin c → List ℕ}
    (hpt : ∀ i, HoldsPoly p q N (2 ^ l) (pt i) fun j => m i j) {fuel bEnc : ℕ} {t t' : Fin c → τ} {x : Fin c → Word.Ct}
    (hx : ∀ i, Word.encrypt G' fuel k (pt i) bEnc (t i) = .ok (x i, t' i)) {fs : List (List ℕ)}
    {gs : List (Fin (2 ^ l) → ℤ)} (hfs : List.Forall₂ (HoldsPoly p q N (2 ^ l)) fs gs) (P : ErrorParams) :
    ∃ (σ : Fin (2 ^ l) → ℤ) (e : Fin c → Fin (2 ^ l) → ℤ), HoldsPoly p q N (2 ^ l) k.key σ ∧
      (∀ i j, |e i j| ≤ 2 * variance) ∧
      ∀ cs : List (IdealCall (2 ^ l)),
        IdealProper σ (P.bPlaintext (2 ^ l)) N w ⟨gs, List.ofFn fun i => ⟨2, 1, fun j => m i j, bEnc, 0, 0⟩⟩ cs →
        (Store.runAll ⟨p, q, P.bPlaintext (2 ^ l)⟩ ⟨fs, List.ofFn fun i => ⟨(x i).c, (x i).power, (x i).error, []⟩⟩
          (cs.map (·.call p N))).1 =
          (idealRun σ (P.bPlaintext (2 ^ l)) N ⟨gs, List.ofFn fun i => ⟨2, 1, fun j => m i j, bEnc, 0, 0⟩⟩ cs).1 ∧
        ∀ (a : ℕ) (y : Obj ℝ) (Y Z : IdealCt (2 ^ l)),
          (Store.runAll ⟨p, q, P.bPlaintext (2 ^ l)⟩ ⟨fs, List.ofFn fun i => ⟨(x i).c, (x i).power, (x i).error, []⟩⟩
            (cs.map (·.call p N))).2.cts[a]? = some y →
          (idealRun σ (P.bPlaintext (2 ^ l)) N ⟨gs, List.ofFn fun i => ⟨2, 1, fun j => m i j, bEnc, 0, 0⟩⟩
            cs).2.cts[a]? = some Y →
          (idealRun σ (P.bPlaintext (2 ^ l)) N ⟨gs, List.ofFn fun i =>
            ⟨2, 1, fun j => m i j + (2 ^ logT + 1) * e i j, bEnc, 0, 0⟩⟩ cs).2.cts[a]? = some Z →
          Y.power = 1 → (∀ j, 2 * |Z.value j| < (N : ℤ)) →
          Word.decrypt k ⟨y.c, y.power, bEnc⟩ = .ok (List.ofFn fun j => (Y.value j % (2 ^ logT + 1)).toNat) := by
  obtain ⟨psi, σ, e, hC, ht, hσ, hs, he, hcong, hM⟩ := session_start G G' hG' h hw hp hq hk hT hvar m hpt hx hfs
  refine ⟨σ, e, hs, he, fun cs hcs => ?_⟩
  obtain ⟨r1, r2, r3⟩ := Store.run_cong σ (P.bPlaintext (2 ^ l)) N w (cs := cs) hcong
  obtain ⟨f1, f2⟩ := Store.run_match hC ht P hM (r3 hcs)
  refine ⟨f1.trans r1.symm, fun a y Y Z hy hY hZ hpow hb => ?_⟩
  obtain ⟨Z', z1, z2⟩ := Store.object_some r2.cts hY
  obtain rfl : Z' = Z := Option.some.inj (z1.symm.trans hZ)
  exact decrypt_of_crel G h hp hq hk hT ht hσ (crel_get f2 hy hZ) z2 hpow hb bEnc

/-! ### A concrete case -/

/-- A product, a lazily fused sum, a substitution and two rejected calls: different powers, nothing to merge. -/
def exCalls : List (IdealCall 2) :=
  [.ofCoeffs ![1, -2], .ctMul 0 1, .ctIn 0 (.lazily 1 0), .ctIn 0 .merge, .ctSubstitute 0 3, .ctIn 3 (.add 1),
    .ctIn 1 .merge, .ctIn 2 (.scale 3), .binaryIn .mul 0 0]

/-- Every call of `exCalls` is proper. -/
example (σ f g : Fin 2 → ℤ) (B : ℝ) : IdealProper σ B 12289 16 ⟨[], [⟨2, 1, f, 0, 0, 0⟩, ⟨2, 1, g, 0, 0, 0⟩]⟩ exCalls := by
  simp [exCalls, IdealProper, IdealCall.Proper, IdealCall.ideal, object, idealOp, OpProper, Admissible, Store.except_bind,
    Store.except_error]

/-- The calls on encryptions of `3 + 4 X` and `2 + X` modulo 12289 with `t = 5`: statuses and decryptions are those of
the machine: `(3 + 4 X) + (2 + X) (1 - 2 X) = 7 + X` and `3 (3 + 4 X) (2 + X) = 6 + 33 X` modulo `X^2 + 1`. -/
example : (do
    let p ← create 16 12289
    let q ← initNtt p 1
    let (k, _) ← Word.Key.sample toyGen p q 1 1 2 77
    let m0 ← Poly.convertToNtt p q ([3, 4].map (Mont.importInt p))
    let m1 ← Poly.convertToNtt p q ([2, 1].map (Mont.importInt p))
    let (x0, s) ← Word.encrypt toyGen 8 k m0 0 5
    let (x1, _) ← Word.encrypt toyGen 8 k m1 0 s
    let r := Store.runAll (E := ℚ) ⟨p, q, 5⟩ ⟨[], [⟨x0.c, x0.power, x0.error, []⟩, ⟨x1.c, x1.power, x1.error, []⟩]⟩
      [.ofCoeffs ([1, 12287].map (Mont.importInt p)), .ctMul 0 1, .ctIn 0 (.lazily 1 0), .ctIn 0 .merge,
        .ctSubstitute 0 3, .ctIn 3 (.add 1), .ctIn 1 .merge, .ctIn 2 (.scale (Mont.importInt p 3)), .binaryIn .mul 0 0]
    let y0 ← Shell.rd r.2.cts 0
    let y2 ← Shell.rd r.2.cts 2
    let y3 ← Shell.rd r.2.cts 3
    let d0 ← Word.decrypt k ⟨y0.c, y0.power, 0⟩
    let d2 ← Word.decrypt k ⟨y2.c, y2.power, 0⟩
    .ok (r.1, d0, d2, y3.power)) =
    .ok ([.ok (), .ok (), .ok (), .ok (), .ok (), .err .invalidArgument, .err .failedPrecondition, .ok (), .ok ()],
      [2, 1], [1, 3], 3) := by
  decide +kernel

end Shell
