import Verif.Lemmas.WordExpand
/-!
# Property C91: oblivious expansion on stored words
-/

namespace Shell
open Spec Rns ErrorTrack Sym MParams WordCt WordExpand NttRing Ntt Expand
variable {σ τ ρ : Type} {C : Ctx} {p : MParams} {q : NttParams}

/-! ## Words compute what residues compute -/

/-- **C91.** `ObliviousExpand` with one key per level: for all lists of ciphertexts and keys, levels and lengths the
words have the same status as the residues, and hold the same ciphertexts. -/
theorem c91_expand_keys (hC : Fit C p) (ht : Tables p C.w C.q C.l C.psi q) (hcr : create C.w C.q = .ok p)
    (P : ErrorParams) {ks : List Word.RKey} {Ks : List (Relin.RKey C)} (hk : List.Forall₂ (HoldsGalois C p q) ks Ks)
    {cts : List (Obj ℝ)} {Cts : List (Ct C)} (h : List.Forall₂ (Bears C p) cts Cts) (levels out : ℤ) :
    SameOutcome (List.Forall₂ (Bears C p))
      (WordExpand.obliviousExpand ⟨p, q, P.bPlaintext C.n⟩ (WordExpand.keysSub q (P.bRelinearize C.n) ks) cts levels
        out)
      (Expand.obliviousExpand (Expand.keysSub Ks) Cts levels out) :=
  OutRel.same (rel_oblivious hC ht rfl rfl rfl (rel_keysSub hC ht hcr P hk) h levels out)

/-- **C91.** The same with one key for the generator. -/
theorem c91_expand_generator (hC : Fit C p) (ht : Tables p C.w C.q C.l C.psi q) (hcr : create C.w C.q = .ok p)
    (P : ErrorParams) {k : Word.RKey} {K : Relin.RKey C} (hk : HoldsGalois C p q k K)
    {cts : List (Obj ℝ)} {Cts : List (Ct C)} (h : List.Forall₂ (Bears C p) cts Cts) (levels out : ℤ) :
    SameOutcome (List.Forall₂ (Bears C p))
      (WordExpand.obliviousExpand ⟨p, q, P.bPlaintext C.n⟩ (WordExpand.generatorSub q (P.bRelinearize C.n) k) cts levels
        out)
      (Expand.obliviousExpand (Expand.generatorSub K) Cts levels out) :=
  OutRel.same (rel_oblivious hC ht rfl rfl rfl (rel_generatorSub hC ht hcr P hk) h levels out)

/-- **C91.** Creating the expanders. -/
theorem c91_create {ks : List Word.RKey} {Ks : List (Relin.RKey C)} (ht : Tables p C.w C.q C.l C.psi q)
    (hk : List.Forall₂ (HoldsGalois C p q) ks Ks) {k : Word.RKey} {K : Relin.RKey C} (hk' : HoldsGalois C p q k K) :
    SameOutcome (List.Forall₂ (HoldsGalois C p q)) (WordExpand.keysCreate q ks) (Expand.keysCreate Ks) ∧
    SameOutcome (HoldsGalois C p q) (WordExpand.generatorCreate k) (Expand.generatorCreate K) := by
  constructor
  · unfold WordExpand.keysCreate Expand.keysCreate
    have hn : q.numberCoeffs = C.n := ht.num
    rw [hn, rel_checkKeys hk]
    cases Expand.checkKeys C.n 0 Ks with
    | ok u => exact hk
    | err e => exact rfl
    | ub u => exact rfl
  · unfold WordExpand.generatorCreate Expand.generatorCreate
    rw [hk'.holds.power]
    split_ifs
    · exact rfl
    · exact hk'

/-- **C91.** `MakeCompressedVector` on words. -/
theorem c91_compressed (hC : Fit C p) (ht : Tables p C.w C.q C.l C.psi q) (total : ℤ) (indices : List ℤ) (L : ℤ) :
    SameOutcome (List.Forall₂ (Poly.Rep p C.q C.n)) (WordExpand.makeCompressedVector p q total indices L)
      (Expand.makeCompressedVector C total indices L) :=
  OutRel.same (rel_compressed hC ht total indices L)

/-! ## Estimates -/

/-- **C91.** The error estimates after expansion, for any words and lengths: output `i` has the estimate of input
`i / 2^L`, doubled at every level, plus what the key switches add. -/
theorem c91_estimate {E : Type} [Field E] (e : WordExpand.Env E) (sub : WordExpand.Sub E) {L : ℕ} {B : ℕ → E}
    (hB : ∀ j < L, ∀ x y, sub x ((e.q.numberCoeffs >>> j) + 1 : ℕ) = .ok y → y.error = x.error + B j)
    {cts rs : List (Obj E)} {out : ℤ} (hne : (cts.length : ℤ) ≠ out)
    (h : WordExpand.obliviousExpand e sub cts L out = .ok rs) :
    (rs.length : ℤ) = out ∧ ∀ i y, rs[i]? = some y →
      ∃ x, cts[i / 2 ^ L]? = some x ∧ y.error = expandEstimate B x.error L := by
  unfold WordExpand.obliviousExpand at h
  by_cases h0 : out < 0
  · rw [if_pos h0] at h; cases h
  rw [if_neg h0] at h
  by_cases h1 : (L : ℤ) < 0 ∨ (L : ℤ) ≥ 32
  · rw [if_pos h1] at h; cases h
  rw [if_neg h1, if_neg hne] at h
  dsimp only at h
  rw [Int.toNat_natCast] at h
  split_ifs at h
  obtain ⟨ps, hp, h⟩ := Outcome.bind_eq_ok.mp h
  have hf : List.Forall₂ (fun x y => List.length y = 2 ^ L ∧ ∀ z ∈ y, z.error = expandEstimate B x.error L) cts ps :=
    (mapM_inv hp).imp fun x y hxy => expand_estimate hB hxy
  obtain ⟨hl, hb⟩ := flatten_blocks hf
  by_cases h3 : (ps.flatten.length : ℤ) > out
  · rw [if_pos h3] at h
    cases h
    refine ⟨by rw [List.length_take]; omega, fun i y hy => hb i y ?_⟩
    rw [List.getElem?_take] at hy
    split_ifs at hy
    exact hy
  · rw [if_neg h3] at h
    by_cases h4 : (ps.flatten.length : ℤ) < out
    · rw [if_pos h4] at h; cases h
    · rw [if_neg h4] at h
      cases h
      exact ⟨by omega, hb⟩

/-- The closed form for key switches that all add `B`. -/
theorem expandEstimate_const {E : Type} [Field E] (B e : E) (L : ℕ) :
    expandEstimate (fun _ => B) e L = 2 ^ L * e + (2 ^ L - 1) * B := by
  induction L with
  | zero => simp [expandEstimate]
  | succ L ih => unfold expandEstimate; rw [ih]; ring

/-- **C91.** With keys of one base, all key switches add the same. -/
theorem c91_estimate_keys {E : Type} [Field E] (e : WordExpand.Env E) {bR : ℕ → ℕ → Outcome E} {b B : E} {ks : List Word.RKey}
    (hk : ∀ k ∈ ks, bR k.parts.length k.logDecomp = .ok B) {L : ℕ} {cts rs : List (Obj E)} {out : ℤ}
    (hne : (cts.length : ℤ) ≠ out)
    (h : WordExpand.obliviousExpand e (WordExpand.keysSub e.q bR ks) cts L out = .ok rs) (hb : ∀ x ∈ cts, x.error = b) :
    (rs.length : ℤ) = out ∧ ∀ y ∈ rs, y.error = 2 ^ L * b + (2 ^ L - 1) * B := by
  obtain ⟨h1, h2⟩ := c91_estimate e _ (B := fun _ => B) (fun j _ x y hxy => by
    unfold WordExpand.keysSub at hxy
    obtain ⟨s, s1, hxy⟩ := Outcome.bind_eq_ok.mp hxy
    cases hi : Expand.keyIndex e.q.numberCoeffs ((e.q.numberCoeffs >>> j) + 1 : ℕ) ks.length with
    | none => rw [hi] at hxy; cases hxy
    | some i =>
      rw [hi] at hxy
      obtain ⟨k, k1, hxy⟩ := Outcome.bind_eq_ok.mp hxy
      obtain ⟨v, v1, v2⟩ := galois_error hxy
      rw [hk k (List.mem_of_getElem? (rd_inv k1))] at v1
      cases v1
      rw [v2, substitute_error s1]) hne h
  refine ⟨h1, fun y hy => ?_⟩
  obtain ⟨i, hi, rfl⟩ := List.mem_iff_getElem.mp hy
  obtain ⟨x, x1, x2⟩ := h2 i _ (List.getElem?_eq_getElem hi)
  rw [x2, hb x (List.mem_of_getElem? x1), expandEstimate_const]

/-- **C91.** With the key for the generator, level `j` adds the estimate of one key switch per application. -/
theorem c91_estimate_generator {E : Type} [Field E] (e : WordExpand.Env E) {bR : ℕ → ℕ → Outcome E} {B : E}
    {k : Word.RKey} (hk : bR k.parts.length k.logDecomp = .ok B) {L : ℕ} {m : ℕ → ℕ}
    (hm : ∀ j < L, numSubstitutions e.q.numberCoeffs ((e.q.numberCoeffs >>> j) + 1 : ℕ) = .ok (m j))
    {cts rs : List (Obj E)} {out : ℤ} (hne : (cts.length : ℤ) ≠ out)
    (h : WordExpand.obliviousExpand e (WordExpand.generatorSub e.q bR k) cts L out = .ok rs) :
    (rs.length : ℤ) = out ∧ ∀ i y, rs[i]? = some y →
      ∃ x, cts[i / 2 ^ L]? = some x ∧ y.error = expandEstimate (fun j => m j * B) x.error L :=
  c91_estimate e _ (fun j hj x y hxy => by
    unfold WordExpand.generatorSub at hxy
    obtain ⟨_, -, hxy⟩ := Outcome.bind_eq_ok.mp hxy
    rw [hm j hj, Outcome.bind_ok] at hxy
    have := loop_inv (fun i (y : Obj E) => y.error = x.error + i * B) (by simp) (fun i y z _ hy h => by
      obtain ⟨s, s1, h⟩ := Outcome.bind_eq_ok.mp h
      obtain ⟨v, v1, v2⟩ := galois_error h
      rw [hk] at v1
      cases v1
      rw [v2, substitute_error s1, hy]
      push_cast
      ring) hxy
    exact this) hne h

/-! ## Queries, end to end -/

/-- A fresh ciphertext as an object. -/
def asObj (x : Word.Ct) : Obj ℝ := ⟨x.c, x.power, x.error, []⟩

/-- The encryption of a query polynomial times the normalizer (see oblivious_expand.h:60-75, 140-157):
`plaintext.MulInPlace(ImportInt(normalizer))` and `Encrypt`. -/
def Encrypts (G : Gen τ) (fuel bEnc : ℕ) (k : Word.Key) (p : MParams) (nrm : ℕ) (m : List ℕ) (x : Word.Ct) : Prop :=
  ∃ t t', Word.encrypt G fuel k (Poly.mulScalarInPlace p m (Mont.importInt p nrm)).1 bEnc t = .ok (x, t')

/-- What the words of an expanded query hold, for an expander whose substitutions add noise at most `D`. -/
theorem word_onehot_noisy (G : Gen σ) (G' : Gen τ) (hG' : Words G') {w N : ℕ} (h : create w N = .ok p)
    (hp : N.Prime) {l : ℕ} (hq : initNtt p l = .ok q) {psi : ZMod N} (hC : Fit ⟨w, N, l, psi⟩ p)
    (tb : Tables p w N l psi q) {variance logT : ℕ} {s s' : σ} {k : Word.Key}
    (hk : Word.Key.sample G p q l variance logT s = .ok (k, s')) (hT0 : 0 < logT) (hT64 : logT < 64)
    (hT : 2 ^ logT + 1 < N) (hvar : 2 * variance ≤ N) {total : ℕ} (ht : 0 < total) {indices : List ℤ}
    (hidx : ∀ x ∈ indices, 0 ≤ x ∧ x < total) {L : ℕ} (hL : L ≤ l) (h31 : total + 2 ^ L ≤ 2 ^ 31)
    (hne : 2 ≤ total ∨ L = 0) {D : ℕ} (P : ErrorParams) {sub : WordExpand.Sub ℝ} {Sb : Expand.Sub ⟨w, N, l, psi⟩}
    (hs : SubRel ⟨w, N, l, psi⟩ p sub Sb)
    (hsub : ∀ j < L, SubOk (C := ⟨w, N, l, psi⟩) (fun i => res p N (k.key.getD i 0)) (2 ^ logT + 1) D Sb
      ((2 ^ l >>> j) + 1)) {fuel bEnc : ℕ} :
    ∃ ms nrm, WordExpand.makeCompressedVector p q total indices L = .ok ms ∧ computeNormalizer L logT = .ok nrm ∧
      ∀ cts, List.Forall₂ (Encrypts G' fuel bEnc k p nrm) ms cts →
      ∃ rs, WordExpand.obliviousExpand ⟨p, q, P.bPlaintext (2 ^ l)⟩ sub (cts.map asObj) L total = .ok rs ∧
        rs.length = total ∧ ∀ (i : ℕ) (y : Obj ℝ), rs[i]? = some y → ∃ Y : Ct ⟨w, N, l, psi⟩,
          Bears ⟨w, N, l, psi⟩ p y Y ∧ Y.c.length = 2 ∧ Y.power = 1 ∧ ∃ ψ : Fin (2 ^ l) → ℤ,
            Noisy (C := ⟨w, N, l, psi⟩) (fun i => res p N (k.key.getD i 0)) Y ψ ∧
            (∀ c, |ψ c| ≤ (2 ^ L * (2 ^ logT + (2 ^ logT + 1) * (2 * variance)) + (2 ^ L - 1) * D : ℕ)) ∧
            ∀ c, ψ c % (2 ^ logT + 1) = if (c : ℕ) = 0 ∧ (i : ℤ) ∈ indices then 1 else 0 := by
  have gd := good_of_create h
  haveI : NeZero N := ⟨hp.ne_zero⟩
  obtain ⟨k1, k2, k3, k4, k5, k6, k7, k8⟩ := sample_word G h hp hq hk hT
  let C : Ctx := ⟨w, N, l, psi⟩
  obtain ⟨msR, m1, m2, m3⟩ := c31_compressed C hC.ok.l15 total ht indices L hL hidx
  obtain ⟨nrm, n1, n2, -⟩ := c31_normalizer L logT hT0 hT64
  have hrel := rel_compressed (C := C) hC tb total indices L
  rw [m1] at hrel
  generalize hms : WordExpand.makeCompressedVector p q total indices L = O at hrel
  cases hrel with
  | @ok ms _ hrep =>
  refine ⟨ms, nrm, rfl, n1, fun cts hcts => ?_⟩
  have hlen : ms.length = msR.length := by rw [hrep.length_eq, List.length_map]
  have hfresh : ∀ i : Fin cts.length, ∃ (X : List C.Poly) (e : Fin C.n → ℤ),
      Bears C p (asObj cts[i]) ⟨X, 1, []⟩ ∧ X.length = 2 ∧ (∀ c, |e c| ≤ (2 * variance : ℕ)) ∧
      Noisy (C := C) (fun i => res p N (k.key.getD i 0)) ⟨X, 1, []⟩ (fun c => nrm *
        (if (c : ℕ) < 2 ^ L ∧ (((i : ℕ) * 2 ^ L + c : ℕ) : ℤ) ∈ indices then 1 else 0) + (2 ^ logT + 1) * e c) := by
    intro i
    have hi := i.2
    have hi1 : (i : ℕ) < ms.length := by rw [hcts.length_eq]; exact hi
    have hi2 : (i : ℕ) < msR.length := by omega
    obtain ⟨t, t', hx⟩ := (List.forall₂_iff_get.mp hcts).2 i hi1 hi
    have hr : Poly.Rep p N (2 ^ l) ms[(i : ℕ)] (C.toNtt msR[(i : ℕ)]) := by
      have := (List.forall₂_iff_get.mp hrep).2 i hi1 (by rw [List.length_map]; exact hi2)
      simpa using this
    have hlt := gd.lt
    have hnw : nrm < 2 ^ w := by omega
    have hil : Mont.importInt p nrm < N := importInt_lt gd _ hnw
    obtain ⟨v, v1, v2⟩ := hr.mulScalar gd hil.le
    rw [res_import gd hnw] at v2
    simp only [List.get_eq_getElem] at hx
    rw [v1] at hx
    let m : Fin (2 ^ l) → ℕ := fun c =>
      nrm * (if (c : ℕ) < 2 ^ L ∧ (((i : ℕ) * 2 ^ L + c : ℕ) : ℤ) ∈ indices then 1 else 0)
    have hco : HasCoeffs p q N (2 ^ l) v fun c => (m c : ZMod N) := by
      rw [hasCoeffs_iff gd hp tb v2]
      have e1 : (fun c => (m c : ZMod N)) = scalarMul (nrm : ZMod N) msR[(i : ℕ)] := by
        funext c
        unfold scalarMul
        rw [m3 i hi2 c]
        simp only [m]
        push_cast
        split_ifs <;> rfl
      rw [e1]
      exact toNtt_smul (C := C) _ _
    obtain ⟨X, e, e1, e2, e3, e4, e5⟩ := fresh_word G' hG' h hp tb k k1 k2 k6 (by rw [k4]; exact hvar) k7 k8 m
      v2.valid hco hx
    have hpw : (cts[(i : ℕ)]).power = 1 := e3
    refine ⟨X, e, ⟨e1, hpw, rfl, .nil⟩, ?_, fun c => ?_, ?_⟩
    · rw [← e1.length_eq]
      exact encrypt_length hx
    · have := e4 c
      rw [k4] at this
      push_cast
      exact this
    · have : (fun c => (m c : ℤ) + ((2 ^ logT + 1 : ℕ) : ℤ) * e c) = fun c : Fin C.n => (nrm : ℤ) *
          (if (c : ℕ) < 2 ^ L ∧ (((i : ℕ) * 2 ^ L + c : ℕ) : ℤ) ∈ indices then 1 else 0) + (2 ^ logT + 1) * e c := by
        funext c
        simp only [m]
        push_cast
        rfl
      rw [this] at e5
      exact e5
  choose X e x1 x2 x3 x4 using hfresh
  let Cts : List (Ct C) := List.ofFn fun i => ⟨X i, 1, []⟩
  let E : ℕ → Fin C.n → ℤ := fun i => if hi : i < cts.length then e ⟨i, hi⟩ else 0
  have hCl : Cts.length = cts.length := by simp [Cts]
  have hbears : List.Forall₂ (Bears C p) (cts.map asObj) Cts := by
    rw [List.forall₂_iff_get]
    refine ⟨by rw [List.length_map, hCl], fun i h1 h2 => ?_⟩
    rw [List.length_map] at h1
    have := x1 ⟨i, h1⟩
    simpa [Cts] using this
  obtain ⟨rs, r1, r2, r3⟩ := onehot_core (C := C) hC.ok hT0 hT64 (Int.natCast_nonneg D) ht indices hL h31 hne hsub n1
    (cts := Cts) (by rw [hCl, ← hcts.length_eq, hlen, m2]) E (Be := (2 * variance : ℕ))
    (fun u hu c => by
      rw [hCl] at hu
      simp only [E, dif_pos hu]
      exact x3 ⟨u, hu⟩ c)
    (fun i hi => by
      have hi' : i < cts.length := by rw [← hCl]; exact hi
      have hci : Cts[i] = ⟨X ⟨i, hi'⟩, 1, []⟩ := by simp [Cts]
      rw [hci]
      refine ⟨x2 ⟨i, hi'⟩, rfl, _, x4 ⟨i, hi'⟩, fun c => ?_⟩
      simp only [E, dif_pos hi']
      simp)
  have hob := rel_oblivious (C := C) hC tb (P := P) (e := ⟨p, q, P.bPlaintext (2 ^ l)⟩) rfl rfl rfl hs hbears L total
  rw [r1] at hob
  generalize hO : WordExpand.obliviousExpand ⟨p, q, P.bPlaintext (2 ^ l)⟩ sub (cts.map asObj) L total = O at hob
  cases hob with
  | @ok rw' _ hrs =>
  refine ⟨rw', rfl, by rw [hrs.length_eq, r2], fun i y hy => ?_⟩
  obtain ⟨hi, rfl⟩ := List.getElem?_eq_some_iff.mp hy
  have hi' : i < rs.length := by rw [← hrs.length_eq]; exact hi
  have hb : Bears C p rw'[i] rs[i] := by
    have := (List.forall₂_iff_get.mp hrs).2 i hi hi'
    simpa using this
  obtain ⟨q1, q2, ψ, q3, q4, q5⟩ := r3 i hi'
  refine ⟨rs[i], hb, q1, q2, ψ, q3, fun c => ?_, q5⟩
  have h2 : ((2 ^ L - 1 : ℕ) : ℤ) = 2 ^ L - 1 := by rw [Nat.cast_sub Nat.one_le_two_pow]; push_cast; rfl
  have := q4 c
  rw [Nat.cast_add (2 ^ L * _), Nat.cast_mul (2 ^ L - 1), h2]
  push_cast at this ⊢
  exact this

/-- The core of the two end-to-end theorems, for an expander whose substitutions add noise at most `D`. -/
theorem word_onehot (G : Gen σ) (G' : Gen τ) (hG' : Words G') {w N : ℕ} (h : create w N = .ok p)
    (hp : N.Prime) {l : ℕ} (hq : initNtt p l = .ok q) {psi : ZMod N} (hC : Fit ⟨w, N, l, psi⟩ p)
    (tb : Tables p w N l psi q) {variance logT : ℕ} {s s' : σ} {k : Word.Key}
    (hk : Word.Key.sample G p q l variance logT s = .ok (k, s')) (hT0 : 0 < logT) (hT64 : logT < 64)
    (hT : 2 ^ logT + 1 < N) (hvar : 2 * variance ≤ N) {total : ℕ} (ht : 0 < total) {indices : List ℤ}
    (hidx : ∀ x ∈ indices, 0 ≤ x ∧ x < total) {L : ℕ} (hL : L ≤ l) (h31 : total + 2 ^ L ≤ 2 ^ 31)
    (hne : 2 ≤ total ∨ L = 0) {D : ℕ} (P : ErrorParams) {sub : WordExpand.Sub ℝ} {Sb : Expand.Sub ⟨w, N, l, psi⟩}
    (hs : SubRel ⟨w, N, l, psi⟩ p sub Sb)
    (hsub : ∀ j < L, SubOk (C := ⟨w, N, l, psi⟩) (fun i => res p N (k.key.getD i 0)) (2 ^ logT + 1) D Sb
      ((2 ^ l >>> j) + 1))
    (hnoise : 2 * (2 ^ L * (2 ^ logT + (2 ^ logT + 1) * (2 * variance)) + (2 ^ L - 1) * D) < N) {fuel bEnc : ℕ} :
    ∃ ms nrm, WordExpand.makeCompressedVector p q total indices L = .ok ms ∧ computeNormalizer L logT = .ok nrm ∧
      ∀ cts, List.Forall₂ (Encrypts G' fuel bEnc k p nrm) ms cts →
      ∃ rs, WordExpand.obliviousExpand ⟨p, q, P.bPlaintext (2 ^ l)⟩ sub (cts.map asObj) L total = .ok rs ∧
        rs.length = total ∧ ∀ (i : ℕ) (y : Obj ℝ), rs[i]? = some y → y.c.length = 2 ∧ y.power = 1 ∧
          Word.decrypt k ⟨y.c, y.power, bEnc⟩ =
            .ok (List.ofFn fun c : Fin (2 ^ l) => if (c : ℕ) = 0 ∧ (i : ℤ) ∈ indices then 1 else 0) := by
  have gd := good_of_create h
  haveI : NeZero N := ⟨hp.ne_zero⟩
  obtain ⟨k1, k2, k3, k4, k5, k6, k7, k8⟩ := sample_word G h hp hq hk hT
  obtain ⟨ms, nrm, m1, m2, m3⟩ := word_onehot_noisy G G' hG' h hp hq hC tb hk hT0 hT64 hT hvar ht hidx hL h31 hne P hs
    hsub (fuel := fuel) (bEnc := bEnc)
  refine ⟨ms, nrm, m1, m2, fun cts hcts => ?_⟩
  obtain ⟨rs, r1, r2, r3⟩ := m3 cts hcts
  refine ⟨rs, r1, r2, fun i y hy => ?_⟩
  obtain ⟨Y, hb, q1, q2, ψ, q3, q4, q5⟩ := r3 i y hy
  refine ⟨by rw [hb.c.length_eq]; exact q1, by rw [hb.power]; exact q2, ?_⟩
  have hS := k6.rep (p := p)
  rw [Word.decrypt_word gd hp tb k k1 k2 hS (T := 2 ^ logT + 1) (by rw [k3, k8]) (Nat.succ_pos _) hT.le
    ⟨y.c, y.power, bEnc⟩ hb.c]
  congr 2
  funext c
  have hph : ntt psi l (modq N ψ) = phase (fun i : Fin (2 ^ l) => res p N (k.key.getD i 0)) Y.c := q3
  show (centered N (intt psi l (phase (fun i : Fin (2 ^ l) => res p N (k.key.getD i 0)) Y.c) c) % ((2 ^ logT + 1 : ℕ) : ℤ)).toNat = _
  rw [← hph, intt_ntt hp gd.odd tb.root (by have := tb.l15; omega)]
  show (centered N ((ψ c : ℤ) : ZMod N) % ((2 ^ logT + 1 : ℕ) : ℤ)).toNat = _
  have hle : 2 * |ψ c| < (N : ℤ) := lt_of_le_of_lt (mul_le_mul_of_nonneg_left (q4 c) (by norm_num)) (by exact_mod_cast hnoise)
  have hle2 := abs_lt.mp (show |ψ c| < |ψ c| + 1 by omega)
  rw [centered_eq N _ (by omega) (by omega)]
  have := q5 c
  push_cast
  rw [this]
  split_ifs <;> rfl

/-- A Galois key on words, made for a sampled key, holds one over residues. -/
theorem galois_holds (G : Gen σ) (R : Word.Rng ρ) (hR : ∀ t, Words (R.gen t)) {w N : ℕ}
    (h : create w N = .ok p) (hw : w ≤ 128) (hp : N.Prime) {l : ℕ} (hq : initNtt p l = .ok q) {psi : ZMod N}
    (hC : Fit ⟨w, N, l, psi⟩ p) (tb : Tables p w N l psi q) {variance logT : ℕ} {s s' : σ} {k : Word.Key}
    (hk : Word.Key.sample G p q l variance logT s = .ok (k, s')) (hT : 2 ^ logT + 1 < N) (hvar : 2 * variance ≤ N)
    {K : Sym.Key ⟨w, N, l, psi⟩} (hK : HoldsKey ⟨w, N, l, psi⟩ p q k K) (hKv : K.variance = variance)
    (htm : plaintextModulus w K.logT = .ok (2 ^ logT + 1)) {fuel : ℕ} {prng : PrngType} {pw bd : ℕ} (hbd : bd < 31)
    {seed seedE : List ℕ} {gk : Word.RKey} (hgk : Word.galoisCreate R fuel k prng pw bd seed seedE = .ok gk) :
    ∃ GK : Relin.RKey ⟨w, N, l, psi⟩, HoldsGalois ⟨w, N, l, psi⟩ p q gk GK ∧ GK.power = pw ∧ 0 < bd ∧
      GaloisFor K bd (2 * variance : ℕ) pw GK := by
  obtain ⟨k1, k2, k3, k4, k5, k6, k7, k8⟩ := sample_word G h hp hq hk hT
  obtain ⟨pads, E, RK, e1, e2, e3⟩ := c74_create (C := ⟨w, N, l, psi⟩) hC tb hw R hR h hK (by rw [k4]; exact hvar) htm
    hgk
  obtain ⟨f1, f2, f3⟩ := create_fields e2
  obtain ⟨d1, d2, d3, d4, d5, d6⟩ := (c28_create (C := ⟨w, N, l, psi⟩) hC.ok hw K htm _ _ _ _ _).mp ⟨RK, e2⟩
  obtain ⟨l1, l2, l3⟩ := ctx_logModulus (C := ⟨w, N, l, psi⟩) hC.ok hw
  refine ⟨RK, ⟨e3, by rw [f3]; omega, by rw [f3]; exact d4, by rw [f3]; exact hbd⟩, f1, d4, hbd, prng, pads, E,
    fun u j i => ?_, e2⟩
  rw [← hKv]
  push_cast
  exact e1 u j i

theorem subOk_weaken {s : C.Poly} {t D D' : ℤ} {sub : Expand.Sub C} {pw : ℕ} (h : SubOk s t D sub pw) (hD : D ≤ D') :
    SubOk s t D' sub pw := by
  intro x f b hb hx
  obtain ⟨r, r1, r2⟩ := h x f b hb hx
  exact ⟨r, r1, tracks_weaken r2 (by omega)⟩

theorem galoisNoise_eq {w N l : ℕ} {psi : ZMod N} (logT d bd B : ℕ) :
    galoisNoise ⟨w, N, l, psi⟩ (2 ^ logT + 1) d bd (B : ℕ) =
      ((switchNoise (2 ^ l) (2 ^ logT + 1) 1 d bd B : ℕ) : ℤ) := by
  unfold galoisNoise switchNoise
  have h2 : ((2 ^ bd - 1 : ℕ) : ℤ) = 2 ^ bd - 1 := by rw [Nat.cast_sub Nat.one_le_two_pow]; push_cast; rfl
  rw [abs_of_pos (by positivity), one_mul, Nat.cast_mul, Nat.cast_mul d, Nat.cast_mul (2 ^ l * _), Nat.cast_mul (2 ^ l),
    h2]
  push_cast
  rfl

/-- The substitutions of an expander with keys created for a sampled secret key. -/
theorem keys_sub (G : Gen σ) (R : Word.Rng ρ) (hR : ∀ t, Words (R.gen t)) {w N : ℕ} (h : create w N = .ok p)
    (hw : w ≤ 128) (hp : N.Prime) {l : ℕ} (hq : initNtt p l = .ok q) {psi : ZMod N} (hC : Fit ⟨w, N, l, psi⟩ p)
    (tb : Tables p w N l psi q) {variance logT : ℕ} {s s' : σ} {k : Word.Key}
    (hk : Word.Key.sample G p q l variance logT s = .ok (k, s')) (hT : 2 ^ logT + 1 < N) (hvar : 2 * variance ≤ N)
    (P : ErrorParams) {fuel bd : ℕ} (hbd : bd < 31) {gk : List Word.RKey}
    (hgk : ∀ i (hi : i < gk.length), ∃ prng seed seedE,
      Word.galoisCreate R fuel k prng ((2 ^ l >>> i) + 1 : ℕ) bd seed seedE = .ok gk[i]) {L : ℕ} (hL : L ≤ l)
    (hLk : L ≤ gk.length) :
    WordExpand.keysCreate q gk = .ok gk ∧
    ∃ Sb : Expand.Sub ⟨w, N, l, psi⟩,
      SubRel ⟨w, N, l, psi⟩ p (WordExpand.keysSub q (P.bRelinearize (2 ^ l)) gk) Sb ∧
      ∀ j < L, SubOk (C := ⟨w, N, l, psi⟩) (fun i => res p N (k.key.getD i 0)) (2 ^ logT + 1)
        (switchNoise (2 ^ l) (2 ^ logT + 1) 1 ((p.logModulus + (bd - 1)) / bd) bd (2 * variance) : ℕ) Sb
        ((2 ^ l >>> j) + 1) := by
  let C : Ctx := ⟨w, N, l, psi⟩
  obtain ⟨K, hK, hkey, hKv, htm, hTz, -⟩ := sampled_holds G h hp hq hC hk hT
  have hlog : p.logModulus = C.logModulus := logModulus_of_create h
  have hgal : ∀ i : Fin gk.length, ∃ GK : Relin.RKey C, HoldsGalois C p q gk[i] GK ∧ GK.power = ((2 ^ l >>> (i : ℕ)) + 1 : ℕ) ∧
      0 < bd ∧ GaloisFor K bd (2 * variance : ℕ) ((2 ^ l >>> (i : ℕ)) + 1) GK := by
    intro i
    obtain ⟨prng, seed, seedE, hg⟩ := hgk i i.2
    exact galois_holds G R hR h hw hp hq hC tb hk hT hvar hK hKv htm hbd hg
  choose GK g1 g2 g3 g4 using hgal
  let Ks : List (Relin.RKey C) := List.ofFn GK
  have hKl : Ks.length = gk.length := by simp [Ks]
  have hholds : List.Forall₂ (HoldsGalois C p q) gk Ks := by
    rw [List.forall₂_iff_get]
    refine ⟨hKl.symm, fun i h1 h2 => ?_⟩
    have := g1 ⟨i, h1⟩
    simpa [Ks] using this
  constructor
  · unfold WordExpand.keysCreate
    have : ∀ (m : ℕ) (ks : List Word.RKey), (∀ i (hi : i < ks.length), ks[i].power = ((q.numberCoeffs >>> (m + i)) + 1 : ℕ)) →
        WordExpand.checkKeys q.numberCoeffs m ks = .ok () := by
      intro m ks
      induction ks generalizing m with
      | nil => exact fun _ => rfl
      | cons k ks ih =>
        intro hks
        unfold WordExpand.checkKeys
        rw [if_neg (by have := hks 0 (by simp); simpa using this)]
        exact ih (m + 1) fun i hi => by
          have := hks (i + 1) (by simpa using hi)
          rw [show m + 1 + i = m + (i + 1) by omega]
          simpa using this
    rw [this 0 gk fun i hi => by
      have h1 := (g1 ⟨i, hi⟩).holds.power
      have h2 := g2 ⟨i, hi⟩
      rw [h2] at h1
      rw [Nat.zero_add, tb.num]
      exact h1]
    rfl
  · refine ⟨_, rel_keysSub (C := C) hC tb h P hholds, fun j hj => ?_⟩
    have hb0 : 0 < bd := g3 ⟨0, by omega⟩
    have := c31_keys_sub (C := C) hC.ok hw K htm (t := 2 ^ logT + 1) (by rw [hTz]; push_cast; rfl)
      (d := (C.logModulus + (bd - 1)) / bd) (bd := bd) (by unfold Gadget.gadgetSize; rw [if_neg (by omega)])
      (B := (2 * variance : ℕ)) (Int.natCast_nonneg _) Ks (fun i hi => by
        have hi' : i < gk.length := by omega
        have := g4 ⟨i, hi'⟩
        have e : Ks[i] = GK ⟨i, hi'⟩ := by simp [Ks]
        rw [e]
        exact this) j (by omega) (by show j < l; omega)
    rw [hkey] at this
    rw [hlog, ← galoisNoise_eq (w := w) (psi := psi)]
    exact this

/-- **C91, end to end.** For every word, prime modulus and ring degree for which the parameters can be created, all
generators, every sampled secret key, Galois keys created for the powers `n / 2^i + 1`, and all sizes and sets of indices: the
query is built, and if it is multiplied by the normalizer and encrypted with any randomness, then `ObliviousExpand` on
the stored words returns `total` ciphertexts of which the ones at the indices decrypt to 1 and all others to 0, if the
noise bound is below half the modulus.  Missing for the full property: queries of a single entry with `L > 0`, for
which nothing is expanded (`c31_single_entry_witness`). -/
theorem c91_onehot_keys_partial (G : Gen σ) (G' : Gen τ) (hG' : Words G') (R : Word.Rng ρ) (hR : ∀ t, Words (R.gen t))
    {w N : ℕ} (h : create w N = .ok p) (hw : w ≤ 128) (hp : N.Prime) {l : ℕ} (hq : initNtt p l = .ok q)
    {variance logT : ℕ} {s s' : σ} {k : Word.Key} (hk : Word.Key.sample G p q l variance logT s = .ok (k, s'))
    (hT0 : 0 < logT) (hT64 : logT < 64) (hT : 2 ^ logT + 1 < N) (hvar : 2 * variance ≤ N) {total : ℕ} (ht : 0 < total)
    {indices : List ℤ} (hidx : ∀ x ∈ indices, 0 ≤ x ∧ x < total) {L : ℕ} (hL : L ≤ l) (h31 : total + 2 ^ L ≤ 2 ^ 31)
    (hne : 2 ≤ total ∨ L = 0) (P : ErrorParams) {fuel bd : ℕ} (hbd : bd < 31) {gk : List Word.RKey} (hLk : L ≤ gk.length)
    (hgk : ∀ i (hi : i < gk.length), ∃ prng seed seedE,
      Word.galoisCreate R fuel k prng ((2 ^ l >>> i) + 1 : ℕ) bd seed seedE = .ok gk[i])
    (hnoise : 2 * (2 ^ L * (2 ^ logT + (2 ^ logT + 1) * (2 * variance)) + (2 ^ L - 1) *
      switchNoise (2 ^ l) (2 ^ logT + 1) 1 ((p.logModulus + (bd - 1)) / bd) bd (2 * variance)) < N) {bEnc : ℕ} :
    WordExpand.keysCreate q gk = .ok gk ∧
    ∃ ms nrm, WordExpand.makeCompressedVector p q total indices L = .ok ms ∧ computeNormalizer L logT = .ok nrm ∧
      ∀ cts, List.Forall₂ (Encrypts G' fuel bEnc k p nrm) ms cts →
      ∃ rs, WordExpand.obliviousExpand ⟨p, q, P.bPlaintext (2 ^ l)⟩ (WordExpand.keysSub q (P.bRelinearize (2 ^ l)) gk)
          (cts.map asObj) L total = .ok rs ∧
        rs.length = total ∧ ∀ (i : ℕ) (y : Obj ℝ), rs[i]? = some y → y.c.length = 2 ∧ y.power = 1 ∧
          Word.decrypt k ⟨y.c, y.power, bEnc⟩ =
            .ok (List.ofFn fun c : Fin (2 ^ l) => if (c : ℕ) = 0 ∧ (i : ℤ) ∈ indices then 1 else 0) := by
  obtain ⟨psi, hC, tb⟩ := fit_of_create h hw hp hq
  obtain ⟨k1, Sb, k2, k3⟩ := keys_sub G R hR h hw hp hq hC tb hk hT hvar P hbd hgk hL hLk
  exact ⟨k1, word_onehot G G' hG' h hp hq hC tb hk hT0 hT64 hT hvar ht hidx hL h31 hne P k2 k3 hnoise⟩

/-- The number of applications of the generator is below a quarter of the group order. -/
theorem numSubstitutions_lt {l : ℕ} (hl : l ≤ 15) {pw : ℤ} {m : ℕ} (h : numSubstitutions (2 ^ l) pw = .ok m) :
    m < 2 ^ (l - 1) := by
  obtain ⟨a, a1, a2, rfl⟩ := (c32_accepts l hl pw).mp ⟨m, h⟩
  obtain ⟨h1, h2⟩ := c32_smallest l _ h
  obtain ⟨N, rfl⟩ : ∃ N, l = N + 1 := ⟨l - 1, by omega⟩
  obtain ⟨b, hb, e⟩ := five_gen N (2 ^ a + 1) (by
    obtain ⟨c, rfl⟩ : ∃ c, a = c + 2 := ⟨a - 2, by omega⟩
    rw [pow_add]; omega)
  by_contra hc
  rw [Nat.add_sub_cancel] at hc
  refine h2 b (by omega) ?_
  have hlt : 2 ^ a + 1 < 2 ^ (N + 2) := by
    have : 2 ^ a ≤ 2 ^ (N + 1) := Nat.pow_le_pow_right (by norm_num) a2
    have h4 : 2 ^ 2 ≤ 2 ^ a := Nat.pow_le_pow_right (by norm_num) a1
    rw [pow_succ 2 (N + 1)]
    omega
  rw [show N + 1 + 1 = N + 2 from rfl, e, Nat.mod_eq_of_lt hlt]
  push_cast
  rfl

/-- The substitutions of an expander with a key for the generator. -/
theorem generator_sub (G : Gen σ) (R : Word.Rng ρ) (hR : ∀ t, Words (R.gen t)) {w N : ℕ} (h : create w N = .ok p)
    (hw : w ≤ 128) (hp : N.Prime) {l : ℕ} (hq : initNtt p l = .ok q) {psi : ZMod N} (hC : Fit ⟨w, N, l, psi⟩ p)
    (tb : Tables p w N l psi q) {variance logT : ℕ} {s s' : σ} {k : Word.Key}
    (hk : Word.Key.sample G p q l variance logT s = .ok (k, s')) (hT : 2 ^ logT + 1 < N) (hvar : 2 * variance ≤ N)
    (P : ErrorParams) {fuel bd : ℕ} (hbd : bd < 31) {gk : Word.RKey} {prng : PrngType} {seed seedE : List ℕ}
    (hgk : Word.galoisCreate R fuel k prng 5 bd seed seedE = .ok gk) {L : ℕ} (hL : L + 1 ≤ l) :
    WordExpand.generatorCreate gk = .ok gk ∧
    ∃ Sb : Expand.Sub ⟨w, N, l, psi⟩,
      SubRel ⟨w, N, l, psi⟩ p (WordExpand.generatorSub q (P.bRelinearize (2 ^ l)) gk) Sb ∧
      ∀ j < L, SubOk (C := ⟨w, N, l, psi⟩) (fun i => res p N (k.key.getD i 0)) (2 ^ logT + 1)
        (2 ^ (l - 1) * switchNoise (2 ^ l) (2 ^ logT + 1) 1 ((p.logModulus + (bd - 1)) / bd) bd (2 * variance) : ℕ) Sb
        ((2 ^ l >>> j) + 1) := by
  let C : Ctx := ⟨w, N, l, psi⟩
  obtain ⟨K, hK, hkey, hKv, htm, hTz, -⟩ := sampled_holds G h hp hq hC hk hT
  have hlog : p.logModulus = C.logModulus := logModulus_of_create h
  obtain ⟨GK, g1, g2, g3, g4⟩ := galois_holds G R hR h hw hp hq hC tb hk hT hvar hK hKv htm (pw := 5) hbd
    (by exact_mod_cast hgk)
  constructor
  · unfold WordExpand.generatorCreate generator
    rw [g1.holds.power, g2, if_neg (by simp)]
  · refine ⟨_, rel_generatorSub (C := C) hC tb h P g1, fun j hj => ?_⟩
    have hd : Gadget.gadgetSize C.logModulus bd = .ok ((C.logModulus + (bd - 1)) / bd) := by
      unfold Gadget.gadgetSize; rw [if_neg (by omega)]
    obtain ⟨m, hm, hs⟩ := c32_generator_sub (C := C) hC.ok hw K htm (t := 2 ^ logT + 1) (by rw [hTz]; push_cast; rfl) hd
      (B := (2 * variance : ℕ)) (Int.natCast_nonneg _) GK g4 j (by show j + 2 ≤ l; omega)
    rw [hkey] at hs
    refine subOk_weaken hs ?_
    have hlt := numSubstitutions_lt hC.ok.l15 hm
    rw [hlog, Nat.cast_mul (2 ^ (l - 1)), ← galoisNoise_eq (w := w) (psi := psi)]
    refine mul_le_mul_of_nonneg_right ?_ (galoisNoise_nonneg _ _ _ (Int.natCast_nonneg _))
    have : m ≤ 2 ^ (l - 1) := hlt.le
    exact_mod_cast this

/-- **C91, end to end with a single key** for the generator 5: the same with at most `log2 n - 1` levels, as the
substitution of the last level is not a power of the generator (`c32_levels`). -/
theorem c91_onehot_generator_partial (G : Gen σ) (G' : Gen τ) (hG' : Words G') (R : Word.Rng ρ)
    (hR : ∀ t, Words (R.gen t)) {w N : ℕ} (h : create w N = .ok p) (hw : w ≤ 128) (hp : N.Prime) {l : ℕ}
    (hq : initNtt p l = .ok q)
    {variance logT : ℕ} {s s' : σ} {k : Word.Key} (hk : Word.Key.sample G p q l variance logT s = .ok (k, s'))
    (hT0 : 0 < logT) (hT64 : logT < 64) (hT : 2 ^ logT + 1 < N) (hvar : 2 * variance ≤ N) {total : ℕ} (ht : 0 < total)
    {indices : List ℤ} (hidx : ∀ x ∈ indices, 0 ≤ x ∧ x < total) {L : ℕ} (hL : L + 1 ≤ l) (h31 : total + 2 ^ L ≤ 2 ^ 31)
    (hne : 2 ≤ total ∨ L = 0) (P : ErrorParams) {fuel bd : ℕ} (hbd : bd < 31) {gk : Word.RKey} {prng : PrngType}
    {seed seedE : List ℕ} (hgk : Word.galoisCreate R fuel k prng 5 bd seed seedE = .ok gk)
    (hnoise : 2 * (2 ^ L * (2 ^ logT + (2 ^ logT + 1) * (2 * variance)) + (2 ^ L - 1) * (2 ^ (l - 1) *
      switchNoise (2 ^ l) (2 ^ logT + 1) 1 ((p.logModulus + (bd - 1)) / bd) bd (2 * variance))) < N) {bEnc : ℕ} :
    WordExpand.generatorCreate gk = .ok gk ∧
    ∃ ms nrm, WordExpand.makeCompressedVector p q total indices L = .ok ms ∧ computeNormalizer L logT = .ok nrm ∧
      ∀ cts, List.Forall₂ (Encrypts G' fuel bEnc k p nrm) ms cts →
      ∃ rs, WordExpand.obliviousExpand ⟨p, q, P.bPlaintext (2 ^ l)⟩
          (WordExpand.generatorSub q (P.bRelinearize (2 ^ l)) gk) (cts.map asObj) L total = .ok rs ∧
        rs.length = total ∧ ∀ (i : ℕ) (y : Obj ℝ), rs[i]? = some y → y.c.length = 2 ∧ y.power = 1 ∧
          Word.decrypt k ⟨y.c, y.power, bEnc⟩ =
            .ok (List.ofFn fun c : Fin (2 ^ l) => if (c : ℕ) = 0 ∧ (i : ℤ) ∈ indices then 1 else 0) := by
  obtain ⟨psi, hC, tb⟩ := fit_of_create h hw hp hq
  obtain ⟨k1, Sb, k2, k3⟩ := generator_sub G R hR h hw hp hq hC tb hk hT hvar P hbd hgk hL
  exact ⟨k1, word_onehot G G' hG' h hp hq hC tb hk hT0 hT64 hT hvar ht hidx (by omega) h31 hne P k2 k3 hnoise⟩

/-- A query for the entries 1 and 4 of 6 in the ring of degree 4 with modulus 12289, `t = 3`, variance 1 and base 2,
compressed by 4 with two Galois keys: everything succeeds, the noise bound is small enough, and the words decrypt to
the one-hot vectors. -/
example : (do
    let p ← create 16 12289
    let q ← initNtt p 2
    let (k, _) ← Word.Key.sample toyGen p q 2 1 1 77
    let g0 ← Word.galoisCreate toyRng 8 k .hkdf 5 1 [3] [4]
    let g1 ← Word.galoisCreate toyRng 8 k .chacha 3 1 [5] [6]
    let gk ← WordExpand.keysCreate q [g0, g1]
    let ms ← WordExpand.makeCompressedVector p q 6 [1, 4] 2
    let nrm ← computeNormalizer 2 1
    let cts ← ms.mapM fun m => Word.encrypt toyGen 8 k (Poly.mulScalarInPlace p m (Mont.importInt p nrm)).1 0 5
    let rs ← WordExpand.obliviousExpand ⟨p, q, (5 : ℚ)⟩ (WordExpand.keysSub q (fun c b => .ok (c * b)) gk)
      (cts.map fun x : Word.Ct × ℕ => ⟨x.1.c, x.1.power, x.1.error, []⟩) 2 6
    let ds ← rs.mapM fun y : Obj ℚ => Word.decrypt k ⟨y.c, y.power, 0⟩
    .ok (ds, decide (2 * (2 ^ 2 * (2 ^ 1 + (2 ^ 1 + 1) * (2 * 1)) + (2 ^ 2 - 1) *
      switchNoise (2 ^ 2) (2 ^ 1 + 1) 1 ((p.logModulus + (1 - 1)) / 1) 1 (2 * 1)) < 12289))) =
    .ok ([[0, 0, 0, 0], [1, 0, 0, 0], [0, 0, 0, 0], [0, 0, 0, 0], [1, 0, 0, 0], [0, 0, 0, 0]], true) := by
  decide +kernel

/-- The same query with the key for the generator and compression by 2; the estimate of all results is
`2 * 7 + (1 * 14)`, as one application of a key with one part of base 2 is estimated 14 here. -/
example : (do
    let p ← create 16 12289
    let q ← initNtt p 2
    let (k, _) ← Word.Key.sample toyGen p q 2 1 1 77
    let g ← Word.galoisCreate toyRng 8 k .hkdf 5 1 [3] [4]
    let gk ← WordExpand.generatorCreate g
    let ms ← WordExpand.makeCompressedVector p q 3 [1, 2] 1
    let nrm ← computeNormalizer 1 1
    let cts ← ms.mapM fun m => Word.encrypt toyGen 8 k (Poly.mulScalarInPlace p m (Mont.importInt p nrm)).1 7 5
    let rs ← WordExpand.obliviousExpand ⟨p, q, (5 : ℚ)⟩ (WordExpand.generatorSub q (fun c b => .ok (14 * c * b)) gk)
      (cts.map fun x : Word.Ct × ℕ => ⟨x.1.c, x.1.power, x.1.error, []⟩) 1 3
    let ds ← rs.mapM fun y : Obj ℚ => Word.decrypt k ⟨y.c, y.power, 0⟩
    .ok (ds, rs.map (fun y : Obj ℚ => y.error), decide (2 * (2 ^ 1 * (2 ^ 1 + (2 ^ 1 + 1) * (2 * 1)) + (2 ^ 1 - 1) * (2 ^ (2 - 1) *
      switchNoise (2 ^ 2) (2 ^ 1 + 1) 1 ((p.logModulus + (1 - 1)) / 1) 1 (2 * 1))) < 12289))) =
    .ok ([[0, 0, 0, 0], [1, 0, 0, 0], [1, 0, 0, 0]], [28, 28, 28], true) := by
  decide +kernel

end Shell
