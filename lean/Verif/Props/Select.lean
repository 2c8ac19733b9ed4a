import Verif.Lemmas.Select
import Verif.Props.Store
import Verif.Props.WordExpand
/-!
# Property C93: selecting entries of a database with an expanded query
-/

namespace Shell
open Spec Rns ErrorTrack Sym MParams WordCt WordExpand NttRing Ntt Expand
variable {ρ τ υ : Type} {p : MParams} {q : NttParams}

/-- Words that hold ciphertexts with noisy values `W` compute on the values `V` that are congruent to `W`. -/
theorem computesOn (G : Gen ρ) {w N : ℕ} (h : create w N = .ok p) (hp : N.Prime) {l : ℕ} (hq : initNtt p l = .ok q)
    {psi : ZMod N} (hC : Fit ⟨w, N, l, psi⟩ p) (tb : Tables p w N l psi q) {variance logT : ℕ} {s s' : ρ} {k : Word.Key}
    (hk : Word.Key.sample G p q l variance logT s = .ok (k, s')) (hT : 2 ^ logT + 1 < N) (P : ErrorParams)
    {σ : Fin (2 ^ l) → ℤ} (hσ : HoldsPoly p q N (2 ^ l) k.key σ) {rs : List (Obj ℝ)} {V W : ℕ → Fin (2 ^ l) → ℤ}
    (hrs : ∀ (i : ℕ) (y : Obj ℝ), rs[i]? = some y → y.lazy = [] ∧ ∃ Y : Ct ⟨w, N, l, psi⟩,
      Bears ⟨w, N, l, psi⟩ p y Y ∧ Y.c.length = 2 ∧ Y.power = 1 ∧
      Noisy (C := ⟨w, N, l, psi⟩) (fun i => res p N (k.key.getD i 0)) Y (W i))
    (hVW : ∀ i < rs.length, modq (2 ^ logT + 1) (V i) = modq (2 ^ logT + 1) (W i)) {fs : List (List ℕ)}
    {gs : List (Fin (2 ^ l) → ℤ)} (hfs : List.Forall₂ (HoldsPoly p q N (2 ^ l)) fs gs) :
    ComputesOn ⟨p, q, P.bPlaintext (2 ^ l)⟩ k N w (2 ^ logT + 1) σ fs gs rs V W := by
  have gd := good_of_create h
  haveI : NeZero N := ⟨hp.ne_zero⟩
  obtain ⟨k1, k2, k3, k4, k5, k6, k7, k8⟩ := sample_word G h hp hq hk hT
  let C : Ctx := ⟨w, N, l, psi⟩
  have hS := k6.rep (p := p)
  have hσ' : C.toNtt (modq N σ) = fun i : Fin (2 ^ l) => res p N (k.key.getD i 0) :=
    ((hasCoeffs_iff (psi := psi) gd hp tb hS).mp hσ.2)
  have hsec : Store.secret C σ 1 = fun i : Fin (2 ^ l) => res p N (k.key.getD i 0) := by
    show C.toNtt (modq N (substPow 1 σ)) = _
    rw [substPow_one, hσ']
  intro cs hcs
  have hcong : Store.Cong (2 ^ logT + 1) (⟨gs, bearing rs V⟩ : IdealMem (2 ^ l)) ⟨gs, bearing rs W⟩ := by
    refine ⟨rfl, List.forall₂_iff_get.mpr ⟨by simp [bearing], fun i h1 h2 => ?_⟩⟩
    simp only [bearing, List.get_eq_getElem, List.getElem_mapIdx]
    exact ⟨rfl, rfl, hVW i (by simpa [bearing] using h1), rfl, rfl, rfl⟩
  have hM : Store.MRel C p σ ⟨fs, rs⟩ ⟨gs, bearing rs W⟩ := by
    refine ⟨hfs.imp fun _ _ => (holdsPoly_iff hC tb).mp, List.forall₂_iff_get.mpr ⟨by simp [bearing], fun i h1 h2 => ?_⟩⟩
    simp only [bearing, List.get_eq_getElem, List.getElem_mapIdx]
    obtain ⟨a0, Y, a1, a2, a3, a4⟩ := hrs i _ (List.getElem?_eq_getElem h1)
    have hl : Y.lazy = [] := by
      have := a1.lazy.length_eq
      rw [a0] at this
      exact List.length_eq_zero_iff.mp this.symm
    refine ⟨⟨Y, rs[i].error⟩, a1, a2, a3, ?_, rfl, by rw [hl]; rfl, ?_, rfl, ?_⟩
    · show C.toNtt (modq N (W i)) = phase (Store.secret C σ 1) Y.c
      rw [hsec]
      exact a4
    · have h0 : modq C.q (0 : Fin C.n → ℤ) = 0 := by funext i; simp [modq]
      show C.toNtt (modq C.q 0) = phase _ Y.lazy
      rw [hl, phase_nil, h0, toNtt_zero]
    · show 1 < 2 * 2 ^ l; have := Nat.one_le_two_pow (n := l); omega
  obtain ⟨r1, r2, r3⟩ := Store.run_cong σ (P.bPlaintext (2 ^ l)) N w (cs := cs) hcong
  obtain ⟨f1, f2⟩ := Store.run_match hC tb P hM (r3 hcs)
  refine ⟨f1.trans r1.symm, fun a Y Z hY hZ hpow hb => ?_⟩
  obtain ⟨Z', z1, z2⟩ := Store.object_some r2.cts hY
  obtain rfl : Z' = Z := Option.some.inj (z1.symm.trans hZ)
  obtain ⟨hb0, hb'⟩ := List.getElem?_eq_some_iff.mp hZ
  have hlen := f2.cts.length_eq
  have ha : a < (Store.runAll ⟨p, q, P.bPlaintext (2 ^ l)⟩ ⟨fs, rs⟩ (cs.map (·.call p N))).2.cts.length := by
    rw [hlen]; exact hb0
  refine ⟨_, List.getElem?_eq_getElem ha, fun error => ?_⟩
  have hrel := f2.cts.get ha hb0
  rw [List.get_eq_getElem, List.get_eq_getElem, hb'] at hrel
  set y := (Store.runAll ⟨p, q, P.bPlaintext (2 ^ l)⟩ ⟨fs, rs⟩ (cs.map (·.call p N))).2.cts[a]
  obtain ⟨X, w1, w2⟩ := hrel
  rw [Word.decrypt_word gd hp tb k k1 k2 hS (T := 2 ^ logT + 1) (by rw [k3, k8]) (Nat.succ_pos _) hT.le
    ⟨y.c, y.power, error⟩ w1.c]
  congr 2
  funext j
  have hph := w2.value
  rw [← z2.power, hpow] at hph
  have hph : ntt psi l (modq N Z'.value) = phase (Store.secret C σ 1) X.ct.c := hph
  rw [hsec] at hph
  rw [← hph, intt_ntt hp gd.odd tb.root (by have := tb.l15; omega)]
  show (centered N ((Z'.value j : ℤ) : ZMod N) % ((2 ^ logT + 1 : ℕ) : ℤ)).toNat = _
  have h1 := hb j
  have h2 := abs_le.mp (le_refl |Z'.value j|)
  rw [centered_eq N _ (by omega) (by omega)]
  have hmod := congrFun z2.value j
  have hmod' := (ZMod.intCast_eq_intCast_iff' _ _ _).mp hmod
  rw [← hmod']

/-- The noise of an expanded query: `b` is the noise of an encryption, `D` the noise of a substitution. -/
def expandNoise (L b D : ℕ) : ℕ := 2 ^ L * b + (2 ^ L - 1) * D

/-- The core of the theorems on programs, for an expander whose substitutions add noise at most `D`. -/
theorem expanded_computesOn (G : Gen ρ) (G' : Gen τ) (hG' : Words G') {w N : ℕ} (h : create w N = .ok p)
    (hp : N.Prime) {l : ℕ} (hq : initNtt p l = .ok q) {psi : ZMod N} (hC : Fit ⟨w, N, l, psi⟩ p)
    (tb : Tables p w N l psi q) {variance logT : ℕ} {s s' : ρ} {k : Word.Key}
    (hk : Word.Key.sample G p q l variance logT s = .ok (k, s')) (hT0 : 0 < logT) (hT64 : logT < 64)
    (hT : 2 ^ logT + 1 < N) (hvar : 2 * variance ≤ N) {total : ℕ} (ht : 0 < total) {indices : List ℤ}
    (hidx : ∀ x ∈ indices, 0 ≤ x ∧ x < total) {L : ℕ} (hL : L ≤ l) (h31 : total + 2 ^ L ≤ 2 ^ 31)
    (hne : 2 ≤ total ∨ L = 0) {D : ℕ} (P : ErrorParams) {sub : WordExpand.Sub ℝ} {Sb : Expand.Sub ⟨w, N, l, psi⟩}
    (hs : SubRel ⟨w, N, l, psi⟩ p sub Sb)
    (hsub : ∀ j < L, SubOk (C := ⟨w, N, l, psi⟩) (fun i => res p N (k.key.getD i 0)) (2 ^ logT + 1) D Sb
      ((2 ^ l >>> j) + 1)) {fuel bEnc : ℕ} :
    ∃ ms nrm, WordExpand.makeCompressedVector p q total indices L = .ok ms ∧ computeNormalizer L logT = .ok nrm ∧
      ∀ cts, List.Forall₂ (Encrypts G' fuel bEnc k p nrm) ms cts →
      ∃ rs, WordExpand.obliviousExpand ⟨p, q, P.bPlaintext (2 ^ l)⟩ sub (cts.map asObj) L total = .ok rs ∧
        rs.length = total ∧ ∃ (σ : Fin (2 ^ l) → ℤ) (W : ℕ → Fin (2 ^ l) → ℤ), HoldsPoly p q N (2 ^ l) k.key σ ∧
          (∀ i j, |W i j| ≤ (expandNoise L (2 ^ logT + (2 ^ logT + 1) * (2 * variance)) D : ℕ)) ∧
          ∀ fs gs, List.Forall₂ (HoldsPoly p q N (2 ^ l)) fs gs →
            ComputesOn ⟨p, q, P.bPlaintext (2 ^ l)⟩ k N w (2 ^ logT + 1) σ fs gs rs (oneHot indices) W := by
  have gd := good_of_create h
  haveI : NeZero N := ⟨hp.ne_zero⟩
  obtain ⟨k1, k2, k3, k4, k5, k6, k7, k8⟩ := sample_word G h hp hq hk hT
  let C : Ctx := ⟨w, N, l, psi⟩
  obtain ⟨ms, nrm, m1, m2, m3⟩ := word_onehot_noisy G G' hG' h hp hq hC tb hk hT0 hT64 hT hvar ht hidx hL h31 hne P hs
    hsub (fuel := fuel) (bEnc := bEnc)
  refine ⟨ms, nrm, m1, m2, fun cts hcts => ?_⟩
  obtain ⟨rs, r1, r2, r3⟩ := m3 cts hcts
  obtain ⟨σ, hσ⟩ := exists_modq (q := N) (C.fromNtt fun i : Fin (2 ^ l) => res p N (k.key.getD i 0))
  have hσ' : C.toNtt (modq N σ) = fun i : Fin (2 ^ l) => res p N (k.key.getD i 0) := by rw [hσ]; exact toNtt_fromNtt hC.ok _
  have hlazy := oblivious_lazy (by simp [asObj]) r1
  have hW : ∀ i : ℕ, ∃ ψ : Fin (2 ^ l) → ℤ, (∀ c, |ψ c| ≤ (expandNoise L (2 ^ logT + (2 ^ logT + 1) * (2 * variance)) D : ℕ)) ∧
      ∀ y, rs[i]? = some y → (∃ Y : Ct C, Bears C p y Y ∧ Y.c.length = 2 ∧ Y.power = 1 ∧
        Noisy (C := C) (fun i => res p N (k.key.getD i 0)) Y ψ) ∧
        ∀ c, ψ c % (2 ^ logT + 1) = if (c : ℕ) = 0 ∧ (i : ℤ) ∈ indices then 1 else 0 := by
    intro i
    cases hy : rs[i]? with
    | none => exact ⟨0, fun c => by simp, fun y h => by cases h⟩
    | some y =>
      obtain ⟨Y, a1, a2, a3, ψ, a4, a5, a6⟩ := r3 i y hy
      exact ⟨ψ, a5, fun y' h => by cases h; exact ⟨⟨Y, a1, a2, a3, a4⟩, a6⟩⟩
  choose W w1 w2 using hW
  have hσ2 : HoldsPoly p q N (2 ^ l) k.key σ := (holdsPoly_iff hC tb).mpr (by
    show Poly.Rep p N (2 ^ l) k.key (C.toNtt (modq N σ))
    rw [hσ']; exact k6.rep (p := p))
  refine ⟨rs, r1, r2, σ, W, hσ2, w1, fun fs gs hfs => computesOn G h hp hq hC tb hk hT P hσ2 (fun i y hy => ?_)
    (fun i hi => ?_) hfs⟩
  · exact ⟨hlazy y (List.mem_of_getElem? hy), (w2 i y hy).1⟩
  · funext c
    have := (w2 i _ (List.getElem?_eq_getElem hi)).2 c
    refine (ZMod.intCast_eq_intCast_iff' _ _ _).mpr ?_
    push_cast
    rw [this]
    unfold oneHot
    have h1 : (1 : ℤ) < 2 ^ logT + 1 := by have : (0 : ℤ) < 2 ^ logT := by positivity
                                           omega
    split_ifs
    · exact Int.emod_eq_of_lt (by norm_num) h1
    · exact Int.zero_emod _

/-- **C93.** A client encrypts a query for some entries of `total`, and a server expands it with the Galois keys of the
client.  Whatever program the server then runs on the expanded ciphertexts and on polynomials of its own, every call
returns the status, and the ciphertexts decrypt to the values, that the machine on polynomials computes from the one-hot
vector of the indices, as long as the value computed from the noisy one-hot vector stays below half the modulus.
Missing for the full property: queries of a single entry with `L > 0` (`c31_single_entry_witness`). -/
theorem c93_program_keys_partial (G : Gen ρ) (G' : Gen τ) (hG' : Words G') (R : Word.Rng υ) (hR : ∀ t, Words (R.gen t))
    {w N : ℕ} (h : create w N = .ok p) (hw : w ≤ 128) (hp : N.Prime) {l : ℕ} (hq : initNtt p l = .ok q)
    {variance logT : ℕ} {s s' : ρ} {k : Word.Key} (hk : Word.Key.sample G p q l variance logT s = .ok (k, s'))
    (hT0 : 0 < logT) (hT64 : logT < 64) (hT : 2 ^ logT + 1 < N) (hvar : 2 * variance ≤ N) {total : ℕ} (ht : 0 < total)
    {indices : List ℤ} (hidx : ∀ x ∈ indices, 0 ≤ x ∧ x < total) {L : ℕ} (hL : L ≤ l) (h31 : total + 2 ^ L ≤ 2 ^ 31)
    (hne : 2 ≤ total ∨ L = 0) (P : ErrorParams) {fuel bd : ℕ} (hbd : bd < 31) {gk : List Word.RKey} (hLk : L ≤ gk.length)
    (hgk : ∀ i (hi : i < gk.length), ∃ prng seed seedE,
      Word.galoisCreate R fuel k prng ((2 ^ l >>> i) + 1 : ℕ) bd seed seedE = .ok gk[i]) {bEnc : ℕ} :
    WordExpand.keysCreate q gk = .ok gk ∧
    ∃ ms nrm, WordExpand.makeCompressedVector p q total indices L = .ok ms ∧ computeNormalizer L logT = .ok nrm ∧
      ∀ cts, List.Forall₂ (Encrypts G' fuel bEnc k p nrm) ms cts →
      ∃ rs, WordExpand.obliviousExpand ⟨p, q, P.bPlaintext (2 ^ l)⟩ (WordExpand.keysSub q (P.bRelinearize (2 ^ l)) gk)
          (cts.map asObj) L total = .ok rs ∧
        rs.length = total ∧ ∃ (σ : Fin (2 ^ l) → ℤ) (W : ℕ → Fin (2 ^ l) → ℤ), HoldsPoly p q N (2 ^ l) k.key σ ∧
          (∀ i j, |W i j| ≤ (expandNoise L (2 ^ logT + (2 ^ logT + 1) * (2 * variance))
            (switchNoise (2 ^ l) (2 ^ logT + 1) 1 ((p.logModulus + (bd - 1)) / bd) bd (2 * variance)) : ℕ)) ∧
          ∀ fs gs, List.Forall₂ (HoldsPoly p q N (2 ^ l)) fs gs →
            ComputesOn ⟨p, q, P.bPlaintext (2 ^ l)⟩ k N w (2 ^ logT + 1) σ fs gs rs (oneHot indices) W := by
  obtain ⟨psi, hC, tb⟩ := fit_of_create h hw hp hq
  obtain ⟨k1, Sb, k2, k3⟩ := keys_sub G R hR h hw hp hq hC tb hk hT hvar P hbd hgk hL hLk
  exact ⟨k1, expanded_computesOn G G' hG' h hp hq hC tb hk hT0 hT64 hT hvar ht hidx hL h31 hne P k2 k3⟩

/-- **C93 with a single key** for the generator 5, and at most `log2 n - 1` levels. -/
theorem c93_program_generator_partial (G : Gen ρ) (G' : Gen τ) (hG' : Words G') (R : Word.Rng υ)
    (hR : ∀ t, Words (R.gen t)) {w N : ℕ} (h : create w N = .ok p) (hw : w ≤ 128) (hp : N.Prime) {l : ℕ}
    (hq : initNtt p l = .ok q) {variance logT : ℕ} {s s' : ρ} {k : Word.Key}
    (hk : Word.Key.sample G p q l variance logT s = .ok (k, s'))
    (hT0 : 0 < logT) (hT64 : logT < 64) (hT : 2 ^ logT + 1 < N) (hvar : 2 * variance ≤ N) {total : ℕ} (ht : 0 < total)
    {indices : List ℤ} (hidx : ∀ x ∈ indices, 0 ≤ x ∧ x < total) {L : ℕ} (hL : L + 1 ≤ l) (h31 : total + 2 ^ L ≤ 2 ^ 31)
    (hne : 2 ≤ total ∨ L = 0) (P : ErrorParams) {fuel bd : ℕ} (hbd : bd < 31) {gk : Word.RKey} {prng : PrngType}
    {seed seedE : List ℕ} (hgk : Word.galoisCreate R fuel k prng 5 bd seed seedE = .ok gk) {bEnc : ℕ} :
    WordExpand.generatorCreate gk = .ok gk ∧
    ∃ ms nrm, WordExpand.makeCompressedVector p q total indices L = .ok ms ∧ computeNormalizer L logT = .ok nrm ∧
      ∀ cts, List.Forall₂ (Encrypts G' fuel bEnc k p nrm) ms cts →
      ∃ rs, WordExpand.obliviousExpand ⟨p, q, P.bPlaintext (2 ^ l)⟩
          (WordExpand.generatorSub q (P.bRelinearize (2 ^ l)) gk) (cts.map asObj) L total = .ok rs ∧
        rs.length = total ∧ ∃ (σ : Fin (2 ^ l) → ℤ) (W : ℕ → Fin (2 ^ l) → ℤ), HoldsPoly p q N (2 ^ l) k.key σ ∧
          (∀ i j, |W i j| ≤ (expandNoise L (2 ^ logT + (2 ^ logT + 1) * (2 * variance)) (2 ^ (l - 1) *
            switchNoise (2 ^ l) (2 ^ logT + 1) 1 ((p.logModulus + (bd - 1)) / bd) bd (2 * variance)) : ℕ)) ∧
          ∀ fs gs, List.Forall₂ (HoldsPoly p q N (2 ^ l)) fs gs →
            ComputesOn ⟨p, q, P.bPlaintext (2 ^ l)⟩ k N w (2 ^ logT + 1) σ fs gs rs (oneHot indices) W := by
  obtain ⟨psi, hC, tb⟩ := fit_of_create h hw hp hq
  obtain ⟨k1, Sb, k2, k3⟩ := generator_sub G R hR h hw hp hq hC tb hk hT hvar P hbd hgk hL
  exact ⟨k1, expanded_computesOn G G' hG' h hp hq hC tb hk hT0 hT64 hT hvar ht hidx (by omega) h31 hne P k2 k3⟩

/-! ## Selection -/

theorem negMul_oneHot {n : ℕ} [NeZero n] (indices : List ℤ) (i : ℕ) (D : Fin n → ℤ) :
    negMul (oneHot indices i) D = if (i : ℤ) ∈ indices then D else 0 := by
  split_ifs with hi
  · have : (oneHot indices i : Fin n → ℤ) = NR.one := by
      funext c
      simp [oneHot, NR.one, hi]
    rw [this, NR.one_negMul]
  · have : (oneHot indices i : Fin n → ℤ) = 0 := by
      funext c
      simp [oneHot, hi]
    rw [this, NR.zero_negMul]

/-- The selection of entries, from what any program computes. -/
theorem select_of_computesOn {e : Store.Env ℝ} {k : Word.Key} {N w t l : ℕ} {σ : Fin (2 ^ l) → ℤ} {rs : List (Obj ℝ)}
    {indices : List ℤ} {W : ℕ → Fin (2 ^ l) → ℤ} {b : ℕ} (hW : ∀ i j, |W i j| ≤ (b : ℤ)) (hpos : 0 < rs.length)
    {fs : List (List ℕ)} {D : ℕ → Fin (2 ^ l) → ℤ}
    (hc : ComputesOn e k N w t σ fs ((List.range rs.length).map D) rs (oneHot indices) W)
    (hb : 2 * ((b : ℤ) * ∑ i ∈ Finset.range rs.length, ∑ j, |D i j|) < N) (mode : ℕ → AddMode) :
    (∀ u ∈ (Store.runAll e ⟨fs, rs⟩ ((selectCalls (n := 2 ^ l) rs.length mode).map (·.call e.p N))).1, u = .ok ()) ∧
    ∃ y, (Store.runAll e ⟨fs, rs⟩ ((selectCalls (n := 2 ^ l) rs.length mode).map (·.call e.p N))).2.cts[rs.length]? =
        some y ∧
      ∀ error, Word.decrypt k ⟨y.c, y.power, error⟩ = .ok (List.ofFn fun j =>
        ((∑ i ∈ Finset.range rs.length, if (i : ℤ) ∈ indices then D i j else 0) % t).toNat) := by
  have hlen : ∀ V : ℕ → Fin (2 ^ l) → ℤ, (bearing rs V).length = rs.length := fun V => by simp [bearing]
  have hget : ∀ V : ℕ → Fin (2 ^ l) → ℤ, ∀ i < (bearing rs V).length, ∃ er, (bearing rs V)[i]? = some ⟨2, 1, V i, er, 0, 0⟩ := by
    intro V i hi
    rw [hlen] at hi
    exact ⟨rs[i].error, by simp [bearing, hi]⟩
  have hpol : ∀ V : ℕ → Fin (2 ^ l) → ℤ, ∀ i < (bearing rs V).length, ((List.range rs.length).map D)[i]? = some (D i) := by
    intro V i hi
    rw [hlen] at hi
    simp [hi]
  obtain ⟨a1, a2, X, a3, a4, a5⟩ := Store.select_run (σ := σ) (B := e.bPlain) (N := N) (w := w) mode
    (hget (oneHot indices)) (hpol _) (by rw [hlen]; exact hpos)
  obtain ⟨b1, b2, Z, b3, b4, b5⟩ := Store.select_run (σ := σ) (B := e.bPlain) (N := N) (w := w) mode
    (hget W) (hpol _) (by rw [hlen]; exact hpos)
  rw [hlen] at a1 a2 a3 a5 b1 b2 b3 b5
  obtain ⟨c1, c2⟩ := hc _ a2
  refine ⟨fun u hu => ?_, ?_⟩
  · rw [c1, a1] at hu
    exact List.eq_of_mem_replicate hu
  · have hz : ∀ j, 2 * |Z.value j| < (N : ℤ) := fun j => by
      refine lt_of_le_of_lt (mul_le_mul_of_nonneg_left ?_ (by norm_num)) hb
      rw [b5, Finset.sum_apply, Finset.mul_sum]
      refine (Finset.abs_sum_le_sum_abs _ _).trans (Finset.sum_le_sum fun i _ => ?_)
      rw [NR.negMul_comm, mul_comm]
      exact negMul_bound _ _ _ (Int.natCast_nonneg _) (hW i) j
    obtain ⟨y, y1, y2⟩ := c2 _ X Z a3 b3 a4 hz
    refine ⟨y, y1, fun error => ?_⟩
    rw [y2 error]
    congr 2
    funext j
    rw [a5, Finset.sum_apply]
    have : ∀ i, negMul (oneHot indices i) (D i) j = if (i : ℤ) ∈ indices then D i j else 0 := fun i => by
      rw [negMul_oneHot]
      split_ifs <;> rfl
    simp only [this]

/-- **C93, selection.** A server that holds the polynomials `D 0, ..., D (total - 1)`, multiplies them with the expanded
query and adds the products, each in any of the three ways the library has, gets a ciphertext that decrypts to the sum
of the entries at the queried indices modulo the plaintext modulus, and no call returns an error, if the noise bound
times the sum of the absolute values of all coefficients is below half the modulus. -/
theorem c93_select_keys_partial (G : Gen ρ) (G' : Gen τ) (hG' : Words G') (R : Word.Rng υ) (hR : ∀ t, Words (R.gen t))
    {w N : ℕ} (h : create w N = .ok p) (hw : w ≤ 128) (hp : N.Prime) {l : ℕ} (hq : initNtt p l = .ok q)
    {variance logT : ℕ} {s s' : ρ} {k : Word.Key} (hk : Word.Key.sample G p q l variance logT s = .ok (k, s'))
    (hT0 : 0 < logT) (hT64 : logT < 64) (hT : 2 ^ logT + 1 < N) (hvar : 2 * variance ≤ N) {total : ℕ} (ht : 0 < total)
    {indices : List ℤ} (hidx : ∀ x ∈ indices, 0 ≤ x ∧ x < total) {L : ℕ} (hL : L ≤ l) (h31 : total + 2 ^ L ≤ 2 ^ 31)
    (hne : 2 ≤ total ∨ L = 0) (P : ErrorParams) {fuel bd : ℕ} (hbd : bd < 31) {gk : List Word.RKey} (hLk : L ≤ gk.length)
    (hgk : ∀ i (hi : i < gk.length), ∃ prng seed seedE,
      Word.galoisCreate R fuel k prng ((2 ^ l >>> i) + 1 : ℕ) bd seed seedE = .ok gk[i]) {bEnc : ℕ}
    {fs : List (List ℕ)} {D : ℕ → Fin (2 ^ l) → ℤ}
    (hfs : List.Forall₂ (HoldsPoly p q N (2 ^ l)) fs ((List.range total).map D))
    (hnoise : 2 * (expandNoise L (2 ^ logT + (2 ^ logT + 1) * (2 * variance))
      (switchNoise (2 ^ l) (2 ^ logT + 1) 1 ((p.logModulus + (bd - 1)) / bd) bd (2 * variance)) *
        ∑ i ∈ Finset.range total, ∑ j, |D i j|) < (N : ℤ)) (mode : ℕ → AddMode) :
    WordExpand.keysCreate q gk = .ok gk ∧
    ∃ ms nrm, WordExpand.makeCompressedVector p q total indices L = .ok ms ∧ computeNormalizer L logT = .ok nrm ∧
      ∀ cts, List.Forall₂ (Encrypts G' fuel bEnc k p nrm) ms cts →
      ∃ rs, WordExpand.obliviousExpand ⟨p, q, P.bPlaintext (2 ^ l)⟩ (WordExpand.keysSub q (P.bRelinearize (2 ^ l)) gk)
          (cts.map asObj) L total = .ok rs ∧
        ∃ (us : List (Outcome Unit)) (m : Store.Mem ℝ) (y : Obj ℝ),
          Store.runAll ⟨p, q, P.bPlaintext (2 ^ l)⟩ ⟨fs, rs⟩
            ((selectCalls (n := 2 ^ l) total mode).map (·.call p N)) = (us, m) ∧
          (∀ u ∈ us, u = .ok ()) ∧ m.cts[total]? = some y ∧
          ∀ error, Word.decrypt k ⟨y.c, y.power, error⟩ = .ok (List.ofFn fun j =>
            ((∑ i ∈ Finset.range total, if (i : ℤ) ∈ indices then D i j else 0) % (2 ^ logT + 1)).toNat) := by
  obtain ⟨h1, ms, nrm, h2, h3, h4⟩ := c93_program_keys_partial G G' hG' R hR h hw hp hq hk hT0 hT64 hT hvar ht hidx hL
    h31 hne P hbd hLk hgk (bEnc := bEnc)
  refine ⟨h1, ms, nrm, h2, h3, fun cts hcts => ?_⟩
  obtain ⟨rs, r1, rfl, σ, W, r3, r4, r5⟩ := h4 cts hcts
  obtain ⟨s1, s2⟩ := select_of_computesOn r4 ht (r5 fs _ hfs) hnoise mode
  obtain ⟨y, y1, y2⟩ := s2
  refine ⟨rs, r1, _, _, y, rfl, s1, y1, fun error => ?_⟩
  rw [y2 error]
  push_cast
  rfl

/-- **C93, selection with a single key** for the generator 5, and at most `log2 n - 1` levels. -/
theorem c93_select_generator_partial (G : Gen ρ) (G' : Gen τ) (hG' : Words G') (R : Word.Rng υ) (hR : ∀ t, Words (R.gen t))
    {w N : ℕ} (h : create w N = .ok p) (hw : w ≤ 128) (hp : N.Prime) {l : ℕ} (hq : initNtt p l = .ok q)
    {variance logT : ℕ} {s s' : ρ} {k : Word.Key} (hk : Word.Key.sample G p q l variance logT s = .ok (k, s'))
    (hT0 : 0 < logT) (hT64 : logT < 64) (hT : 2 ^ logT + 1 < N) (hvar : 2 * variance ≤ N) {total : ℕ} (ht : 0 < total)
    {indices : List ℤ} (hidx : ∀ x ∈ indices, 0 ≤ x ∧ x < total) {L : ℕ} (hL : L + 1 ≤ l) (h31 : total + 2 ^ L ≤ 2 ^ 31)
    (hne : 2 ≤ total ∨ L = 0) (P : ErrorParams) {fuel bd : ℕ} (hbd : bd < 31) {gk : Word.RKey} {prng : PrngType}
    {seed seedE : List ℕ} (hgk : Word.galoisCreate R fuel k prng 5 bd seed seedE = .ok gk) {bEnc : ℕ}
    {fs : List (List ℕ)} {D : ℕ → Fin (2 ^ l) → ℤ}
    (hfs : List.Forall₂ (HoldsPoly p q N (2 ^ l)) fs ((List.range total).map D))
    (hnoise : 2 * (expandNoise L (2 ^ logT + (2 ^ logT + 1) * (2 * variance))
      (2 ^ (l - 1) * switchNoise (2 ^ l) (2 ^ logT + 1) 1 ((p.logModulus + (bd - 1)) / bd) bd (2 * variance)) *
        ∑ i ∈ Finset.range total, ∑ j, |D i j|) < (N : ℤ)) (mode : ℕ → AddMode) :
    WordExpand.generatorCreate gk = .ok gk ∧
    ∃ ms nrm, WordExpand.makeCompressedVector p q total indices L = .ok ms ∧ computeNormalizer L logT = .ok nrm ∧
      ∀ cts, List.Forall₂ (Encrypts G' fuel bEnc k p nrm) ms cts →
      ∃ rs, WordExpand.obliviousExpand ⟨p, q, P.bPlaintext (2 ^ l)⟩
          (WordExpand.generatorSub q (P.bRelinearize (2 ^ l)) gk) (cts.map asObj) L total = .ok rs ∧
        ∃ (us : List (Outcome Unit)) (m : Store.Mem ℝ) (y : Obj ℝ),
          Store.runAll ⟨p, q, P.bPlaintext (2 ^ l)⟩ ⟨fs, rs⟩
            ((selectCalls (n := 2 ^ l) total mode).map (·.call p N)) = (us, m) ∧
          (∀ u ∈ us, u = .ok ()) ∧ m.cts[total]? = some y ∧
          ∀ error, Word.decrypt k ⟨y.c, y.power, error⟩ = .ok (List.ofFn fun j =>
            ((∑ i ∈ Finset.range total, if (i : ℤ) ∈ indices then D i j else 0) % (2 ^ logT + 1)).toNat) := by
  obtain ⟨h1, ms, nrm, h2, h3, h4⟩ := c93_program_generator_partial G G' hG' R hR h hw hp hq hk hT0 hT64 hT hvar ht hidx hL
    h31 hne P hbd hgk (bEnc := bEnc)
  refine ⟨h1, ms, nrm, h2, h3, fun cts hcts => ?_⟩
  obtain ⟨rs, r1, rfl, σ, W, r3, r4, r5⟩ := h4 cts hcts
  obtain ⟨s1, s2⟩ := select_of_computesOn r4 ht (r5 fs _ hfs) hnoise mode
  obtain ⟨y, y1, y2⟩ := s2
  refine ⟨rs, r1, _, _, y, rfl, s1, y1, fun error => ?_⟩
  rw [y2 error]
  push_cast
  rfl

/-! ### A concrete case -/

/-- A database of the three polynomials `1 + X`, `2 - X^3` and `1 + 2 X^2` modulo `X^4 + 1`, for the modulus 12289 and
`t = 3`, and a query for the entries 1 and 2 compressed by 2 with one Galois key; one product is added eagerly and one
lazily.  No call returns an error, the noise bound is small enough, and the result decrypts to
`3 + 2 X^2 - X^3 = 2 X^2 + 2 X^3`. -/
example : (do
    let p ← create 16 12289
    let q ← initNtt p 2
    let (k, _) ← Word.Key.sample toyGen p q 2 1 1 77
    let g ← Word.galoisCreate toyRng 8 k .hkdf 5 1 [3] [4]
    let gk ← WordExpand.keysCreate q [g]
    let ms ← WordExpand.makeCompressedVector p q 3 [1, 2] 1
    let nrm ← computeNormalizer 1 1
    let cts ← ms.mapM fun m => Word.encrypt toyGen 8 k (Poly.mulScalarInPlace p m (Mont.importInt p nrm)).1 0 5
    let rs ← WordExpand.obliviousExpand ⟨p, q, (5 : ℚ)⟩ (WordExpand.keysSub q (fun c b => .ok (c * b)) gk)
      (cts.map fun x : Word.Ct × ℕ => ⟨x.1.c, x.1.power, x.1.error, []⟩) 1 3
    let fs ← [[1, 1, 0, 0], [2, 0, 0, 12288], [1, 0, 2, 0]].mapM fun f : List ℕ =>
      Poly.convertToNtt p q (f.map (Mont.importInt p))
    let r := Store.runAll (E := ℚ) ⟨p, q, 5⟩ ⟨fs, rs⟩
      [.ctNew 0 (.absorb 0), .ctIn 3 (.fusedConst 1 1), .ctIn 3 (.lazily 2 2), .ctIn 3 .merge]
    let y ← Shell.rd r.2.cts 3
    let d ← Word.decrypt k ⟨y.c, y.power, 0⟩
    .ok (r.1, d, decide (2 * (expandNoise 1 (2 ^ 1 + (2 ^ 1 + 1) * (2 * 1))
      (switchNoise (2 ^ 2) (2 ^ 1 + 1) 1 ((p.logModulus + (1 - 1)) / 1) 1 (2 * 1)) * (2 + 3 + 3)) < 12289))) =
    .ok ([.ok (), .ok (), .ok (), .ok ()], [0, 0, 2, 2], true) := by
  decide +kernel

/-- The calls of the example are those of the theorem. -/
example (p : MParams) : ((selectCalls (n := 4) 3 fun i => if i = 1 then .const else .lazily).map (·.call p 12289)) =
    [.ctNew 0 (.absorb 0), .ctIn 3 (.fusedConst 1 1), .ctIn 3 (.lazily 2 2), .ctIn 3 .merge] := by
  rfl

end Shell
