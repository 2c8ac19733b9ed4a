import Verif.Model.Word
import Verif.Props.Symmetric
import Verif.Props.ErrorSample
import Verif.Props.Random
/-!
The word-level scheme computes the scheme on residue vectors.
-/

namespace Shell.Word
open Shell.Spec MParams Ntt NttRing Finset
variable {σ : Type} {p : MParams} {w N l : ℕ} {q : NttParams} {psi : ZMod N}

theorem copy_ok {r : List ℕ} {x : Poly.InPlace} (h : x = (r, none)) : Poly.copying x = .ok r := by
  rw [h]; rfl

theorem rep_zero (n : ℕ) : Poly.Rep p N n (List.replicate n 0) 0 := by
  have : ∀ i, (List.replicate n 0).getD i 0 = 0 := by
    intro i; rw [List.getD_eq_getElem?_getD, List.getElem?_replicate]; split_ifs <;> rfl
  exact ⟨by simp, fun i _ => by rw [this]; omega, fun i => by rw [this, res_zero]; rfl⟩

/-- Decryption to the noisy plaintext, on words. -/
theorem extract_word (g : Good p w N) (hp : N.Prime) (t : Tables p w N l psi q) (k : Key)
    (hkp : k.p = p) (hkq : k.q = q) {S : Fin (2 ^ l) → ZMod N} (hk : Poly.Rep p N (2 ^ l) k.key S)
    (x : Ct) {X : List (Fin (2 ^ l) → ZMod N)} (hx : List.Forall₂ (Poly.Rep p N (2 ^ l)) x.c X) :
    ∃ r, extract k x = .ok r ∧ Poly.Rep p N (2 ^ l) r (intt psi l (phase S X)) := by
  have hlen := hx.length_eq
  have hget : ∀ i < x.c.length, Poly.Rep p N (2 ^ l) (x.c.getD i []) (X.getD i 0) := by
    intro i hi
    rw [List.getD_eq_getElem _ _ hi, List.getD_eq_getElem _ _ (by omega)]
    exact List.forall₂_iff_get.mp hx |>.2 i hi (by omega)
  have key := loop_ok (f := fun i (r : List ℕ × List ℕ) => (do
    let ci ← rd x.c i
    let kp ← (if i > 1 then Poly.copying (Poly.mulInPlace k.p r.2 k.key) else .ok r.2 :
      Outcome (List ℕ))
    let ci ← (if i > 0 then Poly.copying (Poly.mulInPlace k.p ci kp) else .ok ci :
      Outcome (List ℕ))
    let acc ← Poly.copying (Poly.addInPlace k.p r.1 ci)
    .ok (acc, kp) : Outcome (List ℕ × List ℕ))) (s := (List.replicate k.key.length 0, k.key))
    (n := x.c.length)
    (fun j s => Poly.Rep p N (2 ^ l) s.1 (∑ i ∈ range j, X.getD i 0 * S ^ i) ∧
      Poly.Rep p N (2 ^ l) s.2 (S ^ (max 1 (j - 1))))
    ⟨by rw [hk.len]; simpa using rep_zero _, by simpa using hk⟩ ?_
  · obtain ⟨s, e1, e2, _⟩ := key
    obtain ⟨r, r1, r2, _⟩ := e2.inverse g hp t
    refine ⟨r, ?_, ?_⟩
    · unfold extract
      rw [e1, Outcome.bind_ok, hkp, hkq, r1]
    · unfold phase; rw [← hlen]; exact r2
  · rintro j s hj ⟨e1, e2⟩
    rw [hkp]
    obtain ⟨kp, k1, k2⟩ : ∃ kp, (if j > 1 then Poly.copying (Poly.mulInPlace p s.2 k.key)
        else .ok s.2 : Outcome (List ℕ)) = .ok kp ∧ Poly.Rep p N (2 ^ l) kp (S ^ (max 1 j)) := by
      split_ifs with h
      · obtain ⟨r, r1, r2⟩ := e2.mul g hk
        refine ⟨r, copy_ok r1, ?_⟩
        rw [← pow_succ, show max 1 (j - 1) + 1 = max 1 j by omega] at r2
        exact r2
      · exact ⟨s.2, rfl, by rw [show max 1 j = max 1 (j - 1) by omega]; exact e2⟩
    obtain ⟨ci, c1, c2⟩ : ∃ ci, (if j > 0 then Poly.copying (Poly.mulInPlace p (x.c.getD j []) kp)
        else .ok (x.c.getD j []) : Outcome (List ℕ)) = .ok ci ∧
        Poly.Rep p N (2 ^ l) ci (X.getD j 0 * S ^ j) := by
      split_ifs with h
      · obtain ⟨r, r1, r2⟩ := (hget j hj).mul g k2
        refine ⟨r, copy_ok r1, ?_⟩
        rw [show max 1 j = j by omega] at r2
        exact r2
      · have hj0 : j = 0 := by omega
        subst hj0
        exact ⟨_, rfl, by simpa using hget 0 hj⟩
    obtain ⟨acc, a1, a2⟩ := e1.add g c2
    refine ⟨(acc, kp), ?_, ?_, ?_⟩
    · rw [rd_getD [] hj, Outcome.bind_ok]
      rw [k1, Outcome.bind_ok, c1, Outcome.bind_ok, copy_ok a1, Outcome.bind_ok]
    · rw [sum_range_succ]; exact a2
    · exact k2

/-- Decryption on words. -/
theorem decrypt_word (g : Good p w N) (hp : N.Prime) (t : Tables p w N l psi q) (k : Key)
    (hkp : k.p = p) (hkq : k.q = q) {S : Fin (2 ^ l) → ZMod N} (hk : Poly.Rep p N (2 ^ l) k.key S)
    {T : ℕ} (hT : Mont.exportInt k.tp k.tMod = T) (hT0 : 0 < T) (hTN : T ≤ N)
    (x : Ct) {X : List (Fin (2 ^ l) → ZMod N)} (hx : List.Forall₂ (Poly.Rep p N (2 ^ l)) x.c X) :
    decrypt k x = .ok (List.ofFn fun i => (centered N (intt psi l (phase S X) i) % (T : ℤ)).toNat) := by
  obtain ⟨r, r1, r2⟩ := extract_word g hp t k hkp hkq hk x hx
  haveI : NeZero N := ⟨hp.ne_zero⟩
  have h4 := g.lt
  unfold decrypt
  rw [r1, Outcome.bind_ok]
  dsimp only
  rw [hT, if_neg (by omega)]
  congr 1
  apply List.ext_getElem
  · simp [r2.len]
  · intro i h1 h2
    have hi : i < 2 ^ l := by simpa using h2
    rw [List.getElem_map, List.getElem_ofFn]
    have hri : r[i]'(by simpa using h1) = r.getD i 0 := by
      rw [List.getD_eq_getElem _ _ (by simpa using h1)]
    rw [hri, hkp, g.hw, g.hN]
    have he : Mont.exportInt p (r.getD i 0) = (intt psi l (phase S X) ⟨i, hi⟩).val := by
      rw [← r2.val ⟨i, hi⟩]
      exact export_eq_val g (r2.le i hi)
    rw [he]
    have := Sym.removeErrorCoeff_eq (w := w) (by omega) hT0 hTN (intt psi l (phase S X) ⟨i, hi⟩)
    omega

/-- What `SampleFromErrorDistribution` returns, as residues of small integers. -/
theorem error_rep (G : Gen σ) (hG : Words G) (h : create w N = .ok p) (n variance : ℕ)
    (hN : 2 * variance ≤ N) (s s' : σ) (cs : List ℕ)
    (hs : Sampler.sampleError G p n variance s = .ok (cs, s')) :
    ∃ e : Fin n → ℤ, (∀ i, |e i| ≤ 2 * variance) ∧ Poly.Rep p N n cs (modq N e) := by
  have g := good_of_create h
  obtain ⟨h1, h2⟩ := c38_range_partial G hG h n variance hN s s' cs hs
  have h3 : ∀ i : Fin n, cs.getD i 0 < N ∧ ∃ e : ℤ, -(2 * variance : ℤ) ≤ e ∧ e ≤ 2 * variance ∧
      (Mont.exportInt p (cs.getD i 0) : ℤ) = e % N := by
    intro i
    have hi : (i : ℕ) < cs.length := by rw [h1]; exact i.2
    apply h2
    rw [List.getD_eq_getElem _ _ hi]
    exact List.getElem_mem hi
  choose h4 e e1 e2 e3 using h3
  refine ⟨e, fun i => abs_le.mpr ⟨by have := e1 i; omega, e2 i⟩, h1,
    fun i hi => (h4 ⟨i, hi⟩).le, fun i => ?_⟩
  rw [← res_export g (h4 i).le]
  have := e3 i
  have h5 : ((Mont.exportInt p (cs.getD i 0) : ℤ) : ZMod N) = ((e i % N : ℤ) : ZMod N) := by rw [this]
  rw [Int.cast_natCast] at h5
  show ((Mont.exportInt p (cs.getD i 0) : ℕ) : ZMod N) = (e i : ZMod N)
  rw [h5, ZMod.intCast_mod]

/-- The pad. -/
theorem pad_rep (G : Gen σ) (g : Good p w N) (fuel n : ℕ) (s s' : σ) (cs : List ℕ)
    (hs : Sampler.samplePolynomial G p fuel n s = .ok (cs, s')) :
    Poly.Rep p N n cs (fun i => res p N (cs.getD i 0)) := by
  obtain ⟨-, -, h⟩ := c40_polynomial G p fuel n s
  obtain ⟨h1, h2⟩ := h s' cs hs
  have hn : cs.length = n := by omega
  refine ⟨hn, fun i hi => ?_, fun _ => rfl⟩
  have := h2 (cs.getD i 0) (by
    rw [List.getD_eq_getElem _ _ (by omega)]; exact List.getElem_mem _)
  rw [g.hN] at this
  omega

/-- Encryption with a given pad, on words. -/
theorem encryptWithPad_word (G : Gen σ) (hG : Words G) (h : create w N = .ok p)
    (t : Tables p w N l psi q) (k : Key) (hkp : k.p = p) (hkq : k.q = q)
    {S : Fin (2 ^ l) → ZMod N} (hk : Poly.Rep p N (2 ^ l) k.key S) (hv : 2 * k.variance ≤ N)
    (hT : k.tMod ≤ N) {m a : List ℕ} {M A : Fin (2 ^ l) → ZMod N}
    (hm : Poly.Rep p N (2 ^ l) m M) (ha : Poly.Rep p N (2 ^ l) a A) (s : σ) :
    (∃ st, Sampler.sampleError G p (2 ^ l) k.variance s = .err st ∧ encryptWithPad G k m a s = .err st) ∨
    (∃ u, Sampler.sampleError G p (2 ^ l) k.variance s = .ub u ∧ encryptWithPad G k m a s = .ub u) ∨
    ∃ c0 s', ∃ e : Fin (2 ^ l) → ℤ, encryptWithPad G k m a s = .ok (c0, s') ∧
      (∃ cs, Sampler.sampleError G p (2 ^ l) k.variance s = .ok (cs, s') ∧ Poly.Rep p N (2 ^ l) cs (modq N e)) ∧
      (∀ i, |e i| ≤ 2 * k.variance) ∧
      Poly.Rep p N (2 ^ l) c0
        ((fun i => res p N k.tMod * ntt psi l (modq N e) i) + M + A * S) := by
  have g := good_of_create h
  unfold encryptWithPad
  rw [hkp, hkq, hk.len]
  cases hs : Sampler.sampleError G p (2 ^ l) k.variance s with
  | err st => exact Or.inl ⟨st, rfl, rfl⟩
  | ub u => exact Or.inr (Or.inl ⟨u, rfl, rfl⟩)
  | ok r =>
    refine Or.inr (Or.inr ?_)
    obtain ⟨cs, s'⟩ := r
    obtain ⟨e, e1, e2⟩ := error_rep G hG h _ _ hv s s' cs hs
    obtain ⟨c1, f1, f2, _⟩ := e2.forward g t
    obtain ⟨c2, g1, g2⟩ := f2.mulScalar g hT
    obtain ⟨c3, h1, h2⟩ := g2.add g hm
    obtain ⟨c4, i1, i2⟩ := h2.fusedMulAdd g ha hk
    refine ⟨c4, s', e, ?_, ⟨cs, rfl, e2⟩, e1, i2⟩
    simp only [Outcome.bind_ok]
    rw [f1, Outcome.bind_ok, copy_ok g1, Outcome.bind_ok, copy_ok h1, Outcome.bind_ok, copy_ok i1,
      Outcome.bind_ok]

end Shell.Word

namespace Shell

theorem loopFrom_inv {σ : Type} {f : ℕ → σ → Outcome σ} (P : ℕ → σ → Prop) :
    ∀ (k i : ℕ) (s s' : σ), P i s →
      (∀ j s s', j < i + k → P j s → f j s = .ok s' → P (j + 1) s') →
      loopFrom f k i s = .ok s' → P (i + k) s' := by
  intro k
  induction k with
  | zero => intro i s s' h _ e; cases e; exact h
  | succ k ih =>
    intro i s s' h hs e
    rw [loopFrom] at e
    obtain ⟨s₁, h1, e⟩ := Outcome.bind_eq_ok.mp e
    have := ih (i + 1) s₁ s' (hs i s s₁ (by omega) h h1)
      (fun j t t' hj => hs j t t' (by omega)) e
    rwa [show i + 1 + k = i + (k + 1) by omega] at this

/-- Partial correctness of a loop. -/
theorem loop_inv {σ : Type} {f : ℕ → σ → Outcome σ} (P : ℕ → σ → Prop) {n : ℕ} {s s' : σ}
    (h0 : P 0 s) (hs : ∀ j s s', j < n → P j s → f j s = .ok s' → P (j + 1) s')
    (he : loop n f s = .ok s') : P n s' := by
  have := loopFrom_inv P n 0 s s' h0 (fun j t t' hj => hs j t t' (by omega)) he
  simpa using this

end Shell

/-! ### Operations on valid polynomials succeed with valid results -/

namespace Shell.Word
open Shell.Spec MParams Ntt NttRing
variable {σ : Type} {p : MParams} {w N l : ℕ} {q : NttParams} {psi : ZMod N} {n : ℕ}

theorem valid_add (g : Good p w N) {x y : List ℕ} (hx : ValidPoly N n x) (hy : ValidPoly N n y) :
    ∃ r, Poly.copying (Poly.addInPlace p x y) = .ok r ∧ ValidPoly N n r := by
  obtain ⟨r, r1, r2⟩ := (hx.rep (p := p)).add g hy.rep
  exact ⟨r, copy_ok r1, r2.valid⟩

theorem valid_mul (g : Good p w N) {x y : List ℕ} (hx : ValidPoly N n x) (hy : ValidPoly N n y) :
    ∃ r, Poly.copying (Poly.mulInPlace p x y) = .ok r ∧ ValidPoly N n r := by
  obtain ⟨r, r1, r2⟩ := (hx.rep (p := p)).mul g hy.rep
  exact ⟨r, copy_ok r1, r2.valid⟩

theorem valid_scalar (g : Good p w N) {x : List ℕ} {c : ℕ} (hx : ValidPoly N n x) (hc : c ≤ N) :
    ∃ r, Poly.copying (Poly.mulScalarInPlace p x c) = .ok r ∧ ValidPoly N n r := by
  obtain ⟨r, r1, r2⟩ := (hx.rep (p := p)).mulScalar g hc
  exact ⟨r, copy_ok r1, r2.valid⟩

theorem valid_fused (g : Good p w N) {x y z : List ℕ} (hx : ValidPoly N n x) (hy : ValidPoly N n y)
    (hz : ValidPoly N n z) :
    ∃ r, Poly.copying (Poly.fusedMulAddInPlace p x y z) = .ok r ∧ ValidPoly N n r := by
  obtain ⟨r, r1, r2⟩ := (hx.rep (p := p)).fusedMulAdd g hy.rep hz.rep
  exact ⟨r, copy_ok r1, r2.valid⟩

theorem valid_negate (g : Good p w N) {x : List ℕ} (hx : ValidPoly N n x) :
    ValidPoly N n (Poly.negate p x) := ((hx.rep (p := p)).negate g).valid

theorem valid_ntt (g : Good p w N) (t : Tables p w N l psi q) {x : List ℕ}
    (hx : ValidPoly N (2 ^ l) x) :
    ∃ r, Poly.convertToNtt p q x = .ok r ∧ ValidPoly N (2 ^ l) r := by
  obtain ⟨r, r1, r2, _⟩ := (hx.rep (p := p)).forward g t
  exact ⟨r, r1, r2.valid⟩

theorem valid_inverse (g : Good p w N) (hp : N.Prime) (t : Tables p w N l psi q) {x : List ℕ}
    (hx : ValidPoly N (2 ^ l) x) :
    ∃ r, Poly.inverseNtt p q x = .ok r ∧ ValidPoly N (2 ^ l) r := by
  obtain ⟨r, r1, r2, _⟩ := (hx.rep (p := p)).inverse g hp t
  exact ⟨r, r1, r2.valid⟩

theorem valid_substitute (t : Tables p w N l psi q) {x r : List ℕ} (hx : ValidPoly N (2 ^ l) x)
    {k : ℤ} (hr : Poly.substitute q x k = .ok r) : ValidPoly N (2 ^ l) r := by
  have hl15 := t.l15
  have hl : (2 : ℕ) ^ l ≤ 2 ^ 15 := Nat.pow_le_pow_right (by norm_num) hl15
  have hrej := c18_rejects q x (by rw [hx.1]; omega) k
  have hk0 : 0 ≤ k ∧ k % 2 = 1 ∧ k < 2 * 2 ^ l := by
    by_contra hc
    have := hrej (by
      rw [hx.1]
      by_contra hc2
      apply hc
      push Not at hc2
      obtain ⟨c1, c2, c3⟩ := hc2
      refine ⟨c1, by omega, by exact_mod_cast c3⟩)
    rw [this] at hr; cases hr
  obtain ⟨m, rfl⟩ := Int.eq_ofNat_of_zero_le hk0.1
  obtain ⟨r', r1, r2⟩ := (hx.rep (p := p)).substitute (q := q) (by omega) t.bitrevs (k := m)
    (by have := hk0.2.1; omega) (by exact_mod_cast hk0.2.2)
  rw [r1] at hr
  cases hr
  exact r2.valid

theorem valid_pad (G : Gen σ) (g : Good p w N) (fuel : ℕ) (s s' : σ) (cs : List ℕ)
    (hs : Sampler.samplePolynomial G p fuel n s = .ok (cs, s')) : ValidPoly N n cs :=
  (pad_rep G g fuel n s s' cs hs).valid

/-- Every error vector drawn consists of imported values; no condition on the modulus is needed. -/
theorem valid_error (G : Gen σ) (g : Good p w N) (variance : ℕ) (s s' : σ) (cs : List ℕ)
    (hs : Sampler.sampleError G p n variance s = .ok (cs, s')) : ValidPoly N n cs := by
  unfold Sampler.sampleError at hs
  by_cases hv : variance > Sampler.kMaxVariance
  · rw [if_pos hv] at hs; cases hs
  rw [if_neg hv] at hs
  have hinv := loop_inv (fun j (r : List ℕ × σ) => r.1.length = n ∧ ∀ a ∈ r.1, a ≤ N)
    ⟨by simp, fun a ha => by rw [List.eq_of_mem_replicate ha]; omega⟩ ?_ hs
  · exact hinv
  · rintro j r r' - ⟨h1, h2⟩ hr
    obtain ⟨c, -, hr⟩ := Outcome.bind_eq_ok.mp hr
    obtain ⟨l, hl, hr⟩ := Outcome.bind_eq_ok.mp hr
    cases hr
    unfold wr at hl
    obtain ⟨_, hl⟩ | ⟨_, hl⟩ := ite_eq_iff.mp hl
    · cases hl
      refine ⟨by simpa using h1, fun a ha => ?_⟩
      rcases List.mem_or_eq_of_mem_set ha with ha | rfl
      · exact h2 a ha
      · refine (importInt_lt g _ ?_).le
        unfold Sampler.errorReduce
        rw [← g.hw]; exact trunc_lt _ _
    · cases hl

end Shell.Word
