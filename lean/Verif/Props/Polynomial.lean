import Verif.Lemmas.Polynomial
import Verif.Spec.Poly
import Verif.Props.Ntt
import Verif.Props.Transcription
/-!
# Properties C16-C18: polynomials

The observable meaning of a polynomial in NTT form is the coefficient vector that `InverseNtt` returns
for it; `HasCoeffs` says which one that is.
-/

namespace Shell
open MParams Ntt Poly NttRing

/-- The residues of a vector of stored words. -/
def coeffVec (p : MParams) (N n : ℕ) (v : List ℕ) : Fin n → ZMod N :=
  fun i => (Mont.exportInt p (v.getD i 0) : ZMod N)

/-- A polynomial of `n` words as produced by the public operations (see `c05_reachable_le`). -/
def ValidPoly (N n : ℕ) (v : List ℕ) : Prop := v.length = n ∧ ∀ a ∈ v, a ≤ N

/-- `InverseNtt` succeeds on `v` and returns canonical words for the coefficients `c`. -/
def HasCoeffs (p : MParams) (q : NttParams) (N n : ℕ) (v : List ℕ) (c : Fin n → ZMod N) : Prop :=
  ∃ r, inverseNtt p q v = .ok r ∧ r.length = n ∧ (∀ a ∈ r, a < N) ∧ coeffVec p N n r = c

section
variable {w N l : ℕ} {p : MParams} {q : NttParams} {psi : ZMod N}

theorem ValidPoly.rep {n : ℕ} {v : List ℕ} (h : ValidPoly N n v) :
    Rep p N n v (fun i => res p N (v.getD i 0)) :=
  ⟨h.1, fun i hi => forall_getD h.2 i (by rw [h.1]; exact hi), fun _ => rfl⟩

theorem Poly.Rep.valid {n : ℕ} {v : List ℕ} {x : Fin n → ZMod N} (h : Rep p N n v x) :
    ValidPoly N n v :=
  ⟨h.len, forall_mem_of_getD (fun i hi => h.le i (by rw [← h.len]; exact hi))⟩

theorem Poly.Rep.coeffVec {n : ℕ} {v : List ℕ} {x : Fin n → ZMod N} (g : Good p w N)
    (h : Rep p N n v x) : coeffVec p N n v = x := by
  funext i
  unfold Shell.coeffVec
  rw [← h.val i]
  exact res_export g (h.le i i.2)

theorem hasCoeffs_iff {v : List ℕ} {F c : Fin (2 ^ l) → ZMod N} (g : Good p w N) (hp : N.Prime)
    (t : Tables p w N l psi q) (hv : Rep p N (2 ^ l) v F) :
    HasCoeffs p q N (2 ^ l) v c ↔ ntt psi l c = F := by
  have hl : l ≤ 32 := by have := t.l15; omega
  obtain ⟨r, r1, r2, r3⟩ := hv.inverse g hp t
  constructor
  · rintro ⟨r', e1, e2, e3, e4⟩
    rw [r1] at e1
    cases e1
    rw [← e4, r2.coeffVec g, ntt_intt hp g.odd t.root hl]
  · intro h
    refine ⟨r, r1, r2.len, forall_mem_of_getD (fun i hi => r3 i (by rw [← r2.len]; exact hi)), ?_⟩
    rw [r2.coeffVec g, ← h, intt_ntt hp g.odd t.root hl]

end

/-! ## C16 -/

/-- C16: `ConvertToNtt` of canonical coefficients is a valid polynomial with exactly these
coefficients, and every valid polynomial has one coefficient vector. -/
theorem c16_convert {w N : ℕ} {p : MParams} (h : create w N = .ok p) (hp : N.Prime) (l : ℕ)
    {q : NttParams} (hq : initNtt p l = .ok q) :
    (∀ f : List ℕ, f.length = 2 ^ l → (∀ a ∈ f, a < N) →
      ∃ F, convertToNtt p q f = .ok F ∧ ValidPoly N (2 ^ l) F ∧
        HasCoeffs p q N (2 ^ l) F (coeffVec p N (2 ^ l) f) ∧ inverseNtt p q F = .ok f) ∧
    (∀ v, ValidPoly N (2 ^ l) v → ∃! c, HasCoeffs p q N (2 ^ l) v c) := by
  have g := good_of_create h
  obtain ⟨l', hl', psi, t⟩ := tables_of_init h hp hq
  have : l' = l := by omega
  subst this
  have hl : l' ≤ 32 := by have := t.l15; omega
  constructor
  · intro f hf hb
    have hv : ValidPoly N (2 ^ l') f := ⟨hf, fun a ha => (hb a ha).le⟩
    obtain ⟨F, f1, f2, f3⟩ := (hv.rep (p := p)).forward g t
    refine ⟨F, f1, f2.valid, (hasCoeffs_iff g hp t f2).mpr ?_, ?_⟩
    · rw [(hv.rep (p := p)).coeffVec g]
    · obtain ⟨u, u1, u2⟩ := (c15_inverse h hp l' hq f hf hb).1
      unfold convertToNtt at f1
      rw [u1] at f1
      cases f1
      unfold inverseNtt
      rw [u2]
  · intro v hv
    have hr := hv.rep (p := p)
    refine ⟨intt psi l' _, (hasCoeffs_iff g hp t hr).mpr (ntt_intt hp g.odd t.root hl _), ?_⟩
    intro c hc
    rw [← (hasCoeffs_iff g hp t hr).mp hc, intt_ntt hp g.odd t.root hl]

/-- C16: the polynomial operations are the operations of `Z_N[X]/(X^n+1)` on coefficient vectors. -/
theorem c16_ring_operations {w N : ℕ} {p : MParams} (h : create w N = .ok p) (hp : N.Prime) (l : ℕ)
    {q : NttParams} (hq : initNtt p l = .ok q) {u v t : List ℕ} {a b c : Fin (2 ^ l) → ZMod N}
    (hu : ValidPoly N (2 ^ l) u) (hv : ValidPoly N (2 ^ l) v) (ht : ValidPoly N (2 ^ l) t)
    (ha : HasCoeffs p q N (2 ^ l) u a) (hb : HasCoeffs p q N (2 ^ l) v b)
    (hc : HasCoeffs p q N (2 ^ l) t c) :
    (∃ r, Poly.mul p u v = .ok r ∧ ValidPoly N (2 ^ l) r ∧
      HasCoeffs p q N (2 ^ l) r (Spec.negMul a b)) ∧
    (∃ r, Poly.add p u v = .ok r ∧ ValidPoly N (2 ^ l) r ∧ HasCoeffs p q N (2 ^ l) r (a + b)) ∧
    (∃ r, Poly.sub p u v = .ok r ∧ ValidPoly N (2 ^ l) r ∧ HasCoeffs p q N (2 ^ l) r (a - b)) ∧
    (ValidPoly N (2 ^ l) (Poly.negate p u) ∧ HasCoeffs p q N (2 ^ l) (Poly.negate p u) (-a)) ∧
    (∀ s ≤ N, ∃ r, Poly.mulScalar p u s = .ok r ∧ ValidPoly N (2 ^ l) r ∧
      HasCoeffs p q N (2 ^ l) r (fun i => (Mont.exportInt p s : ZMod N) * a i)) ∧
    (∃ r, fusedMulAddInPlace p t u v = (r, none) ∧ ValidPoly N (2 ^ l) r ∧
      HasCoeffs p q N (2 ^ l) r (c + Spec.negMul a b)) ∧
    (∃ k r, computeConstant p v = .ok k ∧ Poly.mulConstant p u k = .ok r ∧
      ValidPoly N (2 ^ l) r ∧ HasCoeffs p q N (2 ^ l) r (Spec.negMul a b)) ∧
    (∃ k r, computeConstant p v = .ok k ∧ fusedMulConstantAddInPlace p t u k = (r, none) ∧
      ValidPoly N (2 ^ l) r ∧ HasCoeffs p q N (2 ^ l) r (c + Spec.negMul a b)) := by
  have g := good_of_create h
  obtain ⟨l', hl', psi, tb⟩ := tables_of_init h hp hq
  have : l' = l := by omega
  subst this
  have ru := hu.rep (p := p)
  have rv := hv.rep (p := p)
  have rt := ht.rep (p := p)
  have ha' := (hasCoeffs_iff g hp tb ru).mp ha
  have hb' := (hasCoeffs_iff g hp tb rv).mp hb
  have hc' := (hasCoeffs_iff g hp tb rt).mp hc
  have fin : ∀ {r : List ℕ} {X c : Fin (2 ^ l') → ZMod N}, Rep p N (2 ^ l') r X →
      ntt psi l' c = X → ValidPoly N (2 ^ l') r ∧ HasCoeffs p q N (2 ^ l') r c :=
    fun hr hx => ⟨hr.valid, (hasCoeffs_iff g hp tb hr).mpr hx⟩
  have hmul : ntt psi l' (Spec.negMul a b) = ntt psi l' a * ntt psi l' b := ntt_negMul tb.root a b
  refine ⟨?_, ?_, ?_, ?_, ?_, ?_, ?_, ?_⟩
  · obtain ⟨r, r1, r2⟩ := ru.mul g rv
    exact ⟨r, by simp [Poly.mul, copying, r1], fin r2 (by rw [hmul, ha', hb'])⟩
  · obtain ⟨r, r1, r2⟩ := ru.add g rv
    exact ⟨r, by simp [Poly.add, copying, r1], fin r2 (by rw [ntt_add, ha', hb'])⟩
  · obtain ⟨r, r1, r2⟩ := ru.sub g rv
    exact ⟨r, by simp [Poly.sub, copying, r1], fin r2 (by rw [ntt_sub, ha', hb'])⟩
  · exact fin (ru.negate g) (by rw [ntt_neg, ha'])
  · intro s hs
    obtain ⟨r, r1, r2⟩ := ru.mulScalar g hs
    refine ⟨r, by simp [Poly.mulScalar, copying, r1], fin r2 ?_⟩
    rw [ntt_smul, ha', show (Mont.exportInt p s : ZMod N) = res p N s from res_export g hs]
  · obtain ⟨r, r1, r2⟩ := rt.fusedMulAdd g ru rv
    exact ⟨r, r1, fin r2 (by rw [ntt_add, hmul, ha', hb', hc'])⟩
  · obtain ⟨r, r1, r2⟩ := ru.mulConstant g rv (computeConstant_ok v)
    exact ⟨_, r, computeConstant_ok v, by simp [Poly.mulConstant, copying, r1],
      fin r2 (by rw [hmul, ha', hb'])⟩
  · obtain ⟨r, r1, r2⟩ := rt.fusedMulConstantAdd g ru rv (computeConstant_ok v)
    exact ⟨_, r, computeConstant_ok v, r1, fin r2 (by rw [ntt_add, hmul, ha', hb', hc'])⟩

/-- In `Z_17[X]/(X^2+1)`: `(1 + 2X)(3 + 4X) = 3 + 10X + 8X^2 = -5 + 10X = 12 + 10X`. -/
example :
    (do let p ← create 16 17
        let q ← initNtt p 1
        let F ← convertToNtt p q ([1, 2].map (Mont.importInt p))
        let G ← convertToNtt p q ([3, 4].map (Mont.importInt p))
        let H ← Poly.mul p F G
        let r ← inverseNtt p q H
        return r.map (Mont.exportInt p)) = .ok [12, 10] := by decide +kernel

/-! ## C17 -/

/-- C17: every operation of two or three polynomials fails with `INVALID_ARGUMENT` exactly when the
lengths differ; on failure the in-place operand is unchanged, on success it keeps its length. -/
theorem c17_length_errors (p : MParams) (x y z : List ℕ) (k : Const) :
    (∀ op ∈ [addInPlace p x y, subInPlace p x y, mulInPlace p x y],
      (x.length ≠ y.length → op = (x, some .invalidArgument)) ∧
      (x.length = y.length → op.2 = none ∧ op.1.length = x.length)) ∧
    (∀ op ∈ [Poly.add p x y, Poly.sub p x y, Poly.mul p x y],
      (x.length ≠ y.length → op = .err .invalidArgument) ∧
      (x.length = y.length → ∃ r, op = .ok r ∧ r.length = x.length)) ∧
    (¬ (x.length = y.length ∧ x.length = z.length) →
      fusedMulAddInPlace p x y z = (x, some .invalidArgument)) ∧
    (x.length = y.length ∧ x.length = z.length →
      (fusedMulAddInPlace p x y z).2 = none ∧
      (fusedMulAddInPlace p x y z).1.length = x.length) ∧
    (¬ (x.length = k.c.length ∧ x.length = k.cb.length) →
      mulConstantInPlace p x k = (x, some .invalidArgument) ∧
      Poly.mulConstant p x k = .err .invalidArgument) ∧
    (x.length = k.c.length ∧ x.length = k.cb.length →
      (mulConstantInPlace p x k).2 = none ∧ (mulConstantInPlace p x k).1.length = x.length ∧
      Poly.mulConstant p x k = .ok (mulConstantInPlace p x k).1) ∧
    (¬ (x.length = y.length ∧ x.length = k.c.length ∧ x.length = k.cb.length) →
      fusedMulConstantAddInPlace p x y k = (x, some .invalidArgument)) ∧
    (x.length = y.length ∧ x.length = k.c.length ∧ x.length = k.cb.length →
      (fusedMulConstantAddInPlace p x y k).2 = none ∧
      (fusedMulConstantAddInPlace p x y k).1.length = x.length) ∧
    (Const.create y z = if y.length = z.length then .ok ⟨y, z⟩ else .err .invalidArgument) := by
  refine ⟨?_, ?_, ?_, ?_, ?_, ?_, ?_, ?_, ?_⟩
  · intro op hop
    simp only [List.mem_cons, List.not_mem_nil, or_false] at hop
    rcases hop with rfl | rfl | rfl <;>
      refine ⟨fun h => ?_, fun h => ?_⟩ <;>
      simp [addInPlace, subInPlace, mulInPlace, h]
  · intro op hop
    simp only [List.mem_cons, List.not_mem_nil, or_false] at hop
    rcases hop with rfl | rfl | rfl <;>
      refine ⟨fun h => ?_, fun h => ?_⟩ <;>
      simp [Poly.add, Poly.sub, Poly.mul, copying, addInPlace, subInPlace, mulInPlace, h]
  · intro h; unfold fusedMulAddInPlace; rw [if_pos (by omega)]
  · rintro ⟨h1, h2⟩
    unfold fusedMulAddInPlace; rw [if_neg (by omega)]
    exact ⟨rfl, by simp; omega⟩
  · intro h
    have e : mulConstantInPlace p x k = (x, some .invalidArgument) := by
      unfold mulConstantInPlace; rw [if_pos (by omega)]
    exact ⟨e, by simp [Poly.mulConstant, copying, e]⟩
  · rintro ⟨h1, h2⟩
    have e : mulConstantInPlace p x k =
        (List.zipWith (fun a k => Mont.mulConstant p a k.1 k.2) x (k.c.zip k.cb), none) := by
      unfold mulConstantInPlace; rw [if_neg (by omega)]
    exact ⟨by rw [e], by rw [e]; simp; omega, by simp [Poly.mulConstant, copying, e]⟩
  · intro h; unfold fusedMulConstantAddInPlace; rw [if_pos (by omega)]
  · rintro ⟨h1, h2, h3⟩
    unfold fusedMulConstantAddInPlace; rw [if_neg (by omega)]
    exact ⟨rfl, by simp; omega⟩
  · unfold Const.create
    by_cases h : y.length = z.length <;> simp [h]

example : addInPlace exParams [1, 2, 3] [1] = ([1, 2, 3], some .invalidArgument) ∧
    addInPlace exParams [1, 2] [3, 4] = ([4, 6], none) := by decide +kernel

/-! ## C18 -/

/-- C18: for every odd `k` in `[0, 2n)`, `Substitute` returns a polynomial whose coefficients are those
of `f(X^k)` modulo `X^n + 1`. -/
theorem c18_substitute {w N : ℕ} {p : MParams} (h : create w N = .ok p) (hp : N.Prime) (l : ℕ)
    {q : NttParams} (hq : initNtt p l = .ok q) {v : List ℕ} {a : Fin (2 ^ l) → ZMod N}
    (hv : ValidPoly N (2 ^ l) v) (ha : HasCoeffs p q N (2 ^ l) v a) (k : ℕ) (hk : k % 2 = 1)
    (hk2 : k < 2 * 2 ^ l) :
    ∃ r, Poly.substitute q v k = .ok r ∧ ValidPoly N (2 ^ l) r ∧
      HasCoeffs p q N (2 ^ l) r (Spec.substPow k a) := by
  have g := good_of_create h
  obtain ⟨l', hl', psi, tb⟩ := tables_of_init h hp hq
  have : l' = l := by omega
  subst this
  have hl := tb.l15
  have rv := hv.rep (p := p)
  have ha' := (hasCoeffs_iff g hp tb rv).mp ha
  obtain ⟨r, r1, r2⟩ := rv.substitute (by omega) tb.bitrevs hk hk2
  refine ⟨r, r1, r2.valid, (hasCoeffs_iff g hp tb r2).mpr ?_⟩
  rw [ntt_substPow tb.root (by omega) k hk, ha']

/-- C18: all other powers are rejected with `INVALID_ARGUMENT` (for any polynomial of fewer than `2^30`
coefficients). -/
theorem c18_rejects (q : NttParams) (v : List ℕ) (hv : v.length < 2 ^ 30) (k : ℤ)
    (hk : k < 0 ∨ k % 2 = 0 ∨ k ≥ 2 * v.length) :
    Poly.substitute q v k = .err .invalidArgument := by
  unfold Poly.substitute
  by_cases h1 : 0 > k ∨ k.tmod 2 = 0
  · rw [if_pos h1]
  · rw [if_neg h1, if_neg (by omega)]
    rw [if_pos]
    have h2 : ¬ k < 0 := fun hc => h1 (Or.inl hc)
    have t1 : k.tmod 2 = k % 2 := Int.tmod_eq_emod_of_nonneg (by omega)
    omega

/-- C18: substituting `k` and then `m` gives the same words as substituting `k*m mod 2n`. -/
theorem c18_compose {w N : ℕ} {p : MParams} (h : create w N = .ok p) (hp : N.Prime) (l : ℕ)
    {q : NttParams} (hq : initNtt p l = .ok q) {v : List ℕ} (hv : v.length = 2 ^ l) (k m : ℕ)
    (hk : k % 2 = 1) (hk2 : k < 2 * 2 ^ l) (hm : m % 2 = 1) (hm2 : m < 2 * 2 ^ l) :
    (do let r ← Poly.substitute q v k; Poly.substitute q r m) =
      Poly.substitute q v ((k * m % (2 * 2 ^ l) : ℕ)) := by
  obtain ⟨l', hl', psi, tb⟩ := tables_of_init h hp hq
  have : l' = l := by omega
  subst this
  have hl := tb.l15
  have hodd : (k * m % (2 * 2 ^ l')) % 2 = 1 := by
    rw [Nat.mod_mul_right_mod, Nat.mul_mod, hk, hm]
  obtain ⟨r, r1, r2, r3⟩ := substitute_spec (by omega) q tb.bitrevs v hv hk hk2
  obtain ⟨s, s1, s2, s3⟩ := substitute_spec (by omega) q tb.bitrevs r r2 hm hm2
  obtain ⟨t, t1, t2, t3⟩ := substitute_spec (by omega) q tb.bitrevs v hv hodd
    (Nat.mod_lt _ (by positivity))
  rw [r1, Outcome.bind_ok, s1, t1]
  congr 1
  apply ext_getD 0 (by omega)
  intro x hx
  rw [s2] at hx
  -- compare through the functional version
  have key := congrFun (subst_subst (l := l') (by omega) k m hk hm
    (fun i : Fin (2 ^ l') => v.getD i 0)) ⟨x, hx⟩
  simp only [subst] at key
  have hb : ∀ y, bitrev y l' < 2 ^ l' := fun y => bitrev_lt l' y (by omega)
  simp only [Fin.ofNat, Nat.mod_eq_of_lt (hb _)] at key
  rw [s3 x hx, r3 _ (hb _), t3 x hx]
  exact key

example :
    (do let p ← create 16 17
        let q ← initNtt p 2
        let F ← convertToNtt p q ([1, 2, 3, 4].map (Mont.importInt p))
        let G ← Poly.substitute q F 3
        let r ← inverseNtt p q G
        return r.map (Mont.exportInt p)) = .ok [1, 4, 14, 2] := by decide +kernel

end Shell
