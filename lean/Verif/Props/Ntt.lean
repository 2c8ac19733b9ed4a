import Verif.Lemmas.Ntt
import Verif.Spec.Ntt
import Verif.Props.Montgomery
import Mathlib.Tactic.NormNum.Prime
/-!
# Properties C13-C15: number theoretic transforms

`MParams.create w N = .ok p` fixes the word size and the modulus, `initNtt p log_n` is
`InitializeNttParameters`, `Ntt.forward`/`Ntt.inverse` are the two transforms on vectors of stored
words.
-/

namespace Shell
open MParams Ntt

/-- The residues represented by a vector of stored words. -/
def residues (p : MParams) (N : ℕ) (v : List ℕ) : List (ZMod N) :=
  v.map fun a => (Mont.exportInt p a : ZMod N)

theorem residues_getD {w N : ℕ} {p : MParams} (g : Good p w N) {v : List ℕ}
    (hv : ∀ a ∈ v, a ≤ N) (i : ℕ) (hi : i < v.length) :
    (residues p N v).getD i 0 = res p N (v.getD i 0) := by
  unfold residues
  rw [List.getD_eq_getElem _ _ (by simpa using hi), List.getElem_map,
    List.getD_eq_getElem _ _ hi]
  exact res_export g (hv _ (List.getElem_mem hi))

theorem forall_getD {P : ℕ → Prop} {v : List ℕ} (h : ∀ a ∈ v, P a) :
    ∀ x < v.length, P (v.getD x 0) := by
  intro x hx
  rw [List.getD_eq_getElem _ _ hx]
  exact h _ (List.getElem_mem hx)

theorem forall_mem_of_getD {P : ℕ → Prop} {v : List ℕ} (h : ∀ x < v.length, P (v.getD x 0)) :
    ∀ a ∈ v, P a := by
  intro a ha
  obtain ⟨i, hi, rfl⟩ := List.getElem_of_mem ha
  have := h i hi
  rwa [List.getD_eq_getElem _ _ hi] at this

theorem isBitReversal_bitrev (L i : ℕ) (hL : L ≤ 32) (hi : i < 2 ^ L) :
    Spec.IsBitReversal L i (bitrev i L) :=
  ⟨hi, bitrev_lt L i hL, fun k hk => bitrev_testBit L i k hL hk⟩

theorem bitrev_of_isBitReversal {L i j : ℕ} (hL : L ≤ 32) (h : Spec.IsBitReversal L i j) :
    j = bitrev i L := by
  apply Nat.eq_of_testBit_eq
  intro k
  by_cases hk : k < L
  · rw [h.2.2 k hk, bitrev_testBit L i k hL hk]
  · have h2 : 2 ^ L ≤ 2 ^ k := Nat.pow_le_pow_right (by norm_num) (by omega)
    rw [Nat.testBit_lt_two_pow (by have := h.2.1; omega),
      Nat.testBit_lt_two_pow (by have := bitrev_lt L i hL; omega)]

theorem bitrev_isBitReversal {L i j : ℕ} (hL : L ≤ 32) (h : Spec.IsBitReversal L i j) :
    bitrev j L = i := by
  rw [bitrev_of_isBitReversal hL h, bitrev_invol L i hL h.1]

theorem tables_of_init {w N : ℕ} {p : MParams} (h : create w N = .ok p) (hp : N.Prime) {logN : ℤ}
    {q : NttParams} (hq : initNtt p logN = .ok q) :
    ∃ l : ℕ, logN = l ∧ ∃ psi, Tables p w N l psi q := by
  have g := good_of_create h
  have h4 := g.lt
  have h1 : ¬ logN ≤ 0 := by
    intro hc; unfold initNtt at hq; rw [if_pos hc] at hq; cases hq
  have h2 : ¬ logN > kMaxLogNumCoeffs := by
    intro hc; unfold initNtt at hq; rw [if_neg h1, if_pos hc] at hq; cases hq
  obtain ⟨l, rfl⟩ := Int.eq_ofNat_of_zero_le (show 0 ≤ logN by omega)
  unfold kMaxLogNumCoeffs at h2
  have h3 : l < w - 1 := by
    by_contra hc
    unfold initNtt at hq
    rw [if_neg h1, if_neg (by unfold kMaxLogNumCoeffs; omega)] at hq
    simp only [Int.toNat_natCast, g.hw, MParams.doesLogNFit, hc, decide_false,
      Bool.false_eq_true, not_false_eq_true, if_true] at hq
    cases hq
  have hlt : 2 ^ (l + 1) < 2 ^ w := Nat.pow_lt_pow_right (by norm_num) (by omega)
  have htr : trunc w ((1 <<< (l + 1) : ℕ) : ℤ) = 2 ^ (l + 1) :=
    trunc_eq _ _ _ (by rw [Nat.one_shiftLeft]) hlt
  have h5 : N % 2 ^ (l + 1) = 1 := by
    by_contra hc
    unfold initNtt at hq
    rw [if_neg h1, if_neg (by unfold kMaxLogNumCoeffs; omega)] at hq
    simp only [Int.toNat_natCast, g.hw, g.hN, htr, MParams.doesLogNFit, h3, decide_true,
      not_true_eq_false, if_false, ne_eq, hc, not_false_eq_true, if_true] at hq
    cases hq
  obtain ⟨q', e1, psi, e2⟩ := initNtt_tables g hp l (by omega) (by omega) h3 h5
  rw [e1] at hq
  cases hq
  exact ⟨l, rfl, psi, e2⟩

/-! ## C13 -/

/-- C13: for a prime modulus, `InitializeNttParameters` succeeds exactly when `1 ≤ log_n ≤ 15`, the
word has more than `log_n + 1` bits and `N = 1 (mod 2n)`; otherwise it fails with
`INVALID_ARGUMENT`. -/
theorem c13_init_succeeds_iff {w N : ℕ} {p : MParams} (h : create w N = .ok p) (hp : N.Prime)
    (logN : ℤ) :
    ((∃ q, initNtt p logN = .ok q) ↔
      1 ≤ logN ∧ logN ≤ 15 ∧ logN + 1 < w ∧ N % 2 ^ (logN.toNat + 1) = 1) ∧
    ((¬ ∃ q, initNtt p logN = .ok q) → initNtt p logN = .err .invalidArgument) := by
  have g := good_of_create h
  have h4 := g.lt
  by_cases h1 : logN ≤ 0
  · have e : initNtt p logN = .err .invalidArgument := by unfold initNtt; rw [if_pos h1]
    refine ⟨⟨?_, fun hc => by omega⟩, fun _ => e⟩
    rintro ⟨q, hq⟩; rw [e] at hq; cases hq
  by_cases h2 : logN > kMaxLogNumCoeffs
  · have e : initNtt p logN = .err .invalidArgument := by
      unfold initNtt; rw [if_neg h1, if_pos h2]
    unfold kMaxLogNumCoeffs at h2
    refine ⟨⟨?_, fun hc => by omega⟩, fun _ => e⟩
    rintro ⟨q, hq⟩; rw [e] at hq; cases hq
  obtain ⟨l, rfl⟩ := Int.eq_ofNat_of_zero_le (show 0 ≤ logN by omega)
  have h2' := h2
  unfold kMaxLogNumCoeffs at h2'
  by_cases h3 : l < w - 1
  · have hlt : 2 ^ (l + 1) < 2 ^ w := Nat.pow_lt_pow_right (by norm_num) (by omega)
    have htr : trunc w ((1 <<< (l + 1) : ℕ) : ℤ) = 2 ^ (l + 1) :=
      trunc_eq _ _ _ (by rw [Nat.one_shiftLeft]) hlt
    by_cases h5 : N % 2 ^ (l + 1) = 1
    · obtain ⟨q', e1, psi, e2⟩ := initNtt_tables g hp l (by omega) (by omega) h3 h5
      refine ⟨⟨fun _ => ⟨by omega, by omega, by omega, h5⟩, fun _ => ⟨q', e1⟩⟩, fun hc => ?_⟩
      exact absurd ⟨q', e1⟩ hc
    · have e : initNtt p l = .err .invalidArgument := by
        unfold initNtt
        rw [if_neg h1, if_neg h2]
        simp only [Int.toNat_natCast, g.hw, g.hN, htr, MParams.doesLogNFit, h3, decide_true,
          not_true_eq_false, if_false, ne_eq, h5, not_false_eq_true, if_true]
      refine ⟨⟨?_, fun hc => absurd hc.2.2.2 h5⟩, fun _ => e⟩
      rintro ⟨q, hq⟩; rw [e] at hq; cases hq
  · have e : initNtt p l = .err .invalidArgument := by
      unfold initNtt
      rw [if_neg h1, if_neg h2]
      simp only [Int.toNat_natCast, g.hw, MParams.doesLogNFit, h3, decide_false,
        Bool.false_eq_true, not_false_eq_true, if_true]
    refine ⟨⟨?_, fun hc => by omega⟩, fun _ => e⟩
    rintro ⟨q, hq⟩; rw [e] at hq; cases hq

/-- C13: for a prime modulus, the tables that `InitializeNttParameters` returns are those of one
element `psi` with `psi^n = -1`: the forward table holds `psi^j` at the bit reversal of `j`, the
inverse table holds `psi^-(j+1)` there, `n_inv` is the inverse of `n`, the constant tables are the
precomputed multiplication constants of the same entries, and `bitrevs` is bit reversal. -/
theorem c13_tables {w N : ℕ} {p : MParams} (h : create w N = .ok p) (hp : N.Prime) (l : ℕ)
    {q : NttParams} (hq : initNtt p l = .ok q) :
    ∃ psi : ZMod N, psi ^ 2 ^ l = -1 ∧
      q.numberCoeffs = 2 ^ l ∧
      (2 ^ l : ZMod N) * (Mont.exportInt p q.nInv : ZMod N) = 1 ∧ q.nInv < N ∧
      q.bitrevs.length = 2 ^ l ∧ q.psisBitrev.length = 2 ^ l ∧ q.psisInvBitrev.length = 2 ^ l ∧
      (∀ a ∈ q.psisBitrev, a < N) ∧ (∀ a ∈ q.psisInvBitrev, a < N) ∧
      (∀ j r, Spec.IsBitReversal l j r →
        q.bitrevs.getD j 0 = r ∧
        (residues p N q.psisBitrev).getD r 0 = psi ^ j ∧
        (residues p N q.psisInvBitrev).getD r 0 * psi ^ (j + 1) = 1) ∧
      q.psisBitrevConstant = q.psisBitrev.map (Mont.getConstant p) ∧
      q.psisInvBitrevConstant = q.psisInvBitrev.map (Mont.getConstant p) := by
  have g := good_of_create h
  obtain ⟨l', hl', psi, t⟩ := tables_of_init h hp hq
  have : l' = l := by omega
  subst this
  have hl := t.l15
  have b1 : ∀ a ∈ q.psisBitrev, a < N :=
    forall_mem_of_getD (fun x hx => (t.fwd x (by rw [← t.fwd_len]; exact hx)).1)
  have b2 : ∀ a ∈ q.psisInvBitrev, a < N :=
    forall_mem_of_getD (fun x hx => (t.inv x (by rw [← t.inv_len]; exact hx)).1)
  refine ⟨psi, t.root, t.num, ?_, t.nInv_lt, by rw [t.bitrevs, bitrevArray_length], t.fwd_len,
    t.inv_len, b1, b2, ?_, t.fwdC, t.invC⟩
  · rw [show (Mont.exportInt p q.nInv : ZMod N) = res p N q.nInv from res_export g t.nInv_lt.le]
    exact t.nInv
  · intro j r hjr
    have e1 := bitrev_of_isBitReversal (by omega) hjr
    have e2 := bitrev_isBitReversal (by omega) hjr
    refine ⟨?_, ?_, ?_⟩
    · have := rd_bitrevArray hjr.1
      rw [rd_getD 0 (by rw [bitrevArray_length]; exact hjr.1), ← t.bitrevs] at this
      rw [e1]; exact Outcome.ok.inj this
    · rw [residues_getD g (fun a ha => (b1 a ha).le) r (by rw [t.fwd_len]; exact hjr.2.1),
        (t.fwd r hjr.2.1).2, e2]
    · rw [residues_getD g (fun a ha => (b2 a ha).le) r (by rw [t.inv_len]; exact hjr.2.1)]
      have := (t.inv r hjr.2.1).2
      rw [e2] at this; exact this

/-- Primality is needed: for the composite modulus 9, `InitializeNttParameters` accepts `log_n = 1`
and returns a table whose root `4` does not satisfy `4^2 = -1 (mod 9)`. -/
theorem c13_composite_witness :
    (do let p ← create 16 9
        let q ← initNtt p 1
        return q.psisBitrev.map (Mont.exportInt p)) = .ok [1, 4] ∧ 4 ^ 2 % 9 ≠ 9 - 1 := by
  decide +kernel

example : ∃ q, initNtt exParams 3 = .ok q := by
  refine ((c13_init_succeeds_iff exParams_ok (by norm_num) 3).1).2 ⟨by norm_num, by norm_num, 
    by norm_num, by decide⟩

/-! ## C14 -/

/-- C14: `ForwardNumberTheoreticTransform` maps the coefficients of a polynomial of `2^L ≤ 2^log_n`
coefficients to its values at the odd powers of `psi^(2^(log_n - L))`: the value at
exponent `2i+1` is at the bit reversal of `i`, and every stored word is canonical. -/
theorem c14_forward {w N : ℕ} {p : MParams} (h : create w N = .ok p) (hp : N.Prime) (l : ℕ)
    {q : NttParams} (hq : initNtt p l = .ok q) :
    ∃ psi : ZMod N, psi ^ 2 ^ l = -1 ∧ ∀ L ≤ l, ∀ v : List ℕ, v.length = 2 ^ L →
      (∀ a ∈ v, a < N) →
      ∃ out, forward p q v = .ok out ∧ out.length = 2 ^ L ∧ (∀ a ∈ out, a < N) ∧
        ∀ i r, Spec.IsBitReversal L i r → (residues p N out).getD r 0 =
          Spec.evalPoly (residues p N v) ((psi ^ 2 ^ (l - L)) ^ (2 * i + 1)) := by
  have g := good_of_create h
  obtain ⟨l', hl', psi, t⟩ := tables_of_init h hp hq
  have : l' = l := by omega
  subst this
  have hl := t.l15
  refine ⟨psi, t.root, fun L hL v hv hb => ?_⟩
  have hb' : ∀ a ∈ v, a ≤ N := fun a ha => (hb a ha).le
  obtain ⟨out, o1, o2, o3, o4, o5⟩ := forward_ok g t L hL v hv (forall_getD hb')
  have hout : ∀ a ∈ out, a < N := by
    by_cases hL0 : 0 < L
    · exact forall_mem_of_getD (fun x hx => (o3 x (by omega)).2 hL0)
    · have hL0 : L = 0 := by omega
      subst hL0
      rw [forward_unfold q v 0 (by omega) hv] at o1
      have : v = out := by
        simpa [iterativeCooleyTukey, loop, loopFrom, Outcome.pure_eq, Outcome.bind_ok] using o1
      rw [← this]; exact hb
  refine ⟨out, o1, o2, hout, fun i r hir => ?_⟩
  rw [residues_getD g (fun a ha => (hout a ha).le) r (by rw [o2]; exact hir.2.1), o5 r hir.2.1,
    bitrev_isBitReversal (by omega) hir]
  unfold Spec.evalPoly
  have hlen : (residues p N v).length = 2 ^ L := by simp [residues, hv]
  rw [hlen]
  apply Finset.sum_congr rfl
  intro j hj
  rw [residues_getD g hb' j (by rw [hv]; exact Finset.mem_range.mp hj), add_comm 1]

/-- C14, other lengths: a length that is not a power of two is rejected with `INVALID_ARGUMENT`; a
power of two longer than the table reads beyond the table (undefined behaviour, not an error). -/
theorem c14_forward_bad_lengths {w N : ℕ} {p : MParams} (h : create w N = .ok p) (hp : N.Prime)
    (l : ℕ) {q : NttParams} (hq : initNtt p l = .ok q) (v : List ℕ) (h31 : v.length < 2 ^ 31) :
    (v ≠ [] → (∀ L, v.length ≠ 2 ^ L) → forward p q v = .err .invalidArgument) ∧
    (∀ L, l < L → v.length = 2 ^ L → forward p q v = .ub .outOfBounds) := by
  obtain ⟨l', hl', psi, t⟩ := tables_of_init h hp hq
  have : l' = l := by omega
  subst this
  refine ⟨fun h0 hL => (not_pow2_err p q v h0 h31 hL).1, fun L hL hv => ?_⟩
  apply forward_longer p q l' (by rw [t.fwdC, List.length_map, t.fwd_len]) L hL _ v hv
  rw [hv] at h31
  have := (Nat.pow_lt_pow_iff_right (a := 2) (by norm_num)).mp h31
  omega

/-! ## C15 -/

/-- C15: at the table's length the two transforms are mutually inverse on canonical vectors. -/
theorem c15_inverse {w N : ℕ} {p : MParams} (h : create w N = .ok p) (hp : N.Prime) (l : ℕ)
    {q : NttParams} (hq : initNtt p l = .ok q) (v : List ℕ) (hv : v.length = 2 ^ l)
    (hb : ∀ a ∈ v, a < N) :
    (∃ u, forward p q v = .ok u ∧ inverse p q u = .ok v) ∧
    (∃ u, inverse p q v = .ok u ∧ forward p q u = .ok v) := by
  have g := good_of_create h
  obtain ⟨l', hl', psi, t⟩ := tables_of_init h hp hq
  have : l' = l := by omega
  subst this
  exact ⟨Outcome.bind_eq_ok.mp (inverse_forward g t v hv (forall_getD hb)),
    Outcome.bind_eq_ok.mp (forward_inverse g t v hv (forall_getD hb))⟩

/-- C15: the inverse transform also normalises the one non-canonical word that the operations can
produce (`N` for zero), and always returns canonical words. -/
theorem c15_inverse_canonical {w N : ℕ} {p : MParams} (h : create w N = .ok p) (hp : N.Prime) (l : ℕ)
    {q : NttParams} (hq : initNtt p l = .ok q) (v : List ℕ) (hv : v.length = 2 ^ l)
    (hb : ∀ a ∈ v, a ≤ N) :
    ∃ u, inverse p q v = .ok u ∧ u.length = 2 ^ l ∧ (∀ a ∈ u, a < N) ∧
      ∃ v', forward p q u = .ok v' ∧ residues p N v' = residues p N v := by
  have g := good_of_create h
  obtain ⟨l', hl', psi, t⟩ := tables_of_init h hp hq
  have : l' = l := by omega
  subst this
  obtain ⟨u, u1, u2, u3, u4⟩ := inverse_ok g t v hv (forall_getD hb)
  obtain ⟨o, o1, o2, o3, o4, _⟩ := forward_ok g t l' le_rfl u u2 (fun x hx => (u3 x (by omega)).le)
  refine ⟨u, u1, u2, forall_mem_of_getD (fun x hx => u3 x (by omega)), o, o1, ?_⟩
  have hl1 := t.l1
  apply ext_getD 0 (by simp [residues, o2, hv])
  intro x hx
  simp only [residues, List.length_map] at hx
  rw [residues_getD g (forall_mem_of_getD (fun x hx => (o3 x (by omega)).1)) x hx,
    residues_getD g hb x (by omega)]
  rw [o2] at hx
  rw [o4 x hx, mfwd_congr _ l' u4 l' le_rfl x hx, mfwd_smul, mfwd_minv _ _ l' _ t.TU l' le_rfl x hx,
    Nat.sub_self]
  show _ * (_ * res p N (v.getD x 0)) = _
  linear_combination (res p N (v.getD x 0)) * t.nInv

/-- C15, other lengths: a length that is not a power of two, or longer than the table, is rejected
with `INVALID_ARGUMENT`. -/
theorem c15_inverse_bad_lengths {w N : ℕ} {p : MParams} (h : create w N = .ok p) (hp : N.Prime)
    (l : ℕ) {q : NttParams} (hq : initNtt p l = .ok q) (v : List ℕ) (h31 : v.length < 2 ^ 31)
    (h0 : v ≠ []) :
    ((∀ L, v.length ≠ 2 ^ L) → inverse p q v = .err .invalidArgument) ∧
    (∀ L, l < L → v.length = 2 ^ L → inverse p q v = .err .invalidArgument) := by
  obtain ⟨l', hl', psi, t⟩ := tables_of_init h hp hq
  have : l' = l := by omega
  subst this
  refine ⟨fun hL => (not_pow2_err p q v h0 h31 hL).2, fun L hL hv => ?_⟩
  apply inverse_longer p q l' t.l1 (by rw [t.invC, List.length_map, t.inv_len]) L hL _ v hv
  rw [hv] at h31
  have := (Nat.pow_lt_pow_iff_right (a := 2) (by norm_num)).mp h31
  omega

/-- On vectors *shorter* than the table both transforms succeed, but they are not inverse to each
other: with modulus 17 and `log_n = 2`, transforming `[1, 2]` forth and back gives other residues. -/
theorem c15_short_vector_witness :
    (do let p ← create 16 17
        let q ← initNtt p 2
        let u ← forward p q ([1, 2].map (Mont.importInt p))
        let x ← inverse p q u
        return x.map (Mont.exportInt p)) = .ok [9, 9] := by
  decide +kernel

example : ∃ q, initNtt exParams 1 = .ok q ∧
    ∃ u, forward exParams q [1, 2] = .ok u ∧ inverse exParams q u = .ok [1, 2] := by
  obtain ⟨q, hq⟩ := ((c13_init_succeeds_iff exParams_ok (by norm_num) 1).1).2
    ⟨by norm_num, by norm_num, by norm_num, by decide⟩
  exact ⟨q, hq, (c15_inverse exParams_ok (by norm_num) 1 hq [1, 2] rfl (by decide)).1⟩

end Shell
