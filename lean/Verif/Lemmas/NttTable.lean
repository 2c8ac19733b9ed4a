import Verif.Lemmas.NttLoop
import Mathlib.NumberTheory.LegendreSymbol.Basic
import Mathlib.FieldTheory.Finite.Basic
/-!
The precomputed tables.
-/

namespace Shell.Ntt
variable {p : MParams} {w N : ℕ}

theorem rootLoop_spec (g : Good p w N) (k half : ℕ) : ∀ fuel t, t + fuel ≤ N →
    (∃ c, rootLoop p k half fuel t = .ok c ∧ c < N ∧ res p N c ^ half ≠ 1 ∧
      ∃ s, t ≤ s ∧ s < t + fuel ∧ res p N c = (s : ZMod N) ^ k) ∨
    (rootLoop p k half fuel t = .err .unknown ∧
      ∀ s, t ≤ s → s < t + fuel → ((s : ZMod N) ^ k) ^ half = 1) := by
  have h4 := g.lt
  intro fuel
  induction fuel with
  | zero => intro t _; right; exact ⟨rfl, fun s h1 h2 => by omega⟩
  | succ fuel ih =>
    intro t ht
    have htw : t < 2 ^ w := by omega
    have hi := (importInt_lt g t htw).le
    have hc := modExp_lt g k hi
    have hch := modExp_lt g half hc.le
    have hres : res p N (Mont.modExp p (Mont.importInt p t) k) = (t : ZMod N) ^ k := by
      rw [res_modExp g k hi, res_import g htw]
    rw [rootLoop]
    simp only [Mont.beq, beq_iff_eq]
    split_ifs with h
    · rcases ih (t + 1) (by omega) with ⟨c, a1, a2, a3, s, a4, a5, a6⟩ | ⟨a1, a2⟩
      · exact Or.inl ⟨c, a1, a2, a3, s, by omega, by omega, a6⟩
      · refine Or.inr ⟨a1, fun s h1 h2 => ?_⟩
        by_cases hs : s = t
        · subst hs
          rw [← hres, ← res_modExp g half hc.le, h, res_one g]
        · exact a2 s (by omega) (by omega)
    · refine Or.inl ⟨_, rfl, hc, fun h1 => h ?_, t, le_rfl, by omega, hres⟩
      apply res_inj g hch (importOne_lt g)
      rw [res_modExp g half hc.le, h1, res_one g]

/-- The search for a primitive root succeeds for every prime modulus congruent to 1. -/
theorem primitiveRoot_spec (g : Good p w N) (hp : N.Prime) (l : ℕ) (hl : l + 1 < w)
    (hmod : N % 2 ^ (l + 1) = 1) :
    ∃ c, primitiveRoot p (l + 1) = .ok c ∧ c < N ∧ res p N c ^ 2 ^ l = -1 := by
  haveI : Fact N.Prime := ⟨hp⟩
  have h4 := g.lt
  have hodd := g.odd
  have h3 : 3 ≤ N := by have := hp.two_le; omega
  have hlt : 2 ^ (l + 1) < 2 ^ w := Nat.pow_lt_pow_right (by norm_num) hl
  have htr : trunc w ((1 <<< (l + 1) : ℕ) : ℤ) = 2 ^ (l + 1) :=
    trunc_eq _ _ _ (by rw [Nat.one_shiftLeft]) hlt
  have htr2 : trunc w ((N : ℤ) - 1) = N - 1 := trunc_eq _ _ _ (by omega) (by omega)
  unfold primitiveRoot
  rw [g.hw, g.hN, htr, htr2]
  have hpos : 0 < 2 ^ (l + 1) := by positivity
  have hne : 2 ^ (l + 1) ≠ 0 := by omega
  simp only [hne, if_false]
  have hhalf : 2 ^ (l + 1) >>> 1 = 2 ^ l := by
    rw [Nat.shiftRight_eq_div_pow, pow_one, pow_succ]; omega
  rw [hhalf]
  set k := (N - 1) / 2 ^ (l + 1) with hk
  have hkn : k * 2 ^ (l + 1) = N - 1 := by
    rw [hk]
    apply Nat.div_mul_cancel
    have := Nat.div_add_mod N (2 ^ (l + 1))
    rw [hmod] at this
    exact ⟨N / 2 ^ (l + 1), by omega⟩
  have hkh : k * 2 ^ l = N / 2 := by
    have : k * 2 ^ l * 2 = N - 1 := by rw [← hkn, pow_succ]; ring
    omega
  rcases rootLoop_spec g k (2 ^ l) (N - 2) 2 (by omega) with ⟨c, a1, a2, a3, s, a4, a5, a6⟩ | ⟨a1, a2⟩
  · refine ⟨c, a1, a2, ?_⟩
    have hs0 : (s : ZMod N) ≠ 0 := by
      rw [Ne, ZMod.natCast_eq_zero_iff]
      intro hd
      have := Nat.le_of_dvd (by omega) hd
      omega
    have hsq : res p N c ^ 2 ^ l * res p N c ^ 2 ^ l = 1 := by
      rw [← pow_add, a6, ← pow_mul, ← two_mul, ← pow_succ', hkn]
      exact ZMod.pow_card_sub_one_eq_one hs0
    rcases mul_self_eq_one_iff.mp hsq with h | h
    · exact absurd h a3
    · exact h
  · exfalso
    obtain ⟨a, ha⟩ := FiniteField.exists_nonsquare (F := ZMod N) (by rw [ZMod.ringChar_zmod_n]; omega)
    have ha0 : a ≠ 0 := fun h => ha (by rw [h]; exact IsSquare.zero)
    have ha1 : a ≠ 1 := fun h => ha (by rw [h]; exact IsSquare.one)
    have hv := ZMod.val_lt a
    have hv2 : 2 ≤ a.val := by
      by_contra hc
      have hcast := ZMod.natCast_zmod_val a
      have : a.val = 0 ∨ a.val = 1 := by omega
      rcases this with h | h
      · rw [h] at hcast; exact ha0 (by simpa using hcast.symm)
      · rw [h] at hcast; exact ha1 (by simpa using hcast.symm)
    have := a2 a.val hv2 (by omega)
    rw [ZMod.natCast_zmod_val, ← pow_mul, hkh] at this
    exact ha ((ZMod.euler_criterion N ha0).mpr this)

theorem nttPsis_spec (g : Good p w N) (hp : N.Prime) (l : ℕ) (hl : l + 1 < w)
    (hmod : N % 2 ^ (l + 1) = 1) :
    ∃ psi : ZMod N, psi ^ 2 ^ l = -1 ∧ ∃ row, nttPsis p l = .ok row ∧ row.length = 2 ^ l ∧
      ∀ x < 2 ^ l, row.getD x 0 < N ∧ res p N (row.getD x 0) = psi ^ x := by
  have h4 := g.lt
  obtain ⟨c, h1, h2, h3⟩ := primitiveRoot_spec g hp l hl hmod
  refine ⟨res p N c, h3, (List.range (2 ^ l)).map fun i =>
    Mont.add p (Mont.importZero p) (Mont.modExp p c i), ?_, ?_, ?_⟩
  · unfold nttPsis; rw [h1, Outcome.bind_ok]; rfl
  · simp
  · intro x hx
    rw [List.getD_eq_getElem _ _ (by simpa using hx)]
    simp only [List.getElem_map, List.getElem_range]
    have hm := modExp_lt g x h2.le
    have h0 : Mont.importZero p + Mont.modExp p c x < 2 ^ w := by
      simp only [Mont.importZero]; omega
    refine ⟨add_lt g h0, ?_⟩
    rw [res_add g h0, res_modExp g x h2.le]
    simp [Mont.importZero, res_zero]

theorem getD_rev_tail (row : List ℕ) (n : ℕ) (hr : row.length = n) (x : ℕ) (hx : x < n) :
    (row.take 1 ++ (row.drop 1).reverse).getD x 0 =
      if x = 0 then row.getD 0 0 else row.getD (n - x) 0 := by
  have hlen : (row.take 1 ++ (row.drop 1).reverse).length = n := by simp; omega
  rw [List.getD_eq_getElem _ _ (by rw [hlen]; exact hx)]
  by_cases h0 : x = 0
  · subst h0
    rw [if_pos rfl, List.getElem_append_left (by simp; omega), List.getElem_take,
      List.getD_eq_getElem _ _ (by omega)]
  · rw [if_neg h0, List.getElem_append_right (by simp; omega), List.getElem_reverse,
      List.getElem_drop, List.getD_eq_getElem _ _ (by omega)]
    congr 1
    simp
    omega

/-- What the tables contain, relative to a root `psi`. -/
structure Tables (p : MParams) (w N l : ℕ) (psi : ZMod N) (q : NttParams) : Prop where
  root : psi ^ 2 ^ l = -1
  l1 : 1 ≤ l
  l15 : l ≤ 15
  num : q.numberCoeffs = 2 ^ l
  bitrevs : q.bitrevs = bitrevArray l
  nInv_lt : q.nInv < N
  nInv : (2 ^ l : ZMod N) * res p N q.nInv = 1
  fwd_len : q.psisBitrev.length = 2 ^ l
  fwd : ∀ x < 2 ^ l, q.psisBitrev.getD x 0 < N ∧ res p N (q.psisBitrev.getD x 0) = psi ^ bitrev x l
  fwdC : q.psisBitrevConstant = q.psisBitrev.map (Mont.getConstant p)
  inv_len : q.psisInvBitrev.length = 2 ^ l
  inv : ∀ x < 2 ^ l, q.psisInvBitrev.getD x 0 < N ∧
    res p N (q.psisInvBitrev.getD x 0) * psi ^ (bitrev x l + 1) = 1
  invC : q.psisInvBitrevConstant = q.psisInvBitrev.map (Mont.getConstant p)

theorem nttPsisBitrev_spec (l : ℕ) (hl : l ≤ 32) (row : List ℕ) (h : nttPsis p l = .ok row)
    (hr : row.length = 2 ^ l) :
    ∃ out, nttPsisBitrev p l = .ok out ∧ out.length = 2 ^ l ∧
      ∀ x < 2 ^ l, out.getD x 0 = row.getD (bitrev x l) 0 := by
  unfold nttPsisBitrev
  rw [h, Outcome.bind_ok]
  exact bitrevHelper_spec l hl row hr

theorem nttPsisInvBitrev_spec (g : Good p w N) (l : ℕ) (hl1 : 1 ≤ l) (hl : l ≤ 32) (row : List ℕ)
    (h : nttPsis p l = .ok row) (hr : row.length = 2 ^ l) (psi : ZMod N)
    (hpsi : psi ^ 2 ^ l = -1)
    (hv : ∀ x < 2 ^ l, row.getD x 0 < N ∧ res p N (row.getD x 0) = psi ^ x) :
    ∃ out, nttPsisInvBitrev p l = .ok out ∧ out.length = 2 ^ l ∧
      ∀ x < 2 ^ l, out.getD x 0 < N ∧ res p N (out.getD x 0) * psi ^ (bitrev x l + 1) = 1 := by
  have hn2 : 2 ≤ 2 ^ l := by
    calc 2 = 2 ^ 1 := rfl
      _ ≤ 2 ^ l := Nat.pow_le_pow_right (by norm_num) hl1
  unfold nttPsisInvBitrev
  rw [h, Outcome.bind_ok]
  simp only
  set row2 := row.take 1 ++ (row.drop 1).reverse with hrow2
  have hlen2 : row2.length = 2 ^ l := by rw [hrow2]; simp; omega
  have hrow2v : ∀ x < 2 ^ l, row2.getD x 0 = if x = 0 then row.getD 0 0 else row.getD (2 ^ l - x) 0 :=
    fun x hx => getD_rev_tail row _ hr x hx
  rw [rd_getD 0 (by omega), Outcome.bind_ok, hrow2v 1 (by omega), if_neg (by omega)]
  set npi := row.getD (2 ^ l - 1) 0 with hnpi
  obtain ⟨np1, np2⟩ := hv (2 ^ l - 1) (by omega)
  rw [← hnpi] at np1 np2
  obtain ⟨row3, b1, b2, b3⟩ := bitrevHelper_spec l hl row2 hlen2
  rw [b1, Outcome.bind_ok]
  -- facts about psi
  have hpp : psi ^ (2 ^ l - 1) * psi = -1 := by
    rw [← pow_succ, Nat.sub_add_cancel (by omega), hpsi]
  have key := loop_ok (n := row3.length) (s := row3)
    (f := fun i v => do
      let x ← rd v i
      wr v i (Mont.mul p x (if i = 0 then Mont.negate p npi else npi)))
    (P := fun i v => v.length = 2 ^ l ∧ ∀ x < 2 ^ l, v.getD x 0 =
      if x < i then Mont.mul p (row3.getD x 0) (if x = 0 then Mont.negate p npi else npi)
      else row3.getD x 0)
    ⟨b2, fun x _ => by rw [if_neg (by omega)]⟩ (by
      rintro i v hi ⟨hv1, hv2⟩
      rw [rd_getD 0 (by omega), Outcome.bind_ok, wr_ok (by omega)]
      refine ⟨_, rfl, by simp [hv1], fun x hx => ?_⟩
      rw [getD_set _ _ _ _ _ (by omega)]
      by_cases hix : i = x
      · subst hix
        have hlt : i < i + 1 := by omega
        rw [if_pos rfl, hv2 i hx]
        simp only [lt_irrefl, if_false, hlt, if_true]
      · rw [if_neg hix, hv2 x hx]
        have hiff : x < i + 1 ↔ x < i := by omega
        simp only [hiff])
  obtain ⟨out, o1, o2, o3⟩ := key
  refine ⟨out, o1, o2, fun x hx => ?_⟩
  rw [o3 x hx, if_pos (by omega), b3 x hx]
  have hbx := bitrev_lt l x hl
  rw [hrow2v _ hbx]
  by_cases h0 : x = 0
  · have hb0 : bitrev x l = 0 := by
      have : bitrev 0 l = 0 := by
        have hz := bitrev_shift l 0 0 (by omega) (by simp)
        rw [zero_add] at hz; rw [hz, bitrev_zero, mul_zero]
      rw [h0, this]
    rw [if_pos h0, hb0, if_pos rfl]
    obtain ⟨r1, r2⟩ := hv 0 (by omega)
    refine ⟨mul_lt g r1.le (negate_le g np1.le), ?_⟩
    rw [res_mul g r1.le (negate_le g np1.le), res_negate g np1.le, r2, np2]
    simp only [pow_zero, zero_add, pow_one]
    linear_combination (-1 : ZMod N) * hpp
  · have hb0 : bitrev x l ≠ 0 := by
      intro hc
      have := bitrev_invol l x hl hx
      rw [hc] at this
      have hz := bitrev_shift l 0 0 (by omega) (by simp)
      rw [zero_add, bitrev_zero, mul_zero] at hz
      omega
    rw [if_neg h0, if_neg hb0]
    obtain ⟨r1, r2⟩ := hv (2 ^ l - bitrev x l) (by omega)
    refine ⟨mul_lt g r1.le np1.le, ?_⟩
    rw [res_mul g r1.le np1.le, r2, np2, pow_succ]
    have e1 : psi ^ (2 ^ l - bitrev x l) * psi ^ bitrev x l = -1 := by
      rw [← pow_add, Nat.sub_add_cancel hbx.le, hpsi]
    linear_combination (psi ^ (2 ^ l - bitrev x l) * psi ^ bitrev x l) * hpp - e1

/-- `InitializeNttParameters` succeeds with correct tables for a prime modulus. -/
theorem initNtt_tables (g : Good p w N) (hp : N.Prime) (l : ℕ) (h1 : 1 ≤ l) (h15 : l ≤ 15)
    (hfit : l < w - 1) (hmod : N % 2 ^ (l + 1) = 1) :
    ∃ q, initNtt p l = .ok q ∧ ∃ psi, Tables p w N l psi q := by
  have h4 := g.lt
  haveI : Fact N.Prime := ⟨hp⟩
  have hlw : l + 1 < w := by omega
  have hlt : 2 ^ (l + 1) < 2 ^ w := Nat.pow_lt_pow_right (by norm_num) hlw
  have hlt' : 2 ^ l < 2 ^ w := Nat.pow_lt_pow_right (by norm_num) (by omega)
  have htr : trunc w ((1 <<< (l + 1) : ℕ) : ℤ) = 2 ^ (l + 1) :=
    trunc_eq _ _ _ (by rw [Nat.one_shiftLeft]) hlt
  have htr' : trunc w ((1 <<< l : ℕ) : ℤ) = 2 ^ l :=
    trunc_eq _ _ _ (by rw [Nat.one_shiftLeft]) hlt'
  obtain ⟨psi, hpsi, row, hrow, hlen, hv⟩ := nttPsis_spec g hp l hlw hmod
  obtain ⟨f, f1, f2, f3⟩ := nttPsisBitrev_spec l (by omega) row hrow hlen
  obtain ⟨i, i1, i2, i3⟩ := nttPsisInvBitrev_spec g l h1 (by omega) row hrow hlen psi hpsi hv
  have hnz : ((2 ^ l : ℕ) : ZMod N) ≠ 0 := by
    rw [Ne, ZMod.natCast_eq_zero_iff]
    intro hd
    have := (Nat.prime_dvd_prime_iff_eq hp Nat.prime_two).mp (hp.dvd_of_dvd_pow hd)
    have := g.odd
    omega
  obtain ⟨n1, n2⟩ := res_multiplicativeInverse g hp (a := Mont.importInt p (2 ^ l))
    (importInt_lt g _ hlt').le (by rw [res_import g hlt']; exact hnz)
  rw [res_import g hlt'] at n2
  refine ⟨{ numberCoeffs := 1 <<< l,
            nInv := Mont.multiplicativeInverse p (Mont.importInt p (2 ^ l)), psisBitrev := f,
            psisBitrevConstant := f.map (Mont.getConstant p), psisInvBitrev := i,
            psisInvBitrevConstant := i.map (Mont.getConstant p), bitrevs := bitrevArray l },
    ?_, psi, ?_⟩
  · unfold initNtt
    rw [if_neg (by omega), if_neg (by unfold kMaxLogNumCoeffs; omega)]
    simp only [Int.toNat_natCast, g.hw, g.hN, htr, htr', MParams.doesLogNFit, hfit, decide_true,
      not_true_eq_false, if_false, hmod, ne_eq, f1, i1, Outcome.bind_ok, Outcome.pure_eq]
  · exact {
      root := hpsi, l1 := h1, l15 := h15, num := by simp [Nat.one_shiftLeft], bitrevs := rfl,
      nInv_lt := n1, nInv := by push_cast at n2; exact n2, fwd_len := f2,
      fwd := fun x hx => by rw [f3 x hx]; exact hv _ (bitrev_lt l x (by omega)),
      fwdC := rfl, inv_len := i2, inv := i3, invC := rfl }

end Shell.Ntt
