import Verif.Lemmas.LazyPolynomial
import Verif.Props.Polynomial
/-!
# Property C23: lazily reduced accumulation
-/

namespace Shell
open MParams Lazy

/-- A history of `FusedMulAddInPlace` calls. -/
def accumulate (p : MParams) (s : LPoly) (hist : List (List ℕ × List ℕ)) : Outcome LPoly :=
  hist.foldlM (fun s ab => fusedMulAdd p s ab.1 ab.2) s

/-- The exact sum of products of the exported values at position `i`. -/
def Spec.sumProducts (p : MParams) (hist : List (List ℕ × List ℕ)) (i : ℕ) : ℕ :=
  (hist.map fun ab => Mont.exportInt p (ab.1.getD i 0) * Mont.exportInt p (ab.2.getD i 0)).sum

section
variable {w N n : ℕ} {p : MParams}

theorem valid_getD {a : List ℕ} (h : ValidPoly N n a) : ∀ i < n, a.getD i 0 ≤ N :=
  fun i hi => forall_getD h.2 i (by rw [h.1]; exact hi)

theorem accumulate_inv (g : Good p w N) (h : LogGood p w N) :
    ∀ (hist : List (List ℕ × List ℕ)) {s : LPoly} {S : ℕ → ℕ}, Inv p w N n s S →
      (∀ ab ∈ hist, ValidPoly N n ab.1 ∧ ValidPoly N n ab.2) →
      ∃ s', accumulate p s hist = .ok s' ∧
        Inv p w N n s' (fun i => S i + (hist.map fun ab => ab.1.getD i 0 * ab.2.getD i 0).sum) := by
  intro hist
  induction hist with
  | nil => intro s S I _; exact ⟨s, rfl, by simpa using I⟩
  | cons ab hist ih =>
    intro s S I hv
    obtain ⟨v1, v2⟩ := hv ab (by simp)
    obtain ⟨⟨s1, e1, I1⟩, _⟩ := I.step g h v1.1 v2.1 (valid_getD v1) (valid_getD v2)
    obtain ⟨s2, e2, I2⟩ := ih I1 (fun x hx => hv x (by simp [hx]))
    refine ⟨s2, ?_, ?_⟩
    · unfold accumulate at *
      rw [List.foldlM_cons, e1, Outcome.bind_ok]; exact e2
    · simpa [add_assoc] using I2

/-- The exported words represent the sum of products of the residues. -/
theorem export_sum (g : Good p w N) (hist : List (List ℕ × List ℕ))
    (hv : ∀ ab ∈ hist, ValidPoly N n ab.1 ∧ ValidPoly N n ab.2) {i : ℕ} (hi : i < n) :
    Mont.exportInt p
      (((hist.map fun ab => ab.1.getD i 0 * ab.2.getD i 0).sum * p.invR) % N) =
      Spec.sumProducts p hist i % N := by
  have hlt := Nat.mod_lt ((hist.map fun ab => ab.1.getD i 0 * ab.2.getD i 0).sum * p.invR) g.pos
  apply g.export_eq_mod _ _ hlt
  have h2 : ((Spec.sumProducts p hist i : ℕ) : ZMod N) * 2 ^ w =
      (((hist.map fun ab => ab.1.getD i 0 * ab.2.getD i 0).sum * p.invR : ℕ) : ZMod N) := by
    have hinv : (p.invR : ZMod N) * 2 ^ w = 1 := by
      have := congrArg (fun x : ℕ => (x : ZMod N)) g.inv
      push_cast at this
      simpa using this
    induction hist with
    | nil => simp [Spec.sumProducts]
    | cons ab hist ih =>
      have ih := ih (fun x hx => hv x (by simp [hx])) (Nat.mod_lt _ g.pos)
      obtain ⟨v1, v2⟩ := hv ab (by simp)
      have e1 := res_export g (valid_getD v1 i hi)
      have e2 := res_export g (valid_getD v2 i hi)
      unfold Spec.sumProducts at *
      rw [List.map_cons, List.sum_cons, List.map_cons, List.sum_cons, Nat.cast_add, add_mul, ih,
        Nat.cast_mul]
      unfold Mont.exportInt
      rw [e1, e2]
      unfold res
      push_cast
      linear_combination
        ((ab.1.getD i 0 : ZMod N) * ((ab.2.getD i 0 : ℕ) : ZMod N) * (p.invR : ZMod N)) * hinv
  rw [ZMod.natCast_mod, ← h2]

end

/-- C23, exactness: after any history of accumulations of valid polynomials, starting from the empty
lazy polynomial or from a product, `Export` returns canonical words whose values are the sums of
products modulo `N`. -/
theorem c23_export_exact {w N : ℕ} (hw : w ≤ 128) {p : MParams} (h : MParams.create w N = .ok p)
    (n : ℕ) (hist : List (List ℕ × List ℕ))
    (hv : ∀ ab ∈ hist, ValidPoly N n ab.1 ∧ ValidPoly N n ab.2) :
    (∃ s s', createEmpty p n = .ok s ∧ accumulate p s hist = .ok s' ∧
      (exportPoly p s').length = n ∧
      ∀ i < n, (exportPoly p s').getD i 0 < N ∧
        Mont.exportInt p ((exportPoly p s').getD i 0) = Spec.sumProducts p hist i % N) ∧
    (∀ a b, ValidPoly N n a → ValidPoly N n b →
      ∃ s s', Lazy.create p a b = .ok s ∧ accumulate p s hist = .ok s' ∧
        (exportPoly p s').length = n ∧
        ∀ i < n, (exportPoly p s').getD i 0 < N ∧
          Mont.exportInt p ((exportPoly p s').getD i 0) =
            Spec.sumProducts p ((a, b) :: hist) i % N) := by
  have g := good_of_create h
  have lg := logGood_of_create h hw
  constructor
  · obtain ⟨s, e, I⟩ := inv_empty g lg n
    obtain ⟨s', e', I'⟩ := accumulate_inv g lg hist I hv
    obtain ⟨x1, x2⟩ := I'.export g lg
    refine ⟨s, s', e, e', x1, fun i hi => ?_⟩
    rw [x2 i hi, zero_add]
    exact ⟨Nat.mod_lt _ g.pos, export_sum g hist hv hi⟩
  · intro a b ha hb
    obtain ⟨s, e, I⟩ := inv_create g lg ha.1 hb.1 (valid_getD ha) (valid_getD hb)
    obtain ⟨s', e', I'⟩ := accumulate_inv g lg hist I hv
    obtain ⟨x1, x2⟩ := I'.export g lg
    refine ⟨s, s', e, e', x1, fun i hi => ?_⟩
    rw [x2 i hi]
    refine ⟨Nat.mod_lt _ g.pos, ?_⟩
    have := export_sum g ((a, b) :: hist)
      (fun x hx => by
        rcases List.mem_cons.mp hx with rfl | hx
        · exact ⟨ha, hb⟩
        · exact hv x hx) hi
    simpa using this

/-- C23, no overflow: in every state reached from the empty lazy polynomial by any history, the next
accumulation adds to (possibly just refreshed) coefficients without reaching even half of the range
of the double-width type. -/
theorem c23_no_overflow {w N : ℕ} (hw : w ≤ 128) {p : MParams} (h : MParams.create w N = .ok p)
    (n : ℕ) (hist : List (List ℕ × List ℕ))
    (hv : ∀ ab ∈ hist, ValidPoly N n ab.1 ∧ ValidPoly N n ab.2) {s s' : LPoly}
    (hs : createEmpty p n = .ok s) (hs' : accumulate p s hist = .ok s') {a b : List ℕ}
    (ha : ValidPoly N n a) (hb : ValidPoly N n b) (i : ℕ) (hi : i < n) :
    s'.coeffs.getD i 0 < 2 ^ (2 * w - 1) ∧
    (if s'.level = s'.maxLevel then refresh p s' else s').coeffs.getD i 0 +
      a.getD i 0 * b.getD i 0 < 2 ^ (2 * w - 1) := by
  have g := good_of_create h
  have lg := logGood_of_create h hw
  obtain ⟨t, e, I⟩ := inv_empty g lg n
  rw [hs] at e; cases e
  obtain ⟨t', e', I'⟩ := accumulate_inv g lg hist I hv
  rw [hs'] at e'; cases e'
  exact ⟨I'.coeff_lt lg hi,
    (I'.step g lg ha.1 hb.1 (valid_getD ha) (valid_getD hb)).2 i hi⟩

/-- C23, mismatched lengths are rejected. -/
theorem c23_length_errors (p : MParams) (s : LPoly) (a b : List ℕ) :
    (a.length ≠ b.length → Lazy.create p a b = .err .invalidArgument) ∧
    (¬ (a.length = b.length ∧ a.length = s.coeffs.length) →
      fusedMulAdd p s a b = .err .invalidArgument) := by
  constructor
  · intro h; unfold Lazy.create; rw [if_pos h]
  · intro h; unfold fusedMulAdd; rw [if_pos (by omega)]

/-- With the 14-bit modulus 12289 and 16-bit words a refresh happens after eight accumulations; twenty
accumulations of `(N-1)*(N-1)` still give the exact sum 20. -/
example :
    (do let p ← MParams.create 16 12289
        let s ← createEmpty p 1
        let m := Mont.importInt p 12288
        let s ← accumulate p s (List.replicate 20 ([m], [m]))
        return (s.level, (exportPoly p s).map (Mont.exportInt p))) = .ok (6, [20]) := by
  decide +kernel

end Shell
