import Verif.Lemmas.LazyRns
import Verif.Props.RnsKeySwitch
import Verif.Props.RnsSchemeExample
/-!
# Property C58: lazily reduced RNS polynomials and their users
-/

namespace Shell
open Spec Rns

section
variable {w l : ℕ} {ms : List Modulus} {F G : Fin (2 ^ l) → ℤ}

/-- A history of `FusedMulAddInPlace` calls. -/
def accumulateRns (w : ℕ) (ms : List Modulus) (s : LRns) (hist : List (RPoly × RPoly)) : Outcome LRns :=
  hist.foldlM (fun s ab => s.fusedMulAdd w ms ab.1 ab.2) s

/-- `Σ F_k G_k` modulo `X^n + 1`. -/
def Spec.sumProd {n : ℕ} (Fs : List ((Fin n → ℤ) × (Fin n → ℤ))) : Fin n → ℤ :=
  (Fs.map fun FG => negMul FG.1 FG.2).sum

/-- The polynomials of the history are in NTT form and represent `Fs`. -/
def Spec.HistoryIs (l : ℕ) (ms : List Modulus) (hist : List (RPoly × RPoly))
    (Fs : List ((Fin (2 ^ l) → ℤ) × (Fin (2 ^ l) → ℤ))) : Prop :=
  List.Forall₂ (fun ab FG => (ab.1.ntt = true ∧ Represents l ms ab.1 FG.1) ∧
    ab.2.ntt = true ∧ Represents l ms ab.2 FG.2) hist Fs

theorem accumulateRns_inv (hg : ∀ m ∈ ms, GoodModulus w l m) (hne : ms ≠ []) (hw : w ≤ 128)
    {hist : List (RPoly × RPoly)} {Fs : List ((Fin (2 ^ l) → ℤ) × (Fin (2 ^ l) → ℤ))} (h : HistoryIs l ms hist Fs) :
    ∀ {s : LRns} {H : Fin (2 ^ l) → ℤ}, LInv w l ms s H →
      ∃ s', accumulateRns w ms s hist = .ok s' ∧ LInv w l ms s' (H + sumProd Fs) := by
  unfold HistoryIs at h
  induction h with
  | nil => intro s H I; exact ⟨s, rfl, by simpa [sumProd] using I⟩
  | cons h _ ih =>
    intro s H I
    obtain ⟨s1, e1, I1⟩ := linv_step hg hne hw I h.1 h.2
    obtain ⟨s2, e2, I2⟩ := ih I1
    refine ⟨s2, ?_, ?_⟩
    · unfold accumulateRns at *
      rw [List.foldlM_cons, e1, Outcome.bind_ok]
      exact e2
    · rw [sumProd, List.map_cons, List.sum_cons, ← add_assoc]
      exact I2

/-- **C58.** After any number of accumulations, starting from zero or from a product, `Export` returns a
polynomial in NTT form that represents the sum of the products, for every list of moduli. -/
theorem c58_export (hg : ∀ m ∈ ms, GoodModulus w l m) (hne : ms ≠ []) (hw : w ≤ 128) (hl : 0 < l)
    {hist : List (RPoly × RPoly)} {Fs : List ((Fin (2 ^ l) → ℤ) × (Fin (2 ^ l) → ℤ))} (h : HistoryIs l ms hist Fs) :
    (∃ s s' r, LRns.createZero w l ms = .ok s ∧ accumulateRns w ms s hist = .ok s' ∧
      s'.exportPoly ms = .ok r ∧ r.ntt = true ∧ Represents l ms r (sumProd Fs)) ∧
    (∀ a b F G, HistoryIs l ms [(a, b)] [(F, G)] →
      ∃ s s' r, LRns.create w ms a b = .ok s ∧ accumulateRns w ms s hist = .ok s' ∧
        s'.exportPoly ms = .ok r ∧ r.ntt = true ∧ Represents l ms r (negMul F G + sumProd Fs)) := by
  constructor
  · obtain ⟨s, e, I⟩ := linv_zero hg hne hw hl
    obtain ⟨s', e', I'⟩ := accumulateRns_inv hg hne hw h I
    obtain ⟨r, r1, r2, r3⟩ := linv_export hg hne hw I'
    exact ⟨s, s', r, e, e', r1, r2, by rwa [zero_add] at r3⟩
  · intro a b F G hab
    obtain ⟨h1, h2⟩ := (List.forall₂_cons.mp hab).1
    obtain ⟨s, e, I⟩ := linv_create hg hne hw h1 h2
    obtain ⟨s', e', I'⟩ := accumulateRns_inv hg hne hw h I
    obtain ⟨r, r1, r2, r3⟩ := linv_export hg hne hw I'
    exact ⟨s, s', r, e, e', r1, r2, r3⟩

/-- **C58.** No wrap-around: in every state reached from zero by any history, every coefficient the next
accumulation adds to (after the reduction, if it is due) leaves room for the product in less than half the range
of the double-width type. -/
theorem c58_no_overflow (hg : ∀ m ∈ ms, GoodModulus w l m) (hne : ms ≠ []) (hw : w ≤ 128) (hl : 0 < l)
    {hist : List (RPoly × RPoly)} {Fs : List ((Fin (2 ^ l) → ℤ) × (Fin (2 ^ l) → ℤ))} (h : HistoryIs l ms hist Fs)
    {s s' : LRns} (hs : LRns.createZero w l ms = .ok s) (hs' : accumulateRns w ms s hist = .ok s')
    {a b : RPoly} (hab : HistoryIs l ms [(a, b)] [(F, G)]) :
    ∃ s'', (if s'.level = s'.maxLevel then s'.refresh ms else .ok s' : Outcome LRns) = .ok s'' ∧
      List.Forall₂ (fun (v : List ℕ) ab => v.length = 2 ^ l ∧ ∀ i < 2 ^ l,
        v.getD i 0 + ab.1.getD i 0 * ab.2.getD i 0 < 2 ^ (2 * w - 1)) s''.coeffs (a.coeffs.zip b.coeffs) := by
  obtain ⟨s0, e, I⟩ := linv_zero hg hne hw hl
  rw [hs] at e
  cases e
  obtain ⟨s1, e', I'⟩ := accumulateRns_inv hg hne hw h I
  rw [hs'] at e'
  cases e'
  obtain ⟨s2, e2, I2, hlt⟩ := linv_ready hg hw I'
  refine ⟨s2, e2, ?_⟩
  obtain ⟨h1, h2⟩ := (List.forall₂_cons.mp hab).1
  have k1 := h1.2.2
  have k2 := h2.2.2
  rw [h1.1] at k1
  rw [h2.1] at k2
  have hz := forall₂_zip (forall₂_and_mem I2.coeffs (I2.max.suits hg hw)) (forall₂_zip k1 k2)
  rw [List.forall₂_iff_get] at hz ⊢
  have l2 := I2.coeffs.length_eq
  have l3 := k1.length_eq
  have l4 := k2.length_eq
  simp only at l3 l4
  refine ⟨by simp; omega, fun i hi hj => ?_⟩
  have hz' := hz.2 i (by omega) (by simp at hj ⊢; omega)
  simp only [List.get_eq_getElem, List.getElem_zip] at hz' ⊢
  obtain ⟨⟨su, p1⟩, p2, p3⟩ := hz'
  exact ⟨p1.len, (addProducts_ok su.1 su.2.1 p1 ((Nat.succ_le_of_lt hlt).trans su.2.2) p2 p3).2⟩

/-- **C58.** Operands in coefficient form, of another dimension or with another number of moduli are rejected,
as are zero polynomials without moduli or with a dimension below 2. -/
theorem c58_rejects (w : ℕ) (ms : List Modulus) (s : LRns) (a b : RPoly) :
    (a.ntt = false ∨ b.ntt = false ∨ b.logN ≠ a.logN ∨ a.coeffs.length ≠ ms.length ∨ b.coeffs.length ≠ ms.length →
      LRns.create w ms a b = .err .invalidArgument) ∧
    (a.ntt = false ∨ b.ntt = false ∨ a.coeffs.length ≠ ms.length ∨ b.coeffs.length ≠ ms.length ∨
        s.coeffs.length ≠ ms.length ∨ (∃ c0 ∈ s.coeffs.head?, 2 ^ a.logN ≠ c0.length ∨ 2 ^ b.logN ≠ c0.length) →
      s.fusedMulAdd w ms a b = .err .invalidArgument) ∧
    (s.coeffs.length ≠ ms.length → s.exportPoly ms = .err .invalidArgument) ∧
    (∀ logN : ℤ, logN ≤ 0 ∨ ms = [] → LRns.createZero w logN ms = .err .invalidArgument) := by
  refine ⟨fun h => ?_, fun h => ?_, fun h => ?_, fun logN h => ?_⟩
  · unfold LRns.create
    by_cases h1 : (!a.ntt || !b.ntt) = true
    · rw [if_pos h1]
    rw [if_neg h1]
    by_cases h2 : b.logN ≠ a.logN
    · rw [if_pos h2]
    rw [if_neg h2, if_pos]
    simp at h1
    simp_all
  · unfold LRns.fusedMulAdd
    by_cases h1 : (!a.ntt || !b.ntt) = true
    · rw [if_pos h1]
    rw [if_neg h1]
    by_cases h2 : a.coeffs.length ≠ ms.length ∨ b.coeffs.length ≠ ms.length ∨ s.coeffs.length ≠ ms.length
    · rw [if_pos h2]
    rw [if_neg h2]
    simp only [not_or, not_not] at h2
    have h3 : ∃ c0 ∈ s.coeffs.head?, 2 ^ a.logN ≠ c0.length ∨ 2 ^ b.logN ≠ c0.length := by
      simp at h1
      rcases h with h | h | h | h | h | h
      · simp [h1.1] at h
      · simp [h1.2] at h
      · exact absurd h2.1 h
      · exact absurd h2.2.1 h
      · exact absurd h2.2.2 h
      · exact h
    obtain ⟨c0, hc, h3⟩ := h3
    cases hs : s.coeffs with
    | nil => rw [hs] at hc; simp at hc
    | cons c cs =>
      rw [hs] at hc
      simp at hc
      subst hc
      rw [show rd (c :: cs) 0 = .ok c from rfl, Outcome.bind_ok, if_pos h3]
  · unfold LRns.exportPoly
    rw [if_pos (fun e => h e.symm)]
  · unfold LRns.createZero
    by_cases h1 : logN ≤ 0
    · rw [if_pos h1]
    rw [if_neg h1, if_pos (by simpa using h.resolve_left h1)]

theorem logMaxLoop_rejects : ∀ (ms : List Modulus) (acc : ℤ), (∃ m ∈ ms, (2 * m.p.w : ℤ) ≤ 2 * m.p.logModulus + 1) →
    LRns.logMaxLoop acc ms = .err .invalidArgument := by
  intro ms
  induction ms with
  | nil => rintro _ ⟨m, hm, _⟩; simp at hm
  | cons m ms ih =>
    rintro acc ⟨m', hm', h⟩
    unfold LRns.logMaxLoop
    simp only
    by_cases h1 : (2 * m.p.w - 1 - 2 * m.p.logModulus : ℤ) < 1
    · rw [if_pos h1]
    · rw [if_neg h1]
      rcases List.mem_cons.mp hm' with rfl | hm'
      · omega
      · exact ih _ ⟨m', hm', h⟩

/-- **C58.** If the product of two coefficients of some modulus can fill the double-width type, lazy polynomials
of these moduli cannot be made: nothing is returned for any operands. -/
theorem c58_no_room (w : ℕ) (ms : List Modulus) (h : ∃ m ∈ ms, (2 * m.p.w : ℤ) ≤ 2 * m.p.logModulus + 1) :
    (∀ a b, LRns.create w ms a b = .err .invalidArgument) ∧
    (∀ logN : ℤ, logN < 31 → LRns.createZero w logN ms = .err .invalidArgument) := by
  have hm : LRns.maxLevelOf w ms = .err .invalidArgument := by
    unfold LRns.maxLevelOf
    rw [logMaxLoop_rejects ms _ h]
    rfl
  refine ⟨fun a b => ?_, fun logN hl => ?_⟩
  · unfold LRns.create
    rw [hm]
    by_cases h1 : (!a.ntt || !b.ntt) = true
    · rw [if_pos h1]
    rw [if_neg h1]
    by_cases h2 : b.logN ≠ a.logN
    · rw [if_pos h2]
    rw [if_neg h2]
    by_cases h3 : a.coeffs.length ≠ ms.length ∨ b.coeffs.length ≠ ms.length
    · rw [if_pos h3]
    rw [if_neg h3]
    rfl
  · unfold LRns.createZero
    rw [hm]
    by_cases h1 : logN ≤ 0
    · rw [if_pos h1]
    rw [if_neg h1]
    by_cases h2 : ms.isEmpty = true
    · rw [if_pos h2]
    rw [if_neg h2]
    unfold shl1
    rw [if_pos (by omega)]
    rfl

/-! ### Ciphertexts -/

/-- `FusedAbsorbAddInPlaceWithoutPadLazily` with all pairs of a list. -/
def absorbLazily (w : ℕ) (x : LCt) (hist : List (RCt × RPoly)) : Outcome LCt :=
  hist.foldlM (fun x yp => x.fusedAbsorbLazily w yp.1 yp.2) x

/-- The ciphertexts `y` have the moduli and the power of `x`, two components that represent `YM.1` and `YM.2.1`,
and the plaintexts represent `YM.2.2`. -/
def Spec.AbsorbIs (l : ℕ) (x : RCt) (hist : List (RCt × RPoly))
    (Ys : List ((Fin (2 ^ l) → ℤ) × (Fin (2 ^ l) → ℤ) × (Fin (2 ^ l) → ℤ))) : Prop :=
  List.Forall₂ (fun yp YM => Like x yp.1 ∧ Components l yp.1 [YM.1, YM.2.1] ∧ yp.2.ntt = true ∧
    Represents l x.ms yp.2 YM.2.2) hist Ys

/-- A ciphertext with pending products of sum `H`. -/
def Pending (w l : ℕ) (x : RCt) (X : LCt) (H : Fin (2 ^ l) → ℤ) : Prop :=
  X.ct = x ∧ ∃ z, X.lazy = [z] ∧ LInv w l x.ms z H

theorem absorbStep {x : RCt} (hg : ∀ m ∈ x.ms, GoodModulus w l m) (hne : x.ms ≠ []) (hw : w ≤ 128) {y : RCt}
    {pt : RPoly} {Y0 Y1 M : Fin (2 ^ l) → ℤ} (hlike : Like x y) (hc : Components l y [Y0, Y1])
    (hn : pt.ntt = true) (hpt : Represents l x.ms pt M) :
    (∃ X, LCt.fusedAbsorbLazily w ⟨x, []⟩ y pt = .ok X ∧ Pending w l x X (negMul Y0 M)) ∧
    (∀ X H, Pending w l x X H →
      ∃ X', X.fusedAbsorbLazily w y pt = .ok X' ∧ Pending w l x X' (H + negMul Y0 M)) := by
  obtain ⟨y0, y1, _, _, e, hY, c0, c1⟩ := components_two hc hc.length_eq
  cases hY
  rw [hlike.1] at c0
  have hck : ∀ X : LCt, X.ct = x → ∀ f : RPoly → Outcome LCt,
      (if y.c.length ≠ 2 then .err .invalidArgument
        else if X.ct.ms.length ≠ y.ms.length then .err .invalidArgument
        else if X.ct.power ≠ y.power then .err .invalidArgument
        else (do let v ← rd y.c 0; f v) : Outcome LCt) = f y0 := fun X hX f => by
    rw [if_neg (by rw [e]; simp), if_neg (by rw [hX, hlike.1]; simp), if_neg (by rw [hX, hlike.2]; simp), e]
    rfl
  constructor
  · obtain ⟨z, z1, z2⟩ := linv_create hg hne hw c0 ⟨hn, hpt⟩
    refine ⟨⟨x, [z]⟩, ?_, rfl, z, rfl, z2⟩
    unfold LCt.fusedAbsorbLazily
    rw [hck ⟨x, []⟩ rfl]
    simp only
    rw [z1]
    rfl
  · rintro ⟨_, _⟩ H ⟨rfl, z, hz, I⟩
    obtain ⟨z', z1, z2⟩ := linv_step hg hne hw I c0 ⟨hn, hpt⟩
    simp only at hz
    subst hz
    refine ⟨⟨_, [z']⟩, ?_, rfl, z', rfl, z2⟩
    unfold LCt.fusedAbsorbLazily
    rw [hck _ rfl]
    simp only
    rw [z1]
    rfl

theorem absorbLazily_inv {x : RCt} (hg : ∀ m ∈ x.ms, GoodModulus w l m) (hne : x.ms ≠ []) (hw : w ≤ 128)
    {hist : List (RCt × RPoly)} {Ys : List ((Fin (2 ^ l) → ℤ) × (Fin (2 ^ l) → ℤ) × (Fin (2 ^ l) → ℤ))}
    (h : AbsorbIs l x hist Ys) : ∀ {X : LCt} {H : Fin (2 ^ l) → ℤ}, Pending w l x X H →
      ∃ X', absorbLazily w X hist = .ok X' ∧ Pending w l x X' (H + sumProd (Ys.map fun Y => (Y.1, Y.2.2))) := by
  unfold AbsorbIs at h
  induction h with
  | nil => intro X H I; exact ⟨X, rfl, by simpa [sumProd] using I⟩
  | cons h _ ih =>
    intro X H I
    obtain ⟨X1, e1, I1⟩ := (absorbStep hg hne hw h.1 h.2.1 h.2.2.1 h.2.2.2).2 X H I
    obtain ⟨X2, e2, I2⟩ := ih I1
    refine ⟨X2, ?_, ?_⟩
    · unfold absorbLazily at *
      rw [List.foldlM_cons, e1, Outcome.bind_ok]
      exact e2
    · rw [sumProd, List.map_cons, List.map_cons, List.sum_cons, ← add_assoc]
      exact I2

/-- The first `X0` of the components plus the pending products, the other components unchanged. -/
def addFirst {n : ℕ} (H : Fin n → ℤ) : List (Fin n → ℤ) → List (Fin n → ℤ)
  | [] => [H]
  | X0 :: Xs => (X0 + H) :: Xs

/-- **C58.** Absorbing lazily any nonempty list of ciphertexts `y_k` of degree 1 and plaintexts `p_k`, then
merging, adds `Σ y_k[0] p_k` to the first component and changes nothing else; the zero ciphertext gets
its first component in this way. -/
theorem c58_absorb_lazily {x : RCt} (hg : ∀ m ∈ x.ms, GoodModulus w l m) (hne : x.ms ≠ []) (hw : w ≤ 128)
    {Xs : List (Fin (2 ^ l) → ℤ)} (hx : Components l x Xs) {hist : List (RCt × RPoly)}
    {Ys : List ((Fin (2 ^ l) → ℤ) × (Fin (2 ^ l) → ℤ) × (Fin (2 ^ l) → ℤ))} (h : AbsorbIs l x hist Ys)
    (h0 : hist ≠ []) :
    ∃ X r, absorbLazily w ⟨x, []⟩ hist = .ok X ∧ X.merge = .ok ⟨r, []⟩ ∧ Like x r ∧
      Components l r (addFirst (sumProd (Ys.map fun Y => (Y.1, Y.2.2))) Xs) := by
  match hist, Ys, h, h0 with
  | [], _, _, h0 => exact absurd rfl h0
  | yp :: hist, [], h, _ => cases h
  | yp :: hist, YM :: Ys, h', _ =>
    obtain ⟨h, hs⟩ := List.forall₂_cons.mp h'
    obtain ⟨X1, e1, I1⟩ := (absorbStep hg hne hw h.1 h.2.1 h.2.2.1 h.2.2.2).1
    obtain ⟨⟨ct, lz⟩, e2, hct, z, hz, I⟩ := absorbLazily_inv hg hne hw hs I1
    simp only at hz hct
    subst hz
    rw [hct] at e2
    obtain ⟨e, e3, e4⟩ := linv_export hg hne hw I
    have hsum : negMul YM.1 YM.2.2 + sumProd (Ys.map fun Y => (Y.1, Y.2.2)) =
        sumProd ((YM :: Ys).map fun Y => (Y.1, Y.2.2)) := by
      rw [sumProd, sumProd, List.map_cons, List.map_cons, List.sum_cons]
    rw [hsum] at e4
    have hf : absorbLazily w ⟨x, []⟩ (yp :: hist) = absorbLazily w X1 hist := by
      unfold absorbLazily
      rw [List.foldlM_cons, e1, Outcome.bind_ok]
    have hx' := components_comp hx
    unfold Components
    cases hc : x.c with
    | nil =>
      rw [hc] at hx'
      cases hx'
      refine ⟨_, { x with c := [e] }, hf.trans e2, ?_, ⟨rfl, rfl⟩, .cons e4 .nil⟩
      unfold LCt.merge
      rw [if_neg (by simp)]
      simp only [hc, LCt.mergeLoop, e3]
      rfl
    | cons c cs =>
      rw [hc] at hx'
      obtain ⟨X0, Xs', c1, c2, rfl⟩ := List.forall₂_cons_left_iff.mp hx'
      obtain ⟨r, r1, r2, r3⟩ := repr_add hg c1.2 e4.2 (by rw [c1.1, e4.1])
      refine ⟨_, { x with c := r :: cs }, hf.trans e2, ?_, ⟨rfl, rfl⟩, .cons ⟨r2.trans c1.1, r3⟩ c2⟩
      unfold LCt.merge
      rw [if_neg (by simp)]
      simp only [hc, LCt.mergeLoop, e3, Outcome.bind_ok, r1]
      rfl

/-- `(Σ (y_k[0] + y_k[1] s) p_k)` modulo `X^n + 1`. -/
def Spec.sumPhases {n : ℕ} (S : Fin n → ℤ) (Ys : List ((Fin n → ℤ) × (Fin n → ℤ) × (Fin n → ℤ))) : Fin n → ℤ :=
  (Ys.map fun Y => negMul (innerProduct S [Y.1, Y.2.1]) Y.2.2).sum

theorem sumPhases_eq {n : ℕ} [NeZero n] (S : Fin n → ℤ) (Ys : List ((Fin n → ℤ) × (Fin n → ℤ) × (Fin n → ℤ))) :
    innerProduct S [sumProd (Ys.map fun Y => (Y.1, Y.2.2)), sumProd (Ys.map fun Y => (Y.2.1, Y.2.2))] =
      sumPhases S Ys := by
  induction Ys with
  | nil =>
    simp only [sumProd, sumPhases, List.map_nil, List.sum_nil, innerProduct, NR.negMul_zero, add_zero]
  | cons Y Ys ih =>
    have e : sumPhases S (Y :: Ys) = negMul (innerProduct S [Y.1, Y.2.1]) Y.2.2 + sumPhases S Ys := rfl
    rw [e, ← ih]
    simp only [sumProd, List.map_cons, List.sum_cons, innerProduct, NR.negMul_zero, add_zero,
      NR.negMul_add, NR.add_negMul, NR.negMul_assoc]
    abel

/-- **C58.** The intended use: starting from the zero ciphertext, absorb lazily, merge, and set the pad to
`Σ y_k[1] p_k`: the result stands for `Σ φ_k p_k` under the secret, where `φ_k` is what `y_k` stands for. -/
theorem c58_inner_product (hg : ∀ m ∈ ms, GoodModulus w l m) (hne : ms ≠ []) (hw : w ≤ 128)
    {hist : List (RCt × RPoly)} {Ys : List ((Fin (2 ^ l) → ℤ) × (Fin (2 ^ l) → ℤ) × (Fin (2 ^ l) → ℤ))}
    (h : AbsorbIs l (RCt.createZero ms) hist Ys) (h0 : hist ≠ []) {a : RPoly} (ha : a.ntt = true)
    (hA : Represents l ms a (sumProd (Ys.map fun Y => (Y.2.1, Y.2.2)))) (S : Fin (2 ^ l) → ℤ) :
    ∃ X r r', absorbLazily w ⟨RCt.createZero ms, []⟩ hist = .ok X ∧ X.merge = .ok ⟨r, []⟩ ∧ r.setPad a = .ok r' ∧
      Like (RCt.createZero ms) r' ∧ r'.c.length = 2 ∧ Encrypts l S r' (sumPhases S Ys) := by
  obtain ⟨X, r, r1, r2, r3, r4⟩ := c58_absorb_lazily (x := RCt.createZero ms) (Xs := []) hg hne hw .nil h h0
  obtain ⟨rc, rms, rp⟩ := r
  obtain ⟨q1, q2⟩ := r3
  simp only [RCt.createZero] at q1 q2
  subst q1 q2
  have r4' := components_comp r4
  obtain ⟨c, cs, hc, hcs, rfl⟩ := List.forall₂_cons_right_iff.mp r4'
  cases hcs
  refine ⟨X, _, ⟨[c, a], rms, 1⟩, r1, r2, ?_, ⟨rfl, rfl⟩, rfl, by norm_num, [_, _],
    .cons hc (.cons ⟨ha, hA⟩ .nil), ?_⟩
  · unfold RCt.setPad
    simp
  · show CongMod _ (innerProduct (substPow (1 : ℤ).toNat S) _) _
    rw [show (1 : ℤ).toNat = 1 from rfl, Expand.substPow_one, sumPhases_eq]
    exact CongMod.refl _

/-- **C58.** Absorbing lazily rejects ciphertexts that are not of degree 1 or do not match, and merging without
pending products is an error. -/
theorem c58_lazy_rejects (w : ℕ) (X : LCt) (y : RCt) (pt : RPoly) :
    (y.c.length ≠ 2 ∨ X.ct.ms.length ≠ y.ms.length ∨ X.ct.power ≠ y.power →
      X.fusedAbsorbLazily w y pt = .err .invalidArgument) ∧
    (X.lazy = [] → X.merge = .err .failedPrecondition) := by
  constructor
  · intro h
    unfold LCt.fusedAbsorbLazily
    by_cases h1 : y.c.length ≠ 2
    · rw [if_pos h1]
    rw [if_neg h1]
    by_cases h2 : X.ct.ms.length ≠ y.ms.length
    · rw [if_pos h2]
    rw [if_neg h2, if_pos ((h.resolve_left h1).resolve_left h2)]
  · intro h
    unfold LCt.merge
    rw [if_pos (by simp [h])]

/-! ### Galois keys with a precomputed pad -/

variable {S Φ : Fin (2 ^ l) → ℤ}

theorem lazyMulAddAll_ok (hg : ∀ m ∈ ms, GoodModulus w l m) (hne : ms ≠ []) (hw : w ≤ 128) {xs : List RPoly}
    {Ds : List (Fin (2 ^ l) → ℤ)} (hx : List.Forall₂ (Comp l ms) xs Ds) : ∀ {cs : List RPoly}
    {Cs : List (Fin (2 ^ l) → ℤ)} {s : LRns} {H : Fin (2 ^ l) → ℤ}, List.Forall₂ (Comp l ms) cs Cs →
    xs.length ≤ cs.length → LInv w l ms s H →
    ∃ s', lazyMulAddAll w ms xs cs s = .ok s' ∧ LInv w l ms s' (H + sumMul Ds Cs) := by
  induction hx with
  | nil => intro cs Cs s H _ _ I; exact ⟨s, by cases cs <;> rfl, by simpa [sumMul] using I⟩
  | cons h _ ih =>
    intro cs Cs s H hc hlen I
    cases hc with
    | nil => simp at hlen
    | cons k hk =>
      obtain ⟨s1, e1, I1⟩ := linv_step hg hne hw I h k
      obtain ⟨s2, e2, I2⟩ := ih hk (by simpa using hlen) I1
      refine ⟨s2, ?_, ?_⟩
      · unfold lazyMulAddAll
        rw [if_neg (by simp [h.1]), e1, Outcome.bind_ok, e2]
      · show LInv w l ms s2 (H + (negMul _ _ + sumMul _ _))
        rw [← add_assoc]
        exact I2

/-- **C58.** With the digits of the pad and the new pad computed once from the pad `c1` alone, a Galois key
applies to every ciphertext with this pad, with the bound of `c52_galois_apply` on the noise. -/
theorem c58_galois_with_pad {key : RGalois} {t B : ℤ} {Gs : List ℤ} {logs : List ℕ}
    (hg : ∀ m ∈ key.ms, GoodModulus w l m) (hne : key.ms ≠ []) (hw : w ≤ 128) (hl : 0 < l) (hB : 0 ≤ B)
    (hkey : GaloisFor l S t B key Gs logs) (hdim : key.gadget.dimension ≠ 0)
    (hcop : (key.ms.map (·.N)).Pairwise Nat.Coprime) {c1 : RPoly}
    {C1 : Fin (2 ^ l) → ℤ} (hn : c1.ntt = true) (hc1 : Represents l key.ms c1 C1) :
    ∃ c1' xs digits pad, toCoeff key.ms c1 = .ok c1' ∧ key.gadget.decompose c1' key.ms = .ok xs ∧
      xs.mapM (toNtt key.ms) = .ok digits ∧ key.precomputePad digits = .ok pad ∧
      ∀ (x : RCt) (Φ : Fin (2 ^ l) → ℤ), x.ms = key.ms → x.power = key.power → x.c.length = 2 →
        x.component 1 = .ok c1 → Encrypts l S x Φ →
        ∃ (r : RCt) (R : Fin (2 ^ l) → ℤ), key.applyToWithPad w x digits pad = .ok r ∧ r.ms = x.ms ∧
          r.power = 1 ∧ r.c.length = 2 ∧ Encrypts l S r (fun i => Φ i + t * R i) ∧
          ∀ i, |R i| ≤ 2 ^ l * B * (logs.map fun b => (2 : ℤ) ^ b).sum := by
  obtain ⟨Es, hcol, hE⟩ := hkey.columns
  obtain ⟨As, Bs, hA, hBs, la, lb, le, hsum⟩ := keyColumns_polys hcol
  have hGl : (gadgetMultiples Gs (substPow key.power.toNat S)).length = key.gadget.dimension := by
    rw [gadgetMultiples, List.length_map, ← hkey.gadget.comps.length_eq, hkey.gadget.dim]
  obtain ⟨d1, d2, d3, d4⟩ := repr_toCoeff hg hc1 hn
  obtain ⟨xs, Ds, x1, x2, x3, x4, x5⟩ := hkey.gadget.decompose d1 C1 d3 d4
  obtain ⟨ys, y1, y2⟩ := mapM_rel (f := toNtt key.ms) (g := fun D => D) (R := Comp l key.ms)
    (fun a D ⟨ha, hD⟩ => by
      obtain ⟨r, r1, r2, r3⟩ := repr_toNtt hg hD ha
      exact ⟨r, r1, r2, r3⟩) x2
  rw [List.map_id'] at y2
  have hyl : ys.length = key.gadget.dimension := by
    rw [y2.length_eq, x4, ← hkey.gadget.comps.length_eq, hkey.gadget.dim]
  obtain ⟨z, z1, z2, z3⟩ := repr_createZero hg hne true
  obtain ⟨a, a1, a2⟩ := mulAddAll_ok hg y2 hA (by rw [la, hGl, hyl]) ⟨z2, z3⟩
  have hlogs : ∀ {zs : List RPoly} {Zs : List (Fin (2 ^ l) → ℤ)}, List.Forall₂ (Comp l key.ms) zs Zs →
      zs.length = key.gadget.dimension → ∃ z0, rd zs 0 = .ok z0 ∧ z0.logN = l := by
    intro zs Zs h hzl
    obtain ⟨z0, h1, h2⟩ := forall₂_rd (0 : Fin (2 ^ l) → ℤ) h (k := 0) (by omega)
    exact ⟨z0, h1, h2.2.1⟩
  obtain ⟨a0, a01, a02⟩ := hlogs hA (by rw [la, hGl])
  obtain ⟨b0, b01, b02⟩ := hlogs hBs (by rw [lb, hGl])
  refine ⟨d1, xs, ys, a, d2, x1, y1, ?_, ?_⟩
  · unfold RGalois.precomputePad
    rw [if_neg (by rw [hyl]; simp), a01, Outcome.bind_ok, a02, z1, Outcome.bind_ok,
      firstK_ok (by rw [la, hGl]), Outcome.bind_ok, a1]
  · intro x Φ hms hp h2 hcomp hx
    obtain ⟨_, Cs, hC, hphi⟩ := hx
    obtain ⟨c0₀, c1₀, C0, C1', e1, rfl, hc0, hc1'⟩ := components_two hC h2
    have hc1₀ : c1₀ = c1 := by
      unfold RCt.component at hcomp
      rw [e1] at hcomp
      exact Outcome.ok.inj hcomp
    subst hc1₀
    rw [hms] at hc0 hc1' hphi
    have hC1 : CongMod (modulusProd key.ms) C1 C1' := repr_unique hg hcop hc1 hc1'.2
    obtain ⟨s, s1, s2⟩ := linv_zero hg hne hw hl
    obtain ⟨s', s3, s4⟩ := lazyMulAddAll_ok hg hne hw y2 hBs (by rw [lb, hGl, hyl]) s2
    obtain ⟨b, b1, b2⟩ := linv_export hg hne hw s4
    obtain ⟨r, r1, r2, r3⟩ := repr_add hg b2.2 hc0.2 (by rw [b2.1, hc0.1])
    refine ⟨⟨[r, a], key.ms, 1⟩, sumMul Ds Es, ?_, hms.symm, rfl, rfl,
      encrypts_fresh ⟨r2.trans b2.1, r3⟩ a2 ?_, sumMul_bound hB x3 hE⟩
    · unfold RGalois.applyToWithPad RGalois.check RCt.component
      rw [if_neg (by simpa using hp), if_neg (by rw [hms]; simp), if_neg (by omega), Outcome.bind_ok,
        if_neg (by rw [hyl]; simp), b01, Outcome.bind_ok, b02, s1, Outcome.bind_ok, s3, Outcome.bind_ok, b1,
        Outcome.bind_ok, e1]
      show (do
        let d ← Outcome.ok c0₀
        let c0 ← add key.ms b d
        return (⟨[c0, a], key.ms, 1⟩ : RCt)) = _
      rw [Outcome.bind_ok, r1]
      rfl
    · have h6 := hsum 0 Ds
      simp only [List.drop_zero] at h6
      have h7 := sumMul_multiples (substPow key.power.toNat S) Gs Ds [] (by rw [x4])
      rw [List.append_nil] at h7
      rw [h7] at h6
      rw [hp] at hphi
      simp only [innerProduct, NR.negMul_zero, add_zero] at hphi
      have h8 : CongMod (modulusProd key.ms) (negMul (combine Gs Ds) (substPow key.power.toNat S))
          (negMul (substPow key.power.toNat S) C1') := by
        rw [NR.negMul_comm]
        exact (CongMod.refl _).mul (CongMod.trans x5 hC1)
      have e : 0 + sumMul Ds Bs + C0 + negMul S (0 + sumMul Ds As) =
          C0 + negMul (combine Gs Ds) (substPow key.power.toNat S) + fun i => t * sumMul Ds Es i := by
        rw [zero_add, zero_add, NR.negMul_comm S]
        calc _ = C0 + (sumMul Ds Bs + negMul (sumMul Ds As) S) := by abel
          _ = _ := by rw [h6]; abel
      rw [e]
      exact (((CongMod.refl C0).add h8).trans hphi).add
        (CongMod.refl (Q := modulusProd key.ms) (fun i => t * sumMul Ds Es i))

/-- **C58.** The number of digits must be the dimension of the gadget. -/
theorem c58_with_pad_rejects (w : ℕ) (key : RGalois) (x : RCt) (digits : List RPoly) (pad : RPoly)
    (h : x.power ≠ key.power ∨ x.ms.length ≠ key.ms.length ∨ x.c.length ≠ 2 ∨
      digits.length ≠ key.gadget.dimension) :
    key.applyToWithPad w x digits pad = .err .invalidArgument := by
  unfold RGalois.applyToWithPad RGalois.check
  by_cases h1 : x.power ≠ key.power
  · rw [if_pos h1]; rfl
  rw [if_neg h1]
  by_cases h2 : x.ms.length ≠ key.ms.length
  · rw [if_pos h2]; rfl
  rw [if_neg h2]
  by_cases h3 : x.c.length ≠ 2
  · rw [if_pos h3]; rfl
  rw [if_neg h3, Outcome.bind_ok, if_pos (((h.resolve_left h1).resolve_left h2).resolve_left h3)]

end

/-! ### Concrete cases -/

/-- Twenty accumulations of `(X + 1)^2` in the ring modulo `X^4 + 1` with 10-bit words (so that the maximal level is
`2^3` and a reduction happens on the way): the export is the polynomial `20 (1 + 2 X + X^2)`. -/
example : (do
    let m := exampleModulus 10 2 193
    let x : RPoly := ⟨2, [[1, 1, 0, 0].map (Mont.importInt m.p)], false⟩
    let a ← toNtt [m] x
    let s ← LRns.createZero 10 2 [m]
    let s ← accumulateRns 10 [m] s (List.replicate 20 (a, a))
    let r ← s.exportPoly [m]
    let r ← toCoeff [m] r
    return (s.maxLevel, s.level, r.coeffs.map fun v : List ℕ => v.map (Mont.exportInt m.p))) =
      .ok (8, 6, [[20, 40, 20, 0]]) := by
  decide +kernel

/-- The hypotheses of `c58_export` are met by every polynomial in NTT form. -/
example : ∃ a F, HistoryIs 2 exMs [(a, a)] [(F, F)] ∧ (∀ m ∈ exMs, GoodModulus 16 2 m) ∧ exMs ≠ [] := by
  obtain ⟨r, _, r2, r3⟩ := repr_createZero exMs_good (by simp [exMs]) true
  exact ⟨r, 0, .cons ⟨⟨r2, r3⟩, r2, r3⟩ .nil, exMs_good, by simp [exMs]⟩

end Shell
