import Verif.Props.RnsKeySwitch
import Verif.Lemmas.Loop
/-!
# C52: relinearization keys
-/

namespace Shell
open Spec Rns
variable {σ τ : Type} {w l : ℕ} {S Φ : Fin (2 ^ l) → ℤ}

/-! ### Creation -/

theorem polyPow_one (S : Fin (2 ^ l) → ℤ) : polyPow S 1 = S := by
  show negMul (fun i : Fin (2 ^ l) => if (i : ℕ) = 0 then (1 : ℤ) else 0) S = S
  exact NR.one_negMul S

theorem relinBlocks_ok (G : Gen σ) (hG : Words G) {k : RKey} (hk : GoodKey w l k S) {v : ℤ}
    (hv : ∀ m ∈ k.ms.head?, 2 * v ≤ m.N) {t : ℕ} (ht : t < 2 ^ w) {gs : List (List ℕ)} {Gs : List ℤ}
    (hgs : List.Forall₂ (RnsIntIs k.ms) gs Gs) : ∀ {cnt i : ℕ} {secret : RPoly} {pads bs : List RPoly} {s : σ},
    Comp l k.ms secret (polyPow S (i + 1)) → (∀ a ∈ pads, ∃ A, Comp l k.ms a A) →
    relinBlocks G k v t gs cnt secret pads s = .ok bs →
    ∃ (as rest : List RPoly) (Es : List (Fin (2 ^ l) → ℤ)), pads = as ++ rest ∧
      KeyColumns l k.ms t S ((List.range' i cnt).flatMap fun i => gadgetMultiples Gs (polyPow S (i + 2)))
        as bs Es ∧ ∀ E ∈ Es, ∀ i, |E i| ≤ 2 * v := by
  intro cnt
  induction cnt with
  | zero =>
    intro i secret pads bs s _ _ h
    cases h
    exact ⟨[], pads, [], rfl, trivial, by simp⟩
  | succ cnt ih =>
    intro i secret pads bs s hs hp h
    unfold relinBlocks at h
    obtain ⟨r, r1, r2, r3⟩ := repr_mul hk.good hs.2 hk.key.2 hs.1 hk.key.1
    rw [r1, Outcome.bind_ok] at h
    obtain ⟨⟨bs1, pads1, s1⟩, h1, h⟩ := Outcome.bind_eq_ok.mp h
    obtain ⟨bs2, h2, h⟩ := Outcome.bind_eq_ok.mp h
    cases h
    have hr : Comp l k.ms r (polyPow S (i + 2)) := ⟨r2, r3⟩
    obtain ⟨as, Es, a1, a2, a3⟩ := keyEntries_ok G hG hk hv ht hr hgs hp h1
    obtain ⟨as', rest, Es', b1, b2, b3⟩ := ih (i := i + 1) hr
      (fun x hx => hp x (a1 ▸ List.mem_append_right _ hx)) h2
    refine ⟨as ++ as', rest, Es ++ Es', by rw [a1, b1, List.append_assoc], ?_, fun E hE => ?_⟩
    · rw [List.range'_succ, List.flatMap_cons]
      exact keyColumns_append a2 b2
    · rcases List.mem_append.mp hE with h | h
      · exact a3 E h
      · exact b3 E h

/-- **C52.** A relinearization key that was created with the secret key `k` encrypts the multiples of
`S^2, .., S^degree` by the gadget, with errors of at most `2 variance`. -/
theorem c52_relin_create (Gp : Gen τ) (G : Gen σ) (hG : Words G) {fuel : ℕ} {k : RKey} (hk : GoodKey w l k S)
    {g : RGadget} {Gs : List ℤ} {logs : List ℕ} (hgad : GadgetFor l k.ms g Gs logs) {degree v : ℤ}
    (hv : ∀ m ∈ k.ms.head?, 2 * v ≤ m.N) {prng : PrngType} {t : ℕ} (ht : t < 2 ^ w) {sp : τ} {s : σ}
    {key : RRelin} (h : RRelin.create Gp G fuel k degree v g prng t sp s = .ok key) :
    key.degree = degree ∧ key.ms = k.ms ∧ key.gadget = g ∧ 0 < v ∧ RelinFor l S t (2 * v) key Gs logs := by
  have hlog : k.key.logN = l := hk.key.2.1
  unfold RRelin.create at h
  obtain ⟨_, h⟩ | ⟨hd, h⟩ := ite_eq_iff.mp h
  · cases h
  obtain ⟨_, h⟩ | ⟨_, h⟩ := ite_eq_iff.mp h
  · cases h
  obtain ⟨pads, h1, h⟩ := Outcome.bind_eq_ok.mp h
  unfold RRelin.samplePad at h1
  obtain ⟨_, h1⟩ | ⟨_, h1⟩ := ite_eq_iff.mp h1
  · cases h1
  obtain ⟨_, h1⟩ | ⟨_, h1⟩ := ite_eq_iff.mp h1
  · cases h1
  obtain ⟨_, h1⟩ | ⟨_, h1⟩ := ite_eq_iff.mp h1
  · cases h1
  obtain ⟨_, h1⟩ | ⟨_, h1⟩ := ite_eq_iff.mp h1
  · cases h1
  obtain ⟨⟨pads', sp'⟩, h2, h1⟩ := Outcome.bind_eq_ok.mp h1
  cases h1
  rw [hlog] at h2
  obtain ⟨p1, p2⟩ := samplePads_ok Gp hk.good hk.coprime h2
  unfold RRelin.createWithPad at h
  obtain ⟨_, h⟩ | ⟨hvpos, h⟩ := ite_eq_iff.mp h
  · cases h
  rw [if_neg (by rw [hgad.dim]; omega), List.take_of_length_le (by rw [hgad.dim]), Outcome.bind_ok] at h
  obtain ⟨bs, h3, h⟩ := Outcome.bind_eq_ok.mp h
  cases h
  obtain ⟨as, rest, Es, a1, a2, a3⟩ := relinBlocks_ok G hG hk hv ht hgad.comps (i := 0)
    (by rw [zero_add, polyPow_one]; exact hk.key) p2 h3
  rw [← List.range_eq_range'] at a2
  obtain ⟨_, _, _, _, l1, _, _, _⟩ := keyColumns_polys a2
  have hrest : rest = [] := by
    have e1 := congrArg List.length a1
    have e2 : ((List.range (degree - 1).toNat).flatMap fun i => gadgetMultiples Gs (polyPow S (i + 2))).length =
        (degree - 1).toNat * g.dimension := by
      rw [List.length_flatMap]
      simp [gadgetMultiples, ← hgad.comps.length_eq, hgad.dim]
    have e3 : ((g.dimension : ℤ) * (degree - 1)).toNat = (degree - 1).toNat * g.dimension := by
      obtain ⟨n, hn⟩ := Int.eq_ofNat_of_zero_le (show 0 ≤ degree - 1 by omega)
      rw [hn, ← Nat.cast_mul, Int.toNat_natCast, Int.toNat_natCast, mul_comm]
    rw [p1, List.length_append, l1, e2, e3] at e1
    exact List.length_eq_zero_iff.mp (by omega)
  rw [hrest, List.append_nil] at a1
  subst a1
  refine ⟨rfl, rfl, rfl, by omega, ⟨by show 2 ≤ degree; omega, hgad, Es, ?_, a3⟩⟩
  have : degree.toNat - 1 = (degree - 1).toNat := by omega
  unfold relinTargets
  rw [this]
  exact a2

/-! ### Use -/

theorem sumMul_take_succ : ∀ {Ds Cs : List (Fin (2 ^ l) → ℤ)} {j : ℕ}, j < Ds.length → j < Cs.length →
    sumMul (Ds.take (j + 1)) Cs = sumMul (Ds.take j) Cs + negMul (Ds.getD j 0) (Cs.getD j 0) := by
  intro Ds
  induction Ds with
  | nil => intro Cs j h; simp at h
  | cons D Ds ih =>
    intro Cs j h1 h2
    cases Cs with
    | nil => simp at h2
    | cons C Cs =>
      cases j with
      | zero => simp [sumMul]
      | succ j =>
        have := ih (Cs := Cs) (j := j) (by simpa using h1) (by simpa using h2)
        show negMul D C + sumMul (Ds.take (j + 1)) Cs = negMul D C + sumMul (Ds.take j) Cs + _
        rw [this, ← add_assoc]
        rfl

theorem applyBlock_ok {key : RRelin} (hg : ∀ m ∈ key.ms, GoodModulus w l m) {xs : List RPoly}
    {Ds As Bs : List (Fin (2 ^ l) → ℤ)}
    (hx : List.Forall₂ (fun x D => x.ntt = false ∧ Represents l key.ms x D) xs Ds)
    (hxl : xs.length = key.gadget.dimension) (hA : List.Forall₂ (Comp l key.ms) key.as As)
    (hB : List.Forall₂ (Comp l key.ms) key.bs Bs) {d i : ℕ}
    (hla : (i - 2) * d + key.gadget.dimension ≤ key.as.length)
    (hlb : (i - 2) * d + key.gadget.dimension ≤ key.bs.length) {c : RPoly × RPoly} {C0 C1 : Fin (2 ^ l) → ℤ}
    (h0 : Comp l key.ms c.1 C0) (h1 : Comp l key.ms c.2 C1) :
    ∃ r, key.applyBlock xs d i c = .ok r ∧ Comp l key.ms r.1 (C0 + sumMul Ds (Bs.drop ((i - 2) * d))) ∧
      Comp l key.ms r.2 (C1 + sumMul Ds (As.drop ((i - 2) * d))) := by
  have hDl : Ds.length = key.gadget.dimension := hx.length_eq.symm.trans hxl
  obtain ⟨r, r1, r2, r3⟩ := loop_ok (n := key.gadget.dimension) (s := c)
    (f := fun j (c : RPoly × RPoly) => do
      let e ← rd xs j
      let e ← toNtt key.ms e
      let b ← rd key.bs ((i - 2) * d + j)
      let c0 ← fusedMulAdd key.ms c.1 e b
      let a ← rd key.as ((i - 2) * d + j)
      let c1 ← fusedMulAdd key.ms c.2 e a
      return (c0, c1))
    (fun j c => Comp l key.ms c.1 (C0 + sumMul (Ds.take j) (Bs.drop ((i - 2) * d))) ∧
      Comp l key.ms c.2 (C1 + sumMul (Ds.take j) (As.drop ((i - 2) * d))))
    (by simp only [List.take_zero, sumMul, add_zero]; exact ⟨h0, h1⟩)
    (fun j c hj ⟨p0, p1⟩ => by
      obtain ⟨x, x1, x2⟩ := forall₂_rd (0 : Fin (2 ^ l) → ℤ) hx (k := j) (by omega)
      obtain ⟨y, y1, y2, y3⟩ := repr_toNtt hg x2.2 x2.1
      obtain ⟨b, b1, b2⟩ := forall₂_rd (0 : Fin (2 ^ l) → ℤ) hB (k := (i - 2) * d + j) (by omega)
      obtain ⟨a, a1, a2⟩ := forall₂_rd (0 : Fin (2 ^ l) → ℤ) hA (k := (i - 2) * d + j) (by omega)
      obtain ⟨u, u1, u2, u3⟩ := repr_fusedMulAdd hg p0.2 y3 b2.2 p0.1 y2 b2.1
      obtain ⟨v, v1, v2, v3⟩ := repr_fusedMulAdd hg p1.2 y3 a2.2 p1.1 y2 a2.1
      have eB : ∀ L : List (Fin (2 ^ l) → ℤ), L.getD ((i - 2) * d + j) 0 = (L.drop ((i - 2) * d)).getD j 0 := by
        intro L; simp [List.getD_eq_getElem?_getD, List.getElem?_drop]
      refine ⟨(u, v), ?_, ⟨u2, ?_⟩, v2, ?_⟩
      · rw [x1, Outcome.bind_ok, y1, Outcome.bind_ok, b1, Outcome.bind_ok, u1, Outcome.bind_ok, a1,
          Outcome.bind_ok, v1]
        rfl
      · rw [sumMul_take_succ (by omega) (by rw [List.length_drop, ← hB.length_eq]; omega), ← add_assoc, ← eB]
        exact u3
      · rw [sumMul_take_succ (by omega) (by rw [List.length_drop, ← hA.length_eq]; omega), ← add_assoc, ← eB]
        exact v3)
  refine ⟨r, r1, ?_, ?_⟩
  · rwa [List.take_of_length_le (by omega)] at r2
  · rwa [List.take_of_length_le (by omega)] at r3

theorem innerProduct_take_succ (S : Fin (2 ^ l) → ℤ) : ∀ (Cs : List (Fin (2 ^ l) → ℤ)) (j : ℕ), j < Cs.length →
    innerProduct S (Cs.take (j + 1)) = innerProduct S (Cs.take j) + negMul (Cs.getD j 0) (polyPow S j) := by
  intro Cs
  induction Cs with
  | nil => intro j h; simp at h
  | cons C Cs ih =>
    intro j h
    cases j with
    | zero =>
      show C + negMul S (innerProduct S []) = 0 + negMul C (polyPow S 0)
      rw [show innerProduct S [] = 0 from rfl, NR.negMul_zero, add_zero, zero_add]
      exact (NR.negMul_one C).symm
    | succ j =>
      show C + negMul S (innerProduct S (Cs.take (j + 1))) = C + negMul S (innerProduct S (Cs.take j)) + _
      rw [ih j (by simpa using h), NR.negMul_add, add_assoc]
      congr 2
      show negMul S (negMul (Cs.getD j 0) (polyPow S j)) = negMul (Cs.getD j 0) (negMul (polyPow S j) S)
      rw [NR.negMul_comm S, NR.negMul_assoc]

theorem relinTargets_drop (Gs : List ℤ) (S : Fin (2 ^ l) → ℤ) {n i : ℕ} (hi : i < n - 1) :
    ∃ Rs, (relinTargets Gs S n).drop (i * Gs.length) = gadgetMultiples Gs (polyPow S (i + 2)) ++ Rs := by
  unfold relinTargets
  obtain ⟨m, hm⟩ := Nat.exists_eq_add_of_lt hi
  rw [hm, show i + m + 1 = i + (m + 1) by ring, List.range_add, List.flatMap_append]
  have hl : ((List.range i).flatMap fun i => gadgetMultiples Gs (polyPow S (i + 2))).length = i * Gs.length := by
    rw [List.length_flatMap]
    simp [gadgetMultiples]
  rw [← hl, List.drop_left, List.range_succ_eq_map, List.map_cons, List.flatMap_cons, add_zero]
  exact ⟨_, rfl⟩

section
variable {key : RRelin} {t B : ℤ} {Gs : List ℤ} {logs : List ℕ} {x : RCt}

/-- One iteration of the outer loop. -/
def RRelin.step (key : RRelin) (x : RCt) (d i : ℕ) (c : RPoly × RPoly) : Outcome (RPoly × RPoly) := do
  let ci ← x.component (i + 2 : ℕ)
  let ci ← (if ci.ntt then toCoeff key.ms ci else .ok ci : Outcome RPoly)
  let digits ← key.gadget.decompose ci key.ms
  key.applyBlock digits d (i + 2) c

theorem step_ok (hg : ∀ m ∈ key.ms, GoodModulus w l m) (hgad : GadgetFor l key.ms key.gadget Gs logs)
    {Cs : List (Fin (2 ^ l) → ℤ)} (hC : List.Forall₂ (Comp l key.ms) x.c Cs) {i : ℕ} (hi : i + 2 < x.c.length)
    (d : ℕ) (c : RPoly × RPoly) :
    ∃ (xs : List RPoly) (Ds : List (Fin (2 ^ l) → ℤ)), RRelin.step key x d i c = key.applyBlock xs d (i + 2) c ∧
      xs.length = key.gadget.dimension ∧
      List.Forall₂ (fun x D => x.ntt = false ∧ Represents l key.ms x D) xs Ds ∧
      List.Forall₂ (fun b D => ∀ i, |D i| < 2 ^ b) logs Ds ∧ Ds.length = Gs.length ∧
      CongMod (modulusProd key.ms) (combine Gs Ds) (Cs.getD (i + 2) 0) := by
  obtain ⟨c', c1, c2⟩ := forall₂_rd (0 : Fin (2 ^ l) → ℤ) hC hi
  obtain ⟨e, e1, e2, e3⟩ := toCoeff_ntt hg c2
  obtain ⟨xs, Ds, x1, x2, x3, x4, x5⟩ := hgad.decompose e _ e2 e3
  refine ⟨xs, Ds, ?_, ?_, x2, x3, x4, x5⟩
  · unfold RRelin.step RCt.component
    rw [if_neg (by omega), Int.toNat_natCast, c1, Outcome.bind_ok, e1, Outcome.bind_ok, x1, Outcome.bind_ok]
  · rw [x2.length_eq, x4, ← hgad.comps.length_eq, hgad.dim]

theorem columns_length {Es : List (Fin (2 ^ l) → ℤ)} (hgad : GadgetFor l key.ms key.gadget Gs logs)
    (hcol : KeyColumns l key.ms t S (relinTargets Gs S key.degree.toNat) key.as key.bs Es) :
    key.as.length = (key.degree.toNat - 1) * key.gadget.dimension ∧
    key.bs.length = (key.degree.toNat - 1) * key.gadget.dimension := by
  obtain ⟨_, _, _, _, l1, l2, _, _⟩ := keyColumns_polys hcol
  have e2 : (relinTargets Gs S key.degree.toNat).length = (key.degree.toNat - 1) * key.gadget.dimension := by
    unfold relinTargets
    rw [List.length_flatMap]
    simp [gadgetMultiples, ← hgad.comps.length_eq, hgad.dim]
  exact ⟨l1.trans e2, l2.trans e2⟩

theorem key_length (hkey : RelinFor l S t B key Gs logs) :
    key.as.length = (key.degree.toNat - 1) * key.gadget.dimension ∧
    key.bs.length = (key.degree.toNat - 1) * key.gadget.dimension := by
  obtain ⟨Es, hcol, _⟩ := hkey.columns
  exact columns_length hkey.gadget hcol

/-- A relinearization key of at least the degree of the ciphertext, where `R` is at most the number of blocks times any bound
on the sums of products of digits and errors of a block. -/
theorem relin_apply_core {K : ℤ} {Es : List (Fin (2 ^ l) → ℤ)} (hg : ∀ m ∈ key.ms, GoodModulus w l m)
    (hgad : GadgetFor l key.ms key.gadget Gs logs)
    (hcol : KeyColumns l key.ms t S (relinTargets Gs S key.degree.toNat) key.as key.bs Es)
    (hK : ∀ i Ds, i + 2 < x.c.length → List.Forall₂ (fun b (D : Fin (2 ^ l) → ℤ) => ∀ i, |D i| < 2 ^ b) logs Ds →
      ∀ j, |sumMul Ds (Es.drop (i * key.gadget.dimension)) j| ≤ K)
    (hms : x.ms = key.ms) (hp : x.power = 1) (h2 : 2 ≤ x.c.length) (hdeg : (x.c.length : ℤ) - 1 ≤ key.degree)
    (hd : x.c.length - 1 ≤ 2 ∨ x.c.length - 1 = key.gadget.dimension) (hx : Encrypts l S x Φ) :
    ∃ (r : RCt) (R : Fin (2 ^ l) → ℤ), key.applyTo x = .ok r ∧ r.ms = x.ms ∧ r.power = 1 ∧ r.c.length = 2 ∧
      Encrypts l S r (fun i => Φ i + t * R i) ∧ ∀ i, |R i| ≤ (x.c.length - 2 : ℕ) * K := by
  obtain ⟨_, Cs, hC, hphi⟩ := hx
  rw [hp, show (1 : ℤ).toNat = 1 from rfl, Expand.substPow_one] at hphi
  have hC' : List.Forall₂ (Comp l key.ms) x.c Cs := by rw [← hms]; exact hC
  obtain ⟨As, Bs, hA, hBs, _, _, _, hsum⟩ := keyColumns_polys hcol
  obtain ⟨la, lb⟩ := columns_length hgad hcol
  have hGl : Gs.length = key.gadget.dimension := by rw [← hgad.comps.length_eq, hgad.dim]
  have hdg : x.c.length - 1 ≤ key.degree.toNat := by omega
  obtain ⟨c0, c01, c02⟩ := forall₂_rd (0 : Fin (2 ^ l) → ℤ) hC' (k := 0) (by omega)
  obtain ⟨c1, c11, c12⟩ := forall₂_rd (0 : Fin (2 ^ l) → ℤ) hC' (k := 1) (by omega)
  have hCl : Cs.length = x.c.length := hC'.length_eq.symm
  obtain ⟨⟨r0, r1⟩, e, X0, X1, R, q0, q1, q2, q3⟩ := loop_ok (n := x.c.length - 1 - 1) (s := (c0, c1))
    (f := RRelin.step key x (x.c.length - 1))
    (fun i c => ∃ X0 X1 R : Fin (2 ^ l) → ℤ, Comp l key.ms c.1 X0 ∧ Comp l key.ms c.2 X1 ∧
      CongMod (modulusProd key.ms) (X0 + negMul S X1)
        (innerProduct S (Cs.take (i + 2)) + fun j => t * R j) ∧ ∀ j, |R j| ≤ i * K)
    (by
      refine ⟨_, _, 0, c02, c12, ?_, by simp⟩
      have e : Cs.take 2 = [Cs.getD 0 0, Cs.getD 1 0] := by
        match Cs, hCl with
        | [], h => simp at h; omega
        | [_], h => simp at h; omega
        | _ :: _ :: _, _ => rfl
      rw [zero_add, e]
      simp only [innerProduct, NR.negMul_zero, add_zero]
      intro i
      simp)
    (fun i c hi ⟨X0, X1, R, p0, p1, p2, p3⟩ => by
      obtain ⟨xs, Ds, x1, x2, x3, x4, x5, x6⟩ := step_ok hg hgad hC' (i := i) (by omega)
        (x.c.length - 1) c
      have hoff : (i + 2 - 2) * (x.c.length - 1) = i * key.gadget.dimension := by
        rw [Nat.add_sub_cancel]
        rcases hd with hd | hd
        · rw [show i = 0 by omega]; simp
        · rw [hd]
      have hle : i * key.gadget.dimension + key.gadget.dimension ≤
          (key.degree.toNat - 1) * key.gadget.dimension := by
        rw [← Nat.succ_mul]
        exact Nat.mul_le_mul_right _ (by omega)
      obtain ⟨r, r1, r2, r3⟩ := applyBlock_ok hg x3 x2 hA hBs (d := x.c.length - 1) (i := i + 2)
        (by rw [hoff, la]; exact hle) (by rw [hoff, lb]; exact hle) p0 p1
      rw [hoff] at r2 r3
      refine ⟨r, by rw [x1, r1], _, _, R + sumMul Ds (Es.drop (i * key.gadget.dimension)), r2, r3, ?_,
        fun j => ?_⟩
      · obtain ⟨Rs, hRs⟩ := relinTargets_drop Gs S (n := key.degree.toNat) (i := i) (by omega)
        rw [hGl] at hRs
        have h6 := hsum (i * key.gadget.dimension) Ds
        rw [hRs, sumMul_multiples _ _ _ _ (by rw [x5])] at h6
        rw [innerProduct_take_succ S Cs (i + 2) (by omega)]
        have h8 : CongMod (modulusProd key.ms) (negMul (combine Gs Ds) (polyPow S (i + 2)))
            (negMul (Cs.getD (i + 2) 0) (polyPow S (i + 2))) := x6.mul (CongMod.refl _)
        have h9 := (p2.add h8).add (CongMod.refl (Q := modulusProd key.ms)
          (fun j => t * sumMul Ds (Es.drop (i * key.gadget.dimension)) j))
        convert h9 using 1
        · rw [NR.negMul_add, NR.negMul_comm S (sumMul _ _)]
          calc _ = (X0 + negMul S X1) + (sumMul Ds (Bs.drop (i * key.gadget.dimension)) +
                negMul (sumMul Ds (As.drop (i * key.gadget.dimension))) S) := by abel
            _ = _ := by rw [h6]; abel
        · funext j
          simp only [Pi.add_apply]
          ring
      · have h7 := hK i Ds (by omega) x4 j
        have := abs_add_le (R j) (sumMul Ds (Es.drop (i * key.gadget.dimension)) j)
        have := p3 j
        simp only [Pi.add_apply]
        push_cast
        linarith)
  refine ⟨⟨[r0, r1], key.ms, 1⟩, R, ?_, hms.symm, rfl, rfl, encrypts_fresh q0 q1 ?_, fun i => ?_⟩
  · unfold RRelin.applyTo RRelin.applyLoop RCt.component
    rw [if_neg (by omega), if_neg (by rw [hms]; simp), if_neg (by simp [hp]), if_neg (by omega),
      if_neg (by omega)]
    show (do
      let c0 ← rd x.c 0
      let c1 ← rd x.c 1
      let c ← loop (x.c.length - 1 - 1) (RRelin.step key x (x.c.length - 1)) (c0, c1)
      return (⟨[c.1, c.2], key.ms, 1⟩ : RCt)) = _
    rw [c01, Outcome.bind_ok, c11, Outcome.bind_ok, e]
    rfl
  · rw [List.take_of_length_le (by omega)] at q2
    rw [hms] at hphi
    exact q2.trans (hphi.add (CongMod.refl _))
  · have := q3 i
    rwa [show x.c.length - 1 - 1 = x.c.length - 2 by omega] at this

/-- **C52 (partial).** Applied to a ciphertext of degree 1 or 2, or whose degree happens to be the dimension
of the gadget, a relinearization key of at least this degree returns a ciphertext of degree 1 that stands for
the same polynomial up to `t R`.  Missing: the other degrees, for which it is false: `c52_relin_out_of_bounds`
and `c52_relin_wrong`. -/
theorem c52_relin_apply_partial (hg : ∀ m ∈ key.ms, GoodModulus w l m) (hB : 0 ≤ B)
    (hkey : RelinFor l S t B key Gs logs) (hms : x.ms = key.ms) (hp : x.power = 1) (h2 : 2 ≤ x.c.length)
    (hdeg : (x.c.length : ℤ) - 1 ≤ key.degree)
    (hd : x.c.length - 1 ≤ 2 ∨ x.c.length - 1 = key.gadget.dimension) (hx : Encrypts l S x Φ) :
    ∃ (r : RCt) (R : Fin (2 ^ l) → ℤ), key.applyTo x = .ok r ∧ r.ms = x.ms ∧ r.power = 1 ∧ r.c.length = 2 ∧
      Encrypts l S r (fun i => Φ i + t * R i) ∧
      ∀ i, |R i| ≤ (x.c.length - 2 : ℕ) * (2 ^ l * B * (logs.map fun b => (2 : ℤ) ^ b).sum) := by
  obtain ⟨Es, hcol, hE⟩ := hkey.columns
  exact relin_apply_core hg hkey.gadget hcol (fun i Ds _ hD => sumMul_bound hB hD fun E hE' =>
    hE E (List.mem_of_mem_drop hE')) hms hp h2 hdeg hd hx

/-! ### The other degrees -/

theorem applyBlock_ub (hg : ∀ m ∈ key.ms, GoodModulus w l m) {xs : List RPoly}
    {Ds As Bs : List (Fin (2 ^ l) → ℤ)}
    (hx : List.Forall₂ (fun x D => x.ntt = false ∧ Represents l key.ms x D) xs Ds)
    (hxl : xs.length = key.gadget.dimension) (hA : List.Forall₂ (Comp l key.ms) key.as As)
    (hB : List.Forall₂ (Comp l key.ms) key.bs Bs) (hab : key.as.length = key.bs.length) {d i : ℕ}
    (hlb : key.bs.length < (i - 2) * d + key.gadget.dimension) {c : RPoly × RPoly} {C0 C1 : Fin (2 ^ l) → ℤ}
    (h0 : Comp l key.ms c.1 C0) (h1 : Comp l key.ms c.2 C1) (hpos : 0 < key.gadget.dimension) :
    key.applyBlock xs d i c = .ub .outOfBounds := by
  refine loop_ub (n := key.gadget.dimension) (s := c)
    (fun j c => (∃ C0, Comp l key.ms c.1 C0) ∧ ∃ C1, Comp l key.ms c.2 C1)
    (key.bs.length - (i - 2) * d) (by omega) .outOfBounds ⟨⟨C0, h0⟩, C1, h1⟩ ?_ ?_
  · rintro j c hj ⟨⟨P0, p0⟩, P1, p1⟩
    obtain ⟨x, x1, x2⟩ := forall₂_rd (0 : Fin (2 ^ l) → ℤ) hx (k := j) (by omega)
    obtain ⟨y, y1, y2, y3⟩ := repr_toNtt hg x2.2 x2.1
    obtain ⟨b, b1, b2⟩ := forall₂_rd (0 : Fin (2 ^ l) → ℤ) hB (k := (i - 2) * d + j) (by omega)
    obtain ⟨a, a1, a2⟩ := forall₂_rd (0 : Fin (2 ^ l) → ℤ) hA (k := (i - 2) * d + j) (by omega)
    obtain ⟨u, u1, u2, u3⟩ := repr_fusedMulAdd hg p0.2 y3 b2.2 p0.1 y2 b2.1
    obtain ⟨v, v1, v2, v3⟩ := repr_fusedMulAdd hg p1.2 y3 a2.2 p1.1 y2 a2.1
    refine ⟨(u, v), ?_, ⟨_, u2, u3⟩, _, v2, v3⟩
    rw [x1, Outcome.bind_ok, y1, Outcome.bind_ok, b1, Outcome.bind_ok, u1, Outcome.bind_ok, a1,
      Outcome.bind_ok, v1]
    rfl
  · rintro c ⟨⟨P0, p0⟩, P1, p1⟩
    obtain ⟨x, x1, x2⟩ := forall₂_rd (0 : Fin (2 ^ l) → ℤ) hx (k := key.bs.length - (i - 2) * d) (by omega)
    obtain ⟨y, y1, y2, y3⟩ := repr_toNtt hg x2.2 x2.1
    have hoob : rd key.bs ((i - 2) * d + (key.bs.length - (i - 2) * d)) = .ub .outOfBounds := by
      unfold rd
      rw [List.getElem?_eq_none (by omega)]
    rw [x1, Outcome.bind_ok, y1, Outcome.bind_ok, hoob]
    rfl

/-- **C52 fails for degree 3 and more.** `ApplyTo` takes the ciphertext's degree in place of the gadget's
dimension when it computes the index into the key.  For every key and every ciphertext of the key's degree
`d ≥ 3`, if the gadget has fewer than `d` components the key is read outside its bounds. -/
theorem c52_relin_out_of_bounds (hg : ∀ m ∈ key.ms, GoodModulus w l m) (hkey : RelinFor l S t B key Gs logs)
    (hms : x.ms = key.ms) (hp : x.power = 1) (hdeg : (x.c.length : ℤ) - 1 = key.degree) (h3 : 3 ≤ key.degree)
    (hk : key.gadget.dimension < x.c.length - 1) (hpos : 0 < key.gadget.dimension) (hx : Encrypts l S x Φ) :
    key.applyTo x = .ub .outOfBounds := by
  obtain ⟨_, Cs, hC, _⟩ := hx
  have hC' : List.Forall₂ (Comp l key.ms) x.c Cs := by rw [← hms]; exact hC
  obtain ⟨Es, hcol, hE⟩ := hkey.columns
  obtain ⟨As, Bs, hA, hBs, _, _, _, _⟩ := keyColumns_polys hcol
  obtain ⟨la, lb⟩ := key_length hkey
  obtain ⟨c0, c01, c02⟩ := forall₂_rd (0 : Fin (2 ^ l) → ℤ) hC' (k := 0) (by omega)
  obtain ⟨c1, c11, c12⟩ := forall₂_rd (0 : Fin (2 ^ l) → ℤ) hC' (k := 1) (by omega)
  obtain ⟨d, hd⟩ : ∃ d, x.c.length = d + 4 := ⟨x.c.length - 4, by omega⟩
  have hdt : key.degree.toNat = d + 3 := by omega
  have hlen : key.bs.length = (d + 2) * key.gadget.dimension := by rw [lb, hdt]; rfl
  have hex : ∃ i, key.bs.length < i * (d + 3) + key.gadget.dimension := by
    refine ⟨d + 1, ?_⟩
    rw [hlen]
    have : (d + 1) * key.gadget.dimension < (d + 1) * (d + 3) := Nat.mul_lt_mul_of_pos_left (by omega) (by omega)
    nlinarith
  have hle : Nat.find hex ≤ d + 1 := Nat.find_le (by
    rw [hlen]
    have : (d + 1) * key.gadget.dimension < (d + 1) * (d + 3) := Nat.mul_lt_mul_of_pos_left (by omega) (by omega)
    nlinarith)
  have hloop : loop (x.c.length - 1 - 1) (RRelin.step key x (x.c.length - 1)) (c0, c1) = .ub .outOfBounds := by
    refine loop_ub (fun _ c => (∃ C0, Comp l key.ms c.1 C0) ∧ ∃ C1, Comp l key.ms c.2 C1) (Nat.find hex)
      (by omega) .outOfBounds ⟨⟨_, c02⟩, _, c12⟩ ?_ ?_
    · rintro i c hi ⟨⟨P0, p0⟩, P1, p1⟩
      obtain ⟨xs, Ds, x1, x2, x3, _⟩ := step_ok hg hkey.gadget hC' (i := i) (by omega) (x.c.length - 1) c
      have hin := Nat.find_min hex hi
      obtain ⟨r, r1, r2, r3⟩ := applyBlock_ok hg x3 x2 hA hBs (d := x.c.length - 1) (i := i + 2)
        (by rw [hd, la, ← lb]; simpa using hin) (by rw [hd]; simpa using hin) p0 p1
      exact ⟨r, by rw [x1, r1], ⟨_, r2⟩, _, r3⟩
    · rintro c ⟨⟨P0, p0⟩, P1, p1⟩
      obtain ⟨xs, Ds, x1, x2, x3, _⟩ := step_ok hg hkey.gadget hC' (i := Nat.find hex) (by omega)
        (x.c.length - 1) c
      rw [x1]
      exact applyBlock_ub hg x3 x2 hA hBs (la.trans lb.symm) (by
        have := Nat.find_spec hex
        rw [hd]
        simpa using this) p0 p1 hpos
  unfold RRelin.applyTo RRelin.applyLoop RCt.component
  rw [if_neg (by omega), if_neg (by rw [hms]; simp), if_neg (by simp [hp]), if_neg (by omega),
    if_neg (by omega)]
  show (do
    let c0 ← rd x.c 0
    let c1 ← rd x.c 1
    let c ← loop (x.c.length - 1 - 1) (RRelin.step key x (x.c.length - 1)) (c0, c1)
    return (⟨[c.1, c.2], key.ms, 1⟩ : RCt)) = _
  rw [c01, Outcome.bind_ok, c11, Outcome.bind_ok, hloop]
  rfl

/-- **C52.** A relinearization key rejects ciphertexts of a larger degree, with another number of moduli or
another power of the secret, and those of degree below 1. -/
theorem c52_relin_rejects (key : RRelin) (x : RCt) (h : (x.c.length : ℤ) - 1 > key.degree ∨
    x.ms.length ≠ key.ms.length ∨ x.power ≠ 1 ∨ x.c.length < 2) : key.applyTo x = .err .invalidArgument := by
  unfold RRelin.applyTo
  by_cases h1 : (x.c.length : ℤ) - 1 > key.degree
  · rw [if_pos h1]
  rw [if_neg h1]
  by_cases h2 : x.ms.length ≠ key.ms.length
  · rw [if_pos h2]
  rw [if_neg h2]
  by_cases h3 : x.power ≠ 1
  · rw [if_pos h3]
  rw [if_neg h3]
  have h4 : x.c.length < 2 := by
    rcases h with h | h | h | h
    exacts [(h1 h).elim, (h2 h).elim, (h3 h).elim, h]
  obtain ⟨c, ms, p⟩ := x
  match c, h4 with
  | [], _ => rfl
  | [_], _ => rfl

/-- **C52.** A relinearization key of degree below 2 cannot be created, nor with an invalid type of generator
or a variance that is not positive. -/
theorem c52_relin_create_rejects (Gp : Gen τ) (G : Gen σ) (fuel : ℕ) (k : RKey) (degree v : ℤ) (g : RGadget)
    (prng : PrngType) (t : ℕ) (sp : τ) (s : σ) :
    (degree ≤ 1 ∨ prng = .invalid → RRelin.create Gp G fuel k degree v g prng t sp s = .err .invalidArgument) ∧
    (v ≤ 0 → ∀ pads, RRelin.createWithPad G pads k degree v g t s = .err .invalidArgument) := by
  constructor
  · intro h
    unfold RRelin.create
    by_cases h1 : degree ≤ 1
    · rw [if_pos h1]
    rw [if_neg h1, if_pos (h.resolve_left h1)]
  · intro h pads
    unfold RRelin.createWithPad
    rw [if_pos h]

end

/-! ### Concrete cases -/

/-- A generator of bytes. -/
def lcg : Gen ℕ where
  rand8 s := .ok (s / 4 % 2 ^ 8, (s * 421 + 1663) % 7875)
  rand64 s := .ok (s % 2 ^ 64, (s * 421 + 1663) % 7875)

theorem lcg_words : Words lcg where
  byte := by rintro s v s' h; cases h; exact Nat.mod_lt _ (by norm_num)
  word := by rintro s v s' h; cases h; exact Nat.mod_lt _ (by norm_num)

/-- The secret key of the examples, its gadget, and a relinearization key of the given degree. -/
def exRelin (degree : ℤ) (t : ℕ) : Outcome (RKey × RGadget × RRelin) := do
  let (k, _) ← RKey.sample listGen 2 1 exMs [1, 0, 0, 1, 1, 0, 1, 1]
  let g ← exGadget
  let key ← RRelin.create lcg lcg 100 k degree 1 g .hkdf t 5 77
  return (k, g, key)

theorem exRelin_ok {degree : ℤ} {t : ℕ} (ht : t < 2 ^ 16) {r} (h : exRelin degree t = .ok r) :
    ∃ S Gs, GoodKey 16 2 r.1 S ∧ r.1.ms = exMs ∧ r.2.2.ms = exMs ∧ r.2.2.degree = degree ∧
      RelinFor 2 S t 2 r.2.2 Gs [3, 3, 3, 2, 2, 2, 2] := by
  obtain ⟨k, S, hk1, hk2, hk3, hk4, _⟩ := exKey
  obtain ⟨g, Gs, hg1, _, hg3⟩ := exGadget_ok
  unfold exRelin at h
  rw [hk1, Outcome.bind_ok] at h
  dsimp only at h
  rw [hg1, Outcome.bind_ok] at h
  obtain ⟨key, h1, h⟩ := Outcome.bind_eq_ok.mp h
  cases h
  have hv := hk2.variance
  rw [hk4] at hv
  obtain ⟨a1, a2, _, _, a5⟩ := c52_relin_create lcg lcg lcg_words hk2 (by rw [hk3]; exact hg3) hv ht h1
  exact ⟨S, Gs, hk2, hk3, a2.trans hk3, a1, a5⟩

/-- The hypotheses of `c52_relin_create` and `c52_relin_apply_partial` are met: a key of degree 2 for `t = 17`
and every ciphertext with three components. -/
example : ∃ r S Gs, exRelin 2 17 = .ok r ∧ GoodKey 16 2 r.1 S ∧ r.2.2.ms = exMs ∧ r.2.2.degree = 2 ∧
    RelinFor 2 S 17 2 r.2.2 Gs [3, 3, 3, 2, 2, 2, 2] := by
  have : (match exRelin 2 17 with | .ok _ => true | _ => false) = true := by decide +kernel
  cases h : exRelin 2 17 with
  | err e => rw [h] at this; cases this
  | ub e => rw [h] at this; cases this
  | ok r =>
    obtain ⟨S, Gs, a1, _, a3, a4, a5⟩ := exRelin_ok (by norm_num) h
    exact ⟨r, S, Gs, rfl, a1, a3, a4, a5⟩

/-- A ciphertext with four components, the last of which is 1. -/
def exCubic : RCt :=
  ⟨(List.replicate 3 ⟨2, exMs.map fun _ => [0, 0, 0, 0], true⟩) ++
    [⟨2, exMs.map fun m => List.replicate 4 (Mont.importInt m.p 1), true⟩], exMs, 1⟩

/-- **C52 is false for degree 3**, whatever the size of the gadget: here the gadget has 7 components, more than
the degree, so that no read is out of bounds, and the wrong part of the key is used.  The key is created without
errors (they are multiplied by 0), and still the relinearized ciphertext does not decrypt to the polynomial the
given one decrypts to. -/
theorem c52_relin_wrong : ∃ k g key r y z, exRelin 3 0 = .ok (k, g, key) ∧ key.degree = 3 ∧
    exCubic.c.length = 4 ∧ exCubic.power = 1 ∧ exCubic.ms = key.ms ∧
    key.applyTo exCubic = .ok r ∧ k.rawDecrypt exCubic = .ok y ∧ k.rawDecrypt r = .ok z ∧ y ≠ z := by
  have : (match exRelin 3 0 with
    | .ok (k, _, key) => (match key.applyTo exCubic with
      | .ok r => (match k.rawDecrypt exCubic with
        | .ok y => (match k.rawDecrypt r with | .ok z => decide (y.coeffs ≠ z.coeffs) | _ => false)
        | _ => false)
      | _ => false)
    | _ => false) = true := by decide +kernel
  cases h : exRelin 3 0 with
  | err e => rw [h] at this; cases this
  | ub e => rw [h] at this; cases this
  | ok r =>
    rw [h] at this
    obtain ⟨_, _, _, _, e3, e4, _⟩ := exRelin_ok (by norm_num) h
    obtain ⟨k, g, key⟩ := r
    dsimp only at this
    cases h2 : key.applyTo exCubic with
    | err e => rw [h2] at this; cases this
    | ub e => rw [h2] at this; cases this
    | ok r =>
      rw [h2] at this
      dsimp only at this
      cases h3 : k.rawDecrypt exCubic with
      | err e => rw [h3] at this; cases this
      | ub e => rw [h3] at this; cases this
      | ok y =>
        rw [h3] at this
        dsimp only at this
        cases h4 : k.rawDecrypt r with
        | err e => rw [h4] at this; cases this
        | ub e => rw [h4] at this; cases this
        | ok z =>
          rw [h4] at this
          exact ⟨k, g, key, r, y, z, rfl, e4, rfl, rfl, e3.symm, h2, h3, h4, fun he =>
            (of_decide_eq_true this) (by rw [he])⟩

/-- A case of `c52_relin_out_of_bounds`: base 256 for both moduli gives a gadget of dimension 2, below the degree
of `exCubic`. -/
example : (match (do
      let (k, _) ← RKey.sample listGen 2 1 exMs [1, 0, 0, 1, 1, 0, 1, 1]
      let g ← RGadget.create 2 [8, 8]
        (exMs.map fun m => Mont.importInt m.p (modulusProd exMs / m.N))
        (exMs.map fun m => Mont.multiplicativeInverse m.p (Mont.importInt m.p (modulusProd exMs / m.N))) exMs
      let key ← RRelin.create lcg lcg 100 k 3 1 g .hkdf 17 5 77
      return (g.dimension, key) : Outcome (ℕ × RRelin)) with
    | .ok (d, key) => d == 2 && (match key.applyTo exCubic with | .ub .outOfBounds => true | _ => false)
    | _ => false) = true := by
  decide +kernel

/-- The hypotheses of `c52_galois_create` and `c52_galois_apply` are met: a key for `X ↦ X^5` and `t = 17`. -/
example : ∃ k S g Gs key, RKey.sample listGen 2 1 exMs [1, 0, 0, 1, 1, 0, 1, 1] = .ok (k, []) ∧
    GoodKey 16 2 k S ∧ RGalois.create lcg lcg 100 k 5 1 g .hkdf 17 5 77 = .ok key ∧ key.ms = exMs ∧
    GaloisFor 2 S 17 2 key Gs [3, 3, 3, 2, 2, 2, 2] := by
  have : (match (do
      let (k, _) ← RKey.sample listGen 2 1 exMs [1, 0, 0, 1, 1, 0, 1, 1]
      let g ← exGadget
      RGalois.create lcg lcg 100 k 5 1 g .hkdf 17 5 77 : Outcome RGalois) with
    | .ok _ => true | _ => false) = true := by decide +kernel
  obtain ⟨k, S, hk1, hk2, hk3, hk4, _⟩ := exKey
  obtain ⟨g, Gs, hg1, _, hg3⟩ := exGadget_ok
  rw [hk1, Outcome.bind_ok] at this
  dsimp only at this
  rw [hg1, Outcome.bind_ok] at this
  cases h : RGalois.create lcg lcg 100 k 5 1 g .hkdf 17 5 77 with
  | err e => rw [h] at this; cases this
  | ub e => rw [h] at this; cases this
  | ok key =>
    have hv := hk2.variance
    rw [hk4] at hv
    obtain ⟨a1, a2, _, _, _, a5⟩ := c52_galois_create lcg lcg lcg_words hk2 (by rw [hk3]; exact hg3) hv
      (t := 17) (by norm_num) h
    exact ⟨k, S, g, Gs, key, hk1, hk2, h, a2.trans hk3, a5⟩

end Shell
