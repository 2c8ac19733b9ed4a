import Verif.Lemmas.RnsGadget
import Verif.Props.RnsEncrypt
/-! Key-switching keys. -/

namespace Shell.Rns
open Spec
variable {σ τ : Type} {w l : ℕ} {ms : List Modulus} {S S' : Fin (2 ^ l) → ℤ}

/-! ### Creation -/

theorem samplePads_ok (G : Gen τ) {fuel : ℕ} (hg : ∀ m ∈ ms, GoodModulus w l m)
    (hc : (ms.map (·.N)).Pairwise Nat.Coprime) : ∀ {k : ℕ} {s s' : τ} {as : List RPoly},
    samplePads G fuel l ms k s = .ok (as, s') → as.length = k ∧ ∀ a ∈ as, ∃ A, Comp l ms a A := by
  intro k
  induction k with
  | zero => intro s s' as h; cases h; exact ⟨rfl, by simp⟩
  | succ k ih =>
    intro s s' as h
    unfold samplePads at h
    obtain ⟨⟨a, s1⟩, h1, h⟩ := Outcome.bind_eq_ok.mp h
    obtain ⟨⟨as', s2⟩, h2, h⟩ := Outcome.bind_eq_ok.mp h
    cases h
    obtain ⟨i1, i2⟩ := ih h2
    obtain ⟨a1, A, a2⟩ := sampleUniform_ok G hg hc h1
    refine ⟨by simp [i1], fun x hx => ?_⟩
    rcases List.mem_cons.mp hx with rfl | hx
    · exact ⟨A, a1, a2⟩
    · exact i2 x hx

theorem keyEntry_ok (G : Gen σ) (hG : Words G) {k : RKey} (hk : GoodKey w l k S) {v : ℤ}
    (hv : ∀ m ∈ k.ms.head?, 2 * v ≤ m.N) {t : ℕ} (ht : t < 2 ^ w) {source pad : RPoly} {g : List ℕ}
    {A : Fin (2 ^ l) → ℤ} {z : ℤ} (hs : Comp l k.ms source S') (hp : Comp l k.ms pad A) (hz : RnsIntIs k.ms g z)
    {s s' : σ} {b : RPoly} (h : keyEntry G k v t source pad g s = .ok (b, s')) :
    ∃ E B : Fin (2 ^ l) → ℤ, Comp l k.ms b B ∧ B + negMul A S = (fun i => (t : ℤ) * E i) + (fun i => z * S' i) ∧
      ∀ i, |E i| ≤ 2 * v := by
  have hg := hk.good
  have hlog : k.key.logN = l := hk.key.2.1
  unfold keyEntry at h
  obtain ⟨x, x1, x2, x3⟩ := repr_mulRns hg hs.2 hz
  obtain ⟨u, u1, u2, u3⟩ := repr_negate hg hp.2
  rw [x1, Outcome.bind_ok, u1, Outcome.bind_ok] at h
  obtain ⟨⟨e, s1⟩, he, h⟩ := Outcome.bind_eq_ok.mp h
  rw [hlog] at he
  obtain ⟨e1, E, e2, e3⟩ := sampleErr_ok G hG hg hv he
  dsimp only at h
  obtain ⟨y, y1, y2, y3⟩ := repr_mulInt hg e2 ht
  obtain ⟨y', z1, z2, z3⟩ := repr_add hg y3 x3 (by rw [y2, e1, x2, hs.1])
  obtain ⟨r, r1, r2, r3⟩ := repr_fusedMulAdd hg z3 u3 hk.key.2 (by rw [z2, y2, e1]) (by rw [u2, hp.1])
    hk.key.1
  rw [y1, Outcome.bind_ok, z1, Outcome.bind_ok, r1] at h
  cases h
  refine ⟨E, _, ⟨r2, r3⟩, ?_, e3⟩
  have : negMul (-A) S = -negMul A S := by
    rw [NR.negMul_comm, negMul_neg_comm]
  rw [this]
  abel

theorem keyEntries_ok (G : Gen σ) (hG : Words G) {k : RKey} (hk : GoodKey w l k S) {v : ℤ}
    (hv : ∀ m ∈ k.ms.head?, 2 * v ≤ m.N) {t : ℕ} (ht : t < 2 ^ w) {source : RPoly}
    (hs : Comp l k.ms source S') : ∀ {gs : List (List ℕ)} {Gs : List ℤ} {pads rest bs : List RPoly} {s s' : σ},
    List.Forall₂ (RnsIntIs k.ms) gs Gs → (∀ a ∈ pads, ∃ A, Comp l k.ms a A) →
    keyEntries G k v t source gs pads s = .ok (bs, rest, s') →
    ∃ (as : List RPoly) (Es : List (Fin (2 ^ l) → ℤ)), pads = as ++ rest ∧
      KeyColumns l k.ms t S (gadgetMultiples Gs S') as bs Es ∧ ∀ E ∈ Es, ∀ i, |E i| ≤ 2 * v := by
  intro gs
  induction gs with
  | nil =>
    intro Gs pads rest bs s s' hz _ h
    cases hz
    cases h
    exact ⟨[], [], rfl, trivial, by simp⟩
  | cons g gs ih =>
    intro Gs pads rest bs s s' hz hp h
    cases hz with
    | @cons _ z _ Gs hz hzs =>
      cases pads with
      | nil => cases h
      | cons pad pads =>
        unfold keyEntries at h
        obtain ⟨⟨b, s1⟩, h1, h⟩ := Outcome.bind_eq_ok.mp h
        obtain ⟨⟨bs', pads', s2⟩, h2, h⟩ := Outcome.bind_eq_ok.mp h
        cases h
        obtain ⟨A, hA⟩ := hp pad List.mem_cons_self
        obtain ⟨E, B, b1, b2, b3⟩ := keyEntry_ok G hG hk hv ht hs hA hz h1
        obtain ⟨as, Es, a1, a2, a3⟩ := ih hzs (fun x hx => hp x (List.mem_cons_of_mem _ hx)) h2
        refine ⟨pad :: as, E :: Es, by rw [a1]; rfl, ⟨⟨A, B, hA.1, hA.2, b1.1, b1.2, b2⟩, a2⟩, fun x hx => ?_⟩
        rcases List.mem_cons.mp hx with rfl | hx
        · exact b3
        · exact a3 x hx

theorem keyColumns_append {t : ℤ} : ∀ {Ts Ts' : List (Fin (2 ^ l) → ℤ)} {as as' bs bs' : List RPoly}
    {Es Es' : List (Fin (2 ^ l) → ℤ)}, KeyColumns l ms t S Ts as bs Es → KeyColumns l ms t S Ts' as' bs' Es' →
    KeyColumns l ms t S (Ts ++ Ts') (as ++ as') (bs ++ bs') (Es ++ Es') := by
  intro Ts
  induction Ts with
  | nil =>
    intro Ts' as as' bs bs' Es Es' h h'
    cases as <;> cases bs <;> cases Es <;> first | exact h' | exact absurd h (by simp [KeyColumns])
  | cons T Ts ih =>
    intro Ts' as as' bs bs' Es Es' h h'
    cases as <;> cases bs <;> cases Es <;> first | exact ⟨h.1, ih h.2 h'⟩ | exact absurd h (by simp [KeyColumns])

/-- The polynomials the columns represent. -/
theorem keyColumns_polys {t : ℤ} : ∀ {Ts : List (Fin (2 ^ l) → ℤ)} {as bs : List RPoly}
    {Es : List (Fin (2 ^ l) → ℤ)}, KeyColumns l ms t S Ts as bs Es →
    ∃ As Bs : List (Fin (2 ^ l) → ℤ), List.Forall₂ (Comp l ms) as As ∧ List.Forall₂ (Comp l ms) bs Bs ∧
      as.length = Ts.length ∧ bs.length = Ts.length ∧ Es.length = Ts.length ∧
      ∀ (j : ℕ) (Ds : List (Fin (2 ^ l) → ℤ)), sumMul Ds (Bs.drop j) + negMul (sumMul Ds (As.drop j)) S =
        (fun i => t * sumMul Ds (Es.drop j) i) + sumMul Ds (Ts.drop j) := by
  intro Ts
  induction Ts with
  | nil =>
    intro as bs Es h
    match as, bs, Es, h with
    | [], [], [], _ =>
      refine ⟨[], [], .nil, .nil, rfl, rfl, rfl, fun j Ds => ?_⟩
      have e : ∀ Ds : List (Fin (2 ^ l) → ℤ), sumMul Ds [] = 0 := fun Ds => by cases Ds <;> rfl
      simp only [List.drop_nil, e, NR.zero_negMul]
      funext i
      simp
  | cons T Ts ih =>
    intro as bs Es h
    match as, bs, Es, h with
    | a :: as, b :: bs, E :: Es, ⟨⟨A, B, h1, h2, h3, h4, h5⟩, h⟩ =>
      obtain ⟨As, Bs, i1, i2, i3, i4, i5, i6⟩ := ih h
      refine ⟨A :: As, B :: Bs, .cons ⟨h1, h2⟩ i1, .cons ⟨h3, h4⟩ i2, by simp [i3], by simp [i4], by simp [i5],
        fun j Ds => ?_⟩
      cases j with
      | succ j => exact i6 j Ds
      | zero =>
        cases Ds with
        | nil => funext i; simp [sumMul, NR.zero_negMul]
        | cons D Ds =>
          have h6 := i6 0 Ds
          simp only [List.drop_zero] at h6 ⊢
          show negMul D B + sumMul Ds Bs + negMul (negMul D A + sumMul Ds As) S =
            (fun i => t * (negMul D E + sumMul Ds Es) i) + (negMul D T + sumMul Ds Ts)
          have h7 : negMul D B + negMul (negMul D A) S = (fun i => t * negMul D E i) + negMul D T := by
            rw [NR.negMul_assoc, ← NR.negMul_add, h5, NR.negMul_add]
            congr 1
            exact negMul_smul D E t
          rw [NR.add_negMul]
          calc _ = (negMul D B + negMul (negMul D A) S) + (sumMul Ds Bs + negMul (sumMul Ds As) S) := by abel
            _ = _ := by
              rw [h7, h6]
              funext i
              simp only [Pi.add_apply]
              ring

/-! ### Use -/

theorem sumMul_nil {n : ℕ} (Ds : List (Fin n → ℤ)) : sumMul Ds [] = 0 := by cases Ds <;> rfl

theorem sumMul_multiples (F : Fin (2 ^ l) → ℤ) : ∀ (Gs : List ℤ) (Ds Rs : List (Fin (2 ^ l) → ℤ)),
    Ds.length ≤ Gs.length → sumMul Ds (gadgetMultiples Gs F ++ Rs) = negMul (combine Gs Ds) F := by
  intro Gs
  induction Gs with
  | nil =>
    intro Ds Rs h
    obtain rfl := List.length_eq_zero_iff.mp (Nat.le_zero.mp h)
    simp [sumMul, combine, NR.zero_negMul]
  | cons z Gs ih =>
    intro Ds Rs h
    cases Ds with
    | nil => simp [sumMul, combine, NR.zero_negMul]
    | cons D Ds =>
      show negMul D (fun i => z * F i) + sumMul Ds (gadgetMultiples Gs F ++ Rs) = _
      rw [ih Ds Rs (by simpa using h)]
      show _ = negMul ((fun i => z * D i) + combine Gs Ds) F
      rw [NR.add_negMul]
      congr 1
      rw [NR.negMul_comm _ F, negMul_smul F D z, negMul_smul D F z, NR.negMul_comm F D]

theorem mulAddAll_ok (hg : ∀ m ∈ ms, GoodModulus w l m) : ∀ {xs cs : List RPoly}
    {Ds Cs : List (Fin (2 ^ l) → ℤ)} {acc : RPoly} {H : Fin (2 ^ l) → ℤ}, List.Forall₂ (Comp l ms) xs Ds →
    List.Forall₂ (Comp l ms) cs Cs → cs.length ≤ xs.length → Comp l ms acc H →
    ∃ r, mulAddAll ms xs cs acc = .ok r ∧ Comp l ms r (H + sumMul Ds Cs) := by
  intro xs cs
  induction cs generalizing xs with
  | nil =>
    intro Ds Cs acc H _ hc _ ha
    cases hc
    exact ⟨acc, by cases xs <;> rfl, by rw [sumMul_nil, add_zero]; exact ha⟩
  | cons c cs ih =>
    intro Ds Cs acc H hx hc hl ha
    cases hc with
    | @cons _ C _ Cs hc hcs =>
      cases hx with
      | nil => simp at hl
      | @cons x D xs Ds hx hxs =>
        obtain ⟨r, r1, r2, r3⟩ := repr_fusedMulAdd hg ha.2 hx.2 hc.2 ha.1 hx.1 hc.1
        obtain ⟨r', q1, q2⟩ := ih hxs hcs (by simpa using hl) ⟨r2, r3⟩
        refine ⟨r', ?_, ?_⟩
        · unfold mulAddAll
          rw [r1]
          exact q1
        · show Comp l ms r' (H + (negMul D C + sumMul Ds Cs))
          rwa [← add_assoc]

/-- Bound on the noise a key adds. -/
theorem sumMul_bound {B : ℤ} (hB : 0 ≤ B) : ∀ {logs : List ℕ} {Ds Es : List (Fin (2 ^ l) → ℤ)},
    List.Forall₂ (fun b D => ∀ i, |D i| < 2 ^ b) logs Ds → (∀ E ∈ Es, ∀ i, |E i| ≤ B) → ∀ i,
    |sumMul Ds Es i| ≤ 2 ^ l * B * (logs.map fun b => (2 : ℤ) ^ b).sum := by
  intro logs Ds Es h
  induction h generalizing Es with
  | nil => intro _ i; simp [sumMul]
  | @cons b D logs Ds hD _ ih =>
    intro hE i
    have hp : (0 : ℤ) ≤ (logs.map fun b => (2 : ℤ) ^ b).sum := List.sum_nonneg (by
      intro x hx; simp only [List.mem_map] at hx; obtain ⟨y, _, rfl⟩ := hx; positivity)
    cases Es with
    | nil =>
      rw [sumMul_nil]
      simp only [Pi.zero_apply, abs_zero, List.map_cons, List.sum_cons]
      positivity
    | cons E Es =>
      have h1 := negMul_bound D E B hB (hE E List.mem_cons_self) i
      have h2 := ih (fun x hx => hE x (List.mem_cons_of_mem _ hx)) i
      have h3 : norm1 D ≤ 2 ^ l * 2 ^ b := by
        unfold norm1
        calc ∑ i, |D i| ≤ ∑ _i : Fin (2 ^ l), (2 : ℤ) ^ b := Finset.sum_le_sum fun i _ => (hD i).le
          _ = _ := by simp
      have h4 : norm1 D * B ≤ 2 ^ l * 2 ^ b * B := mul_le_mul_of_nonneg_right h3 hB
      show |negMul D E i + sumMul Ds Es i| ≤ _
      rw [List.map_cons, List.sum_cons]
      calc _ ≤ |negMul D E i| + |sumMul Ds Es i| := abs_add_le _ _
        _ ≤ _ := by nlinarith

theorem firstK_ok {xs : List RPoly} {k : ℕ} (h : xs.length = k) : firstK xs k = .ok xs := by
  unfold firstK
  rw [if_neg (by omega), List.take_of_length_le (by omega)]

theorem components_two {x : RCt} {Cs : List (Fin (2 ^ l) → ℤ)} (hx : Components l x Cs) (h2 : x.c.length = 2) :
    ∃ c0 c1 C0 C1, x.c = [c0, c1] ∧ Cs = [C0, C1] ∧ Comp l x.ms c0 C0 ∧ Comp l x.ms c1 C1 := by
  unfold Components at hx
  match hxc : x.c, h2 with
  | [c0, c1], _ =>
    rw [hxc] at hx
    cases hx with
    | cons h1 hx =>
      cases hx with
      | cons h2 hx =>
        cases hx
        exact ⟨c0, c1, _, _, rfl, rfl, h1, h2⟩

theorem toCoeff_ntt (hg : ∀ m ∈ ms, GoodModulus w l m) {c : RPoly} {C : Fin (2 ^ l) → ℤ} (hc : Comp l ms c C) :
    ∃ r, (if c.ntt then toCoeff ms c else .ok c : Outcome RPoly) = .ok r ∧ r.ntt = false ∧
      Represents l ms r C := by
  rw [hc.1]
  exact repr_toCoeff hg hc.2 hc.1

end Shell.Rns
