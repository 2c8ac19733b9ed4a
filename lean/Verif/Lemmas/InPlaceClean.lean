import Verif.Lemmas.InPlace
import Verif.Lemmas.Ntt
import Verif.Lemmas.Rns
import Verif.Spec.InPlace
/-!
# In-place operations: errors are decided by shapes before anything is changed
-/

namespace Shell.Rns
open Res Spec

/-- The call is rejected without effect if `P`, and otherwise leaves a value with `S` (or is undefined). -/
def Decides {α : Type} (P : Prop) (x : α) (S : α → Prop) (r : Res α) : Prop :=
  (P → ∃ e, r = (x, .err e)) ∧ (¬ P → (∃ y, S y ∧ r = (y, .ok ())) ∨ ∃ z u, r = (z, .ub u))

namespace Decides
variable {α β : Type} {P : Prop} {x : α} {S : α → Prop} {r : Res α}

theorem unchanged (h : Decides P x S r) : Unchanged x r := by
  intro e he
  by_cases hP : P
  · obtain ⟨e', rfl⟩ := h.1 hP
    rfl
  · rcases h.2 hP with ⟨y, _, rfl⟩ | ⟨z, u, rfl⟩ <;> cases he

theorem post (h : Decides P x S r) (hr : r.2 = .ok ()) : S r.1 := by
  by_cases hP : P
  · obtain ⟨e', rfl⟩ := h.1 hP
    cases hr
  · rcases h.2 hP with ⟨y, hy, rfl⟩ | ⟨z, u, rfl⟩
    · exact hy
    · cases hr

theorem mono {S' : α → Prop} (h : Decides P x S r) (hS : ∀ y, S y → S' y) : Decides P x S' r :=
  ⟨h.1, fun hP => (h.2 hP).imp (fun ⟨y, hy, e⟩ => ⟨y, hS y hy, e⟩) id⟩

theorem congr {Q : Prop} (h : Decides P x S r) (hQ : P ↔ Q) : Decides Q x S r := by
  rwa [← hQ]

/-- Mapping the object into a larger one. -/
theorem map {γ : Type} (g : α → γ) {S' : γ → Prop} (h : Decides P x S r) (hS : ∀ y, S y → S' (g y)) :
    Decides P (g x) S' (g r.1, r.2) := by
  refine ⟨fun hP => ?_, fun hP => ?_⟩
  · obtain ⟨e, rfl⟩ := h.1 hP
    exact ⟨e, rfl⟩
  · rcases h.2 hP with ⟨y, hy, rfl⟩ | ⟨z, u, rfl⟩
    · exact .inl ⟨_, hS y hy, rfl⟩
    · exact .inr ⟨_, u, rfl⟩

/-- A check at the beginning. -/
theorem ite_reject {Q : Prop} [Decidable Q] (h : ¬ Q → Decides P x S r) :
    Decides (Q ∨ P) x S (if Q then reject x else r) := by
  by_cases hQ : Q
  · rw [if_pos hQ]
    exact ⟨fun _ => ⟨_, rfl⟩, fun h' => absurd (.inl hQ) h'⟩
  · rw [if_neg hQ]
    exact (h hQ).congr (by simp [hQ])

theorem rejects (hP : P) (e : Status) : Decides P x S (x, .err e) := ⟨fun _ => ⟨e, rfl⟩, fun h => absurd hP h⟩

theorem done {y : α} (hP : ¬ P) (hy : S y) : Decides P x S (y, .ok ()) := ⟨fun h => absurd h hP, fun _ => .inl ⟨y, hy, rfl⟩⟩

theorem undef {z : α} {u : UB} (hP : ¬ P) : Decides P x S (z, .ub u) := ⟨fun h => absurd h hP, fun _ => .inr ⟨z, u, rfl⟩⟩

theorem of_value {y : α} (hP : ¬ P) (h : r.value = .ok y) (hy : S y) : Decides P x S r := by
  obtain ⟨z, o⟩ := r
  cases o with
  | ok u => cases h; exact done hP hy
  | err e => cases h
  | ub u => cases h

theorem value_ok' (h : Decides P x S r) (hP : ¬ P) : (∃ y, r.value = .ok y ∧ S y) ∨ ∃ u, r.value = .ub u := by
  rcases h.2 hP with ⟨y, hy, rfl⟩ | ⟨z, u, rfl⟩
  · exact .inl ⟨y, rfl, hy⟩
  · exact .inr ⟨u, rfl⟩

end Decides

section lists
variable {α β : Type} {P : Prop} {S : α → Prop}

theorem each_decides (f : α → β → Res α) (xs : List α) (bs : List β)
    (h : List.Forall₂ (fun x b => Decides P x S (f x b)) xs bs) :
    Decides (P ∧ xs ≠ []) xs (fun ys => ys.length = xs.length ∧ ∀ y ∈ ys, S y) (each f xs bs) := by
  induction h with
  | nil => exact .done (by simp) (by simp)
  | @cons x b xs bs hx hrest ih =>
    rw [each]
    by_cases hP : P
    · obtain ⟨e, he⟩ := hx.1 hP
      rw [he]
      exact .rejects ⟨hP, by simp⟩ e
    · have hP' : ¬ (P ∧ x :: xs ≠ []) := fun h => hP h.1
      rcases hx.2 hP with ⟨y, hy, e⟩ | ⟨z, u, e⟩
      · rw [e]
        rcases ih.2 (fun h => hP h.1) with ⟨ys, hys, e⟩ | ⟨z, u, e⟩
        · rw [e]
          exact .done hP' ⟨by simp [hys.1], by simpa [hy] using hys.2⟩
        · rw [e]
          exact .undef hP'
      · rw [e]
        exact .undef hP'

theorem all_decides (f : α → Res α) (xs : List α) (h : ∀ x ∈ xs, Decides P x S (f x)) :
    Decides (P ∧ xs ≠ []) xs (fun ys => ys.length = xs.length ∧ ∀ y ∈ ys, S y) (all f xs) := by
  induction xs with
  | nil => exact .done (by simp) (by simp)
  | cons x xs ih =>
    rw [all]
    have hx := h x (by simp)
    have ih := ih fun y hy => h y (by simp [hy])
    by_cases hP : P
    · obtain ⟨e, he⟩ := hx.1 hP
      rw [he]
      exact .rejects ⟨hP, by simp⟩ e
    · have hP' : ¬ (P ∧ x :: xs ≠ []) := fun h => hP h.1
      rcases hx.2 hP with ⟨y, hy, e⟩ | ⟨z, u, e⟩
      · rw [e]
        rcases ih.2 (fun h => hP h.1) with ⟨ys, hys, e⟩ | ⟨z, u, e⟩
        · rw [e]
          exact .done hP' ⟨by simp [hys.1], by simpa [hy] using hys.2⟩
        · rw [e]
          exact .undef hP'
      · rw [e]
        exact .undef hP'

end lists

/-! ### Vectors -/

theorem vec_add (p : MParams) (n : ℕ) (v u : List ℕ) (hv : v.length = n) :
    Decides (u.length ≠ n) v (fun y => y.length = n) (vec (Poly.addInPlace p v u)) := by
  unfold Poly.addInPlace
  split
  · exact .rejects (by omega) _
  · exact .done (by omega) (by simp; omega)

theorem vec_sub (p : MParams) (n : ℕ) (v u : List ℕ) (hv : v.length = n) :
    Decides (u.length ≠ n) v (fun y => y.length = n) (vec (Poly.subInPlace p v u)) := by
  unfold Poly.subInPlace
  split
  · exact .rejects (by omega) _
  · exact .done (by omega) (by simp; omega)

theorem vec_mul (p : MParams) (n : ℕ) (v u : List ℕ) (hv : v.length = n) :
    Decides (u.length ≠ n) v (fun y => y.length = n) (vec (Poly.mulInPlace p v u)) := by
  unfold Poly.mulInPlace
  split
  · exact .rejects (by omega) _
  · exact .done (by omega) (by simp; omega)

theorem vec_fused (p : MParams) (n : ℕ) (v a b : List ℕ) (hv : v.length = n) :
    Decides (a.length ≠ n ∨ b.length ≠ n) v (fun y => y.length = n) (vec (Poly.fusedMulAddInPlace p v a b)) := by
  unfold Poly.fusedMulAddInPlace
  split
  · exact .rejects (by omega) _
  · exact .done (by omega) (by simp; omega)

theorem vec_mulScalar (p : MParams) (n : ℕ) (v : List ℕ) (c : ℕ) (hv : v.length = n) :
    Decides False v (fun y => y.length = n) (vec (Poly.mulScalarInPlace p v c)) :=
  .done not_false ((List.length_map ..).trans hv)

theorem inverse_shape (p : MParams) (q : Ntt.NttParams) (L : ℕ) (hL : L ≤ 30)
    (hq : 2 ^ L ≤ q.psisInvBitrevConstant.length + 1) (v : List ℕ) (hv : v.length = 2 ^ L) :
    ∃ out, Ntt.inverse p q v = .ok out ∧ out.length = 2 ^ L := by
  rw [Ntt.inverse_unfold q v L hL hv]
  unfold Ntt.iterativeGentlemanSande
  obtain ⟨s, h1, h2, h3⟩ := loop_ok (n := L) (s := ((0 : ℕ), v))
    (f := fun i s => Ntt.gsLayer p q.psisInvBitrevConstant i s)
    (fun i s => s.1 + 2 ^ (L - i) = 2 ^ L ∧ s.2.length = 2 ^ L) ⟨by simp, hv⟩ (by
      rintro i ⟨idx, u⟩ hi ⟨e1, e2⟩
      simp only at e1 e2
      have hb : 2 ^ L = 2 ^ (L - 1 - i) * (2 * 2 ^ i) := by
        rw [← pow_succ', ← pow_add]; congr 1; omega
      have hp : 2 ^ (L - i) = 2 * 2 ^ (L - 1 - i) := by rw [← pow_succ']; congr 1; omega
      have hp1 : 0 < 2 ^ (L - 1 - i) := by positivity
      obtain ⟨u', k1, k2⟩ := (Ntt.gsLayer_cases p q.psisInvBitrevConstant i (2 ^ (L - 1 - i)) idx u
        (by rw [e2]; exact hb) (by omega)).1 (by omega)
      refine ⟨_, k1, ?_, by simp only; omega⟩
      simp only
      have : L - (i + 1) = L - 1 - i := by omega
      rw [this]
      omega)
  rw [h1]
  exact ⟨_, rfl, by simp [h3]⟩

theorem forward_shape (p : MParams) (q : Ntt.NttParams) (L : ℕ) (hL : L ≤ 30)
    (hq : 2 ^ L ≤ q.psisBitrevConstant.length) (v : List ℕ) (hv : v.length = 2 ^ L) :
    ∃ out, Ntt.forward p q v = .ok out ∧ out.length = 2 ^ L := by
  rw [Ntt.forward_unfold q v L hL hv]
  unfold Ntt.iterativeCooleyTukey
  obtain ⟨s, h1, h2, h3⟩ := loop_ok (n := L) (s := ((1 : ℕ), v))
    (f := fun r s => Ntt.ctLayer p q.psisBitrevConstant (L - 1 - r) s)
    (fun d s => s.1 = 2 ^ d ∧ s.2.length = 2 ^ L) ⟨by simp, hv⟩ (by
      rintro d ⟨i', u⟩ hd ⟨e1, e2⟩
      simp only at e1 e2
      subst e1
      have hblk : 2 ^ L = 2 ^ d * (2 * 2 ^ (L - 1 - d)) := by
        rw [← pow_succ', ← pow_add]; congr 1; omega
      obtain ⟨u', k1, k2⟩ := Ntt.ctLayer_shape p q.psisBitrevConstant (L - 1 - d) (2 ^ d) (2 ^ d) u
        (by rw [e2]; exact hblk)
        (by
          have : 2 ^ (d + 1) ≤ 2 ^ L := Nat.pow_le_pow_right (by norm_num) hd
          rw [pow_succ] at this; omega)
      exact ⟨_, k1, by simp only; rw [pow_succ]; ring, by simp only; omega⟩)
  rw [h1]
  exact ⟨_, rfl, by simp [h3]⟩

variable {w l k k' l' : ℕ} {f f' : Bool} {ms : List Modulus} {x y : RPoly}

theorem good_inverse {m : Modulus} (hm : GoodModulus w l m) {v : List ℕ} (hv : v.length = 2 ^ l) :
    ∃ out, Ntt.inverse m.p m.q v = .ok out ∧ out.length = 2 ^ l := by
  obtain ⟨psi, t⟩ := hm.tables
  have := t.l15
  exact inverse_shape _ _ _ (by omega) (by rw [t.invC, List.length_map, t.inv_len]; omega) _ hv

theorem good_forward {m : Modulus} (hm : GoodModulus w l m) {v : List ℕ} (hv : v.length = 2 ^ l) :
    ∃ out, Ntt.forward m.p m.q v = .ok out ∧ out.length = 2 ^ l := by
  obtain ⟨psi, t⟩ := hm.tables
  have := t.l15
  exact forward_shape _ _ _ (by omega) (by rw [t.fwdC, List.length_map, t.fwd_len]) _ hv

/-! ### `RnsPolynomial` -/

theorem forall₂_of_mem {α β : Type} {R : α → β → Prop} {xs : List α} {bs : List β} (hl : xs.length = bs.length)
    (h : ∀ x ∈ xs, ∀ b ∈ bs, R x b) : List.Forall₂ R xs bs := by
  induction xs generalizing bs with
  | nil => cases bs with
    | nil => exact .nil
    | cons _ _ => simp at hl
  | cons x xs ih => cases bs with
    | nil => simp at hl
    | cons b bs =>
      exact .cons (h x (by simp) b (by simp)) (ih (by simpa using hl) fun x hx b hb => h x (by simp [hx]) b (by simp [hb]))

theorem onCoeffs_decides {P : Prop} {r : Res (List (List ℕ))} (hx : Shape l k f x)
    (h : Decides P x.coeffs (fun ys => ys.length = x.coeffs.length ∧ ∀ y ∈ ys, y.length = 2 ^ l) r) :
    Decides P x (Shape l k f) (onCoeffs x r) :=
  h.map (fun cs => { x with coeffs := cs }) fun _ hy => ⟨hx.logN, hy.1.trans hx.moduli, hy.2, hx.form⟩

theorem two_pow_ne {a b : ℕ} : (2 ^ a ≠ 2 ^ b) ↔ a ≠ b := by
  rw [ne_eq, ne_eq, Nat.pow_right_inj (le_refl 2)]

theorem coeffs_ne_nil (hx : Shape l k f x) : x.coeffs ≠ [] ↔ k ≠ 0 := by
  rw [← hx.moduli]; simp

theorem addIn_decides (hx : Shape l k f x) (hy : Shape l' k' f' y) :
    Decides (k' ≠ k ∨ ms.length ≠ k ∨ (l' ≠ l ∧ k ≠ 0)) x (Shape l k f) (addIn ms x y) := by
  unfold addIn
  rw [hx.moduli, hy.moduli]
  refine .ite_reject fun h1 => .ite_reject fun h2 => onCoeffs_decides hx ?_
  refine (each_decides (P := l' ≠ l) _ _ _ (forall₂_of_mem ?_ ?_)).congr (by rw [coeffs_ne_nil hx])
  · rw [List.length_zip, hx.moduli, hy.moduli]; omega
  · intro v hv b hb
    have hb2 := hy.len b.2 (List.of_mem_zip hb).2
    exact (vec_add b.1.p _ v b.2 (hx.len v hv)).congr (by rw [hb2, two_pow_ne])

theorem subIn_decides (hx : Shape l k f x) (hy : Shape l' k' f' y) :
    Decides (k' ≠ k ∨ ms.length ≠ k ∨ (l' ≠ l ∧ k ≠ 0)) x (Shape l k f) (subIn ms x y) := by
  unfold subIn
  rw [hx.moduli, hy.moduli]
  refine .ite_reject fun h1 => .ite_reject fun h2 => onCoeffs_decides hx ?_
  refine (each_decides (P := l' ≠ l) _ _ _ (forall₂_of_mem ?_ ?_)).congr (by rw [coeffs_ne_nil hx])
  · rw [List.length_zip, hx.moduli, hy.moduli]; omega
  · intro v hv b hb
    have hb2 := hy.len b.2 (List.of_mem_zip hb).2
    exact (vec_sub b.1.p _ v b.2 (hx.len v hv)).congr (by rw [hb2, two_pow_ne])

theorem mulIn_decides (hx : Shape l k f x) (hy : Shape l' k' f' y) :
    Decides (k' ≠ k ∨ ms.length ≠ k ∨ (!f) = true ∨ (!f') = true ∨ (l' ≠ l ∧ k ≠ 0)) x (Shape l k f) (mulIn ms x y) := by
  unfold mulIn
  rw [hx.moduli, hy.moduli, hx.form, hy.form]
  refine .ite_reject fun h1 => .ite_reject fun h2 => .ite_reject fun h3 => .ite_reject fun h4 =>
    onCoeffs_decides hx ?_
  refine (each_decides (P := l' ≠ l) _ _ _ (forall₂_of_mem ?_ ?_)).congr (by rw [coeffs_ne_nil hx])
  · rw [List.length_zip, hx.moduli, hy.moduli]; omega
  · intro v hv b hb
    have hb2 := hy.len b.2 (List.of_mem_zip hb).2
    exact (vec_mul b.1.p _ v b.2 (hx.len v hv)).congr (by rw [hb2, two_pow_ne])

theorem fusedMulAddIn_decides {l'' k'' : ℕ} {f'' : Bool} {z : RPoly} (hx : Shape l k f x) (hy : Shape l' k' f' y)
    (hz : Shape l'' k'' f'' z) :
    Decides (k' ≠ k ∨ k'' ≠ k ∨ ms.length ≠ k ∨ (!f) = true ∨ (!f') = true ∨ (!f'') = true ∨
      ((l' ≠ l ∨ l'' ≠ l) ∧ k ≠ 0)) x (Shape l k f) (fusedMulAddIn ms x y z) := by
  unfold fusedMulAddIn
  rw [hx.moduli, hy.moduli, hz.moduli, hx.form, hy.form, hz.form]
  refine .ite_reject fun h1 => .ite_reject fun h2 => .ite_reject fun h3 => .ite_reject fun h4 =>
    .ite_reject fun h5 => .ite_reject fun h6 => onCoeffs_decides hx ?_
  refine (each_decides (P := l' ≠ l ∨ l'' ≠ l) _ _ _ (forall₂_of_mem ?_ ?_)).congr (by rw [coeffs_ne_nil hx])
  · rw [List.length_zip, List.length_zip, hx.moduli, hy.moduli, hz.moduli]; omega
  · intro v hv b hb
    have hb' := List.of_mem_zip (List.of_mem_zip hb).2
    have h1 := hy.len b.2.1 hb'.1
    have h2 := hz.len b.2.2 hb'.2
    exact (vec_fused b.1.p _ v b.2.1 b.2.2 (hx.len v hv)).congr (by rw [h1, h2, two_pow_ne, two_pow_ne])

theorem negateIn_decides (hx : Shape l k f x) :
    Decides (ms.length ≠ k) x (Shape l k f) (negateIn ms x) := by
  unfold negateIn
  rw [hx.moduli]
  refine (Decides.ite_reject (P := False ∧ x.coeffs ≠ []) fun h1 => onCoeffs_decides hx
    (each_decides _ _ _ (forall₂_of_mem ?_ ?_))).congr (by simp)
  · rw [hx.moduli]; omega
  · intro v hv b hb
    exact .done not_false (by simp [Poly.negate, hx.len v hv])

theorem mulIntIn_decides (c : ℕ) (hx : Shape l k f x) :
    Decides (ms.length ≠ k) x (Shape l k f) (mulIntIn ms x c) := by
  unfold mulIntIn
  rw [hx.moduli]
  refine (Decides.ite_reject (P := False ∧ x.coeffs ≠ []) fun h1 => onCoeffs_decides hx
    (each_decides _ _ _ (forall₂_of_mem ?_ ?_))).congr (by simp)
  · rw [hx.moduli]; omega
  · intro v hv b hb
    exact vec_mulScalar _ _ _ _ (hx.len v hv)

theorem mulRnsIn_decides (c : List ℕ) (hx : Shape l k f x) :
    Decides (c.length ≠ k ∨ ms.length ≠ k) x (Shape l k f) (mulRnsIn ms x c) := by
  unfold mulRnsIn
  rw [hx.moduli]
  refine (Decides.ite_reject fun h1 => Decides.ite_reject (P := False ∧ x.coeffs ≠ []) fun h2 => onCoeffs_decides hx
    (each_decides _ _ _ (forall₂_of_mem ?_ ?_))).congr (by simp)
  · rw [List.length_zip, hx.moduli]; omega
  · intro v hv b hb
    exact vec_mulScalar _ _ _ _ (hx.len v hv)

theorem toNttIn_decides (hg : ∀ m ∈ ms, GoodModulus w l m) (hx : Shape l k f x) :
    Decides (f = true ∨ ms.length ≠ k) x (Shape l k true) (toNttIn ms x) := by
  unfold toNttIn
  rw [hx.moduli, hx.form]
  refine (Decides.ite_reject fun h1 => Decides.ite_reject (P := False) fun h2 => ?_).congr (by simp)
  have := onCoeffs_decides (P := False) hx ((each_decides (P := False)
    (fun v (m : Modulus) => assign v (Ntt.forward m.p m.q v)) x.coeffs ms (forall₂_of_mem ?_ ?_)).congr (by simp))
  · rcases this.2 not_false with ⟨y, hy, e⟩ | ⟨z, u, e⟩
    · rw [e]
      exact .done not_false ⟨hy.logN, hy.moduli, hy.len, rfl⟩
    · rw [e]
      exact .undef not_false
  · rw [hx.moduli]; omega
  · intro v hv m hm
    obtain ⟨out, h1, h2⟩ := good_forward (hg m hm) (hx.len v hv)
    rw [h1]
    exact .done not_false h2

theorem toCoeffIn_decides (hg : ∀ m ∈ ms, GoodModulus w l m) (hx : Shape l k f x) :
    Decides ((!f) = true ∨ ms.length ≠ k) x (Shape l k false) (toCoeffIn ms x) := by
  unfold toCoeffIn
  rw [hx.moduli, hx.form]
  refine (Decides.ite_reject fun h1 => Decides.ite_reject (P := False) fun h2 => ?_).congr (by simp)
  have := onCoeffs_decides (P := False) hx ((each_decides (P := False)
    (fun v (m : Modulus) => inverseIn m.p m.q v) x.coeffs ms (forall₂_of_mem ?_ ?_)).congr (by simp))
  · rcases this.2 not_false with ⟨y, hy, e⟩ | ⟨z, u, e⟩
    · rw [e]
      exact .done not_false ⟨hy.logN, hy.moduli, hy.len, rfl⟩
    · rw [e]
      exact .undef not_false
  · rw [hx.moduli]; omega
  · intro v hv m hm
    obtain ⟨out, h1, h2⟩ := good_inverse (hg m hm) (hx.len v hv)
    exact .of_value not_false (by rw [value_inverseIn, h1]) h2

/-! ### Modulus reduction -/

/-- Not an error, and a value satisfies `S`. -/
def Fine {α : Type} (S : α → Prop) (o : Outcome α) : Prop := (∃ y, o = .ok y ∧ S y) ∨ ∃ u, o = .ub u

theorem Fine.bind {α β : Type} {S : α → Prop} {S' : β → Prop} {o : Outcome α} {g : α → Outcome β} (h : Fine S o)
    (hg : ∀ y, S y → Fine S' (g y)) : Fine S' (o >>= g) := by
  rcases h with ⟨y, rfl, hy⟩ | ⟨u, rfl⟩
  · exact hg y hy
  · exact .inr ⟨u, rfl⟩

theorem Fine.ok {α : Type} {S : α → Prop} {y : α} (hy : S y) : Fine S (.ok y) := .inl ⟨y, rfl, hy⟩

theorem Decides.of_fine {α : Type} {P : Prop} {x : α} {S : α → Prop} {r : Res α} (hP : ¬ P) (h : Fine S r.value) :
    Decides P x S r := by
  obtain ⟨z, o⟩ := r
  rcases h with ⟨y, h, hy⟩ | ⟨u, h⟩
  · cases o with
    | ok u => cases h; exact .done hP hy
    | err e => cases h
    | ub u => cases h
  · cases o with
    | ok u => cases h
    | err e => cases h
    | ub u => exact .undef hP

theorem Fine.perModulus {α β : Type} {g : Modulus → α → Outcome β} {S : β → Prop} {ms : List Modulus} {xs : List α}
    (h : ∀ m ∈ ms, ∀ x ∈ xs, Fine S (g m x)) :
    Fine (fun ys => ys.length = xs.length ∧ ∀ y ∈ ys, S y) (perModulus g ms xs) := by
  induction xs generalizing ms with
  | nil => cases ms with
    | nil => exact .ok (by simp)
    | cons m ms => exact .inr ⟨_, rfl⟩
  | cons x xs ih => cases ms with
    | nil => exact .inr ⟨_, rfl⟩
    | cons m ms =>
      refine (h m (by simp) x (by simp)).bind fun y hy => ?_
      refine (ih fun m hm x hx => h m (by simp [hm]) x (by simp [hx])).bind fun ys hys => ?_
      exact .ok ⟨by simp [hys.1], by simpa [hy] using hys.2⟩

theorem mulInt_fine (c : ℕ) (hx : Shape l k f x) (h : ms.length = k) : Fine (Shape l k f) (mulInt ms x c) := by
  rw [← value_mulIntIn]
  exact (mulIntIn_decides c hx).value_ok' (by simpa using h)

theorem mulRns_fine (c : List ℕ) (hx : Shape l k f x) (hc : c.length = k) (h : ms.length = k) :
    Fine (Shape l k f) (mulRns ms x c) := by
  rw [← value_mulRnsIn]
  exact (mulRnsIn_decides c hx).value_ok' (by simp [h, hc])

theorem add_fine (hx : Shape l k f x) (hy : Shape l k f' y) (h : ms.length = k) : Fine (Shape l k f) (add ms x y) := by
  rw [← value_addIn]
  exact (addIn_decides hx hy).value_ok' (by simp [h])

theorem sub_fine (hx : Shape l k f x) (hy : Shape l k f' y) (h : ms.length = k) : Fine (Shape l k f) (sub ms x y) := by
  rw [← value_subIn]
  exact (subIn_decides hx hy).value_ok' (by simp [h])

theorem toNtt_fine (hg : ∀ m ∈ ms, GoodModulus w l m) (hx : Shape l k false x) (h : ms.length = k) :
    Fine (Shape l k true) (toNtt ms x) := by
  rw [← value_toNttIn]
  exact (toNttIn_decides hg hx).value_ok' (by simp [h])

theorem inverse_fine {m : Modulus} (hm : GoodModulus w l m) {v : List ℕ} (hv : v.length = 2 ^ l) :
    Fine (fun u => u.length = 2 ^ l) (Ntt.inverse m.p m.q v) := by
  obtain ⟨out, h1, h2⟩ := good_inverse hm hv
  exact .inl ⟨out, h1, h2⟩

theorem mulScalar_fine (p : MParams) {n : ℕ} {v : List ℕ} (c : ℕ) (hv : v.length = n) :
    Fine (fun u => u.length = n) (Poly.mulScalar p v c) := .ok ((List.length_map ..).trans hv)

theorem addVec_fine (p : MParams) {n : ℕ} {v u : List ℕ} (hv : v.length = n) (hu : u.length = n) :
    Fine (fun u => u.length = n) (Poly.add p v u) := by
  unfold Poly.add
  rw [← value_vec]
  exact (vec_add p n v u hv).value_ok' (by simpa using hu)

theorem subVec_fine (p : MParams) {n : ℕ} {v u : List ℕ} (hv : v.length = n) (hu : u.length = n) :
    Fine (fun u => u.length = n) (Poly.sub p v u) := by
  unfold Poly.sub
  rw [← value_vec]
  exact (vec_sub p n v u hv).value_ok' (by simpa using hu)

theorem length_converted (d : List ℕ) (p p' : MParams) : (Convert.convertModulusBalanced d p p').length = d.length := by
  unfold Convert.convertModulusBalanced
  split
  · rfl
  · simp

theorem converted_shape (d : List ℕ) (p : MParams) (red : List Modulus) (hd : d.length = 2 ^ l) :
    Shape l red.length false ⟨l, red.map fun m' => Convert.convertModulusBalanced d p m'.p, false⟩ :=
  ⟨rfl, by simp, by simp [length_converted, hd], rfl⟩

theorem lastModulus_fine (h : ms ≠ []) : Fine (fun m => m ∈ ms) (lastModulus ms) := by
  unfold lastModulus
  rw [List.getLast?_eq_getLast_of_ne_nil h]
  exact .ok (List.getLast_mem h)

theorem detachLast_fine (hx : Shape l k f x) (hk : 1 < k) :
    Fine (fun dx => dx.1.length = 2 ^ l ∧ Shape l (k - 1) f dx.2) (detachLast x) := by
  have hne : x.coeffs ≠ [] := (coeffs_ne_nil hx).2 (by omega)
  unfold detachLast
  rw [List.getLast?_eq_getLast_of_ne_nil hne]
  exact .ok ⟨hx.len _ (List.getLast_mem hne), hx.logN, by simp [hx.moduli],
    fun v hv => hx.len v (List.mem_of_mem_dropLast hv), hx.form⟩

theorem modReduceLsbIn_decides (t : ℕ) (qlInv : List ℕ) (hg : ∀ m ∈ ms, GoodModulus w l m) (hx : Shape l k f x) :
    Decides (ms.length ≠ k ∨ k ≤ 1 ∨ qlInv.length ≠ k - 1) x (Shape l (k - 1) f) (modReduceLsbIn t qlInv ms x) := by
  by_cases hP : ms.length ≠ k ∨ k ≤ 1 ∨ qlInv.length ≠ k - 1
  · unfold modReduceLsbIn
    rw [hx.moduli]
    rcases hP with h | h | h
    · rw [if_pos h]; exact .rejects (.inl h) _
    · rw [if_pos h, ite_self]; exact .rejects (.inr (.inl h)) _
    · rw [if_pos h, ite_self, ite_self]; exact .rejects (.inr (.inr h)) _
  refine .of_fine hP ?_
  rw [value_modReduceLsbIn]
  unfold modReduceLsb
  push Not at hP
  obtain ⟨h1, h2, h3⟩ := hP
  rw [hx.moduli, if_neg (not_not.2 h1), if_neg (by omega), if_neg (not_not.2 h3)]
  refine (detachLast_fine hx h2).bind fun dx ⟨hd, hdx⟩ => ?_
  obtain ⟨d, x'⟩ := dx
  simp only at hd hdx ⊢
  refine (lastModulus_fine (by rintro rfl; simp at h1; omega)).bind fun m hm => ?_
  split
  · exact .inr ⟨_, rfl⟩
  refine (mulScalar_fine m.p _ hd).bind fun d hd => ?_
  rw [hdx.moduli]
  have hr : (ms.take (k - 1)).length = k - 1 := by simp; omega
  have hgr : ∀ m ∈ ms.take (k - 1), GoodModulus w l m := fun m hm => hg m (List.mem_of_mem_take hm)
  refine (mulInt_fine _ hdx hr).bind fun y hy => ?_
  split
  · refine (inverse_fine (hg m hm) hd).bind fun d hd => ?_
    have hc := converted_shape d m.p (ms.take (k - 1)) hd
    rw [hr] at hc
    rw [hy.logN]
    refine (toNtt_fine hgr hc hr).bind fun delta hdelta => ?_
    refine (mulInt_fine _ hdelta hr).bind fun delta hdelta => ?_
    refine (add_fine hy hdelta hr).bind fun z hz => ?_
    exact mulRns_fine _ hz h3 hr
  · refine (Fine.perModulus (S := fun u => u.length = 2 ^ l) fun m' hm' vc hvc => ?_).bind fun cs hcs => ?_
    · refine (mulScalar_fine m'.p _ (n := 2 ^ l) (by simp [length_converted, hd])).bind fun e he => ?_
      refine (addVec_fine m'.p (hy.len _ (List.of_mem_zip hvc).1) he).bind fun v hv => ?_
      exact mulScalar_fine m'.p _ hv
    · exact .ok ⟨hy.logN, by rw [hcs.1, List.length_zip, hy.moduli]; omega, hcs.2, hy.form⟩

theorem modReduceMsbIn_decides (qlInv : List ℕ) (hg : ∀ m ∈ ms, GoodModulus w l m) (hx : Shape l k f x) :
    Decides (ms.length ≠ k ∨ k ≤ 1 ∨ qlInv.length ≠ k - 1) x (Shape l (k - 1) f) (modReduceMsbIn qlInv ms x) := by
  by_cases hP : ms.length ≠ k ∨ k ≤ 1 ∨ qlInv.length ≠ k - 1
  · unfold modReduceMsbIn
    rw [hx.moduli]
    rcases hP with h | h | h
    · rw [if_pos h]; exact .rejects (.inl h) _
    · rw [if_pos h, ite_self]; exact .rejects (.inr (.inl h)) _
    · rw [if_pos h, ite_self, ite_self]; exact .rejects (.inr (.inr h)) _
  refine .of_fine hP ?_
  rw [value_modReduceMsbIn]
  unfold modReduceMsb
  push Not at hP
  obtain ⟨h1, h2, h3⟩ := hP
  rw [hx.moduli, if_neg (not_not.2 h1), if_neg (by omega), if_neg (not_not.2 h3)]
  refine (detachLast_fine hx h2).bind fun dx ⟨hd, hdx⟩ => ?_
  obtain ⟨d, x'⟩ := dx
  simp only at hd hdx ⊢
  refine (lastModulus_fine (by rintro rfl; simp at h1; omega)).bind fun m hm => ?_
  rw [hdx.moduli]
  have hr : (ms.take (k - 1)).length = k - 1 := by simp; omega
  have hgr : ∀ m ∈ ms.take (k - 1), GoodModulus w l m := fun m hm => hg m (List.mem_of_mem_take hm)
  split
  · refine (inverse_fine (hg m hm) hd).bind fun d hd => ?_
    have hc := converted_shape d m.p (ms.take (k - 1)) hd
    rw [hr] at hc
    rw [hdx.logN]
    refine (toNtt_fine hgr hc hr).bind fun delta hdelta => ?_
    refine (sub_fine hdx hdelta hr).bind fun z hz => ?_
    exact mulRns_fine _ hz h3 hr
  · refine (Fine.perModulus (S := fun u => u.length = 2 ^ l) fun m' hm' vc hvc => ?_).bind fun cs hcs => ?_
    · refine (subVec_fine m'.p (n := 2 ^ l) (hdx.len _ (List.of_mem_zip hvc).1)
        (by simp [length_converted, hd])).bind fun v hv => ?_
      exact mulScalar_fine m'.p _ hv
    · exact .ok ⟨hdx.logN, by rw [hcs.1, List.length_zip, hdx.moduli]; omega, hcs.2, hdx.form⟩

end Shell.Rns
