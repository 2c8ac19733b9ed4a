import Verif.Lemmas.InPlaceClean
import Verif.Lemmas.Bitrev
import Verif.Spec.RnsStore
import Verif.Props.Transcription
/-!
# Calls on RNS polynomials have no undefined behaviour
-/

namespace Shell.Rns
open Res Spec Ntt

/-- Not undefined, and a value satisfies `S`. -/
def Safe {α : Type} (S : α → Prop) (o : Outcome α) : Prop := (∃ y, o = .ok y ∧ S y) ∨ ∃ e, o = .err e

namespace Safe
variable {α β : Type} {S T : α → Prop} {o : Outcome α}

theorem ok {y : α} (hy : S y) : Safe S (.ok y) := .inl ⟨y, rfl, hy⟩

theorem err {e : Status} : Safe S (.err e) := .inr ⟨e, rfl⟩

theorem mono (h : Safe S o) (hS : ∀ y, S y → T y) : Safe T o := by
  rcases h with ⟨y, rfl, hy⟩ | ⟨e, rfl⟩
  · exact .ok (hS y hy)
  · exact .err

theorem bind {S' : β → Prop} {g : α → Outcome β} (h : Safe S o) (hg : ∀ y, S y → Safe S' (g y)) : Safe S' (o >>= g) := by
  rcases h with ⟨y, rfl, hy⟩ | ⟨e, rfl⟩
  · exact hg y hy
  · exact .err

theorem ite {P : Prop} [Decidable P] {o' : Outcome α} (h : P → Safe S o) (h' : ¬ P → Safe S o') :
    Safe S (if P then o else o') := by
  by_cases hP : P
  · rw [if_pos hP]; exact h hP
  · rw [if_neg hP]; exact h' hP

theorem not_ub (h : Safe S o) (u : UB) : o ≠ .ub u := by
  rcases h with ⟨y, rfl, hy⟩ | ⟨e, rfl⟩ <;> simp

theorem of_not_ub (h : ∀ u, o ≠ .ub u) (h' : ∀ y, o = .ok y → S y) : Safe S o := by
  cases o with
  | ok y => exact .ok (h' y rfl)
  | err e => exact .err
  | ub u => exact absurd rfl (h u)

theorem perModulus {g : Modulus → α → Outcome β} {S : β → Prop} {ms : List Modulus} {xs : List α}
    (hl : ms.length = xs.length) (h : ∀ m ∈ ms, ∀ x ∈ xs, Safe S (g m x)) :
    Safe (fun ys => ys.length = xs.length ∧ ∀ y ∈ ys, S y) (perModulus g ms xs) := by
  induction xs generalizing ms with
  | nil => cases ms with
    | nil => exact .ok (by simp)
    | cons m ms => simp at hl
  | cons x xs ih => cases ms with
    | nil => simp at hl
    | cons m ms =>
      refine (h m (by simp) x (by simp)).bind fun y hy => ?_
      refine (ih (by simpa using hl) fun m hm x hx => h m (by simp [hm]) x (by simp [hx])).bind fun ys hys => ?_
      exact .ok ⟨by simp [hys.1], by simpa [hy] using hys.2⟩

theorem mapM {g : α → Outcome β} {S : β → Prop} {xs : List α} (h : ∀ x ∈ xs, Safe S (g x)) :
    Safe (fun ys => ys.length = xs.length ∧ ∀ y ∈ ys, S y) (xs.mapM g) := by
  induction xs with
  | nil => exact .ok (by simp)
  | cons x xs ih =>
    rw [List.mapM_cons]
    refine (h x (by simp)).bind fun y hy => ?_
    refine (ih fun x hx => h x (by simp [hx])).bind fun ys hys => ?_
    exact .ok ⟨by simp [hys.1], by simpa [hy] using hys.2⟩

theorem rd {v : List α} {i : ℕ} (h : i < v.length) : Safe (fun a => a ∈ v) (rd v i) := by
  rw [rd_ok h]
  exact .ok (List.getElem_mem h)

end Safe

/-- Not undefined, and the object satisfies `S` after the call, also if it returned an error. -/
def Tame {α : Type} (S : α → Prop) (r : Res α) : Prop := S r.1 ∧ ∀ u, r.2 ≠ .ub u

namespace Tame
variable {α β : Type} {S T : α → Prop} {x y : α} {r : Res α}

theorem done (h : S y) : Tame S (y, .ok ()) := ⟨h, by simp⟩

theorem err {e : Status} (h : S y) : Tame S (y, .err e) := ⟨h, by simp⟩

theorem reject (h : S x) : Tame S (reject x) := .err h

theorem mono (h : Tame S r) (hS : ∀ y, S y → T y) : Tame T r := ⟨hS _ h.1, h.2⟩

theorem ite {P : Prop} [Decidable P] {r' : Res α} (h : P → Tame S r) (h' : ¬ P → Tame S r') :
    Tame S (if P then r else r') := by
  by_cases hP : P
  · rw [if_pos hP]; exact h hP
  · rw [if_neg hP]; exact h' hP

theorem andThen {f : α → Res α} (h : Tame S r) (hS : ∀ y, S y → T y) (hf : ∀ y, S y → Tame T (f y)) :
    Tame T (r.andThen f) := by
  obtain ⟨y, o⟩ := r
  cases o with
  | ok u => exact hf y h.1
  | err e => exact .err (hS y h.1)
  | ub u => exact absurd rfl (h.2 u)

theorem withTemp {T : β → Prop} {o : Outcome β} {f : β → Res α} (hx : S x) (h : Safe T o)
    (hf : ∀ b, T b → Tame S (f b)) : Tame S (withTemp x o f) := by
  rcases h with ⟨b, rfl, hb⟩ | ⟨e, rfl⟩
  · exact hf b hb
  · exact .err hx

theorem each {f : α → β → Res α} {xs : List α} {bs : List β} (hl : xs.length = bs.length) (hx : ∀ x ∈ xs, S x)
    (h : ∀ x ∈ xs, ∀ b ∈ bs, Tame S (f x b)) :
    Tame (fun ys => ys.length = xs.length ∧ ∀ y ∈ ys, S y) (each f xs bs) := by
  induction xs generalizing bs with
  | nil => cases bs with
    | nil => exact .done (by simp)
    | cons b bs => simp at hl
  | cons x xs ih => cases bs with
    | nil => simp at hl
    | cons b bs =>
      have h1 := h x (by simp) b (by simp)
      have h2 := ih (by simpa using hl) (fun x hx' => hx x (by simp [hx'])) fun x hx b hb => h x (by simp [hx]) b (by simp [hb])
      rw [Res.each]
      split
      · exact ⟨⟨by simp [h2.1.1], by simpa [h1.1] using h2.1.2⟩, h2.2⟩
      · exact .err ⟨by simp, by simpa [h1.1] using fun x hx' => hx x (by simp [hx'])⟩
      · next u hu => exact absurd hu (h1.2 u)

theorem all {f : α → Res α} {xs : List α} (hx : ∀ x ∈ xs, S x) (h : ∀ x ∈ xs, Tame S (f x)) :
    Tame (fun ys => ys.length = xs.length ∧ ∀ y ∈ ys, S y) (all f xs) := by
  induction xs with
  | nil => exact .done (by simp)
  | cons x xs ih =>
    have h1 := h x (by simp)
    have h2 := ih (fun x hx' => hx x (by simp [hx'])) fun x hx => h x (by simp [hx])
    rw [Res.all]
    split
    · exact ⟨⟨by simp [h2.1.1], by simpa [h1.1] using h2.1.2⟩, h2.2⟩
    · exact .err ⟨by simp, by simpa [h1.1] using fun x hx' => hx x (by simp [hx'])⟩
    · next u hu => exact absurd hu (h1.2 u)

theorem safe (h : Tame S r) : Safe S r.value := by
  obtain ⟨y, o⟩ := r
  cases o with
  | ok u => exact .ok h.1
  | err e => exact .err
  | ub u => exact absurd rfl (h.2 u)

theorem of_value {y : α} (h : r.value = .ok y) (hy : S y) : Tame S r := by
  obtain ⟨z, o⟩ := r
  cases o with
  | ok u => cases h; exact .done hy
  | err e => cases h
  | ub u => cases h

end Tame

/-! ### Vectors -/

section vectors
variable {n : ℕ} {v u a b : List ℕ} (p : MParams) (c : ℕ)

theorem add_tame (hv : v.length = n) : Tame (fun y => y.length = n) (vec (Poly.addInPlace p v u)) := by
  unfold Poly.addInPlace
  split
  · exact .err hv
  · exact .done (by simp; omega)

theorem sub_tame (hv : v.length = n) : Tame (fun y => y.length = n) (vec (Poly.subInPlace p v u)) := by
  unfold Poly.subInPlace
  split
  · exact .err hv
  · exact .done (by simp; omega)

theorem mul_tame (hv : v.length = n) : Tame (fun y => y.length = n) (vec (Poly.mulInPlace p v u)) := by
  unfold Poly.mulInPlace
  split
  · exact .err hv
  · exact .done (by simp; omega)

theorem fused_tame (hv : v.length = n) : Tame (fun y => y.length = n) (vec (Poly.fusedMulAddInPlace p v a b)) := by
  unfold Poly.fusedMulAddInPlace
  split
  · exact .err hv
  · exact .done (by simp; omega)

theorem scalar_tame (hv : v.length = n) : Tame (fun y => y.length = n) (vec (Poly.mulScalarInPlace p v c)) :=
  .done ((List.length_map ..).trans hv)

theorem mulScalar_safe (hv : v.length = n) : Safe (fun u => u.length = n) (Poly.mulScalar p v c) :=
  .ok ((List.length_map ..).trans hv)

theorem addVec_safe (hv : v.length = n) : Safe (fun u => u.length = n) (Poly.add p v u) := by
  unfold Poly.add
  rw [← value_vec]
  exact (add_tame p hv).safe

theorem subVec_safe (hv : v.length = n) : Safe (fun u => u.length = n) (Poly.sub p v u) := by
  unfold Poly.sub
  rw [← value_vec]
  exact (sub_tame p hv).safe

theorem length_convertModulus (d : List ℕ) (p p' : MParams) : (Convert.convertModulus d p p').length = d.length := by
  unfold Convert.convertModulus
  split
  · rfl
  · simp

end vectors

/-! ### `RnsPolynomial` -/

/-- `2^l` coefficients modulo each of `k` moduli, in either form. -/
structure Rect (l k : ℕ) (x : RPoly) : Prop where
  logN : x.logN = l
  moduli : x.coeffs.length = k
  len : ∀ v ∈ x.coeffs, v.length = 2 ^ l

variable {w l k : ℕ} {ms outs auxMs : List Modulus} {x y z aux : RPoly}

theorem Rect.onCoeffs {r : Res (List (List ℕ))} (hx : Rect l k x)
    (h : Tame (fun ys => ys.length = x.coeffs.length ∧ ∀ y ∈ ys, y.length = 2 ^ l) r) :
    Tame (Rect l k) (onCoeffs x r) :=
  ⟨⟨hx.logN, h.1.1.trans hx.moduli, h.1.2⟩, h.2⟩

theorem Rect.set (hx : Rect l k x) {cs : List (List ℕ)} {f : Bool} (h : cs.length = x.coeffs.length ∧ ∀ v ∈ cs, v.length = 2 ^ l) :
    Rect l k ⟨x.logN, cs, f⟩ := ⟨hx.logN, h.1.trans hx.moduli, h.2⟩

theorem toNttIn_tame (hg : ModuliOf w l ms) (hx : Rect l k x) : Tame (Rect l k) (toNttIn ms x) := by
  unfold toNttIn
  refine .ite (fun _ => .reject hx) fun _ => .ite (fun _ => .reject hx) fun h => ?_
  refine (hx.onCoeffs (.each (by omega) hx.len fun v hv m hm => ?_)).andThen (fun _ => id) fun y hy => .done ⟨hy.1, hy.2, hy.3⟩
  obtain ⟨out, h1, h2⟩ := good_forward (hg m hm) (hx.len v hv)
  rw [h1]
  exact .done h2

theorem toCoeffIn_tame (hg : ModuliOf w l ms) (hx : Rect l k x) : Tame (Rect l k) (toCoeffIn ms x) := by
  unfold toCoeffIn
  refine .ite (fun _ => .reject hx) fun _ => .ite (fun _ => .reject hx) fun h => ?_
  refine (hx.onCoeffs (.each (by omega) hx.len fun v hv m hm => ?_)).andThen (fun _ => id) fun y hy => .done ⟨hy.1, hy.2, hy.3⟩
  obtain ⟨out, h1, h2⟩ := good_inverse (hg m hm) (hx.len v hv)
  exact .of_value (by rw [value_inverseIn, h1]) h2

theorem negateIn_tame (hx : Rect l k x) : Tame (Rect l k) (negateIn ms x) := by
  unfold negateIn
  refine .ite (fun _ => .reject hx) fun h => hx.onCoeffs (.each (by omega) hx.len fun v hv m hm => .done ?_)
  simp [Poly.negate, hx.len v hv]

theorem addIn_tame (hx : Rect l k x) : Tame (Rect l k) (addIn ms x y) := by
  unfold addIn
  refine .ite (fun _ => .reject hx) fun h => .ite (fun _ => .reject hx) fun h' =>
    hx.onCoeffs (.each (by rw [List.length_zip]; omega) hx.len fun v hv b hb => add_tame _ (hx.len v hv))

theorem subIn_tame (hx : Rect l k x) : Tame (Rect l k) (subIn ms x y) := by
  unfold subIn
  refine .ite (fun _ => .reject hx) fun h => .ite (fun _ => .reject hx) fun h' =>
    hx.onCoeffs (.each (by rw [List.length_zip]; omega) hx.len fun v hv b hb => sub_tame _ (hx.len v hv))

theorem mulIntIn_tame (c : ℕ) (hx : Rect l k x) : Tame (Rect l k) (mulIntIn ms x c) := by
  unfold mulIntIn
  refine .ite (fun _ => .reject hx) fun h =>
    hx.onCoeffs (.each (by omega) hx.len fun v hv b hb => scalar_tame _ _ (hx.len v hv))

theorem mulRnsIn_tame (c : List ℕ) (hx : Rect l k x) : Tame (Rect l k) (mulRnsIn ms x c) := by
  unfold mulRnsIn
  refine .ite (fun _ => .reject hx) fun h => .ite (fun _ => .reject hx) fun h' =>
    hx.onCoeffs (.each (by rw [List.length_zip]; omega) hx.len fun v hv b hb => scalar_tame _ _ (hx.len v hv))

theorem mulIn_tame (hx : Rect l k x) : Tame (Rect l k) (mulIn ms x y) := by
  unfold mulIn
  refine .ite (fun _ => .reject hx) fun h => .ite (fun _ => .reject hx) fun h' => .ite (fun _ => .reject hx) fun _ =>
    .ite (fun _ => .reject hx) fun _ =>
    hx.onCoeffs (.each (by rw [List.length_zip]; omega) hx.len fun v hv b hb => mul_tame _ (hx.len v hv))

theorem fusedMulAddIn_tame (hx : Rect l k x) : Tame (Rect l k) (fusedMulAddIn ms x y z) := by
  unfold fusedMulAddIn
  refine .ite (fun _ => .reject hx) fun h => .ite (fun _ => .reject hx) fun h' => .ite (fun _ => .reject hx) fun _ =>
    .ite (fun _ => .reject hx) fun _ => .ite (fun _ => .reject hx) fun _ => .ite (fun _ => .reject hx) fun _ =>
    hx.onCoeffs (.each (by rw [List.length_zip, List.length_zip]; omega) hx.len fun v hv b hb => fused_tame _ (hx.len v hv))

theorem toNtt_safe (hg : ModuliOf w l ms) (hx : Rect l k x) : Safe (Rect l k) (toNtt ms x) := by
  rw [← value_toNttIn]; exact (toNttIn_tame hg hx).safe

theorem toCoeff_safe (hg : ModuliOf w l ms) (hx : Rect l k x) : Safe (Rect l k) (toCoeff ms x) := by
  rw [← value_toCoeffIn]; exact (toCoeffIn_tame hg hx).safe

theorem mulInt_safe (c : ℕ) (hx : Rect l k x) : Safe (Rect l k) (mulInt ms x c) := by
  rw [← value_mulIntIn]; exact (mulIntIn_tame c hx).safe

theorem negate_safe (hx : Rect l k x) : Safe (Rect l k) (negate ms x) := by
  unfold negate
  have h : Safe (Rect l k) (negateInPlace ms x) := by
    rw [← value_negateIn]; exact (negateIn_tame hx).safe
  rcases h with ⟨y, h, hy⟩ | ⟨e, h⟩
  · rw [h]; exact .ok hy
  · rw [h]; exact .ok hx

theorem lastModulus_safe (h : ms ≠ []) : Safe (fun m => m ∈ ms) (lastModulus ms) := by
  unfold lastModulus
  rw [List.getLast?_eq_getLast_of_ne_nil h]
  exact .ok (List.getLast_mem h)

theorem detachLast_safe (hx : Rect l k x) :
    Safe (fun dx => dx.1.length = 2 ^ l ∧ Rect l (k - 1) dx.2) (detachLast x) := by
  unfold detachLast
  rcases h : x.coeffs.getLast? with _ | v
  · exact .err
  · exact .ok ⟨hx.len _ (List.mem_of_getLast? h), hx.logN, by simp [hx.moduli],
      fun v hv => hx.len v (List.mem_of_mem_dropLast hv)⟩

theorem converted_rect (d : List ℕ) (p : MParams) (red : List Modulus) (hd : d.length = 2 ^ l) (f : Bool) :
    Rect l red.length ⟨l, red.map fun m' => Convert.convertModulusBalanced d p m'.p, f⟩ :=
  ⟨rfl, by simp, by simp [length_converted, hd]⟩

theorem inverse_safe {m : Modulus} (hm : GoodModulus w l m) {v : List ℕ} (hv : v.length = 2 ^ l) :
    Safe (fun u => u.length = 2 ^ l) (Ntt.inverse m.p m.q v) := by
  obtain ⟨out, h1, h2⟩ := good_inverse hm hv
  exact .inl ⟨out, h1, h2⟩

/-- `2^l` coefficients modulo some moduli. -/
def RectAny (l : ℕ) (x : RPoly) : Prop := ∃ k, Rect l k x

theorem modReduceLsbIn_tame {t : ℕ} (ht : t ≠ 0) (qlInv : List ℕ) (hg : ModuliOf w l ms) (hx : Rect l k x) :
    Tame (RectAny l) (modReduceLsbIn t qlInv ms x) := by
  unfold modReduceLsbIn
  refine .ite (fun _ => .reject ⟨k, hx⟩) fun h1 => .ite (fun _ => .reject ⟨k, hx⟩) fun h2 =>
    .ite (fun _ => .reject ⟨k, hx⟩) fun h3 => ?_
  rw [hx.moduli] at h1 h2 h3
  refine .withTemp ⟨k, hx⟩ (detachLast_safe hx) fun dx ⟨hd, hdx⟩ => ?_
  obtain ⟨d, x'⟩ := dx
  simp only at hd hdx ⊢
  refine .withTemp ⟨_, hdx⟩ (lastModulus_safe (by rintro rfl; simp at h1; omega)) fun m hm => ?_
  rw [if_neg ht]
  refine .withTemp ⟨_, hdx⟩ (mulScalar_safe m.p _ hd) fun d hd => ?_
  rw [hdx.moduli]
  have hr : (ms.take (k - 1)).length = k - 1 := by simp; omega
  have hgr : ModuliOf w l (ms.take (k - 1)) := fun m hm => hg m (List.mem_of_mem_take hm)
  refine (mulIntIn_tame _ hdx).andThen (fun y hy => ⟨_, hy⟩) fun y hy => .ite (fun _ => ?_) fun _ => ?_
  · refine .withTemp ⟨_, hy⟩ (inverse_safe (hg m hm) hd) fun d hd => ?_
    have hc := converted_rect d m.p (ms.take (k - 1)) hd false
    rw [hr] at hc
    rw [hy.logN]
    refine .withTemp ⟨_, hy⟩ (toNtt_safe hgr hc) fun delta hdelta => ?_
    refine .withTemp ⟨_, hy⟩ (mulInt_safe _ hdelta) fun delta hdelta => ?_
    exact (addIn_tame hy).andThen (fun y hy => ⟨_, hy⟩) fun z hz => (mulRnsIn_tame _ hz).mono fun y hy => ⟨_, hy⟩
  · refine (hy.onCoeffs (.each ?_ hy.len fun v hv b hb => ?_)).mono fun y hy => ⟨_, hy⟩
    · rw [List.length_zip, hy.moduli]; omega
    · refine .withTemp (hy.len v hv) (mulScalar_safe b.1.p _ (n := 2 ^ l) (by simp [length_converted, hd])) fun e he => ?_
      exact (add_tame _ (hy.len v hv)).andThen (fun _ => id) fun v hv => scalar_tame _ _ hv

theorem modReduceMsbIn_tame (qlInv : List ℕ) (hg : ModuliOf w l ms) (hx : Rect l k x) :
    Tame (RectAny l) (modReduceMsbIn qlInv ms x) := by
  unfold modReduceMsbIn
  refine .ite (fun _ => .reject ⟨k, hx⟩) fun h1 => .ite (fun _ => .reject ⟨k, hx⟩) fun h2 =>
    .ite (fun _ => .reject ⟨k, hx⟩) fun h3 => ?_
  rw [hx.moduli] at h1 h2 h3
  refine .withTemp ⟨k, hx⟩ (detachLast_safe hx) fun dx ⟨hd, hdx⟩ => ?_
  obtain ⟨d, x'⟩ := dx
  simp only at hd hdx ⊢
  refine .withTemp ⟨_, hdx⟩ (lastModulus_safe (by rintro rfl; simp at h1; omega)) fun m hm => ?_
  rw [hdx.moduli]
  have hr : (ms.take (k - 1)).length = k - 1 := by simp; omega
  have hgr : ModuliOf w l (ms.take (k - 1)) := fun m hm => hg m (List.mem_of_mem_take hm)
  refine .ite (fun _ => ?_) fun _ => ?_
  · refine .withTemp ⟨_, hdx⟩ (inverse_safe (hg m hm) hd) fun d hd => ?_
    have hc := converted_rect d m.p (ms.take (k - 1)) hd false
    rw [hr] at hc
    rw [hdx.logN]
    refine .withTemp ⟨_, hdx⟩ (toNtt_safe hgr hc) fun delta hdelta => ?_
    exact (subIn_tame hdx).andThen (fun y hy => ⟨_, hy⟩) fun z hz => (mulRnsIn_tame _ hz).mono fun y hy => ⟨_, hy⟩
  · refine (hdx.onCoeffs (.each ?_ hdx.len fun v hv b hb => ?_)).mono fun y hy => ⟨_, hy⟩
    · rw [List.length_zip, hdx.moduli]; omega
    · exact (sub_tame _ (hdx.len v hv)).andThen (fun _ => id) fun v hv => scalar_tame _ _ hv

/-! ### Basis conversion -/

theorem column_safe {vs : List (List ℕ)} {n j : ℕ} (hl : ms.length = vs.length) (hv : ∀ v ∈ vs, v.length = n) (hj : j < n) :
    Safe (fun _ => True) (column ms vs j) := by
  induction vs generalizing ms with
  | nil => cases ms with
    | nil => exact .ok trivial
    | cons m ms => simp at hl
  | cons v vs ih => cases ms with
    | nil => simp at hl
    | cons m ms =>
      refine (Safe.rd (by rw [hv v (by simp)]; exact hj)).bind fun a _ => ?_
      exact (ih (by simpa using hl) fun v h => hv v (by simp [h])).bind fun r _ => .ok trivial

theorem estimates_safe {vs : List (List ℕ)} {n : ℕ} (est : Estimate) (hl : ms.length = vs.length)
    (hv : ∀ v ∈ vs, v.length = n) : Safe (fun us => us.length = n) (estimates est ms vs n) := by
  unfold estimates
  refine (Safe.mapM (S := fun _ => True) fun j hj => ?_).mono fun us h => by simpa using h.1
  exact (column_safe hl hv (by simpa using hj)).bind fun c _ => .ok trivial

theorem accumulate_safe {conv : List ℕ → MParams → MParams → List ℕ} (hconv : ∀ v p p', (conv v p p').length = v.length)
    (pj : MParams) {c : ℕ → Outcome ℕ} {vs : List (List ℕ)} {n i : ℕ} {acc : List ℕ} (hl : ms.length = vs.length)
    (hc : ∀ j, i ≤ j → j < i + ms.length → Safe (fun _ => True) (c j)) (hacc : acc.length = n) :
    Safe (fun u => u.length = n) (accumulate conv pj c i ms vs acc) := by
  induction vs generalizing ms i acc with
  | nil => cases ms with
    | nil => exact .ok hacc
    | cons m ms => simp at hl
  | cons v vs ih => cases ms with
    | nil => simp at hl
    | cons m ms =>
      refine (hc i le_rfl (by simp)).bind fun f _ => ?_
      refine (mulScalar_safe pj f rfl).bind fun s _ => (addVec_safe pj hacc).bind fun acc hacc => ?_
      exact ih (by simpa using hl) (fun j h1 h2 => hc j (by omega) (by simp; omega)) hacc

theorem entry_safe {t : List (List ℕ)} {n j i : ℕ} (ht : Rows n t) (hi : i < t.length) (hj : j < n) :
    Safe (fun _ => True) (entry t j i) :=
  (Safe.rd hi).bind fun r hr => (Safe.rd (lt_of_lt_of_le hj (ht r hr))).mono fun _ _ => trivial

theorem shl1_ok (hl : l ≤ 30) : shl1 l = .ok (2 ^ l) := if_pos (by omega)

theorem switchBasis_safe (est : Estimate) (hatInv : List ℕ) {hatMod : List (List ℕ)} (qMod : List ℕ) (hl : l ≤ 30)
    (hr : Rows outs.length hatMod) (hx : Rect l k x) :
    Safe (Rect l outs.length) (switchBasis est ms outs hatInv hatMod qMod x) := by
  unfold switchBasis
  refine .ite (fun _ => .err) fun _ => .ite (fun _ => .err) fun h1 => .ite (fun _ => .err) fun h2 =>
    .ite (fun _ => .err) fun h3 => .ite (fun _ => .err) fun h4 => .ite (fun _ => .err) fun h5 => ?_
  rw [hx.moduli] at h1 h3 h4
  refine (Safe.perModulus (S := fun u => u.length = 2 ^ l) ?_ fun m hm vc hvc =>
    mulScalar_safe _ _ (hx.len _ (List.of_mem_zip hvc).1)).bind fun scaled ⟨hs1, hs2⟩ => ?_
  · rw [List.length_zip, hx.moduli]; omega
  rw [List.length_zip, hx.moduli] at hs1
  rw [hx.logN, shl1_ok hl, Outcome.bind_ok]
  refine (estimates_safe est (by omega) hs2).bind fun us hus => ?_
  refine (Safe.perModulus (S := fun u => u.length = 2 ^ l) ?_ fun pj hpj jq hjq => ?_).bind fun cs hcs => ?_
  · rw [List.length_zip, List.length_range]; omega
  · have hj := List.mem_range.1 (List.of_mem_zip hjq).1
    refine (accumulate_safe length_convertModulus pj.p (by omega) (fun i _ hi => entry_safe hr (by omega) hj)
      (List.length_replicate ..)).bind fun out hout => subVec_safe _ hout
  · exact .ok ⟨rfl, by rw [hcs.1, List.length_zip, List.length_range]; omega, hcs.2⟩

theorem scaleAndSwitchBasis_safe (est : Estimate) (hatInv : List ℕ) {qInvMod : List (List ℕ)} (pMod : List ℕ) (hl : l ≤ 30)
    (hr : Rows k qInvMod) (hx : Rect l k x) :
    Safe (Rect l outs.length) (scaleAndSwitchBasis est ms outs hatInv qInvMod pMod x) := by
  unfold scaleAndSwitchBasis
  refine .ite (fun _ => .err) fun _ => .ite (fun _ => .err) fun h1 => .ite (fun _ => .err) fun h2 =>
    .ite (fun _ => .err) fun h3 => .ite (fun _ => .err) fun h4 => .ite (fun _ => .err) fun h5 => ?_
  rw [hx.moduli] at h1 h3 h5
  refine (Safe.perModulus (S := fun u => u.length = 2 ^ l) ?_ fun m hm vc hvc =>
    (mulScalar_safe _ _ (hx.len _ (List.of_mem_zip hvc).1)).bind fun v hv => mulScalar_safe _ _ hv).bind
      fun scaled ⟨hs1, hs2⟩ => ?_
  · rw [List.length_zip, List.length_zip, hx.moduli]; omega
  rw [List.length_zip, List.length_zip, hx.moduli] at hs1
  rw [hx.logN, shl1_ok hl, Outcome.bind_ok]
  refine (estimates_safe est (by omega) hs2).bind fun us hus => ?_
  refine (Safe.perModulus (S := fun u => u.length = 2 ^ l) (by omega) fun pj hpj inv hinv => ?_).bind fun cs hcs => ?_
  · refine (accumulate_safe length_convertModulus pj.p (by omega) (fun i _ hi => ?_)
      (List.length_replicate ..)).bind fun out hout => addVec_safe _ hout
    exact (Safe.rd (by have := hr inv hinv; omega)).bind fun c _ => .ok trivial
  · exact .ok ⟨rfl, by rw [hcs.1]; omega, hcs.2⟩

theorem approxSwitchBasis_safe (balanced : Bool) (hatInv : List ℕ) {hatMod : List (List ℕ)} (hl : l ≤ 30)
    (hr : Rows outs.length hatMod) (hg : ModuliOf w l ms) (hx : Rect l k x) :
    Safe (Rect l outs.length) (approxSwitchBasis balanced ms outs hatInv hatMod x) := by
  unfold approxSwitchBasis
  refine .ite (fun _ => .err) fun h1 => .ite (fun _ => .err) fun h2 =>
    .ite (fun _ => .err) fun h3 => .ite (fun _ => .err) fun h4 => ?_
  rw [hx.moduli] at h1 h3 h4
  rw [hx.logN, shl1_ok hl, Outcome.bind_ok]
  refine (Safe.perModulus (S := fun u => u.length = 2 ^ l) ?_ fun m hm vc hvc =>
    (mulScalar_safe _ _ (hx.len _ (List.of_mem_zip hvc).1)).bind fun v hv => ?_).bind fun scaled ⟨hs1, hs2⟩ => ?_
  · rw [List.length_zip, hx.moduli]; omega
  · exact .ite (fun _ => inverse_safe (hg m hm) hv) fun _ => .ok hv
  rw [List.length_zip, hx.moduli] at hs1
  refine (Safe.perModulus (S := fun u => u.length = 2 ^ l) (by simp) fun pj hpj j hj => ?_).bind fun cs hcs => ?_
  · refine accumulate_safe (fun v p p' => ?_) pj.p (by omega)
      (fun i _ hi => entry_safe hr (by omega) (List.mem_range.1 hj)) (List.length_replicate ..)
    split
    · exact length_converted v p p'
    · exact length_convertModulus v p p'
  · exact .ok ⟨rfl, by rw [hcs.1, List.length_range], hcs.2⟩

theorem extendBasisIn_tame (est : Estimate) (hatInv : List ℕ) {hatMod : List (List ℕ)} (qMod : List ℕ) (hl : l ≤ 30)
    (hr : Rows auxMs.length hatMod) (hx : Rect l k x) :
    Tame (RectAny l) (extendBasisIn est ms auxMs hatInv hatMod qMod x) :=
  .withTemp ⟨_, hx⟩ (switchBasis_safe est hatInv qMod hl hr hx) fun a ha => .done ⟨_, hx.logN, rfl, by
    intro v hv
    rcases List.mem_append.1 hv with hv | hv
    · exact hx.len v hv
    · exact ha.len v hv⟩

theorem scaleAndReduceBasisIn_tame {k' : ℕ} (est : Estimate) (t : ℕ) (hatInv : List ℕ) {hatMod : List (List ℕ)}
    (pMod pInv : List ℕ) (hl : l ≤ 30) (hr : Rows ms.length hatMod) (hg : ModuliOf w l ms) (hg' : ModuliOf w l auxMs)
    (hx : Rect l k x) (ha : Rect l k' aux) :
    Tame (Rect l k) (scaleAndReduceBasisIn est aux t ms auxMs hatInv hatMod pMod pInv x) := by
  unfold scaleAndReduceBasisIn
  refine (mulIntIn_tame _ hx).andThen (fun _ => id) fun x hx => ?_
  refine .withTemp hx (mulInt_safe _ ha) fun aux ha => ?_
  refine .withTemp hx (.ite (fun _ => toCoeff_safe hg' ha) fun _ => .ok ha) fun aux ha => ?_
  refine .withTemp hx (switchBasis_safe est hatInv pMod hl hr ha) fun delta hd => ?_
  refine .withTemp hx (.ite (fun _ => toNtt_safe hg hd) fun _ => .ok hd) fun delta hd => ?_
  exact (subIn_tame hx).andThen (fun _ => id) fun x hx => mulRnsIn_tame _ hx

theorem ensureNttIn_tame (hg : ModuliOf w l ms) (hx : Rect l k x) : Tame (Rect l k) (ensureNttIn ms x) :=
  .ite (fun _ => .done hx) fun _ => toNttIn_tame hg hx

theorem approxModReduceLsbIn_tame {k' : ℕ} (pInv hatInv : List ℕ) {hatMod : List (List ℕ)} (tInv : List ℕ) (pModT t : ℕ)
    (hl : l ≤ 30) (hr : Rows ms.length hatMod) (hg : ModuliOf w l ms) (hg' : ModuliOf w l auxMs)
    (hx : Rect l k x) (ha : Rect l k' aux) :
    Tame (Rect l k) (approxModReduceLsbIn aux ms auxMs pInv hatInv hatMod tInv pModT t x) := by
  unfold approxModReduceLsbIn
  refine .ite (fun _ => .reject hx) fun h1 => .ite (fun _ => .reject hx) fun h2 => .ite (fun _ => .reject hx) fun h3 =>
    .ite (fun _ => .reject hx) fun h4 => .ite (fun _ => .reject hx) fun h5 => .ite (fun _ => .reject hx) fun h6 => ?_
  refine .withTemp hx (Safe.perModulus (S := fun u => u.length = 2 ^ l) ?_ fun m hm vc hvc =>
    (mulScalar_safe _ _ (ha.len _ (List.of_mem_zip hvc).1)).bind fun v hv => mulScalar_safe _ _ hv) fun acs hacs => ?_
  · rw [List.length_zip]; omega
  rw [List.length_zip] at hacs
  refine .withTemp hx (approxSwitchBasis_safe true hatInv hl hr hg' (ha.set ⟨by omega, hacs.2⟩)) fun delta hd => ?_
  refine .withTemp hx (toNtt_safe hg hd) fun delta hd => ?_
  refine .withTemp hx (mulInt_safe _ hd) fun delta hd => ?_
  refine (ensureNttIn_tame hg hx).andThen (fun _ => id) fun x hx => ?_
  refine (mulIntIn_tame _ hx).andThen (fun _ => id) fun x hx => ?_
  exact (addIn_tame hx).andThen (fun _ => id) fun x hx => mulRnsIn_tame _ hx

theorem approxModReduceMsbIn_tame {k' : ℕ} (pInv hatInv : List ℕ) {hatMod : List (List ℕ)}
    (hl : l ≤ 30) (hr : Rows ms.length hatMod) (hg : ModuliOf w l ms) (hg' : ModuliOf w l auxMs)
    (hx : Rect l k x) (ha : Rect l k' aux) :
    Tame (Rect l k) (approxModReduceMsbIn aux ms auxMs pInv hatInv hatMod x) := by
  unfold approxModReduceMsbIn
  refine .ite (fun _ => .reject hx) fun h1 => .ite (fun _ => .reject hx) fun h2 => .ite (fun _ => .reject hx) fun h3 =>
    .ite (fun _ => .reject hx) fun h4 => .ite (fun _ => .reject hx) fun h5 => ?_
  refine .withTemp hx (approxSwitchBasis_safe false hatInv hl hr hg' ha) fun delta hd => ?_
  refine .withTemp hx (toNtt_safe hg hd) fun delta hd => ?_
  refine (ensureNttIn_tame hg hx).andThen (fun _ => id) fun x hx => ?_
  exact (subIn_tame hx).andThen (fun _ => id) fun x hx => mulRnsIn_tame _ hx

/-! ### `Substitute` -/

theorem substAll_safe {power idx : ℕ} {vs : List (List ℕ)} (hl : ms.length = vs.length) (hg : ModuliOf w l ms)
    (hv : ∀ v ∈ vs, v.length = 2 ^ l) (hi : idx < 2 ^ l) :
    Safe (fun ys => ys.length = vs.length ∧ ∀ v ∈ ys, v.length = 2 ^ l) (substAll (2 ^ l) power ms vs idx) := by
  induction vs generalizing ms idx with
  | nil => cases ms with
    | nil => exact .ok (by simp)
    | cons m ms => simp at hl
  | cons v vs ih => cases ms with
    | nil => simp at hl
    | cons m ms =>
      have hv' := hv v (by simp)
      obtain ⟨psi, t⟩ := (hg m (by simp)).tables
      obtain ⟨s, h1, h2, h3⟩ := loop_ok (n := 2 ^ l) (s := (idx, v))
        (f := substStep (2 ^ l) m.q.bitrevs v power) (fun _ s => s.1 < 2 ^ l ∧ s.2.length = 2 ^ l) ⟨hi, hv'⟩ (by
          rintro j ⟨a, u⟩ hj ⟨e1, e2⟩
          simp only at e1 e2
          unfold substStep
          have hl15 := t.l15
          have b1 := bitrev_lt l a (by omega)
          have b2 := bitrev_lt l j (by omega)
          rw [t.bitrevs, rd_bitrevArray e1, Outcome.bind_ok, if_neg (by omega), rd_bitrevArray hj, Outcome.bind_ok,
            rd_getD 0 (by omega), Outcome.bind_ok, wr_ok (by simp only; omega), Outcome.bind_ok]
          exact ⟨_, rfl, Nat.mod_lt _ (by positivity), by simp [e2]⟩)
      rw [substAll, h1, Outcome.bind_ok]
      refine (ih (by simpa using hl) (fun m hm => hg m (by simp [hm])) (fun v h => hv v (by simp [h])) h2).bind fun rs hrs => ?_
      exact .ok ⟨by simp [hrs.1], by simpa [h3] using hrs.2⟩

theorem substitute_safe (power : ℤ) (hl : l < 30) (hg : ModuliOf w l ms) (hx : Rect l k x) :
    Safe (Rect l k) (substitute ms x power) := by
  unfold substitute
  rw [hx.logN, shl1_ok (by omega), Outcome.bind_ok]
  refine .ite (fun _ => .err) fun h1 => .ite (fun h => ?_) fun _ => .ite (fun _ => .err) fun h2 => .ite (fun _ => .err) fun h3 =>
    .ite (fun _ => .err) fun _ => ?_
  · exfalso
    have : 2 ^ l ≤ 2 ^ 29 := Nat.pow_le_pow_right (by norm_num) (by omega)
    omega
  refine (substAll_safe (not_not.1 h3) hg hx.len ?_).bind fun cs hcs => .ok ⟨rfl, hcs.1.trans hx.moduli, hcs.2⟩
  push Not at h1 h2
  have h2' : power < 2 * ((2 ^ l : ℕ) : ℤ) := by exact_mod_cast h2
  have h0 : power ≠ 0 := by rintro rfl; exact h1.2 rfl
  have := Int.tdiv_eq_ediv_of_nonneg (a := power - 1) (b := 2) (by omega)
  rw [this]
  omega

/-! ### New objects -/

theorem boxed_of_rect (hl : l ≤ 30) (hx : Rect l k x) : Boxed x := by
  rw [Boxed, hx.logN]
  exact ⟨hl, hx.len⟩

theorem rect_of_boxed (hx : Boxed x) : Rect x.logN x.coeffs.length x := ⟨rfl, rfl, hx.2⟩

theorem log2_pow_of_not (n : ℕ) (h : isNotPowerOfTwo n = false) : n = 2 ^ Nat.log2 n := by
  simp only [isNotPowerOfTwo, Bool.or_eq_false_iff, decide_eq_false_iff_not, bne_eq_false_iff_eq] at h
  obtain ⟨a, rfl⟩ := Nat.ne_zero_and_sub_one_eq_zero_iff_isPowerOfTwo.1 h
  rw [Nat.log2_two_pow]

theorem log2_le_30 {n : ℕ} (h : n < 2 ^ 31) : Nat.log2 n ≤ 30 := by
  rcases Nat.eq_zero_or_pos n with rfl | h0
  · simp
  · have := (Nat.log2_lt (by omega)).2 h
    omega

theorem create_safe {vs : List (List ℕ)} {b : Bool} (h : ∀ v ∈ vs, v.length < 2 ^ 31) : Safe Boxed (create vs b) := by
  unfold create
  split
  · exact .err
  next v vs' =>
  refine .ite (fun _ => .err) fun h1 => .ite (fun _ => .err) fun h2 => .ok ⟨log2_le_30 (h v (by simp)), fun u hu => ?_⟩
  simp only at hu ⊢
  rw [← log2_pow_of_not _ (by simpa using h1)]
  simp only [List.any_eq_true, bne_iff_ne, ne_eq, not_exists, not_and, not_not] at h2
  exact h2 u hu

theorem createConst_safe {logN : ℤ} (c : MParams → ℕ) (b : Bool) (h : logN < 31) : Safe Boxed (createConst logN ms c b) := by
  unfold createConst
  refine .ite (fun _ => .err) fun h1 => .ite (fun _ => .err) fun h2 => ?_
  rw [shl1_ok (by omega), Outcome.bind_ok]
  exact .ok ⟨by simp only; omega, by simp⟩

theorem forward_safe {m : Modulus} (hm : GoodModulus w l m) {L : ℕ} {v : List ℕ} (hv : v.length = 2 ^ L) (hL : v.length ≤ 2 ^ l) :
    Safe (fun u => u.length = 2 ^ L) (Ntt.forward m.p m.q v) := by
  obtain ⟨psi, t⟩ := hm.tables
  have := t.l15
  rw [hv] at hL
  have hL' := (Nat.pow_le_pow_iff_right (by norm_num)).1 hL
  obtain ⟨out, h1, h2⟩ := forward_shape m.p m.q L (by omega) (by rw [t.fwdC, List.length_map, t.fwd_len]; exact hL) v hv
  exact .inl ⟨out, h1, h2⟩

theorem convert_safe {conv : List ℕ → MParams → MParams → List ℕ} (hconv : ∀ v p p', (conv v p p').length = v.length)
    {v : List ℕ} {pq : MParams} (hne : ms ≠ []) (hp : isNotPowerOfTwo v.length = false)
    (h : ∀ m ∈ ms, ∃ l, GoodModulus w l m ∧ v.length ≤ 2 ^ l) :
    Safe Boxed (do
      let cs ← perModulus (fun m _ => Ntt.forward m.p m.q (conv v pq m.p)) ms (ms.map fun _ => ())
      return ⟨Nat.log2 v.length, cs, true⟩) := by
  have hv := log2_pow_of_not _ hp
  refine (Safe.perModulus (S := fun u => u.length = 2 ^ Nat.log2 v.length) (by simp) fun m hm _ _ => ?_).bind fun cs hcs => ?_
  · obtain ⟨l, hl, hle⟩ := h m hm
    exact forward_safe hl (by rw [hconv]; exact hv) (by rw [hconv]; exact hle)
  · obtain ⟨m, hm⟩ := List.exists_mem_of_ne_nil _ hne
    obtain ⟨l, hl, hle⟩ := h m hm
    have := hl.l15
    have : 2 ^ l ≤ 2 ^ 15 := Nat.pow_le_pow_right (by norm_num) (by omega)
    exact .ok ⟨log2_le_30 (by omega), hcs.2⟩

theorem convertFrom_safe {v : List ℕ} {pq : MParams} (h : ∀ m ∈ ms, ∃ l, GoodModulus w l m ∧ v.length ≤ 2 ^ l) :
    Safe Boxed (convertFrom v pq ms) := by
  unfold convertFrom
  refine .ite (fun _ => .err) fun h1 => .ite (fun _ => .err) fun h2 => ?_
  exact convert_safe length_convertModulus (by simpa using h2) (by simpa using h1) h

theorem convertBalancedFrom_safe {v : List ℕ} {pq : MParams} (hv : v ≠ [])
    (h : ∀ m ∈ ms, ∃ l, GoodModulus w l m ∧ v.length ≤ 2 ^ l) : Safe Boxed (convertBalancedFrom v pq ms) := by
  unfold convertBalancedFrom
  refine .ite (fun _ => .err) fun h1 => .ite (fun _ => .err) fun h2 => ?_
  refine convert_safe length_converted (by simpa using h2) ?_ h
  simp only [isNotPowerOfTwo, Bool.or_eq_false_iff, decide_eq_false_iff_not, List.length_eq_zero_iff, bne_eq_false_iff_eq]
  exact ⟨hv, not_not.1 h1⟩

theorem deserializeVector_safe {p : MParams} {N n : ℕ} (hp : MParams.create w N = .ok p) (hw : w ≤ 128) (s : List ℕ) :
    Safe (fun v => v.length = n) (Mont.deserializeVector p n s) := by
  refine .of_not_ub (fun u hu => ?_) fun v hv => (c10_deserialized_range_partial hp hw n s v hv).1
  obtain ⟨l1, l2, l3, l4, l5⟩ := logModulus_facts hp hw
  unfold Mont.deserializeVector Mont.kMaxNumCoeffs at hu
  rw [if_neg (by omega)] at hu
  split_ifs at hu with hn
  push_cast at hn
  have hmul : p.logModulus * n ≤ 128 * 2 ^ 15 := Nat.mul_le_mul l4 (by omega)
  have := c09_errors 8 p.w s (p.logModulus * n : ℕ) 8 p.logModulus (by norm_num) (by omega) (by push_cast; zify at hmul; omega)
    (by push_cast; zify at hmul; omega)
  simp only at this
  push_cast at this
  by_cases hbad : (False ∨ p.w < p.logModulus ∨ ((p.logModulus : ℤ) * n < 0) ∨ ((p.logModulus : ℤ) * n = 0 ∧ s ≠ []) ∨
      (0 < (p.logModulus : ℤ) * n ∧ (s.length : ℤ) * 8 < (p.logModulus : ℤ) * n))
  · rw [this.1 hbad] at hu
    cases hu
  · obtain ⟨out, ho⟩ := this.2 hbad
    rw [ho, Outcome.bind_ok] at hu
    split at hu <;> cases hu

theorem serializeVector_safe {p : MParams} {N : ℕ} (hp : MParams.create w N = .ok p) (hw : w ≤ 128) (v : List ℕ) :
    Safe (fun _ => True) (Mont.serializeVector p v) := by
  obtain ⟨l1, l2, l3, l4, l5⟩ := logModulus_facts hp hw
  unfold Mont.serializeVector Mont.kMaxNumCoeffs
  refine .ite (fun _ => .err) fun h1 => .ite (fun _ => .err) fun h2 => ?_
  have hmul : v.length * p.logModulus ≤ 2 ^ 15 * 128 := Nat.mul_le_mul (by omega) l4
  have := c09_errors p.w 8 v (v.length * p.logModulus : ℕ) p.logModulus 8 (by omega) (by norm_num) (by omega) (by omega)
  simp only at this
  rw [show ((8 : ℕ) : ℤ) = 8 from rfl] at this
  by_cases hbad : (p.w < p.logModulus ∨ 8 < 8 ∨ (((v.length * p.logModulus : ℕ) : ℤ) < 0) ∨
      (((v.length * p.logModulus : ℕ) : ℤ) = 0 ∧ v ≠ []) ∨
      (0 < ((v.length * p.logModulus : ℕ) : ℤ) ∧ (v.length : ℤ) * p.logModulus < ((v.length * p.logModulus : ℕ) : ℤ)))
  · rw [this.1 hbad]
    exact .err
  · obtain ⟨out, ho⟩ := this.2 hbad
    exact .inl ⟨out, ho, trivial⟩

theorem deserialize_safe {s : Serialized} (hw : w ≤ 128) (hs : s.logN < 31) (h : ∀ m ∈ ms, ∃ l, GoodModulus w l m) :
    Safe Boxed (Rns.deserialize ms s) := by
  unfold Rns.deserialize
  refine .ite (fun _ => .err) fun h1 => .ite (fun _ => .err) fun h2 => ?_
  rw [shl1_ok (by omega), Outcome.bind_ok]
  refine (Safe.perModulus (S := fun v => v.length = 2 ^ s.logN.toNat) (by omega) fun m hm v _ => ?_).bind fun vs hvs =>
    create_safe fun v hv => ?_
  · obtain ⟨l, hl⟩ := h m hm
    exact deserializeVector_safe hl.create hw v
  · rw [hvs.2 v hv]
    exact Nat.pow_lt_pow_right (by norm_num) (by omega)

theorem serialize_safe (hw : w ≤ 128) (h : ∀ m ∈ ms, ∃ l, GoodModulus w l m) :
    Safe (fun _ => True) (Rns.serialize ms x) := by
  unfold Rns.serialize
  refine .ite (fun _ => .err) fun h1 => ?_
  refine (Safe.perModulus (S := fun _ => True) (not_not.1 h1) fun m hm v _ => ?_).bind fun vs hvs => .ok trivial
  obtain ⟨l, hl⟩ := h m hm
  exact serializeVector_safe hl.create hw v

/-! ### Programs -/

section programs
variable {objs : List RPoly} {i : ℕ}

theorem fresh_tame (ho : ∀ x ∈ objs, Boxed x) {o : Outcome RPoly} (h : Safe Boxed o) :
    Tame (fun objs => ∀ x ∈ objs, Boxed x) (fresh objs o) :=
  .withTemp ho h fun y hy => .done fun x hx => by
    rcases List.mem_append.1 hx with hx | hx
    · exact ho x hx
    · rw [List.mem_singleton.1 hx]; exact hy

theorem rd_at {P : RPoly → Prop} (h : At objs i P) (ho : ∀ x ∈ objs, Boxed x) : Safe (fun x => P x ∧ Boxed x) (rd objs i) := by
  obtain ⟨x, h1, h2⟩ := h
  unfold rd
  rw [h1]
  exact .ok ⟨h2, ho x (List.mem_of_getElem? h1)⟩

theorem onObject_tame {P : RPoly → Prop} (h : At objs i P) (ho : ∀ x ∈ objs, Boxed x) {f : RPoly → Res RPoly}
    (hf : ∀ x, P x → Boxed x → Tame (RectAny x.logN) (f x)) :
    Tame (fun objs => ∀ x ∈ objs, Boxed x) (onObject objs i f) := by
  refine .withTemp ho (rd_at h ho) fun x ⟨hP, hx⟩ => ?_
  have := hf x hP hx
  refine ⟨fun y hy => ?_, this.2⟩
  rcases List.mem_or_eq_of_mem_set hy with hy | rfl
  · exact ho y hy
  · obtain ⟨k, hk⟩ := this.1
    exact boxed_of_rect hx.1 hk

theorem run_tame {c : PolyCall} (hw : w ≤ 128) (ho : ∀ x ∈ objs, Boxed x) (hc : Fitting w objs c) :
    Tame (fun objs => ∀ x ∈ objs, Boxed x) (c.run objs) := by
  have any : ∀ {x : RPoly} {k} {r : Res RPoly}, Tame (Rect x.logN k) r → Tame (RectAny x.logN) r :=
    fun h => h.mono fun _ hy => ⟨_, hy⟩
  cases c with
  | create vs b => exact fresh_tame ho (create_safe hc)
  | zero logN ms b => exact fresh_tame ho (createConst_safe _ _ hc)
  | one logN ms => exact fresh_tame ho (createConst_safe _ _ hc)
  | convert v pq ms => exact fresh_tame ho (convertFrom_safe hc)
  | convertBalanced v pq ms => exact fresh_tame ho (convertBalancedFrom_safe hc.1 hc.2)
  | deserialize ms s => exact fresh_tame ho (deserialize_safe hw hc.1 hc.2)
  | serialize i ms =>
    exact .withTemp ho (rd_at hc ho) fun x hx => .withTemp ho (serialize_safe hw hx.1) fun _ _ => .done ho
  | copy i => exact fresh_tame ho ((rd_at hc ho).mono fun _ h => h.2)
  | toNtt i ms => exact onObject_tame hc ho fun x hg hx => any (toNttIn_tame hg (rect_of_boxed hx))
  | toCoeff i ms => exact onObject_tame hc ho fun x hg hx => any (toCoeffIn_tame hg (rect_of_boxed hx))
  | negate i ms =>
    exact .withTemp ho (rd_at hc ho) fun x hx => fresh_tame ho
      ((negate_safe (rect_of_boxed hx.2)).mono fun _ => boxed_of_rect hx.2.1)
  | negateIn i ms => exact onObject_tame hc ho fun x _ hx => any (negateIn_tame (rect_of_boxed hx))
  | add i j ms =>
    obtain ⟨x, h1, h2⟩ := hc
    exact .withTemp ho (rd_at h2 ho) fun y _ => onObject_tame (P := fun _ => True) ⟨x, h1, trivial⟩ ho fun x _ hx =>
      any (addIn_tame (rect_of_boxed hx))
  | sub i j ms =>
    obtain ⟨x, h1, h2⟩ := hc
    exact .withTemp ho (rd_at h2 ho) fun y _ => onObject_tame (P := fun _ => True) ⟨x, h1, trivial⟩ ho fun x _ hx =>
      any (subIn_tame (rect_of_boxed hx))
  | mul i j ms =>
    obtain ⟨x, h1, h2⟩ := hc
    exact .withTemp ho (rd_at h2 ho) fun y _ => onObject_tame (P := fun _ => True) ⟨x, h1, trivial⟩ ho fun x _ hx =>
      any (mulIn_tame (rect_of_boxed hx))
  | mulInt i c ms => exact onObject_tame hc ho fun x _ hx => any (mulIntIn_tame c (rect_of_boxed hx))
  | mulRns i c ms => exact onObject_tame hc ho fun x _ hx => any (mulRnsIn_tame c (rect_of_boxed hx))
  | fusedMulAdd i j k ms =>
    obtain ⟨x, h1, y, h2, h3⟩ := hc
    exact .withTemp ho (rd_at (P := fun _ => True) ⟨y, h2, trivial⟩ ho) fun y _ => .withTemp ho (rd_at h3 ho) fun z _ =>
      onObject_tame (P := fun _ => True) ⟨x, h1, trivial⟩ ho fun x _ hx => any (fusedMulAddIn_tame (rect_of_boxed hx))
  | substitute i power ms =>
    exact .withTemp ho (rd_at hc ho) fun x hx => fresh_tame ho
      ((substitute_safe power hx.1.2 hx.1.1 (rect_of_boxed hx.2)).mono fun _ => boxed_of_rect hx.2.1)
  | modReduceLsb i t qlInv ms =>
    exact onObject_tame hc.2 ho fun x hg hx => modReduceLsbIn_tame hc.1 qlInv hg (rect_of_boxed hx)
  | modReduceMsb i qlInv ms => exact onObject_tame hc ho fun x hg hx => modReduceMsbIn_tame qlInv hg (rect_of_boxed hx)
  | switchBasis i est ms outs hatInv hatMod qMod =>
    exact .withTemp ho (rd_at hc.2 ho) fun x hx => fresh_tame ho
      ((switchBasis_safe est hatInv qMod hx.2.1 hc.1 (rect_of_boxed hx.2)).mono fun _ => boxed_of_rect hx.2.1)
  | scaleAndSwitchBasis i est ms outs hatInv qInvMod pMod =>
    exact .withTemp ho (rd_at hc ho) fun x hx => fresh_tame ho
      ((scaleAndSwitchBasis_safe est hatInv pMod hx.2.1 hx.1 (rect_of_boxed hx.2)).mono fun _ => boxed_of_rect hx.2.1)
  | approxSwitchBasis i balanced ms outs hatInv hatMod =>
    exact .withTemp ho (rd_at hc.2 ho) fun x hx => fresh_tame ho
      ((approxSwitchBasis_safe balanced hatInv hx.2.1 hc.1 hx.1 (rect_of_boxed hx.2)).mono fun _ => boxed_of_rect hx.2.1)
  | approxModReduceLsb i j ms auxMs pInv hatInv hatMod tInv pModT t =>
    obtain ⟨hr, x, h1, h2, h3, h4⟩ := hc
    exact .withTemp ho (rd_at h4 ho) fun a ha => onObject_tame (P := fun y => y = x) ⟨x, h1, rfl⟩ ho fun y e hx => by
      subst e
      exact any (approxModReduceLsbIn_tame pInv hatInv tInv pModT t hx.1 hr h2 h3 (rect_of_boxed hx)
        (ha.1 ▸ rect_of_boxed ha.2))
  | approxModReduceMsb i j ms auxMs pInv hatInv hatMod =>
    obtain ⟨hr, x, h1, h2, h3, h4⟩ := hc
    exact .withTemp ho (rd_at h4 ho) fun a ha => onObject_tame (P := fun y => y = x) ⟨x, h1, rfl⟩ ho fun y e hx => by
      subst e
      exact any (approxModReduceMsbIn_tame pInv hatInv hx.1 hr h2 h3 (rect_of_boxed hx) (ha.1 ▸ rect_of_boxed ha.2))
  | extendBasis i est ms auxMs hatInv hatMod qMod =>
    exact onObject_tame hc.2 ho fun x _ hx => extendBasisIn_tame est hatInv qMod hx.1 hc.1 (rect_of_boxed hx)
  | scaleAndReduceBasis i j est t ms auxMs hatInv hatMod pMod pInv =>
    obtain ⟨hr, x, h1, h2, h3, h4⟩ := hc
    exact .withTemp ho (rd_at h4 ho) fun a ha => onObject_tame (P := fun y => y = x) ⟨x, h1, rfl⟩ ho fun y e hx => by
      subst e
      exact any (scaleAndReduceBasisIn_tame est t hatInv pMod pInv hx.1 hr h2 h3 (rect_of_boxed hx) (ha.1 ▸ rect_of_boxed ha.2))
  | append i v =>
    exact onObject_tame hc ho fun x hv hx => .done ⟨_, rfl, rfl, by
      intro u hu
      rcases List.mem_append.1 hu with hu | hu
      · exact hx.2 u hu
      · rw [List.mem_singleton.1 hu]; exact hv⟩
  | detach i =>
    exact onObject_tame hc ho fun x _ hx => .withTemp ⟨_, rect_of_boxed hx⟩ (detachLast_safe (rect_of_boxed hx))
      fun dx hdx => .done ⟨_, hdx.2⟩
  | replace i index v =>
    exact onObject_tame hc ho fun x hv hx => .ite (fun _ => .reject ⟨_, rect_of_boxed hx⟩) fun _ => .done ⟨_, rfl, rfl, by
      intro u hu
      rcases List.mem_or_eq_of_mem_set hu with hu | rfl
      · exact hx.2 u hu
      · exact hv⟩

end programs

end Shell.Rns
