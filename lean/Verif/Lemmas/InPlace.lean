import Verif.Model.InPlace
/-!
# In-place operations: the value after a successful call
-/

namespace Shell.Rns
open Res

namespace Res
variable {α β γ : Type}

@[simp] theorem value_ok (x : α) (u : Unit) : value (x, .ok u) = .ok x := rfl
@[simp] theorem value_err (x : α) (e : Status) : value (x, .err e) = .err e := rfl
@[simp] theorem value_ub (x : α) (u : UB) : value (x, .ub u) = .ub u := rfl
@[simp] theorem value_reject (x : α) : value (reject x) = .err .invalidArgument := rfl

@[simp] theorem value_andThen (r : Res α) (f : α → Res α) :
    value (r.andThen f) = r.value >>= fun y => (f y).value := by
  obtain ⟨x, o⟩ := r
  cases o <;> rfl

@[simp] theorem value_withTemp (x : α) (o : Outcome β) (f : β → Res α) :
    value (withTemp x o f) = o >>= fun b => (f b).value := by
  cases o <;> rfl

@[simp] theorem value_assign (x : α) (o : Outcome α) : value (assign x o) = o := by
  cases o <;> rfl

@[simp] theorem value_vec (r : Poly.InPlace) : value (vec r) = Poly.copying r := by
  obtain ⟨v, o⟩ := r
  cases o <;> rfl

theorem value_map (g : α → β) (r : Res α) : value (g r.1, r.2) = r.value >>= fun y => .ok (g y) := by
  obtain ⟨x, o⟩ := r
  cases o <;> rfl

theorem value_loopFrom (f : ℕ → α → Res α) (k i : ℕ) (x : α) :
    value (loopFrom f k i x) = Shell.loopFrom (fun i x => value (f i x)) k i x := by
  induction k generalizing i x with
  | zero => rfl
  | succ k ih => simp only [loopFrom, value_andThen, Shell.loopFrom, ih]

theorem value_all (f : α → Res α) (xs : List α) : value (all f xs) = xs.mapM fun x => value (f x) := by
  induction xs with
  | nil => rfl
  | cons x xs ih =>
    rw [all, List.mapM_cons, ← ih]
    rcases h : f x with ⟨y, o⟩
    cases o <;> simp only [value_ok, value_err, value_ub, Outcome.bind_ok, Outcome.bind_err, Outcome.bind_ub]
    rcases all f xs with ⟨ys, o⟩
    cases o <;> rfl

theorem value_each_zip (f : α → β → Res α) (xs : List α) (bs : List β) (h : xs.length = bs.length) :
    value (each f xs bs) = (xs.zip bs).mapM fun u => value (f u.1 u.2) := by
  induction xs generalizing bs with
  | nil => cases bs with
    | nil => rfl
    | cons _ _ => simp at h
  | cons x xs ih => cases bs with
    | nil => simp at h
    | cons b bs =>
      rw [each, List.zip_cons_cons, List.mapM_cons, ← ih bs (by simpa using h)]
      rcases hf : f x b with ⟨y, o⟩
      cases o <;> simp only [value_ok, value_err, value_ub, Outcome.bind_ok, Outcome.bind_err, Outcome.bind_ub]
      rcases each f xs bs with ⟨ys, o⟩
      cases o <;> rfl

theorem value_each (f : α → Modulus → Res α) (xs : List α) (ms : List Modulus) (h : ms.length = xs.length) :
    value (each f xs ms) = perModulus (fun m v => value (f v m)) ms xs := by
  induction xs generalizing ms with
  | nil => cases ms with
    | nil => rfl
    | cons _ _ => simp at h
  | cons x xs ih => cases ms with
    | nil => simp at h
    | cons b bs =>
      rw [each, perModulus, ← ih bs (by simpa using h)]
      rcases hf : f x b with ⟨y, o⟩
      cases o <;> simp only [value_ok, value_err, value_ub, Outcome.bind_ok, Outcome.bind_err, Outcome.bind_ub]
      rcases each f xs bs with ⟨ys, o⟩
      cases o <;> rfl

theorem value_each₂ (f : α → Modulus × β → Res α) (xs : List α) (ms : List Modulus) (ys : List β)
    (h : ms.length = xs.length) (h' : ys.length = xs.length) :
    value (each f xs (ms.zip ys)) = perModulus (fun m v => value (f v.1 (m, v.2))) ms (xs.zip ys) := by
  induction xs generalizing ms ys with
  | nil =>
    have h1 : ms = [] := List.length_eq_zero_iff.1 h
    have h2 : ys = [] := List.length_eq_zero_iff.1 h'
    subst h1 h2
    rfl
  | cons x xs ih =>
    obtain _ | ⟨m, ms⟩ := ms
    · simp at h
    obtain _ | ⟨y, ys⟩ := ys
    · simp at h'
    rw [List.zip_cons_cons, List.zip_cons_cons, each, perModulus, ← ih ms ys (by simpa using h) (by simpa using h')]
    rcases hf : f x (m, y) with ⟨z, o⟩
    cases o <;> simp only [value_ok, value_err, value_ub, Outcome.bind_ok, Outcome.bind_err, Outcome.bind_ub]
    rcases each f xs (ms.zip ys) with ⟨zs, o⟩
    cases o <;> rfl

end Res

theorem value_onCoeffs (x : RPoly) (r : Res (List (List ℕ))) :
    value (onCoeffs x r) = r.value >>= fun cs => .ok { x with coeffs := cs } :=
  value_map (fun cs => { x with coeffs := cs }) r

/-! ### The inverse transform -/

theorem value_gsBlockIn (p : MParams) (table : List (ℕ × ℕ)) (i blk : ℕ) (s : ℕ × List ℕ) :
    value (gsBlockIn p table i blk s) =
      if s.1 ≥ table.length then .err .invalidArgument
      else do
        let c ← rd table s.1
        let v ← loop (1 <<< i) (fun j v =>
          if blk * ((1 <<< i) <<< 1) + j + (1 <<< i) ≥ v.length then .err .invalidArgument
          else Ntt.bfStep (Ntt.gsButterfly p c) (1 <<< i) (blk * ((1 <<< i) <<< 1)) j v) s.2
        return (s.1 + 1, v) := by
  unfold gsBlockIn
  split
  · rfl
  · simp only [value_withTemp]
    congr 1
    funext c
    rw [value_andThen, value_map (fun v => (s.1, v)), value_loopFrom]
    unfold loop
    have : (fun i_1 (x : List ℕ) => value (if blk * ((1 <<< i) <<< 1) + i_1 + (1 <<< i) ≥ x.length then reject x
        else assign x (Ntt.bfStep (Ntt.gsButterfly p c) (1 <<< i) (blk * ((1 <<< i) <<< 1)) i_1 x))) =
        fun j v => if blk * ((1 <<< i) <<< 1) + j + (1 <<< i) ≥ v.length then .err .invalidArgument
          else Ntt.bfStep (Ntt.gsButterfly p c) (1 <<< i) (blk * ((1 <<< i) <<< 1)) j v := by
      funext j v
      split <;> simp
    rw [this]
    simp

theorem value_gsLayerIn (p : MParams) (table : List (ℕ × ℕ)) (i : ℕ) (s : ℕ × List ℕ) :
    value (gsLayerIn p table i s) = Ntt.gsLayer p table i s := by
  unfold gsLayerIn Ntt.gsLayer
  simp only [value_loopFrom, value_gsBlockIn]
  rfl

theorem value_inverseIn (p : MParams) (q : Ntt.NttParams) (v : List ℕ) :
    value (inverseIn p q v) = Ntt.inverse p q v := by
  unfold inverseIn Ntt.inverse Ntt.iterativeGentlemanSande
  split
  · rfl
  split
  · rfl
  simp only
  split
  · rfl
  rw [value_andThen, value_map (fun s : ℕ × List ℕ => s.2), value_loopFrom]
  simp only [value_gsLayerIn]
  unfold loop
  simp

/-! ### `RnsPolynomial` -/

theorem perModulus_length {α β : Type} {f : Modulus → α → Outcome β} {ms : List Modulus} {xs : List α} {ys : List β}
    (h : perModulus f ms xs = .ok ys) : ys.length = xs.length := by
  induction xs generalizing ms ys with
  | nil => cases ms with
    | nil => cases h; rfl
    | cons _ _ => cases h
  | cons x xs ih => cases ms with
    | nil => cases h
    | cons m ms =>
      rw [perModulus] at h
      obtain ⟨r, _, h⟩ := Outcome.bind_eq_ok.1 h
      obtain ⟨rs, hrs, h⟩ := Outcome.bind_eq_ok.1 h
      cases h
      simp [ih hrs]

theorem value_toNttIn (ms : List Modulus) (x : RPoly) : value (toNttIn ms x) = toNtt ms x := by
  unfold toNttIn toNtt
  split
  · rfl
  split
  · rfl
  · next h => simp [value_onCoeffs, value_each _ _ _ (not_not.1 h)]

theorem value_toCoeffIn (ms : List Modulus) (x : RPoly) : value (toCoeffIn ms x) = toCoeff ms x := by
  unfold toCoeffIn toCoeff
  split
  · rfl
  split
  · rfl
  · next h => simp [value_onCoeffs, value_each _ _ _ (not_not.1 h), value_inverseIn]

theorem value_negateIn (ms : List Modulus) (x : RPoly) : value (negateIn ms x) = negateInPlace ms x := by
  unfold negateIn negateInPlace
  split
  · rfl
  · next h => simp [value_onCoeffs, value_each _ _ _ (not_not.1 h)]

theorem value_addIn (ms : List Modulus) (x y : RPoly) : value (addIn ms x y) = add ms x y := by
  unfold addIn add
  split
  · rfl
  split
  · rfl
  · next h h' => simp [value_onCoeffs, value_each₂ _ _ _ _ (not_not.1 h') (not_not.1 h), Poly.add]

theorem value_subIn (ms : List Modulus) (x y : RPoly) : value (subIn ms x y) = sub ms x y := by
  unfold subIn sub
  split
  · rfl
  split
  · rfl
  · next h h' => simp [value_onCoeffs, value_each₂ _ _ _ _ (not_not.1 h') (not_not.1 h), Poly.sub]

theorem value_mulIntIn (ms : List Modulus) (x : RPoly) (c : ℕ) : value (mulIntIn ms x c) = mulInt ms x c := by
  unfold mulIntIn mulInt
  split
  · rfl
  · next h => simp [value_onCoeffs, value_each _ _ _ (not_not.1 h), Poly.mulScalar]

theorem value_mulRnsIn (ms : List Modulus) (x : RPoly) (c : List ℕ) : value (mulRnsIn ms x c) = mulRns ms x c := by
  unfold mulRnsIn mulRns
  split
  · rfl
  split
  · rfl
  · next h h' => simp [value_onCoeffs, value_each₂ _ _ _ _ (not_not.1 h') (not_not.1 h), Poly.mulScalar]

theorem value_mulIn (ms : List Modulus) (x y : RPoly) : value (mulIn ms x y) = mul ms x y := by
  unfold mulIn mul
  split
  · rfl
  split
  · rfl
  next h h' =>
  split
  · rfl
  split
  · rfl
  simp [value_onCoeffs, value_each₂ _ _ _ _ (not_not.1 h') (not_not.1 h), Poly.mul]

theorem value_fusedMulAddIn (ms : List Modulus) (x a b : RPoly) :
    value (fusedMulAddIn ms x a b) = fusedMulAdd ms x a b := by
  unfold fusedMulAddIn fusedMulAdd
  split
  · rfl
  split
  · rfl
  split
  · rfl
  next ha hb h =>
  split
  · rfl
  split
  · rfl
  split
  · rfl
  have : (a.coeffs.zip b.coeffs).length = x.coeffs.length := by
    rw [List.length_zip]; omega
  simp [value_onCoeffs, value_each₂ _ _ _ _ (not_not.1 h) this]

theorem value_modReduceLsbIn (t : ℕ) (qlInv : List ℕ) (ms : List Modulus) (x : RPoly) :
    value (modReduceLsbIn t qlInv ms x) = modReduceLsb t qlInv ms x := by
  unfold modReduceLsbIn modReduceLsb
  split
  · rfl
  split
  · rfl
  split
  · rfl
  next h1 h2 h3 =>
  rw [value_withTemp]
  have hd : detachLast x = .ok (x.coeffs.getLast (by rintro h; simp [h] at h2), { x with coeffs := x.coeffs.dropLast }) := by
    unfold detachLast
    rw [List.getLast?_eq_getLast_of_ne_nil]
  rw [hd]
  simp only [Outcome.bind_ok, value_withTemp]
  congr 1
  funext m
  split
  · rfl
  simp only [value_withTemp, value_andThen, value_mulIntIn]
  congr 1
  funext d
  have hq : qlInv.length = x.coeffs.dropLast.length := by simp; omega
  have ht : (ms.take x.coeffs.dropLast.length).length = x.coeffs.dropLast.length := by simp; omega
  cases hm : mulInt (ms.take x.coeffs.dropLast.length) { x with coeffs := x.coeffs.dropLast } (m.p.modulus % t) with
  | err e => rfl
  | ub u => rfl
  | ok y =>
    simp only [Outcome.bind_ok]
    have hy : y.coeffs.length = x.coeffs.dropLast.length := by
      rw [mulInt, if_neg (not_not.2 ht)] at hm
      obtain ⟨cs, hcs, e⟩ := Outcome.bind_eq_ok.1 hm
      cases e
      exact perModulus_length hcs
    split
    · simp [value_addIn, value_mulRnsIn]
    · rw [value_onCoeffs, value_each₂ _ _ _ _ (by rw [ht, hy]) (by rw [hq, hy])]
      simp [Poly.mulScalar, Poly.add]

theorem value_modReduceMsbIn (qlInv : List ℕ) (ms : List Modulus) (x : RPoly) :
    value (modReduceMsbIn qlInv ms x) = modReduceMsb qlInv ms x := by
  unfold modReduceMsbIn modReduceMsb
  split
  · rfl
  split
  · rfl
  split
  · rfl
  next h1 h2 h3 =>
  rw [value_withTemp]
  have hd : detachLast x = .ok (x.coeffs.getLast (by rintro h; simp [h] at h2), { x with coeffs := x.coeffs.dropLast }) := by
    unfold detachLast
    rw [List.getLast?_eq_getLast_of_ne_nil]
  rw [hd]
  simp only [Outcome.bind_ok, value_withTemp]
  congr 1
  funext m
  have hq : qlInv.length = x.coeffs.dropLast.length := by simp; omega
  have ht : (ms.take x.coeffs.dropLast.length).length = x.coeffs.dropLast.length := by simp; omega
  split
  · simp [value_subIn, value_mulRnsIn]
  · rw [value_onCoeffs, value_each₂ _ _ _ _ ht hq]
    simp [Poly.mulScalar, Poly.sub]

theorem value_extendBasisIn (est : Estimate) (ms auxMs : List Modulus) (hatInv : List ℕ) (hatMod : List (List ℕ))
    (qMod : List ℕ) (x : RPoly) :
    value (extendBasisIn est ms auxMs hatInv hatMod qMod x) = extendBasis est ms auxMs hatInv hatMod qMod x := by
  simp [extendBasisIn, extendBasis]

theorem value_scaleAndReduceBasisIn (est : Estimate) (aux : RPoly) (t : ℕ) (ms auxMs : List Modulus)
    (hatInv : List ℕ) (hatMod : List (List ℕ)) (pMod pInv : List ℕ) (x : RPoly) :
    value (scaleAndReduceBasisIn est aux t ms auxMs hatInv hatMod pMod pInv x) =
      scaleAndReduceBasis est aux t ms auxMs hatInv hatMod pMod pInv x := by
  simp only [scaleAndReduceBasisIn, scaleAndReduceBasis, value_andThen, value_withTemp, value_mulIntIn, value_subIn,
    value_mulRnsIn]

theorem value_ensureNttIn (ms : List Modulus) (x : RPoly) :
    value (ensureNttIn ms x) = ensureNtt ms x := by
  unfold ensureNttIn ensureNtt
  split
  · rfl
  · exact value_toNttIn ms x

theorem value_approxModReduceLsbIn (aux : RPoly) (ms auxMs : List Modulus) (pInv hatInv : List ℕ)
    (hatMod : List (List ℕ)) (tInv : List ℕ) (pModT t : ℕ) (x : RPoly) :
    value (approxModReduceLsbIn aux ms auxMs pInv hatInv hatMod tInv pModT t x) =
      approxModReduceLsb aux ms auxMs pInv hatInv hatMod tInv pModT t x := by
  unfold approxModReduceLsbIn approxModReduceLsb
  repeat' (split; · rfl)
  simp only [value_andThen, value_withTemp, value_mulIntIn, value_addIn, value_mulRnsIn, value_ensureNttIn]

theorem value_approxModReduceMsbIn (aux : RPoly) (ms auxMs : List Modulus) (pInv hatInv : List ℕ)
    (hatMod : List (List ℕ)) (x : RPoly) :
    value (approxModReduceMsbIn aux ms auxMs pInv hatInv hatMod x) =
      approxModReduceMsb aux ms auxMs pInv hatInv hatMod x := by
  unfold approxModReduceMsbIn approxModReduceMsb
  repeat' (split; · rfl)
  simp only [value_andThen, value_withTemp, value_subIn, value_mulRnsIn, value_ensureNttIn]

/-! ### Ciphertexts -/
namespace RCt

theorem value_onComponents (x : RCt) (r : Res (List RPoly)) :
    value (onComponents x r) = r.value >>= fun c => .ok { x with c } := value_map (fun c => { x with c }) r

theorem check_ok {x y : RCt} {u : Unit} (h : check x y = .ok u) : x.c.length = y.c.length := by
  unfold check at h
  split at h
  · cases h
  · next h' => exact not_not.1 h'

theorem value_negateIn (x : RCt) : value (negateIn x) = negate x := by
  simp [negateIn, negate, value_onComponents, value_all, Rns.value_negateIn]

theorem value_addIn (x y : RCt) : value (addIn x y) = add x y := by
  unfold addIn add
  rw [value_withTemp]
  cases h : check x y with
  | err e => rfl
  | ub u => rfl
  | ok u => simp [value_onComponents, value_each_zip _ _ _ (check_ok h), Rns.value_addIn]

theorem value_subIn (x y : RCt) : value (subIn x y) = sub x y := by
  unfold subIn sub
  rw [value_withTemp]
  cases h : check x y with
  | err e => rfl
  | ub u => rfl
  | ok u => simp [value_onComponents, value_each_zip _ _ _ (check_ok h), Rns.value_subIn]

theorem value_onFirst (x : RCt) (f : RPoly → Res RPoly) :
    value (onFirst x f) = (do
      let c0 ← rd x.c 0
      let r ← value (f c0)
      let c ← wr x.c 0 r
      return { x with c }) := by
  obtain ⟨cs, ms, pw⟩ := x
  cases cs with
  | nil => rfl
  | cons c cs =>
    simp only [onFirst]
    rw [value_map (fun c' => ({ c := c' :: cs, ms := ms, power := pw } : RCt))]
    simp [rd, wr]

theorem value_addPlainIn (x : RCt) (pt : RPoly) : value (addPlainIn x pt) = addPlain x pt := by
  unfold addPlainIn addPlain
  split
  · rfl
  · simp [value_onFirst, Rns.value_addIn]

theorem value_subPlainIn (x : RCt) (pt : RPoly) : value (subPlainIn x pt) = subPlain x pt := by
  unfold subPlainIn subPlain
  split
  · rfl
  · simp [value_onFirst, Rns.value_subIn]

theorem value_absorbIn (x : RCt) (pt : RPoly) : value (absorbIn x pt) = absorb x pt := by
  simp [absorbIn, absorb, value_onComponents, value_all, value_mulIn]

theorem value_absorbRnsIn (x : RCt) (z : List ℕ) : value (absorbRnsIn x z) = absorbRns x z := by
  unfold absorbRnsIn absorbRns
  split
  · rfl
  · simp [value_onComponents, value_all, value_mulRnsIn]

theorem value_absorbIntIn (x : RCt) (z : ℕ) : value (absorbIntIn x z) = absorbInt x z := by
  simp [absorbIntIn, absorbInt, value_onComponents, value_all, value_mulIntIn]

theorem value_fusedAbsorbAddIn (x y : RCt) (pt : RPoly) :
    value (fusedAbsorbAddIn x y pt) = fusedAbsorbAdd x y pt := by
  unfold fusedAbsorbAddIn fusedAbsorbAdd
  rw [value_withTemp]
  cases h : check x y with
  | err e => rfl
  | ub u => rfl
  | ok u => simp [value_onComponents, value_each_zip _ _ _ (check_ok h), value_fusedMulAddIn]

theorem value_fusedAbsorbAddWithoutPadIn (x y : RCt) (pt : RPoly) :
    value (fusedAbsorbAddWithoutPadIn x y pt) = fusedAbsorbAddWithoutPad x y pt := by
  unfold fusedAbsorbAddWithoutPadIn fusedAbsorbAddWithoutPad
  split
  · rfl
  split
  · rfl
  split
  · rfl
  next h _ _ =>
  obtain ⟨xc, xm, xp⟩ := x
  obtain ⟨yc, ym, yp⟩ := y
  simp only at h
  obtain _ | ⟨u, us⟩ := xc
  · simp at h
  obtain _ | ⟨v, vs⟩ := yc
  · simp at h
  simp [value_onFirst, value_fusedMulAddIn, rd, wr]

theorem value_setPadIn (x : RCt) (a : RPoly) : value (setPadIn x a) = setPad x a := by
  unfold setPadIn setPad
  split
  · rfl
  split
  · simp
  · rfl

theorem value_toNttIn (x : RCt) : value (toNttIn x) = toNtt x := by
  simp [toNttIn, toNtt, value_onComponents, value_all, Rns.value_toNttIn]

theorem value_toCoeffIn (x : RCt) : value (toCoeffIn x) = toCoeff x := by
  simp [toCoeffIn, toCoeff, value_onComponents, value_all, Rns.value_toCoeffIn]

theorem value_modReduceBgvIn (x : RCt) (t : ℕ) (qlInv : List ℕ) :
    value (modReduceBgvIn x t qlInv) = modReduceBgv x t qlInv := by
  unfold modReduceBgvIn modReduceBgv
  split
  · rfl
  · simp [value_onComponents, value_all, value_modReduceLsbIn]

theorem value_modReduceBfvIn (ctx : Ctx) (x : RCt) : value (modReduceBfvIn ctx x) = modReduceBfv ctx x := by
  unfold modReduceBfvIn modReduceBfv
  split
  · rfl
  simp only [value_withTemp]
  congr 1
  funext row
  split
  · rfl
  · simp [value_onComponents, value_all, value_modReduceMsbIn]

theorem value_absorbSimpleIn (x : RCt) (pt : RPoly) : value (absorbSimpleIn x pt) = absorbSimple x pt := by
  unfold absorbSimpleIn absorbSimple
  split
  · rfl
  split
  · rfl
  · exact value_absorbIn x pt

theorem value_absorbBfvIn (est : Estimate) (ctx : Ctx) (x : RCt) (pt : RPoly) :
    value (absorbBfvIn est ctx x pt) = absorbBfv est ctx x pt := by
  unfold absorbBfvIn absorbBfv
  split
  · rfl
  have step : ∀ ms hatInv ptAux c, value (absorbBfvStepIn est ctx ms hatInv pt ptAux c) =
      absorbBfvStep est ctx ms hatInv pt ptAux c := by
    intro ms hatInv ptAux c
    unfold absorbBfvStepIn absorbBfvStep ensureCoeff
    rw [value_andThen]
    simp only [value_assign]
    split <;> simp [Rns.value_toCoeffIn]
  simp only [value_withTemp, value_onComponents, value_all, step]
  rfl

end RCt

theorem LRns.value_fusedMulAddIn (w : ℕ) (ms : List Modulus) (s : LRns) (a b : RPoly) :
    value (fusedMulAddIn w ms s a b) = fusedMulAdd w ms s a b := by
  unfold fusedMulAddIn fusedMulAdd
  split
  · rfl
  split
  · rfl
  simp only [value_withTemp]
  congr 1
  funext c0
  split
  · rfl
  rw [value_andThen]
  split <;> simp

namespace LCt

theorem value_fusedAbsorbLazilyIn (w : ℕ) (x : LCt) (y : RCt) (pt : RPoly) :
    value (fusedAbsorbLazilyIn w x y pt) = fusedAbsorbLazily w x y pt := by
  unfold fusedAbsorbLazilyIn fusedAbsorbLazily
  split
  · rfl
  split
  · rfl
  split
  · rfl
  simp only [value_withTemp]
  congr 1
  funext v
  split
  · next h => rw [h]; simp
  · next z zs h =>
    rw [h, value_map (fun z => ({ x with lazy := z :: zs } : LCt)), LRns.value_fusedMulAddIn]
    rfl

theorem value_mergeLoopIn (ms : List Modulus) (cs : List RPoly) (zs : List LRns) :
    value (mergeLoopIn ms cs zs) = mergeLoop ms cs zs := by
  induction zs generalizing cs with
  | nil => cases cs <;> rfl
  | cons z zs ih =>
    cases cs with
    | nil =>
      simp only [mergeLoopIn, mergeLoop, value_withTemp, ← ih]
      congr 1
      funext e
      exact value_map (fun r => e :: r) _
    | cons c cs =>
      simp only [mergeLoopIn, mergeLoop, value_withTemp, ← ih]
      congr 1
      funext e
      rw [← Rns.value_addIn]
      rcases Rns.addIn ms c e with ⟨y, o⟩
      cases o <;> simp only [value_ok, value_err, value_ub, Outcome.bind_ok, Outcome.bind_err, Outcome.bind_ub]
      exact value_map (fun r => y :: r) _

theorem value_mergeIn (x : LCt) : value (mergeIn x) = merge x := by
  unfold mergeIn merge
  split
  · rfl
  · rw [← value_mergeLoopIn]
    rcases mergeLoopIn x.ct.ms x.ct.c x.lazy with ⟨y, o⟩
    cases o <;> rfl

end LCt

theorem Call.value_run (w : ℕ) (x : LCt) (op : Call) : value (op.run w x) = op.result w x := by
  cases op <;> simp only [run, onCt, result, value_map (fun c : RCt => (⟨c, x.lazy⟩ : LCt)), RCt.value_negateIn,
    RCt.value_addIn, RCt.value_subIn, RCt.value_addPlainIn, RCt.value_subPlainIn, RCt.value_absorbIn,
    RCt.value_absorbSimpleIn, RCt.value_absorbRnsIn, RCt.value_absorbIntIn, RCt.value_fusedAbsorbAddIn,
    RCt.value_fusedAbsorbAddWithoutPadIn, LCt.value_fusedAbsorbLazilyIn, LCt.value_mergeIn, RCt.value_setPadIn,
    RCt.value_toNttIn, RCt.value_toCoeffIn, RCt.value_modReduceBgvIn, RCt.value_modReduceBfvIn, Outcome.pure_eq]

end Shell.Rns
