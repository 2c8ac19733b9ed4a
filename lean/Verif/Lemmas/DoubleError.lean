import Verif.Spec.DoubleError
import Verif.Lemmas.Double
/-!
# Rounding errors of the estimates
-/

namespace Shell.DoubleError
open Spec WordCt Rns Rns.Res

/-! ### The operations -/

theorem u_pos : (0 : ℝ) < 1 / 2 ^ 53 := by norm_num

theorem low_pos : (0 : ℝ) < 1 - 1 / 2 ^ 53 := by norm_num

theorem low_le : (1 : ℝ) - 1 / 2 ^ 53 ≤ 1 := by norm_num

theorem high_ge : (1 : ℝ) ≤ 1 + 1 / 2 ^ 53 := by norm_num

section
variable {a b k : ℕ} {x y d e : ℝ}

theorem _root_.Shell.Spec.Within.low (h : Within k x d) : 0 ≤ d := le_trans (mul_nonneg h.1 (pow_nonneg low_pos.le _)) h.2.1

theorem _root_.Shell.Spec.Within.mono (h : Within a x d) (hab : a ≤ b) : Within b x d :=
  ⟨h.1, le_trans (mul_le_mul_of_nonneg_left (pow_le_pow_of_le_one low_pos.le low_le hab) h.1) h.2.1,
    le_trans h.2.2 (mul_le_mul_of_nonneg_left (pow_le_pow_right₀ high_ge hab) h.1)⟩

theorem within_refl (h : 0 ≤ x) : Within 0 x x := ⟨h, by simp, by simp⟩

/-- One more rounding. -/
theorem _root_.Shell.Spec.Within.rnd (h : Within k x d) : Within (k + 1) x (Double.rnd d) := by
  obtain ⟨h1, h2⟩ := Double.rnd_bounds (x := d) (Within.low h)
  refine ⟨h.1, ?_, ?_⟩
  · rw [pow_succ, ← mul_assoc]
    have := mul_le_mul_of_nonneg_right h.2.1 low_pos.le
    linarith
  · rw [pow_succ, ← mul_assoc]
    have := mul_le_mul_of_nonneg_right h.2.2 (zero_le_one.trans high_ge)
    linarith

theorem _root_.Shell.Spec.Within.add (h : Within k x d) (h' : Within k y e) : Within k (x + y) (d + e) :=
  ⟨add_nonneg h.1 h'.1, by rw [add_mul]; exact add_le_add h.2.1 h'.2.1, by rw [add_mul]; exact add_le_add h.2.2 h'.2.2⟩

theorem _root_.Shell.Spec.Within.mul (h : Within a x d) (h' : Within b y e) : Within (a + b) (x * y) (d * e) := by
  refine ⟨mul_nonneg h.1 h'.1, ?_, ?_⟩
  · rw [pow_add, mul_mul_mul_comm]
    exact mul_le_mul h.2.1 h'.2.1 (mul_nonneg h'.1 (pow_nonneg low_pos.le _)) (Within.low h)
  · rw [pow_add, mul_mul_mul_comm]
    exact mul_le_mul h.2.2 h'.2.2 (Within.low h') (mul_nonneg h.1 (pow_nonneg (zero_le_one.trans high_ge) _))

theorem _root_.Shell.Spec.Within.inv (h : Within k x d) : Within (2 * k) x⁻¹ d⁻¹ := by
  refine ⟨inv_nonneg.mpr h.1, ?_, ?_⟩
  all_goals rcases h.1.eq_or_lt with h0 | h0
  · subst h0
    have : d = 0 := le_antisymm (by simpa using h.2.2) (by simpa using h.2.1)
    simp [this]
  · have hd : 0 < d := lt_of_lt_of_le (mul_pos h0 (pow_pos low_pos _)) h.2.1
    rw [inv_mul_eq_div, div_le_iff₀ h0, mul_comm d⁻¹, ← div_eq_mul_inv, le_div_iff₀ hd]
    have h1 := mul_le_mul_of_nonneg_left h.2.2 (pow_nonneg low_pos.le (2 * k))
    refine h1.trans ?_
    have h2 : ((1 : ℝ) - 1 / 2 ^ 53) ^ (2 * k) * (1 + 1 / 2 ^ 53) ^ k ≤ 1 := by
      rw [pow_mul, ← mul_pow]
      exact pow_le_one₀ (by norm_num) (by norm_num)
    nlinarith
  · subst h0
    have : d = 0 := le_antisymm (by simpa using h.2.2) (by simpa using h.2.1)
    simp [this]
  · have hd : 0 < d := lt_of_lt_of_le (mul_pos h0 (pow_pos low_pos _)) h.2.1
    rw [inv_mul_eq_div, le_div_iff₀ h0, mul_comm d⁻¹, ← div_eq_mul_inv, div_le_iff₀ hd]
    have h1 := mul_le_mul_of_nonneg_left h.2.1 (pow_nonneg (zero_le_one.trans high_ge) (2 * k))
    refine le_trans ?_ h1
    have h2 : 1 ≤ ((1 : ℝ) + 1 / 2 ^ 53) ^ (2 * k) * (1 - 1 / 2 ^ 53) ^ k := by
      rw [pow_mul, ← mul_pow]
      exact one_le_pow₀ (by norm_num)
    nlinarith

theorem _root_.Shell.Spec.Within.sqrt (h : Within k x d) : Within k (√x) (√d) := by
  refine ⟨Real.sqrt_nonneg _, ?_, ?_⟩
  · refine Real.le_sqrt_of_sq_le ?_
    rw [mul_pow, Real.sq_sqrt h.1, ← pow_mul]
    refine le_trans (mul_le_mul_of_nonneg_left ?_ h.1) h.2.1
    exact pow_le_pow_of_le_one low_pos.le low_le (by omega)
  · rw [Real.sqrt_le_left (mul_nonneg (Real.sqrt_nonneg _) (pow_nonneg (zero_le_one.trans high_ge) _)), mul_pow,
      Real.sq_sqrt h.1, ← pow_mul]
    exact h.2.2.trans (mul_le_mul_of_nonneg_left (pow_le_pow_right₀ high_ge (by omega)) h.1)

end

/-! ### Estimates together with their counts -/

/-- An estimate in exact arithmetic, in `double` arithmetic, and the number of roundings. -/
structure Est (c : ℕ) (cast : ℕ → ℝ) (hc : Converts c cast) where
  count : Count c
  real : ℝ
  dbl : Dbl cast
  ok : Within count.n real dbl.val

section
variable {c : ℕ} {cast : ℕ → ℝ} {hc : Converts c cast}

noncomputable instance : Add (Est c cast hc) := ⟨fun a b => ⟨a.count + b.count, a.real + b.real, a.dbl + b.dbl,
  ((a.ok.mono (le_max_left _ _)).add (b.ok.mono (le_max_right _ _))).rnd⟩⟩

noncomputable instance : Mul (Est c cast hc) := ⟨fun a b => ⟨a.count * b.count, a.real * b.real, a.dbl * b.dbl,
  (a.ok.mul b.ok).rnd⟩⟩

noncomputable instance : Div (Est c cast hc) := ⟨fun a b => ⟨a.count / b.count, a.real / b.real, a.dbl / b.dbl,
  by
    have := (a.ok.mul b.ok.inv).rnd
    rw [← div_eq_mul_inv, ← div_eq_mul_inv] at this
    exact this⟩⟩

noncomputable instance : NatCast (Est c cast hc) := ⟨fun n => ⟨n, n, n, by
  show Within (if n < 2 ^ 53 then 0 else c) n (cast n)
  split_ifs with h
  · rw [hc.1 n h]; exact within_refl (Nat.cast_nonneg n)
  · exact hc.2 n⟩⟩

noncomputable instance : Sqrt (Est c cast hc) := ⟨fun a => ⟨sqrt a.count, sqrt a.real, sqrt a.dbl, a.ok.sqrt.rnd⟩⟩

noncomputable instance : Zero (Est c cast hc) := ⟨⟨0, 0, 0, within_refl le_rfl⟩⟩

end

section
variable {c : ℕ} (a b : Count c)

theorem add_n : (a + b).n = max a.n b.n + 1 := rfl
theorem mul_n : (a * b).n = a.n + b.n + 1 := rfl
theorem div_n : (a / b).n = a.n + 2 * b.n + 1 := rfl
theorem sqrt_n : (sqrt a).n = a.n + 1 := rfl
theorem cast_n (n : ℕ) : (n : Count c).n = if n < 2 ^ 53 then 0 else c := rfl
theorem cast_small {n : ℕ} (h : n < 2 ^ 53) : (n : Count c).n = 0 := if_pos h
theorem cast_le (n : ℕ) : (n : Count c).n ≤ c := by rw [cast_n]; split_ifs <;> omega

end

/-! ### Change of arithmetic -/

/-- A map that respects the arithmetic. -/
structure IsHom {E F : Type} [Add E] [Mul E] [Div E] [NatCast E] [Add F] [Mul F] [Div F] [NatCast F] (φ : E → F) :
    Prop where
  add : ∀ a b, φ (a + b) = φ a + φ b
  mul : ∀ a b, φ (a * b) = φ a * φ b
  div : ∀ a b, φ (a / b) = φ a / φ b
  cast : ∀ n : ℕ, φ n = n

section
variable {c : ℕ} {cast : ℕ → ℝ} {hc : Converts c cast}

theorem hom_count : IsHom (Est.count (c := c) (cast := cast) (hc := hc)) :=
  ⟨fun _ _ => rfl, fun _ _ => rfl, fun _ _ => rfl, fun _ => rfl⟩

theorem hom_real : IsHom (Est.real (c := c) (cast := cast) (hc := hc)) :=
  ⟨fun _ _ => rfl, fun _ _ => rfl, fun _ _ => rfl, fun _ => rfl⟩

theorem hom_dbl : IsHom (Est.dbl (c := c) (cast := cast) (hc := hc)) :=
  ⟨fun _ _ => rfl, fun _ _ => rfl, fun _ _ => rfl, fun _ => rfl⟩

end

/-- A map of the object of a call. -/
def mapRes {α β : Type} (f : α → β) (r : Res α) : Res β := (f r.1, r.2)

section
variable {α β γ : Type}

theorem andThen_mapRes (f : α → β) (r : Res α) {g : α → Res α} {g' : β → Res β} (h : ∀ a, g' (f a) = mapRes f (g a)) :
    (mapRes f r).andThen g' = mapRes f (r.andThen g) := by
  obtain ⟨a, o⟩ := r
  cases o <;> simp [mapRes, Res.andThen, h]

theorem value_mapRes (f : α → β) (r : Res α) : (mapRes f r).value = f <$> r.value := by
  obtain ⟨a, o⟩ := r
  cases o <;> rfl

theorem withTemp_mapRes (f : α → β) (a : α) (o : Outcome γ) {g : γ → Res α} {g' : γ → Res β}
    (h : ∀ b, g' b = mapRes f (g b)) : withTemp (f a) o g' = mapRes f (withTemp a o g) := by
  cases o <;> simp [mapRes, withTemp, h]

theorem withTemp_map {δ : Type} (f : α → β) (a : α) (φ : γ → δ) (o : Outcome γ) {g : γ → Res α} {g' : δ → Res β}
    (h : ∀ b, g' (φ b) = mapRes f (g b)) : withTemp (f a) (φ <$> o) g' = mapRes f (withTemp a o g) := by
  cases o <;> simp [mapRes, withTemp, h]

theorem rd_map (f : α → β) (v : List α) (i : ℕ) : rd (v.map f) i = f <$> rd v i := by
  unfold rd
  rw [List.getElem?_map]
  cases v[i]? <;> rfl

theorem wr_map (f : α → β) (v : List α) (i : ℕ) (x : α) : wr (v.map f) i (f x) = List.map f <$> wr v i x := by
  unfold wr
  rw [List.length_map]
  split_ifs
  · rw [Outcome.map_ok, List.map_set]
  · rfl

theorem map_bind (f : β → γ) (o : Outcome α) (g : α → Outcome β) : f <$> (o >>= g) = o >>= fun a => f <$> g a := by
  cases o <;> rfl

theorem bind_map (f : α → β) (o : Outcome α) (g : β → Outcome γ) : (f <$> o) >>= g = o >>= fun a => g (f a) := by
  cases o <;> rfl

theorem loop_map (f : α → β) {g : ℕ → α → Outcome α} {g' : ℕ → β → Outcome β} (h : ∀ i a, g' i (f a) = f <$> g i a)
    (n : ℕ) (a : α) : loop n g' (f a) = f <$> loop n g a := by
  unfold loop
  generalize 0 = i
  induction n generalizing i a with
  | zero => rfl
  | succ n ih => rw [loopFrom, loopFrom, h, bind_map, map_bind]; simp only [ih]

end

section
variable {E F : Type} [Add E] [Mul E] [Div E] [NatCast E] [Add F] [Mul F] [Div F] [NatCast F] {φ : E → F}

theorem onC_map (x : Obj E) (r : Res (List (List ℕ))) : onC (x.map φ) r = mapRes (Obj.map φ) (onC x r) := rfl

theorem onLazy_map (x : Obj E) (r : Res (List Lazy.LPoly)) : onLazy (x.map φ) r = mapRes (Obj.map φ) (onLazy x r) := rfl

theorem reject_map (x : Obj E) : reject (x.map φ) = mapRes (Obj.map φ) (reject x) := rfl

theorem done_map {e : E} {e' : F} (h : φ e = e') (x : Obj E) : done e' (x.map φ) = mapRes (Obj.map φ) (done e x) := by
  subst h; rfl

theorem onC_done {e : E} {e' : F} (h : φ e = e') (x : Obj E) (r : Res (List (List ℕ))) :
    (onC (x.map φ) r).andThen (done e') = mapRes (Obj.map φ) ((onC x r).andThen (done e)) := by
  rw [onC_map]
  exact andThen_mapRes _ _ (done_map h)

variable (H : IsHom φ) (p : MParams) (q : Ntt.NttParams) (B : E)
include H

theorem addIn_map (x y : Obj E) : WordCt.addIn p (x.map φ) (y.map φ) = mapRes (Obj.map φ) (WordCt.addIn p x y) := by
  unfold WordCt.addIn
  split_ifs
  · rfl
  · contradiction
  · contradiction
  · exact onC_done (H.add _ _) x _

theorem subIn_map (x y : Obj E) : WordCt.subIn p (x.map φ) (y.map φ) = mapRes (Obj.map φ) (WordCt.subIn p x y) := by
  unfold WordCt.subIn
  split_ifs
  · rfl
  · contradiction
  · contradiction
  · exact onC_done (H.add _ _) x _

theorem absorbIn_map (x : Obj E) (f : List ℕ) : absorbIn p (φ B) (x.map φ) f = mapRes (Obj.map φ) (absorbIn p B x f) :=
  onC_done (H.mul _ _) x _

theorem absorbScalarIn_map (x : Obj E) (s : ℕ) :
    absorbScalarIn p (x.map φ) s = mapRes (Obj.map φ) (absorbScalarIn p x s) :=
  onC_done (by rw [H.mul, H.cast]; rfl) x _

theorem fusedIn_map (x a : Obj E) (b : List ℕ) :
    fusedIn p (φ B) (x.map φ) (a.map φ) b = mapRes (Obj.map φ) (fusedIn p B x a b) := by
  unfold fusedIn
  split_ifs
  · rfl
  · contradiction
  · contradiction
  · exact onC_done (by rw [H.add, H.mul]; rfl) x _

theorem fusedConstIn_map (x a : Obj E) (b : Poly.Const) :
    fusedConstIn p (φ B) (x.map φ) (a.map φ) b = mapRes (Obj.map φ) (fusedConstIn p B x a b) := by
  unfold fusedConstIn
  split_ifs
  · rfl
  · contradiction
  · contradiction
  · exact onC_done (by rw [H.add, H.mul]; rfl) x _

omit H in
theorem lazily_map (z : Obj E) (as : List (List ℕ)) (b : List ℕ) :
    (if (z.map φ).lazy.length = 0 then lazyCreate p b (z.map φ) as
      else (lazyPad p (z.map φ) as).andThen fun x => onLazy x (lazyLoop p b x.lazy as)) =
    mapRes (Obj.map φ) (if z.lazy.length = 0 then lazyCreate p b z as
      else (lazyPad p z as).andThen fun x => onLazy x (lazyLoop p b x.lazy as)) := by
  by_cases h3 : z.lazy.length = 0
  · rw [if_pos h3, if_pos (show (z.map φ).lazy.length = 0 from h3)]; rfl
  rw [if_neg h3, if_neg (show ¬ (z.map φ).lazy.length = 0 from h3)]
  have e2 : lazyPad p (z.map φ) as = mapRes (Obj.map φ) (lazyPad p z as) := by
    unfold lazyPad
    by_cases h4 : as.length > z.lazy.length
    · rw [if_pos h4, if_pos (show as.length > (z.map φ).lazy.length from h4)]
      exact withTemp_mapRes _ _ _ fun b => rfl
    · rw [if_neg h4, if_neg (show ¬ as.length > (z.map φ).lazy.length from h4)]; rfl
  rw [e2]
  exact andThen_mapRes _ _ fun _ => rfl

theorem fusedLazilyIn_map (x a : Obj E) (b : List ℕ) :
    fusedLazilyIn p (φ B) (x.map φ) (a.map φ) b = mapRes (Obj.map φ) (fusedLazilyIn p B x a b) := by
  unfold fusedLazilyIn
  by_cases h1 : x.power ≠ a.power
  · rw [if_pos h1, if_pos (show (x.map φ).power ≠ (a.map φ).power from h1)]; rfl
  rw [if_neg h1, if_neg (show ¬ (x.map φ).power ≠ (a.map φ).power from h1)]
  by_cases h2 : a.c.length = 0
  · rw [if_pos h2, if_pos (show (a.map φ).c.length = 0 from h2)]; rfl
  rw [if_neg h2, if_neg (show ¬ (a.map φ).c.length = 0 from h2)]
  have e : ({ x.map φ with error := (x.map φ).error + (a.map φ).error * φ B } : Obj F) =
      ({ x with error := x.error + a.error * B } : Obj E).map φ := by
    simp only [Obj.map, H.add, H.mul]
  have := lazily_map (φ := φ) p { x with error := x.error + a.error * B } a.c b
  rw [← e] at this
  exact this

omit H in
theorem mergeIn_map (x : Obj E) : mergeIn p (x.map φ) = mapRes (Obj.map φ) (mergeIn p x) := by
  unfold mergeIn
  by_cases h : x.lazy = []
  · rw [if_pos h, if_pos (show (x.map φ).lazy = [] from h)]; rfl
  rw [if_neg h, if_neg (show ¬ (x.map φ).lazy = [] from h), onC_map]
  exact andThen_mapRes _ _ fun _ => rfl

theorem mul_map (x y : Obj E) : WordCt.mul p (x.map φ) (y.map φ) = Obj.map φ <$> WordCt.mul p x y := by
  unfold WordCt.mul
  by_cases h : x.power ≠ y.power
  · rw [if_pos h, if_pos (show (x.map φ).power ≠ (y.map φ).power from h)]; rfl
  rw [if_neg h, if_neg (show ¬ (x.map φ).power ≠ (y.map φ).power from h)]
  by_cases h : x.c.length ≤ 0 ∨ y.c.length ≤ 0
  · rw [if_pos h, if_pos (show (x.map φ).c.length ≤ 0 ∨ (y.map φ).c.length ≤ 0 from h)]; rfl
  rw [if_neg h, if_neg (show ¬ ((x.map φ).c.length ≤ 0 ∨ (y.map φ).c.length ≤ 0) from h)]
  by_cases h : (x.c.headD []).length ≤ 0 ∨ (y.c.headD []).length ≤ 0
  · rw [if_pos h, if_pos (show ((x.map φ).c.headD []).length ≤ 0 ∨ ((y.map φ).c.headD []).length ≤ 0 from h)]; rfl
  rw [if_neg h, if_neg (show ¬ (((x.map φ).c.headD []).length ≤ 0 ∨ ((y.map φ).c.headD []).length ≤ 0) from h),
    map_bind]
  refine congrArg _ (funext fun r => ?_)
  show Outcome.ok _ = Outcome.ok _
  simp only [Obj.map, H.mul]

omit H in
theorem substitute_map (x : Obj E) (k : ℤ) :
    WordCt.substitute q (x.map φ) k = Obj.map φ <$> WordCt.substitute q x k := by
  unfold WordCt.substitute
  rw [map_bind]
  refine congrArg _ (funext fun r => ?_)
  rw [map_bind]
  refine congrArg _ (funext fun r => ?_)
  by_cases h : x.c.length = 0
  · rw [if_pos h, if_pos (show (x.map φ).c.length = 0 from h)]; rfl
  rw [if_neg h, if_neg (show ¬ (x.map φ).c.length = 0 from h), map_bind]
  refine congrArg _ (funext fun r => ?_)
  split_ifs <;> rfl

theorem switchModulus_map (p' : MParams) (q' : Ntt.NttParams) (b : E) (x : Obj E) (t : ℕ) :
    switchModulus p p' q q' (φ b) (x.map φ) t = Obj.map φ <$> switchModulus p p' q q' b x t := by
  unfold switchModulus
  split_ifs
  · rfl
  · rfl
  rw [map_bind]
  refine congrArg _ (funext fun r => ?_)
  show Outcome.ok _ = Outcome.ok _
  simp only [Obj.map, H.mul, H.add, H.div, H.cast]

/-- The operands of a call with other estimates. -/
def callMap (f : E → F) : WordCt.Call E → WordCt.Call F
  | .add y => .add (y.map f)
  | .sub y => .sub (y.map f)
  | .absorb g => .absorb g
  | .absorbScalar s => .absorbScalar s
  | .fused a b => .fused (a.map f) b
  | .fusedConst a b => .fusedConst (a.map f) b
  | .fusedLazily a b => .fusedLazily (a.map f) b
  | .merge => .merge

theorem callRun_map (x : Obj E) (op : WordCt.Call E) :
    (callMap φ op).run p (φ B) (x.map φ) = mapRes (Obj.map φ) (op.run p B x) := by
  cases op with
  | add y => exact addIn_map H p x y
  | sub y => exact subIn_map H p x y
  | absorb f => exact absorbIn_map H p B x f
  | absorbScalar s => exact absorbScalarIn_map H p x s
  | fused a b => exact fusedIn_map H p B x a b
  | fusedConst a b => exact fusedConstIn_map H p B x a b
  | fusedLazily a b => exact fusedLazilyIn_map H p B x a b
  | merge => exact mergeIn_map p x

omit H in
theorem component_map (x : Obj E) (i : ℤ) : component (x.map φ) i = component x i := rfl

omit H in
theorem applyRest_map (x : Obj E) (first : ℕ) (ms : List Word.Part) (i : ℕ) (r : List ℕ × List ℕ) :
    applyRest p q (x.map φ) first ms i r = applyRest p q x first ms i r := by
  induction ms generalizing i r with
  | nil => rfl
  | cons m ms ih => simp only [applyRest, component_map, ih]

theorem relinearize_map (rk : Word.RKey) (bR : ℕ → ℕ → Outcome E) (x : Obj E) :
    relinearize rk (fun a b => φ <$> bR a b) (x.map φ) = Obj.map φ <$> relinearize rk bR x := by
  unfold relinearize
  by_cases h : (x.c.length : ℤ) > rk.numParts
  · rw [if_pos h, if_pos (show ((x.map φ).c.length : ℤ) > rk.numParts from h)]; rfl
  rw [if_neg h, if_neg (show ¬ ((x.map φ).c.length : ℤ) > rk.numParts from h)]
  simp only [component_map, applyRest_map, map_bind, bind_map]
  simp only [Obj.map, H.add, Outcome.map_ok, pure]

theorem galoisApply_map (rk : Word.RKey) (bR : ℕ → ℕ → Outcome E) (x : Obj E) :
    galoisApply rk (fun a b => φ <$> bR a b) (x.map φ) = Obj.map φ <$> galoisApply rk bR x := by
  unfold galoisApply
  by_cases h : x.power ≠ rk.power
  · rw [if_pos h, if_pos (show (x.map φ).power ≠ rk.power from h)]; rfl
  rw [if_neg h, if_neg (show ¬ (x.map φ).power ≠ rk.power from h)]
  exact relinearize_map H rk bR x

omit H in
theorem auxStep_map (ak : Word.AKey) (x : Obj E) (first : ℕ) : auxStep ak (x.map φ) first = auxStep ak x first := rfl

theorem auxApply_map (ak : Word.AKey) (modulus : ℕ) (bA : Option (ℕ → ℕ → E)) (x : Obj E) :
    auxApply ak modulus (bA.map fun b i j => φ (b i j)) (x.map φ) = Obj.map φ <$> auxApply ak modulus bA x := by
  unfold auxApply
  dsimp only
  by_cases h : modulus ≠ ak.p.modulus
  · rw [if_pos h, if_pos h]; rfl
  rw [if_neg h, if_neg h]
  by_cases h : x.c.length ≠ (if ak.power = 1 then ak.keys.length + 2 else ak.keys.length + 1)
  · rw [if_pos h, if_pos (show (x.map φ).c.length ≠ _ from h)]; rfl
  rw [if_neg h, if_neg (show ¬ (x.map φ).c.length ≠ _ from h)]
  cases bA with
  | none => rfl
  | some bA =>
    simp only [Option.map_some, component_map, auxStep_map, map_bind]
    simp only [Obj.map, H.add, Outcome.map_ok, pure]

theorem auxGaloisApply_map (ak : Word.AKey) (modulus : ℕ) (bA : Option (ℕ → ℕ → E)) (x : Obj E) :
    auxGaloisApply ak modulus (bA.map fun b i j => φ (b i j)) (x.map φ) = Obj.map φ <$> auxGaloisApply ak modulus bA x := by
  unfold auxGaloisApply
  by_cases h : x.power ≠ ak.power
  · rw [if_pos h, if_pos (show (x.map φ).power ≠ ak.power from h)]; rfl
  rw [if_neg h, if_neg (show ¬ (x.map φ).power ≠ ak.power from h)]
  exact auxApply_map H ak modulus bA x

end

/-! ### Programs -/

section
open Store
variable {E F : Type} [Add E] [Mul E] [Div E] [NatCast E] [Add F] [Mul F] [Div F] [NatCast F] {φ : E → F}

theorem newPoly_map (m : Mem E) (o : Outcome (List ℕ)) : newPoly (m.map φ) o = mapRes (Mem.map φ) (newPoly m o) :=
  withTemp_mapRes _ _ _ fun _ => rfl

theorem newCt_map (m : Mem E) (o : Outcome (Obj E)) :
    newCt (m.map φ) (Obj.map φ <$> o) = mapRes (Mem.map φ) (newCt m o) :=
  withTemp_map _ _ _ _ fun x => by simp [mapRes, Mem.map]

theorem onPoly_map (m : Mem E) (i : ℕ) (f : List ℕ → Res (List ℕ)) :
    onPoly (m.map φ) i f = mapRes (Mem.map φ) (onPoly m i f) :=
  withTemp_mapRes _ _ _ fun _ => rfl

theorem rd_cts (m : Mem E) (a : ℕ) : rd (m.map φ).cts a = Obj.map φ <$> rd m.cts a := rd_map _ _ _

theorem onCt_map (m : Mem E) (a : ℕ) {f : Obj E → Res (Obj E)} {g : Obj F → Res (Obj F)}
    (h : ∀ x, g (x.map φ) = mapRes (Obj.map φ) (f x)) : onCt (m.map φ) a g = mapRes (Mem.map φ) (onCt m a f) := by
  unfold onCt
  rw [rd_cts]
  refine withTemp_map _ _ _ _ fun x => ?_
  rw [h]
  simp [mapRes, Mem.map, List.map_set]

theorem operands_map (e : Store.Env E) (m : Mem E) (op : CtOp) :
    op.operands (e.map φ) (m.map φ) = callMap φ <$> op.operands e m := by
  cases op <;> simp only [CtOp.operands, rd_cts, map_bind, bind_map] <;> rfl

variable (H : IsHom φ)
include H

theorem call_map (e : Store.Env E) (m : Mem E) (c : Store.Call E) :
    (c.map φ).run (e.map φ) (m.map φ) = mapRes (Mem.map φ) (c.run e m) := by
  cases c <;> simp only [Store.Call.map, Store.Call.run]
  case zero => exact newPoly_map _ _
  case make => exact newPoly_map _ _
  case ofCoeffs => exact newPoly_map _ _
  case parse => exact newPoly_map _ _
  case copy => exact newPoly_map _ _
  case negate => exact withTemp_mapRes _ _ _ fun _ => newPoly_map _ _
  case negateIn => exact onPoly_map _ _ _
  case binary => exact withTemp_mapRes _ _ _ fun _ => withTemp_mapRes _ _ _ fun _ => newPoly_map _ _
  case binaryIn => exact withTemp_mapRes _ _ _ fun _ => onPoly_map _ _ _
  case scale => exact withTemp_mapRes _ _ _ fun _ => newPoly_map _ _
  case scaleIn => exact onPoly_map _ _ _
  case mulConstant =>
    exact withTemp_mapRes _ _ _ fun _ => withTemp_mapRes _ _ _ fun _ => withTemp_mapRes _ _ _ fun _ => newPoly_map _ _
  case mulConstantIn => exact withTemp_mapRes _ _ _ fun _ => withTemp_mapRes _ _ _ fun _ => onPoly_map _ _ _
  case fusedIn => exact withTemp_mapRes _ _ _ fun _ => withTemp_mapRes _ _ _ fun _ => onPoly_map _ _ _
  case fusedConstIn =>
    exact withTemp_mapRes _ _ _ fun _ => withTemp_mapRes _ _ _ fun _ => withTemp_mapRes _ _ _ fun _ => onPoly_map _ _ _
  case substitute => exact withTemp_mapRes _ _ _ fun _ => newPoly_map _ _
  case component a i =>
    rw [rd_cts]
    exact withTemp_map _ _ _ _ fun _ => newPoly_map _ _
  case ctMake is power error =>
    rw [← newCt_map, map_bind]
    rfl
  case ctCopy a => rw [rd_cts, newCt_map]
  case ctNew a op =>
    rw [rd_cts]
    refine withTemp_map _ _ _ _ fun x => ?_
    rw [operands_map]
    refine withTemp_map _ _ _ _ fun c => ?_
    rw [show (e.map φ).bPlain = φ e.bPlain from rfl, show (e.map φ).p = e.p from rfl, callRun_map H, value_mapRes,
      newCt_map]
  case ctIn a op =>
    rw [operands_map]
    exact withTemp_map _ _ _ _ fun c => onCt_map _ _ fun x => callRun_map H _ _ _ _
  case ctMul a b =>
    rw [rd_cts]
    refine withTemp_map _ _ _ _ fun x => ?_
    rw [rd_cts]
    refine withTemp_map _ _ _ _ fun y => ?_
    rw [show (e.map φ).p = e.p from rfl, mul_map H, newCt_map]
  case ctSubstitute a power =>
    rw [rd_cts]
    refine withTemp_map _ _ _ _ fun x => ?_
    rw [show (e.map φ).q = e.q from rfl, substitute_map, newCt_map]
  case setError a error => exact onCt_map _ _ fun _ => rfl

theorem keyed_map (e : Store.Env E) (bR : ℕ → ℕ → Outcome E) (keys : List Word.RKey) (m : Mem E) (c : KeyedCall E) :
    (c.map φ).run (e.map φ) (fun a b => φ <$> bR a b) keys (m.map φ) = mapRes (Mem.map φ) (c.run e bR keys m) := by
  cases c <;> simp only [KeyedCall.map, KeyedCall.run]
  case plain c => exact call_map H e m c
  case relinearize a r =>
    rw [rd_cts]
    refine withTemp_map _ _ _ _ fun x => withTemp_mapRes _ _ _ fun k => ?_
    rw [relinearize_map H, newCt_map]
  case galois a r =>
    rw [rd_cts]
    refine withTemp_map _ _ _ _ fun x => withTemp_mapRes _ _ _ fun k => ?_
    rw [galoisApply_map H, newCt_map]

theorem runKeyed_map (e : Store.Env E) (bR : ℕ → ℕ → Outcome E) (keys : List Word.RKey) (m : Mem E)
    (cs : List (KeyedCall E)) :
    runKeyed (e.map φ) (fun a b => φ <$> bR a b) keys (m.map φ) (cs.map (KeyedCall.map φ)) =
      ((runKeyed e bR keys m cs).1, (runKeyed e bR keys m cs).2.map φ) := by
  induction cs generalizing m with
  | nil => rfl
  | cons c cs ih =>
    rw [List.map_cons, runKeyed, keyed_map H, show (mapRes (Mem.map φ) (c.run e bR keys m)).1 =
      (c.run e bR keys m).1.map φ from rfl, ih]
    rfl

end

/-! ### Oblivious expansion -/

section
open WordExpand
variable {E F : Type} [Add E] [Mul E] [Div E] [NatCast E] [Zero E] [Add F] [Mul F] [Div F] [NatCast F] [Zero F] {φ : E → F}

theorem mapM_map {α β γ δ : Type} {f : α → β} {g : γ → δ} {F : α → Outcome γ} {G : β → Outcome δ}
    (h : ∀ x, G (f x) = g <$> F x) (l : List α) : (l.map f).mapM G = List.map g <$> l.mapM F := by
  induction l with
  | nil => rfl
  | cons a l ih => simp only [List.map_cons, List.mapM_cons, h, ih, map_bind, bind_map]; rfl

variable (H : IsHom φ) (h0 : φ 0 = 0) {sub : WordExpand.Sub E} {sub' : WordExpand.Sub F} (hs : ∀ x k, sub' (x.map φ) k = Obj.map φ <$> sub x k)
include H

theorem absorbMonomial_map (e : WordExpand.Env E) (x : Obj E) (f : List ℕ) :
    absorbMonomial (e.map φ) (x.map φ) f = Obj.map φ <$> absorbMonomial e x f := by
  unfold absorbMonomial
  rw [show (e.map φ).bPlain = φ e.bPlain from rfl, show (e.map φ).p = e.p from rfl, absorbIn_map H, value_mapRes,
    bind_map, map_bind]
  rfl

include hs

theorem expandInner_map (e : WordExpand.Env E) (n j : ℕ) (f : List ℕ) (k : ℕ) (r : List (Obj E)) :
    expandInner (e.map φ) sub' n j f k (r.map (Obj.map φ)) = List.map (Obj.map φ) <$> expandInner e sub n j f k r := by
  unfold expandInner
  simp only [rd_map, map_bind, bind_map, hs, show (e.map φ).p = e.p from rfl, addIn_map H, subIn_map H, value_mapRes,
    wr_map, absorbMonomial_map H]

theorem expandOuter_map (e : WordExpand.Env E) (n j : ℕ) (r : List (Obj E)) :
    expandOuter (e.map φ) sub' n j (r.map (Obj.map φ)) = List.map (Obj.map φ) <$> expandOuter e sub n j r := by
  unfold expandOuter
  simp only [map_bind]
  refine congrArg _ (funext fun m => congrArg _ (funext fun a => ?_))
  exact loop_map _ (fun i r => expandInner_map H hs e n j a i r) _ _

include h0

theorem expandCiphertext_map (e : WordExpand.Env E) (levels : ℕ) (x : Obj E) :
    expandCiphertext (e.map φ) sub' levels (x.map φ) = List.map (Obj.map φ) <$> expandCiphertext e sub levels x := by
  unfold expandCiphertext
  rw [map_bind]
  refine congrArg _ (funext fun c0 => ?_)
  rw [show (e.map φ).q = e.q from rfl]
  split_ifs
  · rfl
  · rfl
  · have : (List.replicate (2 ^ levels) ({ c := [], power := 1, error := 0 } : Obj F)) =
        (List.replicate (2 ^ levels) ({ c := [], power := 1, error := 0 } : Obj E)).map (Obj.map φ) := by
      rw [List.map_replicate]
      simp only [Obj.map, h0]
    rw [this, wr_map, map_bind, bind_map]
    refine congrArg _ (funext fun r => ?_)
    exact loop_map _ (fun i r => expandOuter_map H hs e _ i r) _ _

theorem obliviousExpand_map (e : WordExpand.Env E) (cts : List (Obj E)) (levels outLen : ℤ) :
    obliviousExpand (e.map φ) sub' (cts.map (Obj.map φ)) levels outLen =
      List.map (Obj.map φ) <$> obliviousExpand e sub cts levels outLen := by
  unfold obliviousExpand
  simp only [List.length_map]
  split_ifs
  · rfl
  · rfl
  · rfl
  · rfl
  · rw [mapM_map (fun x => expandCiphertext_map H h0 hs e levels.toNat x), bind_map, map_bind]
    refine congrArg _ (funext fun parts => ?_)
    rw [← List.map_flatten, List.length_map]
    split_ifs
    · rw [Outcome.map_ok, List.map_take]
    · rfl
    · rfl

omit h0 hs

theorem keysSub_map (q : Ntt.NttParams) (bR : ℕ → ℕ → Outcome E) (keys : List Word.RKey) (x : Obj E) (k : ℤ) :
    keysSub q (fun a b => φ <$> bR a b) keys (x.map φ) k = Obj.map φ <$> keysSub q bR keys x k := by
  unfold keysSub
  rw [substitute_map, bind_map, map_bind]
  refine congrArg _ (funext fun s => ?_)
  cases Expand.keyIndex q.numberCoeffs k keys.length with
  | none => rfl
  | some i => simp only [map_bind, galoisApply_map H]

theorem generatorSub_map (q : Ntt.NttParams) (bR : ℕ → ℕ → Outcome E) (key : Word.RKey) (x : Obj E) (k : ℤ) :
    generatorSub q (fun a b => φ <$> bR a b) key (x.map φ) k = Obj.map φ <$> generatorSub q bR key x k := by
  unfold generatorSub
  rw [component_map]
  simp only [map_bind]
  refine congrArg _ (funext fun _ => congrArg _ (funext fun m => ?_))
  refine loop_map _ (fun i r => ?_) _ _
  rw [substitute_map, bind_map, map_bind]
  simp only [galoisApply_map H]

end

section
open Store
variable {E F G : Type} (f : E → F) (g : F → G)

theorem obj_map_map : Obj.map g ∘ Obj.map f = Obj.map (g ∘ f) := rfl

theorem mem_map_map (m : Mem E) : (m.map f).map g = m.map (g ∘ f) := by
  simp [Mem.map, obj_map_map]

theorem keyed_map_map : KeyedCall.map g ∘ KeyedCall.map f = KeyedCall.map (g ∘ f) := by
  funext c
  cases c with
  | plain c => cases c <;> rfl
  | relinearize a r => rfl
  | galois a r => rfl

theorem bR_map_map (bR : ℕ → ℕ → Outcome E) :
    (fun a b => g <$> f <$> bR a b) = fun a b => (g ∘ f) <$> bR a b := by
  funext a b
  cases bR a b <;> rfl

end

section
variable {c : ℕ} {cast : ℕ → ℝ} {hc : Converts c cast}

theorem rounded_map (x : Obj (Est c cast hc)) : Rounded (x.map Est.count) (x.map Est.real) (x.map Est.dbl) :=
  ⟨rfl, rfl, rfl, x.error.ok⟩

theorem roundedAll_map (l : List (Obj (Est c cast hc))) :
    RoundedAll (l.map (Obj.map Est.count)) (l.map (Obj.map Est.real)) (l.map (Obj.map Est.dbl)) := by
  induction l with
  | nil => trivial
  | cons x l ih => exact ⟨rounded_map x, ih⟩

theorem roundedOutcome_map (o : Outcome (Obj (Est c cast hc))) :
    RoundedOutcome (Obj.map Est.count <$> o) (Obj.map Est.real <$> o) (Obj.map Est.dbl <$> o) := by
  cases o with
  | ok x => exact rounded_map x
  | err e => exact ⟨rfl, rfl⟩
  | ub u => exact ⟨rfl, rfl⟩

end

/-! ### How many roundings a program makes -/

section
open Store
variable {E : Type} [Add E] [Mul E] [Div E] [NatCast E]

theorem error_onC (x : Obj E) (r : Res (List (List ℕ))) (e : E) :
    ((onC x r).andThen (done e)).1.error = x.error ∨ ((onC x r).andThen (done e)).1.error = e := by
  unfold Res.andThen onC done
  cases r.2 <;> simp

/-- What one call on a ciphertext can make of its estimate. -/
structure Step (S S' : E → Prop) (B : E) : Prop where
  keep : ∀ a, S a → S' a
  add : ∀ a b, S a → S b → S' (a + b)
  absorb : ∀ a, S a → S' (a * B)
  scale : ∀ a (n : ℕ), S a → S' (a * n)
  fused : ∀ a b, S a → S b → S' (a + b * B)

variable {S S' : E → Prop} {B : E} (hS : Step S S' B) {x a : Obj E} (hx : S x.error) (p : MParams)
include hS

/-- The estimates of the operands of a call. -/
def Operands (S : E → Prop) : WordCt.Call E → Prop
  | .add y => S y.error
  | .sub y => S y.error
  | .fused a _ => S a.error
  | .fusedConst a _ => S a.error
  | .fusedLazily a _ => S a.error
  | _ => True

include hx

theorem step_call (c : WordCt.Call E) (hc : Operands S c) : S' (c.run p B x).1.error := by
  cases c with
  | add y =>
    show S' (WordCt.addIn p x y).1.error
    unfold WordCt.addIn
    split_ifs
    · exact hS.keep _ hx
    · rcases error_onC x _ (x.error + y.error) with h | h
      · rw [h]; exact hS.keep _ hx
      · rw [h]; exact hS.add _ _ hx hc
  | sub y =>
    show S' (WordCt.subIn p x y).1.error
    unfold WordCt.subIn
    split_ifs
    · exact hS.keep _ hx
    · rcases error_onC x _ (x.error + y.error) with h | h
      · rw [h]; exact hS.keep _ hx
      · rw [h]; exact hS.add _ _ hx hc
  | absorb f =>
    show S' (absorbIn p B x f).1.error
    unfold absorbIn
    rcases error_onC x _ (x.error * B) with h | h
    · rw [h]; exact hS.keep _ hx
    · rw [h]; exact hS.absorb _ hx
  | absorbScalar s =>
    show S' (absorbScalarIn p x s).1.error
    unfold absorbScalarIn
    rcases error_onC x _ (x.error * (Mont.exportInt p s : E)) with h | h
    · rw [h]; exact hS.keep _ hx
    · rw [h]; exact hS.scale _ _ hx
  | fused a b =>
    show S' (fusedIn p B x a b).1.error
    unfold fusedIn
    split_ifs
    · exact hS.keep _ hx
    · rcases error_onC x _ (x.error + a.error * B) with h | h
      · rw [h]; exact hS.keep _ hx
      · rw [h]; exact hS.fused _ _ hx hc
  | fusedConst a b =>
    show S' (fusedConstIn p B x a b).1.error
    unfold fusedConstIn
    split_ifs
    · exact hS.keep _ hx
    · rcases error_onC x _ (x.error + a.error * B) with h | h
      · rw [h]; exact hS.keep _ hx
      · rw [h]; exact hS.fused _ _ hx hc
  | fusedLazily a b =>
    show S' (fusedLazilyIn p B x a b).1.error
    unfold fusedLazilyIn
    split_ifs
    · exact hS.keep _ hx
    · exact hS.keep _ hx
    · extract_lets y
      have hy : S' y.error := hS.fused _ _ hx hc
      split_ifs
      · exact hy
      · unfold lazyPad
        split_ifs
        · cases Lazy.createEmpty p (a.c.headD []).length <;> exact hy
        · exact hy
  | merge =>
    show S' (mergeIn p x).1.error
    unfold mergeIn
    split_ifs
    · exact hS.keep _ hx
    · unfold Res.andThen onC
      dsimp only
      split <;> exact hS.keep _ hx

end

section
open Store
variable {c : ℕ}

/-- Every estimate in memory has at most `M` roundings. -/
def AtMost (M : ℕ) (m : Mem (Count c)) : Prop := ∀ x ∈ m.cts, x.error.n ≤ M

variable {M : ℕ} {m : Mem (Count c)}

theorem AtMost.withTemp {α : Type} {o : Outcome α} {f : α → Res (Mem (Count c))} (hm : AtMost M m)
    (h : ∀ a, o = .ok a → AtMost M (f a).1) : AtMost M (Rns.Res.withTemp m o f).1 := by
  cases o with
  | ok a => exact h a rfl
  | err e => exact hm
  | ub u => exact hm

theorem AtMost.newPoly (hm : AtMost M m) (o : Outcome (List ℕ)) : AtMost M (Store.newPoly m o).1 :=
  hm.withTemp fun _ _ => hm

theorem AtMost.newCt (hm : AtMost M m) {o : Outcome (Obj (Count c))} (h : ∀ x, o = .ok x → x.error.n ≤ M) :
    AtMost M (Store.newCt m o).1 :=
  hm.withTemp fun x hx y hy => by
    rcases List.mem_append.mp hy with h1 | h1
    · exact hm y h1
    · rw [List.mem_singleton.mp h1]; exact h x hx

theorem AtMost.onPoly (hm : AtMost M m) (i : ℕ) (f : List ℕ → Res (List ℕ)) : AtMost M (Store.onPoly m i f).1 :=
  hm.withTemp fun _ _ => hm

theorem rd_mem {α : Type} {v : List α} {i : ℕ} {x : α} (h : rd v i = .ok x) : x ∈ v := by
  unfold rd at h
  cases hv : v[i]? with
  | none => rw [hv] at h; cases h
  | some y => rw [hv] at h; cases h; exact List.mem_of_getElem? hv

theorem AtMost.onCt (hm : AtMost M m) (a : ℕ) {f : Obj (Count c) → Res (Obj (Count c))}
    (h : ∀ x ∈ m.cts, (f x).1.error.n ≤ M) : AtMost M (Store.onCt m a f).1 :=
  hm.withTemp fun x hx y hy => by
    rcases List.mem_or_eq_of_mem_set hy with h1 | h1
    · exact hm y h1
    · rw [h1]; exact h x (rd_mem hx)

theorem operands_ok {S : Count c → Prop} {e : Store.Env (Count c)} (hm : ∀ x ∈ m.cts, S x.error) {op : CtOp}
    {k : WordCt.Call (Count c)} (h : op.operands e m = .ok k) : Operands S k := by
  cases op <;> simp only [CtOp.operands] at h
  case add b =>
    obtain ⟨x, h1, h⟩ := Outcome.bind_eq_ok.mp h
    cases h; exact hm _ (rd_mem h1)
  case sub b =>
    obtain ⟨x, h1, h⟩ := Outcome.bind_eq_ok.mp h
    cases h; exact hm _ (rd_mem h1)
  case absorb i =>
    obtain ⟨x, h1, h⟩ := Outcome.bind_eq_ok.mp h
    cases h; trivial
  case scale s => cases h; trivial
  case fused b i =>
    obtain ⟨x, h1, h⟩ := Outcome.bind_eq_ok.mp h
    obtain ⟨y, h2, h⟩ := Outcome.bind_eq_ok.mp h
    cases h; exact hm _ (rd_mem h1)
  case fusedConst b i =>
    obtain ⟨x, h1, h⟩ := Outcome.bind_eq_ok.mp h
    obtain ⟨y, h2, h⟩ := Outcome.bind_eq_ok.mp h
    obtain ⟨z, h3, h⟩ := Outcome.bind_eq_ok.mp h
    cases h; exact hm _ (rd_mem h1)
  case lazily b i =>
    obtain ⟨x, h1, h⟩ := Outcome.bind_eq_ok.mp h
    obtain ⟨y, h2, h⟩ := Outcome.bind_eq_ok.mp h
    cases h; exact hm _ (rd_mem h1)
  case merge => cases h; trivial

theorem count_step {B : Count c} {N : ℕ} (hB : B.n ≤ N) (hc : c ≤ N) :
    Step (fun x : Count c => x.n ≤ M) (fun x => x.n ≤ M + N + 2) B where
  keep a h := by omega
  add a b h1 h2 := show max a.n b.n + 1 ≤ _ by omega
  absorb a h := show a.n + B.n + 1 ≤ _ by omega
  scale a n h := show a.n + (if n < 2 ^ 53 then 0 else c) + 1 ≤ _ by split_ifs <;> omega
  fused a b h1 h2 := show max a.n (b.n + B.n + 1) + 1 ≤ _ by omega

theorem AtMost.mono {M' : ℕ} (hm : AtMost M m) (h : M ≤ M') : AtMost M' m := fun x hx => (hm x hx).trans h

/-- The estimates that a call mentions. -/
def Literals (L : ℕ) : Store.Call (Count c) → Prop
  | .ctMake _ _ e => e.n ≤ L
  | .setError _ e => e.n ≤ L
  | _ => True

theorem value_inv {α : Type} {r : Res α} {x : α} (h : r.value = .ok x) : r.1 = x := by
  unfold Res.value at h
  cases hr : r.2 <;> rw [hr] at h <;> cases h
  rfl

theorem mul_error {p : MParams} {x y z : Obj (Count c)} (h : WordCt.mul p x y = .ok z) :
    z.error = x.error * y.error := by
  unfold WordCt.mul at h
  split_ifs at h
  obtain ⟨r, -, h⟩ := Outcome.bind_eq_ok.mp h
  cases h; rfl

theorem substitute_error {q : Ntt.NttParams} {x z : Obj (Count c)} {k : ℤ} (h : WordCt.substitute q x k = .ok z) :
    z.error = x.error := by
  unfold WordCt.substitute at h
  obtain ⟨r, -, h⟩ := Outcome.bind_eq_ok.mp h
  obtain ⟨r, -, h⟩ := Outcome.bind_eq_ok.mp h
  split_ifs at h
  obtain ⟨r, -, h⟩ := Outcome.bind_eq_ok.mp h
  split_ifs at h
  cases h; rfl

theorem relinearize_error {rk : Word.RKey} {bR : ℕ → ℕ → Outcome (Count c)} {x z : Obj (Count c)}
    (h : WordCt.relinearize rk bR x = .ok z) : ∃ i j b, bR i j = .ok b ∧ z.error = x.error + b := by
  unfold WordCt.relinearize at h
  by_cases h1 : (x.c.length : ℤ) > rk.numParts
  · rw [if_pos h1] at h; cases h
  rw [if_neg h1] at h
  obtain ⟨_, -, h⟩ := Outcome.bind_eq_ok.mp h
  obtain ⟨_, -, h⟩ := Outcome.bind_eq_ok.mp h
  obtain ⟨_, -, h⟩ := Outcome.bind_eq_ok.mp h
  obtain ⟨_, -, h⟩ := Outcome.bind_eq_ok.mp h
  obtain ⟨_, -, h⟩ := Outcome.bind_eq_ok.mp h
  obtain ⟨_, -, h⟩ := Outcome.bind_eq_ok.mp h
  obtain ⟨_, -, h⟩ := Outcome.bind_eq_ok.mp h
  obtain ⟨b, hb, h⟩ := Outcome.bind_eq_ok.mp h
  cases h
  exact ⟨_, _, b, hb, rfl⟩

variable {e : Store.Env (Count c)} {N : ℕ}

theorem count_call (hB : e.bPlain.n ≤ N) (hc : c ≤ N) (hm : AtMost M m) {k : Store.Call (Count c)}
    (hk : Literals M k) : AtMost (2 * M + N + 2) (k.run e m).1 ∧
      ((∀ a b, k ≠ .ctMul a b) → AtMost (M + N + 2) (k.run e m).1) := by
  have hm1 := hm.mono (show M ≤ M + N + 2 by omega)
  have key : (∀ a b, k ≠ .ctMul a b) → AtMost (M + N + 2) (k.run e m).1 := by
    intro hmul
    cases k <;> simp only [Store.Call.run]
    case zero => exact hm1.newPoly _
    case make => exact hm1.newPoly _
    case ofCoeffs => exact hm1.newPoly _
    case parse => exact hm1.newPoly _
    case copy => exact hm1.newPoly _
    case negate => exact hm1.withTemp fun _ _ => hm1.newPoly _
    case negateIn => exact hm1.onPoly _ _
    case binary => exact hm1.withTemp fun _ _ => hm1.withTemp fun _ _ => hm1.newPoly _
    case binaryIn => exact hm1.withTemp fun _ _ => hm1.onPoly _ _
    case scale => exact hm1.withTemp fun _ _ => hm1.newPoly _
    case scaleIn => exact hm1.onPoly _ _
    case mulConstant =>
      exact hm1.withTemp fun _ _ => hm1.withTemp fun _ _ => hm1.withTemp fun _ _ => hm1.newPoly _
    case mulConstantIn => exact hm1.withTemp fun _ _ => hm1.withTemp fun _ _ => hm1.onPoly _ _
    case fusedIn => exact hm1.withTemp fun _ _ => hm1.withTemp fun _ _ => hm1.onPoly _ _
    case fusedConstIn =>
      exact hm1.withTemp fun _ _ => hm1.withTemp fun _ _ => hm1.withTemp fun _ _ => hm1.onPoly _ _
    case substitute => exact hm1.withTemp fun _ _ => hm1.newPoly _
    case component => exact hm1.withTemp fun _ _ => hm1.newPoly _
    case ctMake is power error =>
      refine hm1.newCt fun x hx => ?_
      obtain ⟨r, -, hx⟩ := Outcome.bind_eq_ok.mp hx
      cases hx
      have : error.n ≤ M := hk
      show error.n ≤ _
      omega
    case ctCopy a => exact hm1.newCt fun x hx => hm1 x (rd_mem hx)
    case ctNew a op =>
      refine hm1.withTemp fun x hx => hm1.withTemp fun k hk => hm1.newCt fun y hy => ?_
      rw [← value_inv hy]
      exact step_call (count_step hB hc) (hm x (rd_mem hx)) _ _ (operands_ok (S := fun x => x.n ≤ M) hm hk)
    case ctIn a op =>
      exact hm1.withTemp fun k hk => hm1.onCt _ fun x hx =>
        step_call (count_step hB hc) (hm x hx) _ _ (operands_ok (S := fun x => x.n ≤ M) hm hk)
    case ctMul a b => exact absurd rfl (hmul a b)
    case ctSubstitute a power =>
      refine hm1.withTemp fun x hx => hm1.newCt fun y hy => ?_
      rw [substitute_error hy]
      exact hm1 x (rd_mem hx)
    case setError a error =>
      refine hm1.onCt _ fun x hx => ?_
      have : error.n ≤ M := hk
      show error.n ≤ _
      omega
  refine ⟨?_, key⟩
  by_cases hmul : ∃ a b, k = .ctMul a b
  · obtain ⟨a, b, rfl⟩ := hmul
    have hm2 := hm.mono (show M ≤ 2 * M + N + 2 by omega)
    refine hm2.withTemp fun x hx => hm2.withTemp fun y hy => hm2.newCt fun z hz => ?_
    rw [mul_error hz]
    show x.error.n + y.error.n + 1 ≤ _
    have h1 := hm x (rd_mem hx)
    have h2 := hm y (rd_mem hy)
    omega
  · push Not at hmul
    exact (key hmul).mono (by omega)

theorem count_keyed (hB : e.bPlain.n ≤ N) (hc : c ≤ N) {bR : ℕ → ℕ → Outcome (Count c)}
    (hR : ∀ i j b, bR i j = .ok b → b.n ≤ N) (keys : List Word.RKey) (hm : AtMost M m) {k : KeyedCall (Count c)}
    (hk : ∀ k', k = .plain k' → Literals M k') : AtMost (2 * M + N + 2) (k.run e bR keys m).1 ∧
      ((∀ a b, k ≠ .plain (.ctMul a b)) → AtMost (M + N + 2) (k.run e bR keys m).1) := by
  have hm1 := hm.mono (show M ≤ M + N + 2 by omega)
  have fresh : ∀ (rk : Word.RKey) (x : Obj (Count c)), x ∈ m.cts → ∀ z, WordCt.relinearize rk bR x = .ok z →
      z.error.n ≤ M + N + 2 := by
    intro rk x hx z hz
    obtain ⟨i, j, b, hb, e⟩ := relinearize_error hz
    rw [e]
    show max x.error.n b.n + 1 ≤ _
    have h1 := hm x hx
    have h2 := hR i j b hb
    omega
  cases k with
  | plain k' =>
    obtain ⟨h1, h2⟩ := count_call hB hc hm (hk k' rfl)
    exact ⟨h1, fun h => h2 fun a b hh => h a b (by rw [hh])⟩
  | relinearize a r =>
    have : AtMost (M + N + 2) (KeyedCall.run e bR keys m (.relinearize a r)).1 :=
      hm1.withTemp fun x hx => hm1.withTemp fun k _ => hm1.newCt fun z hz => fresh k x (rd_mem hx) z hz
    exact ⟨this.mono (by omega), fun _ => this⟩
  | galois a r =>
    have : AtMost (M + N + 2) (KeyedCall.run e bR keys m (.galois a r)).1 :=
      hm1.withTemp fun x hx => hm1.withTemp fun k _ => hm1.newCt fun z hz => by
        unfold WordCt.galoisApply at hz
        split_ifs at hz
        exact fresh k x (rd_mem hx) z hz
    exact ⟨this.mono (by omega), fun _ => this⟩

end

end Shell.DoubleError
