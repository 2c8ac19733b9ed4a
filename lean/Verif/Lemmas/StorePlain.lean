import Verif.Lemmas.Store
/-!
The machine on integer polynomials respects congruence: noise that is a multiple of the plaintext modulus does not
change what a program does modulo the plaintext modulus.
-/

namespace Shell.Store
open Spec Rns Rns.Res Sym NttRing WordCt
variable {n : ℕ}

/-- Equal but for the values, which are congruent modulo `t`. -/
structure CongCt (t : ℕ) (X Y : IdealCt n) : Prop where
  size : X.size = Y.size
  power : X.power = Y.power
  value : modq t X.value = modq t Y.value
  error : X.error = Y.error
  pendingSize : X.pendingSize = Y.pendingSize
  pending : modq t X.pending = modq t Y.pending

/-- Congruent objects. -/
structure Cong (t : ℕ) (M M' : IdealMem n) : Prop where
  polys : M.polys = M'.polys
  cts : List.Forall₂ (CongCt t) M.cts M'.cts

/-- Both succeed with related results, or both fail alike. -/
def ExRel {α β : Type} (R : α → β → Prop) : Except Status α → Except Status β → Prop
  | .ok a, .ok b => R a b
  | .error e, .error e' => e = e'
  | _, _ => False

theorem ExRel.bind {α β γ δ : Type} {R : α → β → Prop} {T : γ → δ → Prop} {x : Except Status α} {y : Except Status β}
    {f : α → Except Status γ} {g : β → Except Status δ} (h : ExRel R x y) (hf : ∀ a b, R a b → ExRel T (f a) (g b)) :
    ExRel T (x >>= f) (y >>= g) := by
  cases x with
  | ok a =>
    cases y with
    | ok b => exact hf a b h
    | error e => exact h.elim
  | error e =>
    cases y with
    | ok b => exact h.elim
    | error e' => exact h

theorem object_cong {α β : Type} {R : α → β → Prop} {l : List α} {L : List β} (h : List.Forall₂ R l L) (i : ℕ) :
    ExRel R (object l i) (object L i) := by
  unfold object
  by_cases hi : i < l.length
  · have hi' : i < L.length := by rw [← h.length_eq]; exact hi
    rw [List.getElem?_eq_getElem hi, List.getElem?_eq_getElem hi']
    exact h.get hi hi'
  · rw [List.getElem?_eq_none (by omega), List.getElem?_eq_none (by rw [← h.length_eq]; omega)]
    rfl

theorem ExRel.refl {α : Type} (x : Except Status α) : ExRel Eq x x := by cases x <;> rfl

variable {t : ℕ} {M M' : IdealMem n} {X X' : IdealCt n}

theorem ite_cong {α β : Type} {R : α → β → Prop} {c c' : Prop} [Decidable c] [Decidable c'] (hc : c ↔ c')
    {x : Except Status α} {y : Except Status β} {x' : Except Status α} {y' : Except Status β}
    (h1 : c → ExRel R x y) (h2 : ¬ c → ExRel R x' y') : ExRel R (if c then x else x') (if c' then y else y') := by
  by_cases h : c
  · rw [if_pos h, if_pos (hc.mp h)]; exact h1 h
  · rw [if_neg h, if_neg (fun g => h (hc.mpr g))]; exact h2 h

theorem op_cong (B : ℝ) (N : ℕ) (hM : Cong t M M') (hX : CongCt t X X') (op : CtOp) :
    ExRel (CongCt t) (idealOp B N M X op) (idealOp B N M' X' op) := by
  have fu : ∀ b i, ExRel (CongCt t) (idealOp B N M X (.fused b i)) (idealOp B N M' X' (.fused b i)) := by
    intro b i
    simp only [idealOp]
    refine (object_cong hM.cts b).bind fun Y Y' hY => ?_
    rw [hM.polys]
    refine (ExRel.refl _).bind fun F F' hF => ?_
    subst hF
    refine ite_cong (by rw [hX.power, hY.power]) (fun _ => rfl) fun _ => ?_
    refine ⟨by simp [hX.size, hY.size], hX.power, ?_, by simp [hX.error, hY.error], hX.pendingSize, hX.pending⟩
    show modq t (X.value + negMul Y.value F) = modq t (X'.value + negMul Y'.value F)
    rw [modq_add, modq_add, modq_negMul, modq_negMul, hX.value, hY.value]
  cases op with
  | add b =>
    simp only [idealOp]
    refine (object_cong hM.cts b).bind fun Y Y' hY => ?_
    refine ite_cong (by rw [hX.power, hY.power]) (fun _ => rfl) fun _ => ?_
    refine ⟨by simp [hX.size, hY.size], hX.power, ?_, by simp [hX.error, hY.error], hX.pendingSize, hX.pending⟩
    show modq t (X.value + Y.value) = modq t (X'.value + Y'.value)
    rw [modq_add, modq_add, hX.value, hY.value]
  | sub b =>
    simp only [idealOp]
    refine (object_cong hM.cts b).bind fun Y Y' hY => ?_
    refine ite_cong (by rw [hX.power, hY.power]) (fun _ => rfl) fun _ => ?_
    refine ⟨by simp [hX.size, hY.size], hX.power, ?_, by simp [hX.error, hY.error], hX.pendingSize, hX.pending⟩
    show modq t (X.value - Y.value) = modq t (X'.value - Y'.value)
    rw [modq_sub, modq_sub, hX.value, hY.value]
  | absorb i =>
    simp only [idealOp]
    rw [hM.polys]
    refine (ExRel.refl _).bind fun F F' hF => ?_
    subst hF
    refine ⟨hX.size, hX.power, ?_, by simp [hX.error], hX.pendingSize, hX.pending⟩
    show modq t (negMul X.value F) = modq t (negMul X'.value F)
    rw [modq_negMul, modq_negMul, hX.value]
  | scale c =>
    refine ⟨hX.size, hX.power, ?_, by simp [hX.error], hX.pendingSize, hX.pending⟩
    show modq t (fun i => (c : ℤ) * X.value i) = modq t (fun i => (c : ℤ) * X'.value i)
    rw [modq_smul, modq_smul, hX.value]
  | fused b i => exact fu b i
  | fusedConst b i => exact fu b i
  | lazily b i =>
    simp only [idealOp]
    refine (object_cong hM.cts b).bind fun Y Y' hY => ?_
    rw [hM.polys]
    refine (ExRel.refl _).bind fun F F' hF => ?_
    subst hF
    refine ite_cong (by rw [hX.power, hY.power]) (fun _ => rfl) fun _ => ?_
    refine ite_cong (by rw [hY.size]) (fun _ => hX) fun _ => ?_
    refine ⟨hX.size, hX.power, hX.value, by simp [hX.error, hY.error], hY.size, ?_⟩
    show modq t (X.pending + negMul Y.value F) = modq t (X'.pending + negMul Y'.value F)
    rw [modq_add, modq_add, modq_negMul, modq_negMul, hX.pending, hY.value]
  | merge =>
    simp only [idealOp]
    refine ite_cong (by rw [hX.pendingSize]) (fun _ => rfl) fun _ => ?_
    refine ⟨by simp [hX.size, hX.pendingSize], hX.power, ?_, hX.error, rfl, rfl⟩
    show modq t (X.value + X.pending) = modq t (X'.value + X'.pending)
    rw [modq_add, modq_add, hX.value, hX.pending]

theorem cong_poly (hM : Cong t M M') (f : List (Fin n → ℤ)) :
    Cong t { M with polys := f } { M' with polys := f } := ⟨rfl, hM.cts⟩

theorem cong_ct (hM : Cong t M M') {l l' : List (IdealCt n)} (h : List.Forall₂ (CongCt t) l l') :
    Cong t { M with cts := l } { M' with cts := l' } := ⟨hM.polys, h⟩

theorem call_cong (σ : Fin n → ℤ) (B : ℝ) (N : ℕ) (hM : Cong t M M') (c : IdealCall n) :
    ExRel (Cong t) (c.ideal σ B N M) (c.ideal σ B N M') := by
  have app : ∀ {Y Y' : IdealCt n}, CongCt t Y Y' →
      Cong t { M with cts := M.cts ++ [Y] } { M' with cts := M'.cts ++ [Y'] } := fun h =>
    cong_ct hM (forall₂_append hM.cts (.cons h .nil))
  have set : ∀ {Y Y' : IdealCt n} a, CongCt t Y Y' →
      Cong t { M with cts := M.cts.set a Y } { M' with cts := M'.cts.set a Y' } := fun a h =>
    cong_ct hM (forall₂_set hM.cts a h)
  cases c with
  | zero => simp only [IdealCall.ideal]; rw [hM.polys]; exact cong_poly hM _
  | ofCoeffs f => simp only [IdealCall.ideal]; rw [hM.polys]; exact cong_poly hM _
  | copy i | negate i | negateIn i | scale i c | scaleIn i c =>
    simp only [IdealCall.ideal]; rw [hM.polys]
    exact (ExRel.refl _).bind fun F F' hF => by subst hF; exact cong_poly hM _
  | binary f i j | binaryIn f i j | mulConstant i j | mulConstantIn i j =>
    simp only [IdealCall.ideal]; rw [hM.polys]
    refine (ExRel.refl _).bind fun F F' hF => ?_
    subst hF
    exact (ExRel.refl _).bind fun F F' hF => by subst hF; exact cong_poly hM _
  | fusedIn i j k | fusedConstIn i j k =>
    simp only [IdealCall.ideal]; rw [hM.polys]
    refine (ExRel.refl _).bind fun F F' hF => ?_
    subst hF
    refine (ExRel.refl _).bind fun F F' hF => ?_
    subst hF
    exact (ExRel.refl _).bind fun F F' hF => by subst hF; exact cong_poly hM _
  | substitute i power =>
    simp only [IdealCall.ideal]; rw [hM.polys]
    refine (ExRel.refl _).bind fun F F' hF => ?_
    subst hF
    exact ite_cong Iff.rfl (fun _ => cong_poly hM _) fun _ => rfl
  | ctMake is power error =>
    simp only [IdealCall.ideal]; rw [hM.polys]
    refine (ExRel.refl _).bind fun F F' hF => ?_
    subst hF
    exact ⟨rfl, (app ⟨rfl, rfl, rfl, rfl, rfl, rfl⟩).cts⟩
  | ctCopy a =>
    simp only [IdealCall.ideal]
    exact (object_cong hM.cts a).bind fun Y Y' hY => app hY
  | ctNew a op =>
    simp only [IdealCall.ideal]
    exact (object_cong hM.cts a).bind fun Y Y' hY => (op_cong B N hM hY op).bind fun Z Z' hZ => app hZ
  | ctIn a op =>
    simp only [IdealCall.ideal]
    exact (object_cong hM.cts a).bind fun Y Y' hY => (op_cong B N hM hY op).bind fun Z Z' hZ => set a hZ
  | ctMul a b =>
    simp only [IdealCall.ideal]
    refine (object_cong hM.cts a).bind fun Y Y' hY => (object_cong hM.cts b).bind fun Z Z' hZ => ?_
    refine ite_cong (by rw [hY.power, hZ.power, hY.size, hZ.size]) (fun _ => rfl) fun _ => app ?_
    refine ⟨by simp [hY.size, hZ.size], hY.power, ?_, by simp [hY.error, hZ.error], rfl, rfl⟩
    show modq t (negMul Y.value Z.value) = modq t (negMul Y'.value Z'.value)
    rw [modq_negMul, modq_negMul, hY.value, hZ.value]
  | ctSubstitute a power =>
    simp only [IdealCall.ideal]
    refine (object_cong hM.cts a).bind fun Y Y' hY => ?_
    refine ite_cong Iff.rfl (fun _ => app ?_) fun _ => rfl
    refine ⟨hY.size, by simp [hY.power], ?_, hY.error, rfl, rfl⟩
    show modq t (substPow _ Y.value) = modq t (substPow _ Y'.value)
    rw [modq_substPow, modq_substPow, hY.value]
  | setError a error =>
    simp only [IdealCall.ideal]
    exact (object_cong hM.cts a).bind fun Y Y' hY =>
      set a ⟨hY.size, hY.power, hY.value, rfl, hY.pendingSize, hY.pending⟩

theorem object_some {R : IdealCt n → IdealCt n → Prop} {l L : List (IdealCt n)} (h : List.Forall₂ R l L) {a : ℕ}
    {Y : IdealCt n} (hY : l[a]? = some Y) : ∃ Y', L[a]? = some Y' ∧ R Y Y' := by
  have := object_cong h a
  unfold object at this
  rw [hY] at this
  cases hL : L[a]? with
  | none => rw [hL] at this; exact this.elim
  | some Y' => rw [hL] at this; exact ⟨Y', rfl, this⟩

theorem opProper_cong {w : ℕ} (hM : Cong t M M') (hX : CongCt t X X') {op : CtOp} (h : OpProper w M X op) :
    OpProper w M' X' op := by
  cases op with
  | add b | sub b => have := hM.cts.length_eq; simp only [OpProper] at *; omega
  | absorb i => simp only [OpProper] at *; rw [← hM.polys]; exact h
  | scale c => exact h
  | fused b i | fusedConst b i =>
    have := hM.cts.length_eq
    simp only [OpProper] at *; rw [← hM.polys]; omega
  | lazily b i =>
    obtain ⟨h1, Y, h2, h3⟩ := h
    obtain ⟨Y', h4, h5⟩ := object_some hM.cts h2
    refine ⟨by rw [← hM.polys]; exact h1, Y', h4, ?_⟩
    rw [← hX.power, ← h5.power, ← h5.size, ← hX.pendingSize]
    exact h3
  | merge => trivial

theorem proper_cong {w : ℕ} (hM : Cong t M M') {c : IdealCall n} (h : c.Proper w M) : c.Proper w M' := by
  have e := hM.cts.length_eq
  have e' := hM.polys
  cases c with
  | zero | ofCoeffs f => trivial
  | copy i | negate i | negateIn i | substitute i k | scale i c | scaleIn i c | binary f i j | binaryIn f i j
  | mulConstant i j | mulConstantIn i j | fusedIn i j k | fusedConstIn i j k | ctMake is k e =>
    simp only [IdealCall.Proper] at *; rw [← e']; exact h
  | ctCopy a | setError a e => simp only [IdealCall.Proper] at *; omega
  | ctMul a b => simp only [IdealCall.Proper] at *; omega
  | ctNew a op | ctIn a op =>
    obtain ⟨Y, h1, h2⟩ := h
    obtain ⟨Y', h3, h4⟩ := object_some hM.cts h1
    exact ⟨Y', h3, opProper_cong hM h4 h2⟩
  | ctSubstitute a power =>
    obtain ⟨Y, h1, h2, h3⟩ := h
    obtain ⟨Y', h4, h5⟩ := object_some hM.cts h1
    exact ⟨Y', h4, by rw [← h5.size]; exact h2, by rw [← h5.power]; exact h3⟩

/-- Runs from congruent objects return the same and end with congruent objects. -/
theorem run_cong (σ : Fin n → ℤ) (B : ℝ) (N w : ℕ) : ∀ {cs : List (IdealCall n)} {M M' : IdealMem n}, Cong t M M' →
    (idealRun σ B N M cs).1 = (idealRun σ B N M' cs).1 ∧
    Cong t (idealRun σ B N M cs).2 (idealRun σ B N M' cs).2 ∧
    (IdealProper σ B N w M cs → IdealProper σ B N w M' cs)
  | [], M, M', h => ⟨rfl, h, fun _ => trivial⟩
  | c :: cs, M, M', h => by
    have key := call_cong σ B N h c
    have hpr := proper_cong (w := w) h (c := c)
    simp only [idealRun, IdealProper]
    generalize c.ideal σ B N M = x at key
    generalize c.ideal σ B N M' = y at key
    cases x with
    | ok K =>
      cases y with
      | error e => exact key.elim
      | ok K' =>
        obtain ⟨i1, i2, i3⟩ := run_cong σ B N w key (cs := cs)
        exact ⟨by simp only [i1], i2, fun g => ⟨hpr g.1, i3 g.2⟩⟩
    | error e =>
      cases y with
      | ok K => exact key.elim
      | error e' =>
        obtain rfl : e = e' := key
        obtain ⟨i1, i2, i3⟩ := run_cong σ B N w h (cs := cs)
        exact ⟨by simp only [i1], i2, fun g => ⟨hpr g.1, i3 g.2⟩⟩

end Shell.Store
