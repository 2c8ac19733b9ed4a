import Verif.Lemmas.RnsCipher
import Verif.Props.RnsBasis
import Verif.Lemmas.RnsEncoder
import Verif.Spec.RnsBfv
/-!
# Lemmas for BFV multiplication
-/

namespace Shell.Rns
open Spec
variable {w l : ℕ}

theorem mapM_exists {α β γ δ : Type} {f : α → Outcome β} {P : α → γ → Prop} {R : γ → β → δ → Prop}
    (h : ∀ a c, P a c → ∃ b d, f a = .ok b ∧ R c b d) : ∀ {L : List α} {Cs : List γ},
    List.Forall₂ P L Cs → ∃ r Es, L.mapM f = .ok r ∧ Es.map Prod.fst = Cs ∧
      List.Forall₂ (fun b (e : γ × δ) => R e.1 b e.2) r Es := by
  intro L Cs hf
  induction hf with
  | nil => exact ⟨[], [], rfl, rfl, .nil⟩
  | @cons a c L Cs hp _ ih =>
    obtain ⟨b, d, h1, h2⟩ := h _ _ hp
    obtain ⟨r, Es, r1, r2, r3⟩ := ih
    exact ⟨b :: r, (c, d) :: Es, by rw [List.mapM_cons, h1, Outcome.bind_ok, r1, Outcome.bind_ok]; rfl,
      by rw [List.map_cons, r2], .cons h2 r3⟩

theorem mapM_exists₂ {α α' β γ δ : Type} {f : α × α' → Outcome β} {P : α → γ → Prop} {P' : α' → γ → Prop}
    {R : γ → β → δ → Prop}
    (h : ∀ a a' c, P a c → P' a' c → ∃ b d, f (a, a') = .ok b ∧ R c b d) : ∀ {L : List α} {L' : List α'}
    {Cs : List γ}, List.Forall₂ P L Cs → List.Forall₂ P' L' Cs →
    ∃ r Es, (L.zip L').mapM f = .ok r ∧ Es.map Prod.fst = Cs ∧
      List.Forall₂ (fun b (e : γ × δ) => R e.1 b e.2) r Es := by
  intro L L' Cs hf
  induction hf generalizing L' with
  | nil =>
    intro h'
    cases h'
    exact ⟨[], [], rfl, rfl, .nil⟩
  | @cons a c L Cs hp _ ih =>
    intro h'
    cases h' with
    | @cons a' _ L' _ hp' h' =>
      obtain ⟨b, d, h1, h2⟩ := h _ _ _ hp hp'
      obtain ⟨r, Es, r1, r2, r3⟩ := ih h'
      exact ⟨b :: r, (c, d) :: Es, by
        rw [List.zip_cons_cons, List.mapM_cons, h1, Outcome.bind_ok, r1, Outcome.bind_ok]; rfl,
        by rw [List.map_cons, r2], .cons h2 r3⟩

theorem comp_congr_list {ms : List Modulus} {cs : List RPoly} : ∀ {Cs Ds : List (Fin (2 ^ l) → ℤ)},
    List.Forall₂ (Comp l ms) cs Cs → List.Forall₂ (CongMod (modulusProd ms)) Cs Ds →
    List.Forall₂ (Comp l ms) cs Ds := by
  intro Cs Ds h
  induction h generalizing Ds with
  | nil => intro h; cases h; exact .nil
  | cons h1 _ ih =>
    intro h
    cases h with
    | cons a b => exact .cons ⟨h1.1, repr_congr h1.2 a⟩ (ih b)

theorem innerProduct_congr {n Q : ℕ} (S : Fin n → ℤ) {Cs Ds : List (Fin n → ℤ)}
    (h : List.Forall₂ (CongMod Q) Cs Ds) : CongMod Q (innerProduct S Cs) (innerProduct S Ds) := by
  induction h with
  | nil => exact CongMod.refl _
  | cons h1 _ ih => exact h1.add ((CongMod.refl S).mul ih)

/-- The constants of a context at the top level. -/
theorem top_level {c : Rns.Ctx} (hc : GoodCtx w l c) (hne : c.qs ≠ []) :
    (∃ a, c.crtFactors ((c.qs.length : ℤ) - 1) = .ok a ∧ HatInvs c.qs a) ∧
    (∃ a, c.complementResidues ((c.qs.length : ℤ) - 1) = .ok a ∧ HatResidues c.qs c.ps a) ∧
    (∃ a, c.leveledAuxResidues ((c.qs.length : ℤ) - 1) = .ok a ∧ RnsIntIs c.ps a (modulusProd c.qs)) := by
  have h0 : 0 < c.qs.length := List.length_pos_iff.mpr hne
  have e : ((c.qs.length - 1 : ℕ) : ℤ) = (c.qs.length : ℤ) - 1 := by omega
  have e1 : c.qs.take (c.qs.length - 1 + 1) = c.qs := by
    rw [Nat.sub_add_cancel h0, List.take_length]
  obtain ⟨a, a1, a2⟩ := hc.inverses.crtFactors (c.qs.length - 1) (by omega)
  obtain ⟨b, b1, b2⟩ := hc.residues.complementResidues (c.qs.length - 1) (by omega)
  obtain ⟨d, d1, d2⟩ := hc.residues.leveled (c.qs.length - 1) (by omega)
  rw [e] at a1 b1 d1
  rw [e1] at a2 b2 d2
  exact ⟨⟨a, a1, a2⟩, ⟨b, b1, b2⟩, ⟨d, d1, d2⟩⟩

theorem ctx_coprime {c : Rns.Ctx} (hc : GoodCtx w l c) :
    (c.qs.map (·.N)).Pairwise Nat.Coprime ∧ (c.ps.map (·.N)).Pairwise Nat.Coprime :=
  ⟨pairwise_coprime (List.nodup_append.mp hc.nodup).1 hc.qs,
    pairwise_coprime (List.nodup_append.mp hc.nodup).2.1 hc.ps⟩

section
variable {c : Rns.Ctx} {ε : ℚ} {est : Estimate} {hatInv qMod : List ℕ} {hatMod : List (List ℕ)} {u : RPoly}
  {C : Fin (2 ^ l) → ℤ}

/-- Switching an operand to the auxiliary basis. -/
theorem toAux_ok (hc : GoodCtx w l c) (hne : c.qs ≠ []) (hnp : c.ps ≠ [])
    (he : EstimateWithin (max c.qs.length c.ps.length) ε est)
    (hε : ε < 1 / 2) (hwq : c.qs.length < 2 ^ w)
    (hi : HatInvs c.qs hatInv) (hr : HatResidues c.qs c.ps hatMod) (hq : RnsIntIs c.ps qMod (modulusProd c.qs))
    (hu : Comp l c.qs u C) :
    ∃ v a b Y, toCoeff c.qs u = .ok v ∧ switchBasis est c.qs c.ps hatInv hatMod qMod v = .ok a ∧
      toNtt c.ps a = .ok b ∧ Comp l c.ps b Y ∧ CongMod (modulusProd c.qs) C Y ∧
      ∀ i, (|Y i| : ℚ) ≤ (1 / 2 + ε) * modulusProd c.qs := by
  obtain ⟨m0, hm0⟩ := List.exists_mem_of_ne_nil c.qs hne
  have hl15 := (hc.qs m0 hm0).l15
  obtain ⟨v, v1, v2, v3⟩ := repr_toCoeff hc.qs hu.2 hu.1
  obtain ⟨a, Y, a1, a2, a3, a4⟩ := c47_switch (fun m hm => (hc.qs m hm).create)
    (fun m hm => (hc.ps m hm).create) (ctx_coprime hc).1 hne hnp (by omega) v3 v2
    (by rw [List.take_of_length_le (by rw [← List.Forall₂.length_eq hi])]; exact hi)
    (by rw [List.take_of_length_le (by rw [← List.Forall₂.length_eq hr])]; exact hr) hq (within_mono he (le_max_left _ _)) hε hwq
  obtain ⟨b, b1, b2, b3⟩ := repr_toNtt hc.ps a3 a2
  refine ⟨v, a, b, Y, v1, a1, b1, ⟨b2, b3⟩, CongMod.symm fun i => (a4 i).1, fun i => (a4 i).2.1⟩

/-- Scaling an operand by `P / Q`. -/
theorem scaleToAux_ok (hc : GoodCtx w l c) (hne : c.qs ≠ []) (hnp : c.ps ≠ [])
    (he : EstimateWithin (max c.qs.length c.ps.length) ε est)
    (hε : ε < 1 / 2) (hwq : c.qs.length < 2 ^ w) (hwp : c.ps.length < 2 ^ w)
    (hi : HatInvs c.qs hatInv) (hn : u.ntt = false) (hu : Represents l c.qs u C) :
    ∃ (m : RPoly × RPoly) (d : (Fin (2 ^ l) → ℤ) × (Fin (2 ^ l) → ℤ)),
      RCt.scaleToAux est c c.qs hatInv u = .ok m ∧
      Comp l c.qs m.1 d.1 ∧ Comp l c.ps m.2 d.1 ∧ CongMod (modulusProd c.qs) C d.2 ∧
      ∀ i, (|(modulusProd c.ps * d.2 i - modulusProd c.qs * d.1 i : ℤ)| : ℚ) ≤
          (1 / 2 + ε) * modulusProd c.qs ∧
        (|d.1 i| : ℚ) ≤ (1 / 2 + ε) * modulusProd c.ps := by
  obtain ⟨m0, hm0⟩ := List.exists_mem_of_ne_nil c.qs hne
  have hl15 := (hc.qs m0 hm0).l15
  obtain ⟨a, G, a1, a2, a3, a4⟩ := c47_scale (est := est) (outs := c.ps) (pMod := c.pModQs)
    (qInvMod := c.primeQInvModPs) (fun m hm => (hc.qs m hm).create)
    (fun m hm => (hc.ps m hm).create) (ctx_coprime hc).1 hne hnp (by omega) hu hn
    (by rw [List.take_of_length_le (by rw [← List.Forall₂.length_eq hi])]; exact hi)
    hc.inverses.primeQInvModPs
    (by
      have h := hc.residues.pModQs
      rw [List.take_of_length_le (by rw [← List.Forall₂.length_eq h])]; exact h) (within_mono he (le_max_left _ _)) hε hwq
  have hp := hc.inverses.primePHatInvs
  have hr := hc.residues.primePHatModQs
  obtain ⟨b, X, b1, b2, b3, b4⟩ := c47_switch (est := est) (fun m hm => (hc.ps m hm).create)
    (fun m hm => (hc.qs m hm).create) (ctx_coprime hc).2 hnp hne (by omega) a3 a2
    (by rw [List.take_of_length_le (by rw [← List.Forall₂.length_eq hp])]; exact hp)
    (by rw [List.take_of_length_le (by rw [← List.Forall₂.length_eq hr])]; exact hr)
    hc.residues.pModQs (within_mono he (le_max_right _ _)) hε hwp
  obtain ⟨main, m1, m2, m3⟩ := repr_toNtt hc.qs b3 b2
  obtain ⟨aux, x1, x2, x3⟩ := repr_toNtt hc.ps a3 a2
  have hd : ∀ i, ∃ k : ℤ, X i = G i + modulusProd c.ps * k := fun i => by
    obtain ⟨k, hk⟩ := (b4 i).1
    exact ⟨k, by linarith⟩
  choose k hk using hd
  refine ⟨(main, aux), (X, fun i => C i + modulusProd c.qs * k i), ?_, ⟨m2, m3⟩,
    ⟨x2, repr_congr x3 fun i => ?_⟩, fun i => ?_, fun i => ⟨?_, (b4 i).2.1⟩⟩
  · unfold RCt.scaleToAux
    rw [a1, Outcome.bind_ok, b1, Outcome.bind_ok, m1, Outcome.bind_ok, x1]; rfl
  · exact ⟨-k i, by dsimp only; rw [hk]; ring⟩
  · exact ⟨-k i, by ring⟩
  · have h := a4 i
    have e : (modulusProd c.ps : ℤ) * (C i + modulusProd c.qs * k i) - modulusProd c.qs * X i =
        (modulusProd c.ps : ℤ) * C i - modulusProd c.qs * G i := by rw [hk]; ring
    show (|(((modulusProd c.ps : ℤ) * (C i + modulusProd c.qs * k i) - modulusProd c.qs * X i : ℤ) : ℚ)|) ≤ _
    rw [e]
    exact_mod_cast h

/-- Scaling the product by `t / P`. -/
theorem reduce_ok (hc : GoodCtx w l c) (hne : c.qs ≠ []) (hnp : c.ps ≠ [])
    (he : EstimateWithin (max c.qs.length c.ps.length) ε est)
    (hε : ε < 1 / 2) (hwp : c.ps.length < 2 ^ w) {v : RPoly} (hu : Comp l c.qs u C) (hv : Comp l c.ps v C) :
    ∃ r R, scaleAndReduceBasis est v c.t c.qs c.ps c.primePHatInvs c.primePHatModQs c.pModQs c.pInvModQs u =
        .ok r ∧ Comp l c.qs r R ∧
      ∀ i, (|((c.t : ℤ) * C i - modulusProd c.ps * R i : ℤ)| : ℚ) ≤ (1 / 2 + ε) * modulusProd c.ps := by
  have hp := hc.inverses.primePHatInvs
  have hr := hc.residues.primePHatModQs
  obtain ⟨r, R, r1, r2, r3, r4⟩ := c47_scaleAndReduce (est := est) hc.qs hc.ps (ctx_coprime hc).2 hnp hne hu.2 hv.2
    hc.word
    (by rw [List.take_of_length_le (by rw [← List.Forall₂.length_eq hp])]; exact hp)
    (by rw [List.take_of_length_le (by rw [← List.Forall₂.length_eq hr])]; exact hr)
    hc.residues.pModQs hc.inverses.pInvModQs (within_mono he (le_max_right _ _)) hε hwp
  exact ⟨r, R, r1, ⟨r2.trans hu.1, r3⟩, fun i => by exact_mod_cast r4 i⟩

end

/-! ### The noise -/

theorem ip_lin {n : ℕ} [NeZero n] {E : Type} (S : Fin n → ℤ) (α β : ℤ) (a b : E → Fin n → ℤ) (L : List E) :
    innerProduct S (L.map fun e i => α * a e i - β * b e i) =
      fun i => α * innerProduct S (L.map a) i - β * innerProduct S (L.map b) i := by
  induction L with
  | nil => funext i; simp [innerProduct]
  | cons e L ih =>
    simp only [List.map_cons, innerProduct]
    rw [ih]
    have e1 : (fun i => α * innerProduct S (L.map a) i - β * innerProduct S (L.map b) i) =
        (fun i => α * innerProduct S (L.map a) i) + fun i => (-β) * innerProduct S (L.map b) i := by
      funext i; simp only [Pi.add_apply]; ring
    rw [e1, NR.negMul_add, negMul_smul, negMul_smul]
    funext i
    simp only [Pi.add_apply]; ring

theorem ip_bound {n : ℕ} [NeZero n] {E : Type} (S : Fin n → ℤ) (M : ℚ) (f : E → Fin n → ℤ) (L : List E)
    (h : ∀ e ∈ L, ∀ i, (|f e i| : ℚ) ≤ M) (k : Fin n) :
    (|innerProduct S (L.map f) k| : ℚ) ≤ M * ∑ j ∈ Finset.range L.length, (norm1 S : ℚ) ^ j := by
  rcases L.eq_nil_or_concat with rfl | ⟨L', e, hL⟩
  · simp [innerProduct]
  have hM : 0 ≤ M := (abs_nonneg _).trans (h e (by simp [hL]) k)
  have hfl : ∀ g ∈ L.map f, ∀ i, |g i| ≤ ⌊M⌋ := by
    intro g hg i
    obtain ⟨e, he, rfl⟩ := List.mem_map.mp hg
    rw [Int.le_floor]
    exact_mod_cast h e he i
  have := innerProduct_bound S ⌊M⌋ (Int.floor_nonneg.mpr hM) (L.map f) hfl k
  rw [List.length_map] at this
  have h2 : ((|innerProduct S (L.map f) k| : ℤ) : ℚ) ≤
      ((⌊M⌋ * ∑ j ∈ Finset.range L.length, norm1 S ^ j : ℤ) : ℚ) := by exact_mod_cast this
  push_cast at h2
  refine h2.trans (mul_le_mul_of_nonneg_right (Int.floor_le M) ?_)
  refine Finset.sum_nonneg fun j _ => pow_nonneg ?_ j
  have : 0 ≤ norm1 S := Finset.sum_nonneg fun i _ => abs_nonneg _
  exact_mod_cast this

theorem negMul_le' {F G : Fin (2 ^ l) → ℤ} {a b : ℚ} (hF : ∀ i, (|F i| : ℚ) ≤ a) (hG : ∀ i, (|G i| : ℚ) ≤ b)
    (i : Fin (2 ^ l)) : |((negMul F G i : ℤ) : ℚ)| ≤ 2 ^ l * a * b := by
  have ha : 0 ≤ a := (abs_nonneg _).trans (hF i)
  have hb : 0 ≤ b := (abs_nonneg _).trans (hG i)
  have h1 := negMul_bound F G ⌊b⌋ (Int.floor_nonneg.mpr hb)
    (fun j => Int.le_floor.mpr (by exact_mod_cast hG j)) i
  have h2 : (norm1 F : ℚ) ≤ 2 ^ l * a := by
    unfold norm1
    push_cast
    refine (Finset.sum_le_sum fun i _ => hF i).trans ?_
    simp
  have h3 : |((negMul F G i : ℤ) : ℚ)| ≤ norm1 F * ⌊b⌋ := by exact_mod_cast h1
  have h0 : (0 : ℚ) ≤ ⌊b⌋ := by exact_mod_cast Int.floor_nonneg.mpr hb
  calc |((negMul F G i : ℤ) : ℚ)| ≤ norm1 F * ⌊b⌋ := h3
    _ ≤ 2 ^ l * a * ⌊b⌋ := mul_le_mul_of_nonneg_right h2 h0
    _ ≤ 2 ^ l * a * b := mul_le_mul_of_nonneg_left (Int.floor_le b) (by positivity)

/-- The noise of a product: `A` and `X` are the first operand and its scaled version, `B` the second operand,
`T = X B`, and `Ψ` the scaled product. -/
theorem bfv_core {P Q t : ℤ} {A X B Ψ : Fin (2 ^ l) → ℤ} {e1 e2 b : ℚ} (ht : 0 ≤ t) (hQ : 0 ≤ Q)
    (h2 : ∀ i, (|(P * A i - Q * X i : ℤ)| : ℚ) ≤ e2) (h1 : ∀ i, (|(t * negMul X B i - P * Ψ i : ℤ)| : ℚ) ≤ e1)
    (hB : ∀ i, (|B i| : ℚ) ≤ b) (hP : 0 ≤ P) (i : Fin (2 ^ l)) :
    (P : ℚ) * |((Q * Ψ i - t * negMul A B i : ℤ) : ℚ)| ≤ t * (2 ^ l * e2 * b) + Q * e1 := by
  have hd := negMul_le' (F := fun i => P * A i - Q * X i) h2 hB i
  have e : negMul (fun i => P * A i - Q * X i) B i = P * negMul A B i - Q * negMul X B i := by
    have e1 : (fun i => P * A i - Q * X i) = (fun i => P * A i) + fun i => (-Q) * X i := by
      funext i; simp only [Pi.add_apply]; ring
    rw [e1, NR.add_negMul, NR.negMul_comm _ B, NR.negMul_comm _ B, negMul_smul, negMul_smul, NR.negMul_comm B,
      NR.negMul_comm B]
    simp only [Pi.add_apply]; ring
  rw [e] at hd
  have h := h1 i
  have key : (P * (Q * Ψ i - t * negMul A B i) : ℤ) = -(t * (P * negMul A B i - Q * negMul X B i)) -
      Q * (t * negMul X B i - P * Ψ i) := by ring
  have e3 : (P : ℚ) * |((Q * Ψ i - t * negMul A B i : ℤ) : ℚ)| = |((P * (Q * Ψ i - t * negMul A B i) : ℤ) : ℚ)| := by
    rw [Int.cast_mul, abs_mul, abs_of_nonneg (show (0 : ℚ) ≤ P by exact_mod_cast hP)]
  rw [e3, key, Int.cast_sub, Int.cast_neg, Int.cast_mul, Int.cast_mul Q]
  refine (abs_sub _ _).trans (add_le_add ?_ ?_)
  · rw [abs_neg, abs_mul, abs_of_nonneg (show (0 : ℚ) ≤ t by exact_mod_cast ht)]
    exact mul_le_mul_of_nonneg_left hd (by exact_mod_cast ht)
  · rw [abs_mul, abs_of_nonneg (show (0 : ℚ) ≤ Q by exact_mod_cast hQ)]
    exact mul_le_mul_of_nonneg_left h (by exact_mod_cast hQ)

theorem negMul_lin (α β : ℤ) (F G H : Fin (2 ^ l) → ℤ) :
    negMul (fun i => α * F i + β * G i) H = fun i => α * negMul F H i + β * negMul G H i := by
  have e1 : (fun i => α * F i + β * G i) = (fun i => α * F i) + fun i => β * G i := rfl
  rw [e1, NR.add_negMul, NR.negMul_comm (fun i => α * F i) H, NR.negMul_comm (fun i => β * G i) H, negMul_smul,
    negMul_smul, NR.negMul_comm H, NR.negMul_comm H]
  rfl

/-- The noise of the scaled product in terms of the messages. -/
theorem bfv_noise {t Q : ℕ} {A B R M N : Fin (2 ^ l) → ℤ} {a b d vx vy : ℚ} (hQ : 0 < Q)
    (hx : BfvNear t Q A M vx) (hy : BfvNear t Q B N vy) (hA : ∀ i, |(A i : ℚ)| ≤ a) (hB : ∀ i, |(B i : ℚ)| ≤ b)
    (hd : ∀ i, |((Q * R i - t * negMul A B i : ℤ) : ℚ)| ≤ d) :
    BfvNear t Q R (negMul M N)
      (2 ^ l * ((t * a + vx) / Q * vy + (t * b + vy) / Q * vx) + (2 ^ l * vx * vy + t * d) / Q) := by
  intro i
  have hQ' : (0 : ℚ) < Q := by exact_mod_cast hQ
  obtain ⟨U, hU⟩ : ∃ U : Fin (2 ^ l) → ℤ, ∀ i, U i = t * A i - Q * M i := ⟨_, fun _ => rfl⟩
  obtain ⟨V, hV⟩ : ∃ V : Fin (2 ^ l) → ℤ, ∀ i, V i = t * B i - Q * N i := ⟨_, fun _ => rfl⟩
  have bU : ∀ i, |(U i : ℚ)| ≤ vx := fun i => by rw [hU]; push_cast; exact hx i
  have bV : ∀ i, |(V i : ℚ)| ≤ vy := fun i => by rw [hV]; push_cast; exact hy i
  have bM : ∀ i, |(M i : ℚ)| ≤ (t * a + vx) / Q := fun i => by
    rw [le_div_iff₀ hQ']
    have e : (M i : ℚ) * Q = t * A i - U i := by rw [hU]; push_cast; ring
    rw [← abs_of_pos hQ', ← abs_mul, e]
    refine (abs_sub _ _).trans (add_le_add ?_ (bU i))
    rw [abs_mul, abs_of_nonneg (by positivity : (0 : ℚ) ≤ t)]
    exact mul_le_mul_of_nonneg_left (hA i) (by positivity)
  have bN : ∀ i, |(N i : ℚ)| ≤ (t * b + vy) / Q := fun i => by
    rw [le_div_iff₀ hQ']
    have e : (N i : ℚ) * Q = t * B i - V i := by rw [hV]; push_cast; ring
    rw [← abs_of_pos hQ', ← abs_mul, e]
    refine (abs_sub _ _).trans (add_le_add ?_ (bV i))
    rw [abs_mul, abs_of_nonneg (by positivity : (0 : ℚ) ≤ t)]
    exact mul_le_mul_of_nonneg_left (hB i) (by positivity)
  have e1 : (fun i => (t : ℤ) * A i + 0 * A i) = fun i => (Q : ℤ) * M i + 1 * U i := by
    funext i; rw [hU]; ring
  have e2 : (fun i => (t : ℤ) * B i + 0 * B i) = fun i => (Q : ℤ) * N i + 1 * V i := by
    funext i; rw [hV]; ring
  have e3 : (t : ℤ) * t * negMul A B i = Q * Q * negMul M N i + Q * negMul M V i + Q * negMul U N i +
      negMul U V i := by
    have h1 := negMul_lin t 0 A A (fun i => (t : ℤ) * B i + 0 * B i)
    rw [e1, negMul_lin, NR.negMul_comm A, NR.negMul_comm M, NR.negMul_comm U, negMul_lin] at h1
    have h2 := congrFun h1 i
    simp only [e2, negMul_lin] at h2
    have h3 := congrFun (negMul_lin (t : ℤ) 0 B B A) i
    rw [e2, negMul_lin] at h3
    rw [NR.negMul_comm A B, NR.negMul_comm M N, NR.negMul_comm M V, NR.negMul_comm U N, NR.negMul_comm U V]
    have h4 := congrFun (negMul_lin (t : ℤ) 0 B B M) i
    rw [e2, negMul_lin] at h4
    linear_combination (-1 : ℤ) * h2 - (t : ℤ) * h3 - (Q : ℤ) * h4
  have key : (Q : ℚ) * (t * R i - Q * negMul M N i) = t * ((Q * R i - t * negMul A B i : ℤ) : ℚ) +
      Q * (negMul M V i + negMul U N i : ℤ) + (negMul U V i : ℤ) := by
    have e3' : (t : ℚ) * t * negMul A B i = Q * Q * negMul M N i + Q * negMul M V i + Q * negMul U N i +
      negMul U V i := by exact_mod_cast e3
    push_cast
    linear_combination e3'
  have k1 := negMul_le' bM bV i
  have k2 := negMul_le' bU bN i
  have k3 := negMul_le' bU bV i
  have ht : (0 : ℚ) ≤ t := by positivity
  have k4 : |(Q : ℚ) * (t * R i - Q * negMul M N i)| ≤ t * d +
      Q * (2 ^ l * ((t * a + vx) / Q) * vy + 2 ^ l * vx * ((t * b + vy) / Q)) + 2 ^ l * vx * vy := by
    rw [key]
    refine (abs_add_le _ _).trans (add_le_add ((abs_add_le _ _).trans (add_le_add ?_ ?_)) k3)
    · rw [abs_mul, abs_of_nonneg ht]
      exact mul_le_mul_of_nonneg_left (hd i) ht
    · rw [abs_mul, abs_of_pos hQ']
      refine mul_le_mul_of_nonneg_left ?_ hQ'.le
      rw [Int.cast_add]
      exact (abs_add_le _ _).trans (add_le_add k1 k2)
  rw [abs_mul, abs_of_pos hQ', mul_comm, ← le_div_iff₀ hQ'] at k4
  refine k4.trans (le_of_eq ?_)
  field_simp
  ring

end Shell.Rns
