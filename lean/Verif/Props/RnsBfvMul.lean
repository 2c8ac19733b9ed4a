import Verif.Lemmas.RnsBfvMul
import Verif.Props.RnsCircuit
/-!
# Property C57: BFV multiplication
-/

namespace Shell
open Spec Rns
variable {w l : ℕ} {S : Fin (2 ^ l) → ℤ} {c : Rns.Ctx} {ε : ℚ} {est : Estimate} {x y : RCt}

theorem encrypts_congr {Φ Ψ : Fin (2 ^ l) → ℤ} (h : Encrypts l S x Φ) (hc : CongMod (modulusProd x.ms) Φ Ψ) :
    Encrypts l S x Ψ := by
  obtain ⟨h1, Cs, h2, h3⟩ := h
  exact ⟨h1, Cs, h2, h3.trans hc⟩

/-- The message of a BFV ciphertext is known modulo `t`. -/
theorem c57_message_mod {t : ℕ} {M N : Fin (2 ^ l) → ℤ} {v : ℚ} (h : BfvEncrypts l S t x M v)
    (hc : CongMod t M N) : BfvEncrypts l S t x N v := by
  obtain ⟨Φ, h1, h2⟩ := h
  choose k hk using hc
  refine ⟨fun i => Φ i - modulusProd x.ms * k i, encrypts_congr h1 fun i => ⟨k i, by ring⟩, fun i => ?_⟩
  have e : (N i : ℚ) = M i - t * k i := by
    have : N i = M i - t * k i := by linarith [hk i]
    rw [this]; push_cast; ring
  have := h2 i
  rw [e]
  push_cast
  convert this using 2
  ring

theorem keyGrowth_eq {n : ℕ} (S : Fin n → ℤ) (d : ℕ) :
    keyGrowth S d = ∑ j ∈ Finset.range d, (norm1 S : ℚ) ^ j := by
  unfold keyGrowth norm1
  push_cast
  rfl

theorem forall₂_right {α β : Type} {R : α → β → Prop} {P : β → Prop} (h : ∀ a b, R a b → P b) :
    ∀ {L : List α} {L' : List β}, List.Forall₂ R L L' → ∀ b ∈ L', P b := by
  intro L L' hf
  induction hf with
  | nil => simp
  | cons h1 _ ih => simpa using ⟨h _ _ h1, ih⟩

theorem forall₂_map_fst_snd {α : Type} {R : α → α → Prop} : ∀ {L : List (α × α)}, (∀ e ∈ L, R e.1 e.2) →
    List.Forall₂ R (L.map Prod.fst) (L.map Prod.snd)
  | [], _ => .nil
  | e :: L, h => .cons (h e (by simp)) (forall₂_map_fst_snd fun e he => h e (by simp [he]))

theorem forall₂_maps {α β : Type} {R : β → β → Prop} (f g : α → β) : ∀ {L : List α}, (∀ e ∈ L, R (f e) (g e)) →
    List.Forall₂ R (L.map f) (L.map g)
  | [], _ => .nil
  | e :: L, h => .cons (h e (by simp)) (forall₂_maps f g fun e he => h e (by simp [he]))

theorem forall₂_imp_map {α β γ : Type} {R : α → β → Prop} {P : α → γ → Prop} (f : β → γ)
    (h : ∀ a b, R a b → P a (f b)) : ∀ {L : List α} {L' : List β}, List.Forall₂ R L L' →
    List.Forall₂ P L (L'.map f) := by
  intro L L' hf
  induction hf with
  | nil => exact .nil
  | cons h1 _ ih => exact .cons (h _ _ h1) ih

theorem forall₂_map_imp {α β γ δ : Type} {R : α → β → Prop} {P : δ → γ → Prop} (f : β → γ) (g : α → δ)
    (h : ∀ a b, R a b → P (g a) (f b)) : ∀ {L : List α} {L' : List β}, List.Forall₂ R L L' →
    List.Forall₂ P (L.map g) (L'.map f) := by
  intro L L' hf
  induction hf with
  | nil => exact .nil
  | cons h1 _ ih => exact .cons (h _ _ h1) ih

/-- The core of the multiplication: components of the product, from components of the operands. -/
theorem mulBfv_core (hc : GoodCtx w l c) (hne : c.qs ≠ []) (hnp : c.ps ≠ [])
    (he : EstimateWithin (max c.qs.length c.ps.length) ε est)
    (hε : ε < 1 / 2) (hwq : c.qs.length < 2 ^ w) (hwp : c.ps.length < 2 ^ w)
    (hx : x.ms = c.qs) (hy : y.ms = c.qs) (hp : y.power = x.power) (h0 : x.c ≠ [])
    {Cs Ds : List (Fin (2 ^ l) → ℤ)} (h1 : List.Forall₂ (Comp l c.qs) x.c Cs)
    (h3 : List.Forall₂ (Comp l c.qs) y.c Ds) :
    ∃ (r : RCt) (Es : List ((Fin (2 ^ l) → ℤ) × (Fin (2 ^ l) → ℤ) × (Fin (2 ^ l) → ℤ)))
      (Ys Us : List ((Fin (2 ^ l) → ℤ) × (Fin (2 ^ l) → ℤ))),
      x.mulBfv est c y = .ok r ∧ r.ms = x.ms ∧ r.power = x.power ∧
      r.c.length = x.c.length + y.c.length - 1 ∧
      List.Forall₂ (Comp l c.qs) r.c (Us.map (·.2)) ∧
      Es.map (·.1) = Cs ∧ Ys.map (·.1) = Ds ∧
      (∀ e ∈ Es, CongMod (modulusProd c.qs) e.1 e.2.2 ∧
        ∀ i, |((modulusProd c.ps * e.2.2 i - modulusProd c.qs * e.2.1 i : ℤ) : ℚ)| ≤
          (1 / 2 + ε) * modulusProd c.qs ∧ |(e.2.1 i : ℚ)| ≤ (1 / 2 + ε) * modulusProd c.ps) ∧
      (∀ e ∈ Ys, CongMod (modulusProd c.qs) e.1 e.2 ∧ ∀ i, |(e.2 i : ℚ)| ≤ (1 / 2 + ε) * modulusProd c.qs) ∧
      (∀ e ∈ Us, ∀ i, |((c.t * e.1 i - modulusProd c.ps * e.2 i : ℤ) : ℚ)| ≤
        (1 / 2 + ε) * modulusProd c.ps) ∧
      ∀ T, innerProduct T (Us.map (·.1)) =
        negMul (innerProduct T (Es.map (·.2.1))) (innerProduct T (Ys.map (·.2))) := by
  obtain ⟨⟨hi, i1, i2⟩, ⟨hr, r1, r2⟩, ⟨qm, q1, q2⟩⟩ := top_level hc hne
  obtain ⟨yAux, Ys, y1, y2, y3⟩ := mapM_exists (f := fun u => do
      let u ← Rns.toCoeff c.qs u
      let a ← switchBasis est c.qs c.ps hi hr qm u
      Rns.toNtt c.ps a)
    (R := fun C b Y => Comp l c.ps b Y ∧ CongMod (modulusProd c.qs) C Y ∧
      ∀ i, |(Y i : ℚ)| ≤ (1 / 2 + ε) * modulusProd c.qs)
    (fun u C hu => by
      obtain ⟨v, a, b, Y, e1, e2, e3, e4, e5, e6⟩ := toAux_ok hc hne hnp he hε hwq i2 r2 q2 hu
      exact ⟨b, Y, by rw [e1, Outcome.bind_ok, e2, Outcome.bind_ok, e3], e4, e5, fun i => e6 i⟩) h3
  obtain ⟨xs, Es, x1, x2, x3⟩ := mapM_exists (f := fun u => do
      let u ← Rns.toCoeff c.qs u
      RCt.scaleToAux est c c.qs hi u)
    (R := fun C (m : RPoly × RPoly) (d : (Fin (2 ^ l) → ℤ) × (Fin (2 ^ l) → ℤ)) =>
      Comp l c.qs m.1 d.1 ∧ Comp l c.ps m.2 d.1 ∧ CongMod (modulusProd c.qs) C d.2 ∧
      ∀ i, |((modulusProd c.ps * d.2 i - modulusProd c.qs * d.1 i : ℤ) : ℚ)| ≤
          (1 / 2 + ε) * modulusProd c.qs ∧
        |(d.1 i : ℚ)| ≤ (1 / 2 + ε) * modulusProd c.ps)
    (fun u C hu => by
      obtain ⟨v, v1, v2, v3⟩ := repr_toCoeff hc.qs hu.2 hu.1
      obtain ⟨m, d, e1, e2⟩ := scaleToAux_ok hc hne hnp he hε hwq hwp i2 v2 v3
      exact ⟨m, d, by rw [v1, Outcome.bind_ok, e1], e2⟩) h1
  obtain ⟨c0, c1, c2⟩ := forall₂_rd (0 : NR (2 ^ l)) h1 (List.length_pos_iff.mpr h0)
  have hlog : x.logN = .ok l := by
    unfold RCt.logN
    rw [c1, Outcome.bind_ok, c2.2.1]; rfl
  obtain ⟨z, z1, z2, z3⟩ := repr_createZero hc.qs hne true
  obtain ⟨za, za1, za2, za3⟩ := repr_createZero hc.ps hnp true
  have hYs : List.Forall₂ (Comp l c.qs) y.c (Ys.map (·.2)) := by
    refine comp_congr_list h3 ?_
    rw [← y2]
    exact forall₂_maps _ _ (forall₂_right (fun _ _ h => h.2.1) y3)
  have hYa : List.Forall₂ (Comp l c.ps) yAux (Ys.map (·.2)) := forall₂_imp_map _ (fun _ _ h => h.1) y3
  have hXs : List.Forall₂ (Comp l c.qs) (xs.map (·.1)) (Es.map (·.2.1)) :=
    forall₂_map_imp _ _ (fun _ _ h => h.1) x3
  have hXa : List.Forall₂ (Comp l c.ps) (xs.map (·.2)) (Es.map (·.2.1)) :=
    forall₂_map_imp _ _ (fun _ _ h => h.2.1) x3
  have lx : xs.length = x.c.length := by
    rw [x3.length_eq, h1.length_eq, ← x2, List.length_map]
  have ly : yAux.length = y.c.length := by
    rw [y3.length_eq, h3.length_eq, ← y2, List.length_map]
  obtain ⟨r, t1, t2, t3, t4⟩ := tensor_ok' hc.qs hXs hYs
    (forall₂_replicate (P := Comp l c.qs) (b := (0 : NR (2 ^ l))) ⟨z2, z3⟩
      (x.c.length + y.c.length - 1)) (by simp [lx])
  obtain ⟨ra, u1, u2, u3, u4⟩ := tensor_ok' hc.ps hXa hYa
    (forall₂_replicate (P := Comp l c.ps) (b := (0 : NR (2 ^ l))) ⟨za2, za3⟩
      (x.c.length + y.c.length - 1)) (by simp [lx, ly])
  obtain ⟨rs, Us, s1, s2, s3⟩ := mapM_exists₂ (f := fun u : RPoly × RPoly =>
      scaleAndReduceBasis est u.2 c.t c.qs c.ps c.primePHatInvs c.primePHatModQs c.pModQs c.pInvModQs u.1)
    (R := fun C b R => Comp l c.qs b R ∧
      ∀ i, |((c.t * C i - modulusProd c.ps * R i : ℤ) : ℚ)| ≤ (1 / 2 + ε) * modulusProd c.ps)
    (fun a a' C hu hv => by
      obtain ⟨b, R, e1, e2, e3⟩ := reduce_ok hc hne hnp he hε hwp hu hv
      exact ⟨b, R, e1, e2, fun i => e3 i⟩) t2 u2
  refine ⟨⟨rs, x.ms, x.power⟩, Es, Ys, Us, ?_, rfl, rfl, ?_, ?_, x2, y2, ?_, ?_, ?_, ?_⟩
  · unfold RCt.mulBfv
    rw [if_neg (by simp [hx, hy]), if_neg (by simp [hp]), hx]
    dsimp only
    rw [i1, Outcome.bind_ok, r1, Outcome.bind_ok, q1, Outcome.bind_ok, y1, Outcome.bind_ok, hlog, Outcome.bind_ok,
      z1, Outcome.bind_ok, za1, Outcome.bind_ok, x1, Outcome.bind_ok, t1, Outcome.bind_ok, u1, Outcome.bind_ok,
      s1]
    rfl
  · have e1 := s3.length_eq
    have e2 := t2.length_eq
    have e3 := congrArg List.length s2
    rw [List.length_map] at e3
    show rs.length = _
    rw [e1, e3, ← e2, t3, List.length_replicate]
  · exact forall₂_imp_map _ (fun _ _ h => h.1) s3
  · exact forall₂_right (fun _ _ h => h.2.2) x3
  · exact forall₂_right (fun _ _ h => h.2) y3
  · exact forall₂_right (fun _ _ h => h.2) s3
  · intro T
    rw [s2, innerProduct_eq T (Es.map _), innerProduct_eq T (Ys.map _)]
    refine (innerProduct_eq T _).trans ((t4 _).trans ?_)
    have e0 : phase (NR.mk T) (List.replicate (x.c.length + y.c.length - 1) (0 : NR (2 ^ l))) = 0 :=
      phase_replicate_zero _ _
    exact (congrArg₂ (· + ·) e0 rfl).trans (zero_add _)

/-- The phases of the operands and of the scaled product, for lists as in `mulBfv_core`. -/
theorem mulBfv_noise {t P Q : ℕ} {h : ℚ} (hP : 0 < P) (hQ : 0 < Q) (T : Fin (2 ^ l) → ℤ)
    (Es : List ((Fin (2 ^ l) → ℤ) × (Fin (2 ^ l) → ℤ) × (Fin (2 ^ l) → ℤ)))
    (Ys Us : List ((Fin (2 ^ l) → ℤ) × (Fin (2 ^ l) → ℤ)))
    (hE : ∀ e ∈ Es, CongMod Q e.1 e.2.2 ∧ ∀ i, |((P * e.2.2 i - Q * e.2.1 i : ℤ) : ℚ)| ≤ h * Q ∧
      |(e.2.1 i : ℚ)| ≤ h * P)
    (hY : ∀ e ∈ Ys, CongMod Q e.1 e.2 ∧ ∀ i, |(e.2 i : ℚ)| ≤ h * Q)
    (hU : ∀ e ∈ Us, ∀ i, |((t * e.1 i - P * e.2 i : ℤ) : ℚ)| ≤ h * P)
    (hT : innerProduct T (Us.map (·.1)) =
        negMul (innerProduct T (Es.map (·.2.1))) (innerProduct T (Ys.map (·.2)))) :
    CongMod Q (innerProduct T (Es.map (·.1))) (innerProduct T (Es.map (·.2.2))) ∧
    CongMod Q (innerProduct T (Ys.map (·.1))) (innerProduct T (Ys.map (·.2))) ∧
    (∀ i, |(innerProduct T (Es.map (·.2.2)) i : ℚ)| ≤ h * Q * (1 + 1 / P) * keyGrowth T Es.length) ∧
    (∀ i, |(innerProduct T (Ys.map (·.2)) i : ℚ)| ≤ h * Q * keyGrowth T Ys.length) ∧
    ∀ i, |((Q * innerProduct T (Us.map (·.2)) i -
        t * negMul (innerProduct T (Es.map (·.2.2))) (innerProduct T (Ys.map (·.2))) i : ℤ) : ℚ)| ≤
      t * (2 ^ l * (h * Q * keyGrowth T Es.length) * (h * Q * keyGrowth T Ys.length)) / P +
        Q * (h * keyGrowth T Us.length) := by
  have hP' : (0 : ℚ) < P := by exact_mod_cast hP
  have hQ' : (0 : ℚ) < Q := by exact_mod_cast hQ
  simp only [keyGrowth_eq]
  have bY := ip_bound T (h * Q) (fun e : (Fin (2 ^ l) → ℤ) × (Fin (2 ^ l) → ℤ) => e.2) Ys
    (fun e he i => by simpa using (hY e he).2 i)
  have bE := ip_bound T (h * Q) (fun (e : (Fin (2 ^ l) → ℤ) × (Fin (2 ^ l) → ℤ) × (Fin (2 ^ l) → ℤ)) i =>
    (P : ℤ) * e.2.2 i - Q * e.2.1 i) Es (fun e he i => by simpa using ((hE e he).2 i).1)
  have bX := ip_bound T (h * P) (fun e : (Fin (2 ^ l) → ℤ) × (Fin (2 ^ l) → ℤ) × (Fin (2 ^ l) → ℤ) => e.2.1) Es
    (fun e he i => by simpa using ((hE e he).2 i).2)
  have bU := ip_bound T (h * P) (fun (e : (Fin (2 ^ l) → ℤ) × (Fin (2 ^ l) → ℤ)) i =>
    (t : ℤ) * e.1 i - P * e.2 i) Us (fun e he i => by simpa using hU e he i)
  rw [ip_lin] at bE bU
  refine ⟨innerProduct_congr T (forall₂_maps _ _ fun e he => (hE e he).1),
    innerProduct_congr T (forall₂_maps _ _ fun e he => (hY e he).1), fun i => ?_, fun i => by simpa using bY i,
    fun i => ?_⟩
  · have k1 := bE i
    have k2 := bX i
    push_cast at k1 k2
    rw [abs_le] at k1 k2 ⊢
    have e : h * Q * (1 + 1 / P) = (h * Q + Q * (h * P)) / P := by field_simp; ring
    rw [e, div_mul_eq_mul_div, ← neg_div, div_le_iff₀ hP', le_div_iff₀ hP']
    have m1 := mul_le_mul_of_nonneg_left k2.1 hQ'.le
    have m2 := mul_le_mul_of_nonneg_left k2.2 hQ'.le
    constructor <;> linarith
  · have k := bfv_core (P := P) (Q := Q) (t := t) (A := innerProduct T (Es.map (·.2.2)))
      (X := innerProduct T (Es.map (·.2.1))) (B := innerProduct T (Ys.map (·.2)))
      (Ψ := innerProduct T (Us.map (·.2))) (by positivity) (by positivity) (fun i => by exact_mod_cast bE i)
      (fun i => by rw [← hT]; exact_mod_cast bU i) (fun i => by exact_mod_cast bY i) (by positivity) i
    have e1 : t * (2 ^ l * (h * Q * ∑ j ∈ Finset.range Es.length, (norm1 T : ℚ) ^ j) *
          (h * Q * ∑ j ∈ Finset.range Ys.length, (norm1 T : ℚ) ^ j)) / P +
        Q * (h * ∑ j ∈ Finset.range Us.length, (norm1 T : ℚ) ^ j) =
        (t * (2 ^ l * (h * Q * ∑ j ∈ Finset.range Es.length, (norm1 T : ℚ) ^ j) *
          (h * Q * ∑ j ∈ Finset.range Ys.length, (norm1 T : ℚ) ^ j)) +
        Q * (h * P * ∑ j ∈ Finset.range Us.length, (norm1 T : ℚ) ^ j)) / P := by
      field_simp
    rw [e1, le_div_iff₀ hP', mul_comm]
    exact_mod_cast k

theorem bfvMulNoise_eq {t P Q : ℕ} {h gx gy gr vx vy : ℚ} (hP : 0 < P) (hQ : 0 < Q) :
    2 ^ l * ((t * (h * Q * (1 + 1 / P) * gx) + vx) / Q * vy + (t * (h * Q * gy) + vy) / Q * vx) +
      (2 ^ l * vx * vy + t * (t * (2 ^ l * (h * Q * gx) * (h * Q * gy)) / P + Q * (h * gr))) / Q =
    bfvMulNoise (2 ^ l) t Q P h gx gy gr vx vy := by
  have hP' : (P : ℚ) ≠ 0 := by positivity
  have hQ' : (Q : ℚ) ≠ 0 := by positivity
  unfold bfvMulNoise
  push_cast
  field_simp
  ring

/-- Messages of operands that changed by multiples of `Q`. -/
theorem bfv_product {t P Q : ℕ} {h gx gy gr vx vy : ℚ} (hP : 0 < P) (hQ : 0 < Q)
    {Φ Ψ A B R M N : Fin (2 ^ l) → ℤ} (hx : BfvNear t Q Φ M vx) (hy : BfvNear t Q Ψ N vy)
    (cA : CongMod Q Φ A) (cB : CongMod Q Ψ B)
    (hA : ∀ i, |(A i : ℚ)| ≤ h * Q * (1 + 1 / P) * gx) (hB : ∀ i, |(B i : ℚ)| ≤ h * Q * gy)
    (hd : ∀ i, |((Q * R i - t * negMul A B i : ℤ) : ℚ)| ≤
      t * (2 ^ l * (h * Q * gx) * (h * Q * gy)) / P + Q * (h * gr)) :
    ∃ R', CongMod Q R R' ∧ BfvNear t Q R' (negMul M N) (bfvMulNoise (2 ^ l) t Q P h gx gy gr vx vy) := by
  have shift : ∀ {Φ A M : Fin (2 ^ l) → ℤ} {v : ℚ}, BfvNear t Q Φ M v → CongMod Q Φ A →
      ∃ M', CongMod t M M' ∧ BfvNear t Q A M' v := by
    intro Φ A M v hx cA
    choose k hk using cA
    refine ⟨fun i => M i - t * k i, fun i => ⟨k i, by ring⟩, fun i => ?_⟩
    have e : (A i : ℚ) = Φ i - Q * k i := by
      have : A i = Φ i - Q * k i := by linarith [hk i]
      rw [this]; push_cast; ring
    have := hx i
    rw [e]
    push_cast
    convert this using 2
    ring
  obtain ⟨M', m1, m2⟩ := shift hx cA
  obtain ⟨N', n1, n2⟩ := shift hy cB
  have key := bfv_noise hQ m2 n2 hA hB hd
  rw [bfvMulNoise_eq hP hQ] at key
  have hmn : CongMod t (negMul M' N') (negMul M N) := (m1.mul n1).symm
  choose k hk using hmn
  refine ⟨fun i => R i - Q * k i, fun i => ⟨k i, by ring⟩, fun i => ?_⟩
  have e : ((negMul M N i : ℤ) : ℚ) = ((negMul M' N' i : ℤ) : ℚ) - t * k i := by
    have : negMul M N i = negMul M' N' i - t * k i := by linarith [hk i]
    rw [this]; push_cast; ring
  have := key i
  rw [e]
  push_cast
  convert this using 2
  ring

theorem modulusProd_pos {ms : List Modulus} (hg : ∀ m ∈ ms, GoodModulus w l m) : 0 < modulusProd ms := by
  refine List.prod_pos fun a ha => ?_
  obtain ⟨m, hm, rfl⟩ := List.mem_map.mp ha
  exact (hg m hm).prime.pos

/-- **C57.** `RnsBfvCiphertext::Mul` of ciphertexts that hold `M` and `N` holds the product of `M` and `N`. -/
theorem c57_mul (hc : GoodCtx w l c) (hne : c.qs ≠ []) (hnp : c.ps ≠ [])
    (he : EstimateWithin (max c.qs.length c.ps.length) ε est)
    (hε : ε < 1 / 2) (hwq : c.qs.length < 2 ^ w) (hwp : c.ps.length < 2 ^ w)
    (hx : x.ms = c.qs) (hy : y.ms = c.qs) (hp : y.power = x.power) (h0 : x.c ≠ [])
    {M N : Fin (2 ^ l) → ℤ} {vx vy : ℚ} (h1 : BfvEncrypts l S c.t x M vx) (h2 : BfvEncrypts l S c.t y N vy) :
    ∃ r, x.mulBfv est c y = .ok r ∧ Like x r ∧ r.c.length = x.c.length + y.c.length - 1 ∧
      BfvEncrypts l S c.t r (negMul M N) (bfvMulNoise (2 ^ l) c.t (modulusProd c.qs) (modulusProd c.ps) (1 / 2 + ε)
        (keyGrowth (substPow x.power.toNat S) x.c.length) (keyGrowth (substPow x.power.toNat S) y.c.length)
        (keyGrowth (substPow x.power.toNat S) (x.c.length + y.c.length - 1)) vx vy) := by
  obtain ⟨Φ, ⟨a0, Cs, a1, a2⟩, a3⟩ := h1
  obtain ⟨Ψ, ⟨-, Ds, b1, b2⟩, b3⟩ := h2
  have a1' : List.Forall₂ (Comp l c.qs) x.c Cs := by rw [← hx]; exact a1
  have b1' : List.Forall₂ (Comp l c.qs) y.c Ds := by rw [← hy]; exact b1
  rw [hx] at a2 a3
  rw [hy, hp] at b2
  rw [hy] at b3
  obtain ⟨r, Es, Ys, Us, e1, e2, e3, e4, e5, e6, e7, e8, e9, e10, e11⟩ :=
    mulBfv_core hc hne hnp he hε hwq hwp hx hy hp h0 a1' b1'
  have hP := modulusProd_pos hc.ps
  have hQ := modulusProd_pos hc.qs
  obtain ⟨f1, f2, f3, f4, f5⟩ := mulBfv_noise hP hQ (substPow x.power.toNat S) Es Ys Us e8 e9 e10 (e11 _)
  have lE : Es.length = x.c.length := by
    rw [a1'.length_eq, ← e6, List.length_map]
  have lY : Ys.length = y.c.length := by
    rw [b1'.length_eq, ← e7, List.length_map]
  have lU : Us.length = x.c.length + y.c.length - 1 := by
    rw [← e4, e5.length_eq, List.length_map]
  rw [e6] at f1
  rw [e7] at f2
  rw [lE] at f3 f5
  rw [lY] at f4 f5
  rw [lU] at f5
  obtain ⟨R, g1, g2⟩ := bfv_product hP hQ a3 b3 (a2.symm.trans f1) (b2.symm.trans f2) f3 f4 f5
  refine ⟨r, e1, ⟨e2, e3⟩, e4, R, ⟨by rw [e3]; exact a0, Us.map (·.2), ?_, ?_⟩, ?_⟩
  · show List.Forall₂ (Comp l r.ms) r.c _
    rw [e2, hx]; exact e5
  · rw [e2, e3, hx]; exact g1
  · rw [e2, hx]; exact g2

theorem ip_mul {E : Type} (T Y : Fin (2 ^ l) → ℤ) (f : E → Fin (2 ^ l) → ℤ) (L : List E) :
    innerProduct T (L.map fun e => negMul (f e) Y) = negMul (innerProduct T (L.map f)) Y := by
  induction L with
  | nil => simp only [List.map_nil, innerProduct]; exact (NR.zero_negMul Y).symm
  | cons e L ih =>
    simp only [List.map_cons, innerProduct]
    rw [ih, NR.add_negMul, NR.negMul_assoc]

theorem ip_single (T Y : Fin (2 ^ l) → ℤ) : innerProduct T [Y] = Y := by
  simp only [innerProduct]
  rw [NR.negMul_comm, NR.zero_negMul, add_zero]

/-- **C57.** `RnsBfvCiphertext::AbsorbInPlace` of a plaintext polynomial that holds `N` (scaled encoding) and a
ciphertext that holds `M` holds the product of `M` and `N`. -/
theorem c57_absorb (hc : GoodCtx w l c) (hne : c.qs ≠ []) (hnp : c.ps ≠ [])
    (he : EstimateWithin (max c.qs.length c.ps.length) ε est)
    (hε : ε < 1 / 2) (hwq : c.qs.length < 2 ^ w) (hwp : c.ps.length < 2 ^ w) (hx : x.ms = c.qs)
    {pt : RPoly} {G : Fin (2 ^ l) → ℤ} (hn : pt.ntt = true) (hpt : Represents l c.qs pt G)
    {M N : Fin (2 ^ l) → ℤ} {vx vy : ℚ} (h1 : BfvEncrypts l S c.t x M vx)
    (h2 : BfvNear c.t (modulusProd c.qs) G N vy) :
    ∃ r, x.absorbBfv est c pt = .ok r ∧ Like x r ∧ r.c.length = x.c.length ∧
      BfvEncrypts l S c.t r (negMul M N) (bfvMulNoise (2 ^ l) c.t (modulusProd c.qs) (modulusProd c.ps) (1 / 2 + ε)
        (keyGrowth (substPow x.power.toNat S) x.c.length) 1
        (keyGrowth (substPow x.power.toNat S) x.c.length) vx vy) := by
  obtain ⟨Φ, ⟨a0, Cs, a1, a2⟩, a3⟩ := h1
  have a1' : List.Forall₂ (Comp l c.qs) x.c Cs := by rw [← hx]; exact a1
  rw [hx] at a2 a3
  obtain ⟨⟨hi, i1, i2⟩, ⟨hr, r1, r2⟩, ⟨qm, q1, q2⟩⟩ := top_level hc hne
  obtain ⟨v, a, b, Y, y1, y2, y3, y4, y5, y6⟩ := toAux_ok hc hne hnp he hε hwq i2 r2 q2 ⟨hn, hpt⟩
  have hptY : Represents l c.qs pt Y := repr_congr hpt y5
  obtain ⟨rs, Es, s1, s2, s3⟩ := mapM_exists (f := fun u => RCt.absorbBfvStep est c c.qs hi pt b u)
    (R := fun C r (d : ((Fin (2 ^ l) → ℤ) × (Fin (2 ^ l) → ℤ)) × (Fin (2 ^ l) → ℤ)) =>
      Comp l c.qs r d.2 ∧ (CongMod (modulusProd c.qs) C d.1.2 ∧
      ∀ i, |((modulusProd c.ps * d.1.2 i - modulusProd c.qs * d.1.1 i : ℤ) : ℚ)| ≤
          (1 / 2 + ε) * modulusProd c.qs ∧
        |(d.1.1 i : ℚ)| ≤ (1 / 2 + ε) * modulusProd c.ps) ∧
      ∀ i, |((c.t * negMul d.1.1 Y i - modulusProd c.ps * d.2 i : ℤ) : ℚ)| ≤ (1 / 2 + ε) * modulusProd c.ps)
    (fun u C hu => by
      obtain ⟨v, v1, v2, v3⟩ := repr_ensureCoeff hc.qs hu.2
      obtain ⟨m, d, e1, e2, e3, e4⟩ := scaleToAux_ok hc hne hnp he hε hwq hwp i2 v2 v3
      obtain ⟨f, f1, f2, f3⟩ := repr_mul hc.qs e2.2 hptY e2.1 hn
      obtain ⟨g, g1, g2, g3⟩ := repr_mul hc.ps e3.2 y4.2 e3.1 y4.1
      obtain ⟨r, R, k1, k2, k3⟩ := reduce_ok hc hne hnp he hε hwp ⟨f2, f3⟩ ⟨g2, g3⟩
      refine ⟨r, (d, R), ?_, k2, e4, fun i => k3 i⟩
      unfold RCt.absorbBfvStep
      rw [v1, Outcome.bind_ok, e1, Outcome.bind_ok]
      dsimp only
      rw [f1, Outcome.bind_ok, g1, Outcome.bind_ok, k1]) a1'
  have lE : Es.length = x.c.length := by rw [a1'.length_eq, ← s2, List.length_map]
  have lr : rs.length = x.c.length := by rw [s3.length_eq, lE]
  have hP := modulusProd_pos hc.ps
  have hQ := modulusProd_pos hc.qs
  set T := substPow x.power.toNat S with hT
  obtain ⟨f1, f2, f3, f4, f5⟩ := mulBfv_noise (t := c.t) hP hQ T (Es.map fun e => (e.1, e.2.1)) [(G, Y)]
    (Es.map fun e => (negMul e.2.1.1 Y, e.2.2)) (h := 1 / 2 + ε)
    (by
      intro e he
      obtain ⟨e', he', rfl⟩ := List.mem_map.mp he
      exact forall₂_right (P := fun e : (Fin (2 ^ l) → ℤ) × ((Fin (2 ^ l) → ℤ) × (Fin (2 ^ l) → ℤ)) ×
        (Fin (2 ^ l) → ℤ) => (CongMod (modulusProd c.qs) e.1 e.2.1.2 ∧
      ∀ i, |((modulusProd c.ps * e.2.1.2 i - modulusProd c.qs * e.2.1.1 i : ℤ) : ℚ)| ≤
          (1 / 2 + ε) * modulusProd c.qs ∧
        |(e.2.1.1 i : ℚ)| ≤ (1 / 2 + ε) * modulusProd c.ps)) (fun _ _ h => h.2.1) s3 e' he')
    (by
      intro e he
      obtain rfl := List.mem_singleton.mp he
      exact ⟨y5, fun i => y6 i⟩)
    (by
      intro e he
      obtain ⟨e', he', rfl⟩ := List.mem_map.mp he
      exact forall₂_right (P := fun e : (Fin (2 ^ l) → ℤ) × ((Fin (2 ^ l) → ℤ) × (Fin (2 ^ l) → ℤ)) ×
        (Fin (2 ^ l) → ℤ) =>
        ∀ i, |((c.t * negMul e.2.1.1 Y i - modulusProd c.ps * e.2.2 i : ℤ) : ℚ)| ≤
          (1 / 2 + ε) * modulusProd c.ps) (fun _ _ h => h.2.2) s3 e' he')
    (by
      simp only [List.map_map, Function.comp_def, List.map_cons, List.map_nil, ip_single, ip_mul])
  simp only [List.map_map, Function.comp_def, List.map_cons, List.map_nil, ip_single, List.length_map,
    List.length_singleton, lE, List.length_cons, List.length_nil, Nat.zero_add] at f1 f2 f3 f4 f5
  rw [show keyGrowth T 1 = 1 by simp [keyGrowth]] at f4 f5
  have f1' := f1
  rw [show (Es.map fun e => e.1) = Cs from s2] at f1'
  obtain ⟨R, g1, g2⟩ := bfv_product hP hQ a3 h2 (a2.symm.trans f1') f2 f3 f4 f5
  refine ⟨{ x with c := rs }, ?_, ⟨rfl, rfl⟩, lr, R, ⟨a0, Es.map (·.2.2), ?_, ?_⟩, ?_⟩
  · unfold RCt.absorbBfv
    rw [if_neg (by simp [hn]), hx]
    dsimp only
    rw [i1, Outcome.bind_ok, r1, Outcome.bind_ok, q1, Outcome.bind_ok, y1, Outcome.bind_ok, y2, Outcome.bind_ok, y3,
      Outcome.bind_ok, s1]
    rfl
  · show List.Forall₂ (Comp l x.ms) rs _
    rw [hx]
    exact forall₂_imp_map _ (fun _ _ h => h.1) s3
  · show CongMod (modulusProd x.ms) _ _
    rw [hx]; exact g1
  · show BfvNear _ (modulusProd x.ms) _ _ _
    rw [hx]; exact g2

/-! ### Lower levels -/

section
variable {k : ℕ} {hatInv qMod : List ℕ} {hatMod : List (List ℕ)} {u : RPoly} {C : Fin (2 ^ l) → ℤ}

theorem level_consts (hc : GoodCtx w l c) (h0 : 0 < k) (hk : k ≤ c.qs.length) :
    (∃ a, c.crtFactors ((k : ℤ) - 1) = .ok a ∧ HatInvs (c.qs.take k) a) ∧
    (∃ a, c.complementResidues ((k : ℤ) - 1) = .ok a ∧ HatResidues (c.qs.take k) c.ps a) ∧
    (∃ a, c.leveledAuxResidues ((k : ℤ) - 1) = .ok a ∧ RnsIntIs c.ps a (modulusProd (c.qs.take k))) := by
  have e : ((k - 1 : ℕ) : ℤ) = (k : ℤ) - 1 := by omega
  have e1 : k - 1 + 1 = k := Nat.sub_add_cancel h0
  obtain ⟨a, a1, a2⟩ := hc.inverses.crtFactors (k - 1) (by omega)
  obtain ⟨b, b1, b2⟩ := hc.residues.complementResidues (k - 1) (by omega)
  obtain ⟨d, d1, d2⟩ := hc.residues.leveled (k - 1) (by omega)
  rw [e] at a1 b1 d1
  rw [e1] at a2 b2 d2
  exact ⟨⟨a, a1, a2⟩, ⟨b, b1, b2⟩, ⟨d, d1, d2⟩⟩

/-- The auxiliary residues of the context are those for all main moduli; at a lower level they are too many. -/
theorem scaleToAux_level (hc : GoodCtx w l c) (h0 : 0 < k) (hk : k < c.qs.length) (hnp : c.ps ≠ [])
    (he : EstimateWithin (max c.qs.length c.ps.length) ε est) (hε : ε < 1 / 2) (hwq : c.qs.length < 2 ^ w)
    (hi : HatInvs (c.qs.take k) hatInv) (hn : u.ntt = false) (hu : Represents l (c.qs.take k) u C) :
    RCt.scaleToAux est c (c.qs.take k) hatInv u = .err .invalidArgument := by
  have hg : ∀ m ∈ c.qs.take k, GoodModulus w l m := fun m hm => hc.qs m (List.mem_of_mem_take hm)
  have lk : (c.qs.take k).length = k := by rw [List.length_take]; omega
  have hne : c.qs.take k ≠ [] := by
    intro h; rw [h] at lk; simp at lk; omega
  obtain ⟨m0, hm0⟩ := List.exists_mem_of_ne_nil _ hne
  have hl15 := (hg m0 hm0).l15
  have hpm := hc.residues.pModQs
  obtain ⟨a, G, a1, a2, a3, a4⟩ := c47_scale (est := est) (outs := c.ps) (pMod := c.pModQs)
    (qInvMod := c.primeQInvModPs) (fun m hm => (hg m hm).create)
    (fun m hm => (hc.ps m hm).create)
    ((ctx_coprime hc).1.sublist ((List.take_sublist k c.qs).map _)) hne hnp (by omega) hu hn
    (by rw [List.take_of_length_le (l := hatInv) (by rw [← List.Forall₂.length_eq hi])]; exact hi)
    (by
      refine hc.inverses.primeQInvModPs.imp fun p row h => ?_
      have := List.forall₂_take k h
      rw [List.take_take, min_eq_left (by omega)] at this
      rw [lk]; exact this)
    (by rw [lk]; exact List.forall₂_take k hpm) (within_mono he (by rw [lk]; omega)) hε (by omega)
  unfold RCt.scaleToAux
  rw [a1, Outcome.bind_ok]
  have := (c47_rejects est c.ps (c.qs.take k) c.primePHatInvs c.pModQs c.pModQs c.primePHatModQs
    c.primeQInvModPs a false).1 (.inr (.inr (.inr (.inr (.inr (by
      rw [lk, ← List.Forall₂.length_eq hpm]; omega))))))
  rw [this]
  rfl

/-- **C57.** Below the top level both `Mul` and `AbsorbInPlace` fail, for all operands. -/
theorem c57_level (hc : GoodCtx w l c) (h0 : 0 < k) (hk : k < c.qs.length) (hnp : c.ps ≠ [])
    (he : EstimateWithin (max c.qs.length c.ps.length) ε est) (hε : ε < 1 / 2) (hwq : c.qs.length < 2 ^ w)
    (hx : x.ms = c.qs.take k) (hy : y.ms = c.qs.take k) (hp : y.power = x.power) (hx0 : x.c ≠ [])
    {Cs Ds : List (Fin (2 ^ l) → ℤ)} (h1 : Components l x Cs) (h2 : Components l y Ds)
    {pt : RPoly} {G : Fin (2 ^ l) → ℤ} (hn : pt.ntt = true) (hpt : Represents l (c.qs.take k) pt G) :
    x.mulBfv est c y = .err .invalidArgument ∧ x.absorbBfv est c pt = .err .invalidArgument := by
  have hg : ∀ m ∈ c.qs.take k, GoodModulus w l m := fun m hm => hc.qs m (List.mem_of_mem_take hm)
  have lk : (c.qs.take k).length = k := by rw [List.length_take]; omega
  have hne : c.qs.take k ≠ [] := by
    intro h; rw [h] at lk; simp at lk; omega
  obtain ⟨m0, hm0⟩ := List.exists_mem_of_ne_nil _ hne
  have hl15 := (hg m0 hm0).l15
  obtain ⟨⟨hi, i1, i2⟩, ⟨hr, r1, r2⟩, ⟨qm, q1, q2⟩⟩ := level_consts hc h0 hk.le
  have h1' : List.Forall₂ (Comp l (c.qs.take k)) x.c Cs := by rw [← hx]; exact h1
  have h2' : List.Forall₂ (Comp l (c.qs.take k)) y.c Ds := by rw [← hy]; exact h2
  have aux : ∀ u C, Comp l (c.qs.take k) u C → ∃ v a b, toCoeff (c.qs.take k) u = .ok v ∧
      switchBasis est (c.qs.take k) c.ps hi hr qm v = .ok a ∧ toNtt c.ps a = .ok b := by
    intro u C hu
    obtain ⟨v, v1, v2, v3⟩ := repr_toCoeff hg hu.2 hu.1
    obtain ⟨a, Y, a1, a2, a3, a4⟩ := c47_switch (fun m hm => (hg m hm).create)
      (fun m hm => (hc.ps m hm).create) ((ctx_coprime hc).1.sublist ((List.take_sublist k c.qs).map _)) hne hnp
      (by omega) v3 v2
      (by rw [List.take_of_length_le (l := hi) (by rw [← List.Forall₂.length_eq i2])]; exact i2)
      (by rw [List.take_of_length_le (l := hr) (by rw [← List.Forall₂.length_eq r2])]; exact r2) q2 (within_mono he (by rw [lk]; omega)) hε (by omega)
    obtain ⟨b, b1, -⟩ := repr_toNtt hc.ps a3 a2
    exact ⟨v, a, b, v1, a1, b1⟩
  obtain ⟨yAux, Ys, y1, -⟩ := mapM_exists (f := fun u => do
      let u ← Rns.toCoeff (c.qs.take k) u
      let a ← switchBasis est (c.qs.take k) c.ps hi hr qm u
      Rns.toNtt c.ps a) (R := fun _ _ (_ : Unit) => True)
    (fun u C hu => by
      obtain ⟨v, a, b, e1, e2, e3⟩ := aux u C hu
      exact ⟨b, (), by rw [e1, Outcome.bind_ok, e2, Outcome.bind_ok, e3], trivial⟩) h2'
  obtain ⟨c0, c1, c2⟩ := forall₂_rd (0 : NR (2 ^ l)) h1' (List.length_pos_iff.mpr hx0)
  have hlog : x.logN = .ok l := by
    unfold RCt.logN
    rw [c1, Outcome.bind_ok, c2.2.1]; rfl
  obtain ⟨z, z1, -⟩ := repr_createZero hg hne true
  obtain ⟨za, za1, -⟩ := repr_createZero hc.ps hnp true
  obtain ⟨u, us, hu⟩ := List.exists_cons_of_ne_nil hx0
  rw [hu] at h1'
  cases h1' with
  | @cons _ C _ Cs' hc0 _ =>
  obtain ⟨v, v1, v2, v3⟩ := repr_toCoeff hg hc0.2 hc0.1
  have hs := scaleToAux_level hc h0 hk hnp he hε hwq i2 v2 v3
  constructor
  · unfold RCt.mulBfv
    rw [if_neg (by simp [hx, hy]), if_neg (by simp [hp]), hx, lk]
    dsimp only
    rw [i1, Outcome.bind_ok, r1, Outcome.bind_ok, q1, Outcome.bind_ok, y1, Outcome.bind_ok, hlog, Outcome.bind_ok,
      z1, Outcome.bind_ok, za1, Outcome.bind_ok, hu, List.mapM_cons, v1, Outcome.bind_ok, hs]
    rfl
  · obtain ⟨v', a, b, e1, e2, e3⟩ := aux pt G ⟨hn, hpt⟩
    unfold RCt.absorbBfv
    rw [if_neg (by simp [hn]), hx, lk]
    dsimp only
    rw [i1, Outcome.bind_ok, r1, Outcome.bind_ok, q1, Outcome.bind_ok, e1, Outcome.bind_ok, e2, Outcome.bind_ok, e3,
      Outcome.bind_ok, hu, List.mapM_cons]
    unfold RCt.absorbBfvStep ensureCoeff
    rw [if_pos hc0.1, v1, Outcome.bind_ok, hs]
    rfl

end

/-! ### Decryption -/

section
variable {k : RKey} {M : Fin (2 ^ l) → ℤ} {v : ℚ} {lev : ℕ}

/-- **C57.** A BFV ciphertext with noise below `(1/2 - ε) Q` decrypts to its message: the coefficients modulo `t`,
and the slots. -/
theorem c57_decrypt (hest : EstimateWithin k.ms.length ε est) (hε : ε < 1 / 2) {mt : Modulus} (hc : GoodCtx w l c)
    (hb : BfvConstants c mt) (hcr : MParams.create w mt.N = .ok mt.p) (hN : mt.N = c.t)
    (hkm : k.ms = c.qs.take lev) (hne : k.ms ≠ [])
    (hlen : k.ms.length < 2 ^ w) (hk : KeyIs l k S) (hms : x.ms = k.ms) (h0 : x.c ≠ []) (hp : x.power = 1)
    (hx : BfvEncrypts l S c.t x M v) (hv : v < (1 / 2 - ε) * modulusProd k.ms) :
    k.decryptBfv (coefficientEncoder est c) x = .ok (List.ofFn fun i => (M i % c.t).toNat) ∧
    ∀ e, GoodEncoder w l e → e.ctx = c → e.mt = mt → k.decryptBfv (finiteFieldEncoder est e) x =
      .ok (List.ofFn fun i : Fin (2 ^ l) => (slotsOf (nttRoot l mt) l M i).val) := by
  obtain ⟨Φ, h1, h2⟩ := hx
  rw [hms] at h2
  obtain ⟨z, z1, z2, -, z3, -⟩ := c55_decrypt (fun m hm => hc.qs m (by
    rw [hkm] at hm; exact List.mem_of_mem_take hm)) hne hk hms hp h0 h1
  constructor
  · rw [z3]
    exact c49_decode hc hb hcr hN hkm.symm hne z2 hest hε hlen fun i => (h2 i).trans_lt hv
  · rintro e he rfl rfl
    rw [z3]
    exact c50_decode_bfv he hb hkm.symm hne z2 hest hε hlen fun i => (h2 i).trans_lt hv

end

/-! ### Computations -/

variable {ι : Type}

/-- A computation on BFV ciphertexts. -/
inductive BCircuit (ι : Type) where
  | input (i : ι)
  | neg (a : BCircuit ι)
  | add (a b : BCircuit ι)
  | sub (a b : BCircuit ι)
  | mul (a b : BCircuit ι)
  | addPlain (a : BCircuit ι) (p : RPoly)
  | subPlain (a : BCircuit ι) (p : RPoly)
  | absorb (a : BCircuit ι) (p : RPoly)
  | absorbSimple (a : BCircuit ι) (p : RPoly)

/-- Running the computation with the library. -/
def BCircuit.run (est : Estimate) (c : Rns.Ctx) (x : ι → RCt) : BCircuit ι → Outcome RCt
  | input i => .ok (x i)
  | neg a => do (← run est c x a).negate
  | add a b => do (← run est c x a).add (← run est c x b)
  | sub a b => do (← run est c x a).sub (← run est c x b)
  | mul a b => do RCt.mulBfv est c (← run est c x a) (← run est c x b)
  | addPlain a p => do (← run est c x a).addPlain p
  | subPlain a p => do (← run est c x a).subPlain p
  | absorb a p => do RCt.absorbBfv est c (← run est c x a) p
  | absorbSimple a p => do (← run est c x a).absorbSimple p

/-- The same computation on messages: polynomials modulo `X^n + 1`. -/
def BCircuit.evalPoly {n : ℕ} (M : ι → Fin n → ℤ) (N : RPoly → Fin n → ℤ) : BCircuit ι → Fin n → ℤ
  | input i => M i
  | neg a => -evalPoly M N a
  | add a b => evalPoly M N a + evalPoly M N b
  | sub a b => evalPoly M N a - evalPoly M N b
  | mul a b => negMul (evalPoly M N a) (evalPoly M N b)
  | addPlain a p => evalPoly M N a + N p
  | subPlain a p => evalPoly M N a - N p
  | absorb a p | absorbSimple a p => negMul (evalPoly M N a) (N p)

/-- The same computation in one slot. -/
def BCircuit.eval {R : Type} [CommRing R] (f : ι → R) (m : RPoly → R) : BCircuit ι → R
  | input i => f i
  | neg a => -eval f m a
  | add a b => eval f m a + eval f m b
  | sub a b => eval f m a - eval f m b
  | mul a b => eval f m a * eval f m b
  | addPlain a p => eval f m a + m p
  | subPlain a p => eval f m a - m p
  | absorb a p | absorbSimple a p => eval f m a * m p

/-- The number of components of the result; `none` if ciphertexts of different degree are added. -/
def BCircuit.comps (d : ι → ℕ) : BCircuit ι → Option ℕ
  | input i => some (d i)
  | neg a => comps d a
  | add a b | sub a b => do
    let x ← comps d a
    let y ← comps d b
    if x = y then some x else none
  | mul a b => do
    let x ← comps d a
    let y ← comps d b
    some (x + y - 1)
  | addPlain a _ | subPlain a _ | absorb a _ | absorbSimple a _ => comps d a

/-- The plaintexts hold the messages `N`, in the scaled encoding with noise `b`; for `absorbSimple`, the plaintext
is the message, bounded by `b`. -/
def BCircuit.PlainsOk (l t : ℕ) (ms : List Modulus) (N : RPoly → Fin (2 ^ l) → ℤ) (b : RPoly → ℚ) :
    BCircuit ι → Prop
  | input _ => True
  | neg a => PlainsOk l t ms N b a
  | add a b' | sub a b' | mul a b' => PlainsOk l t ms N b a ∧ PlainsOk l t ms N b b'
  | addPlain a p | subPlain a p | absorb a p =>
    PlainsOk l t ms N b a ∧ p.ntt = true ∧ ∃ G, Represents l ms p G ∧ BfvNear t (modulusProd ms) G (N p) (b p)
  | absorbSimple a p => PlainsOk l t ms N b a ∧ p.ntt = true ∧ Represents l ms p (N p) ∧ ∀ i, |(N p i : ℚ)| ≤ b p

/-- The noise of the result, from the noise `v` of the inputs and their numbers of components `d`; `T` is the
secret with the power of the ciphertexts. -/
def BCircuit.noise {n : ℕ} (T : Fin n → ℤ) (t Q P : ℕ) (h : ℚ) (d : ι → ℕ) (v : ι → ℚ) (b : RPoly → ℚ) :
    BCircuit ι → ℚ
  | input i => v i
  | neg a => noise T t Q P h d v b a
  | add a b' | sub a b' => noise T t Q P h d v b a + noise T t Q P h d v b b'
  | mul a b' =>
    let da := (comps d a).getD 0
    let db := (comps d b').getD 0
    bfvMulNoise n t Q P h (keyGrowth T da) (keyGrowth T db) (keyGrowth T (da + db - 1))
      (noise T t Q P h d v b a) (noise T t Q P h d v b b')
  | addPlain a p | subPlain a p => noise T t Q P h d v b a + b p
  | absorb a p =>
    let da := (comps d a).getD 0
    bfvMulNoise n t Q P h (keyGrowth T da) 1 (keyGrowth T da) (noise T t Q P h d v b a) (b p)
  | absorbSimple a p => n * noise T t Q P h d v b a * b p

section
variable {t Q : ℕ} {F G M N : Fin (2 ^ l) → ℤ} {v u : ℚ}

theorem Spec.BfvNear.neg (h : BfvNear t Q F M v) : BfvNear t Q (-F) (-M) v := fun i => by
  have := h i
  simp only [Pi.neg_apply, Int.cast_neg]
  rw [← abs_neg]
  convert this using 2
  ring

theorem Spec.BfvNear.add (h : BfvNear t Q F M v) (h' : BfvNear t Q G N u) : BfvNear t Q (F + G) (M + N) (v + u) :=
  fun i => by
    simp only [Pi.add_apply, Int.cast_add]
    refine le_trans (le_of_eq ?_) ((abs_add_le _ _).trans (add_le_add (h i) (h' i)))
    congr 1
    ring

theorem Spec.BfvNear.sub (h : BfvNear t Q F M v) (h' : BfvNear t Q G N u) : BfvNear t Q (F - G) (M - N) (v + u) := by
  rw [sub_eq_add_neg, sub_eq_add_neg]; exact h.add h'.neg

theorem Spec.BfvNear.mul (h : BfvNear t Q F M v) (h' : ∀ i, |(N i : ℚ)| ≤ u) :
    BfvNear t Q (negMul F N) (negMul M N) (2 ^ l * v * u) := fun i => by
  have e := congrFun (Rns.negMul_lin (t : ℤ) (-(Q : ℤ)) F M N) i
  have := negMul_le' (F := fun i => (t : ℤ) * F i + -(Q : ℤ) * M i) (a := v) (fun i => by
    refine le_trans (le_of_eq ?_) (h i)
    push_cast
    congr 1
    ring) h' i
  rw [e] at this
  refine le_trans (le_of_eq ?_) this
  push_cast
  congr 1
  ring

end

/-- **C57.** A computation on BFV ciphertexts at the top level holds the result of the same computation on the
messages. -/
theorem c57_circuit (hc : GoodCtx w l c) (hne : c.qs ≠ []) (hnp : c.ps ≠ [])
    (he : EstimateWithin (max c.qs.length c.ps.length) ε est)
    (hε : ε < 1 / 2) (hwq : c.qs.length < 2 ^ w) (hwp : c.ps.length < 2 ^ w) {pow : ℤ}
    {x : ι → RCt} {M : ι → Fin (2 ^ l) → ℤ} {v : ι → ℚ} {N : RPoly → Fin (2 ^ l) → ℤ} {b : RPoly → ℚ}
    (hx : ∀ i, (x i).ms = c.qs ∧ (x i).power = pow ∧ (x i).c ≠ [] ∧ BfvEncrypts l S c.t (x i) (M i) (v i))
    (u : BCircuit ι) (hu : u.PlainsOk l c.t c.qs N b) :
    ∀ {d : ℕ}, u.comps (fun i => (x i).c.length) = some d →
    ∃ r, u.run est c x = .ok r ∧ r.ms = c.qs ∧ r.power = pow ∧ r.c.length = d ∧ 0 < d ∧
      BfvEncrypts l S c.t r (u.evalPoly M N)
        (u.noise (substPow pow.toNat S) c.t (modulusProd c.qs) (modulusProd c.ps) (1 / 2 + ε)
          (fun i => (x i).c.length) v b) := by
  have binop : ∀ {a b' : BCircuit ι} {d : ℕ}, (do
      let x1 ← a.comps fun i => (x i).c.length
      let y1 ← b'.comps fun i => (x i).c.length
      if x1 = y1 then some x1 else none) = some d →
      (a.comps fun i => (x i).c.length) = some d ∧ (b'.comps fun i => (x i).c.length) = some d := by
    intro a b' d h
    cases h1 : a.comps fun i => (x i).c.length with
    | none => rw [h1] at h; cases h
    | some d1 =>
      cases h2 : b'.comps fun i => (x i).c.length with
      | none => rw [h1, h2] at h; cases h
      | some d2 =>
        rw [h1, h2] at h
        simp only [Option.bind_eq_bind, Option.bind_some] at h
        split at h
        · next hd => cases h; exact ⟨rfl, by rw [hd]⟩
        · cases h
  induction u with
  | input i =>
    intro d hd
    obtain ⟨h1, h2, h3, h4⟩ := hx i
    cases hd
    exact ⟨x i, rfl, h1, h2, rfl, List.length_pos_iff.mpr h3, h4⟩
  | neg a ih =>
    intro d hd
    obtain ⟨r, r1, r2, r3, r4, r5, Φ, r6, r7⟩ := ih hu hd
    obtain ⟨r', s1, ⟨s2, s3⟩, s4, s5⟩ := c53_negate (by rw [r2]; exact hc.qs) r6
    exact ⟨r', by simp only [BCircuit.run]; rw [r1, Outcome.bind_ok, s1], s2.trans r2, s3.trans r3, s4.trans r4, r5,
      -Φ, s5, by rw [s2]; exact r7.neg⟩
  | add a b' iha ihb =>
    intro d hd
    obtain ⟨da, db⟩ := binop hd
    obtain ⟨r, r1, r2, r3, r4, r5, Φ, r6, r7⟩ := iha hu.1 da
    obtain ⟨p, p1, p2, p3, p4, p5, Ψ, p6, p7⟩ := ihb hu.2 db
    obtain ⟨r', s1, ⟨s2, s3⟩, s4, s5⟩ := c53_add (by rw [r2]; exact hc.qs) (p2.trans r2.symm) (p3.trans r3.symm)
      (p4.trans r4.symm) r6 p6
    rw [r2] at r7
    rw [p2] at p7
    exact ⟨r', by simp only [BCircuit.run]; rw [r1, Outcome.bind_ok, p1, Outcome.bind_ok, s1], s2.trans r2,
      s3.trans r3, s4.trans r4, r5, Φ + Ψ, s5, by rw [s2, r2]; exact r7.add p7⟩
  | sub a b' iha ihb =>
    intro d hd
    obtain ⟨da, db⟩ := binop hd
    obtain ⟨r, r1, r2, r3, r4, r5, Φ, r6, r7⟩ := iha hu.1 da
    obtain ⟨p, p1, p2, p3, p4, p5, Ψ, p6, p7⟩ := ihb hu.2 db
    obtain ⟨r', s1, ⟨s2, s3⟩, s4, s5⟩ := c53_sub (by rw [r2]; exact hc.qs) (p2.trans r2.symm) (p3.trans r3.symm)
      (p4.trans r4.symm) r6 p6
    rw [r2] at r7
    rw [p2] at p7
    exact ⟨r', by simp only [BCircuit.run]; rw [r1, Outcome.bind_ok, p1, Outcome.bind_ok, s1], s2.trans r2,
      s3.trans r3, s4.trans r4, r5, Φ - Ψ, s5, by rw [s2, r2]; exact r7.sub p7⟩
  | mul a b' iha ihb =>
    intro d hd
    simp only [BCircuit.comps] at hd
    cases h1 : a.comps fun i => (x i).c.length with
    | none => rw [h1] at hd; cases hd
    | some d1 =>
    cases h2 : b'.comps fun i => (x i).c.length with
    | none => rw [h1, h2] at hd; cases hd
    | some d2 =>
    rw [h1, h2] at hd
    cases hd
    obtain ⟨r, r1, r2, r3, r4, r5, r6⟩ := iha hu.1 h1
    obtain ⟨p, p1, p2, p3, p4, p5, p6⟩ := ihb hu.2 h2
    obtain ⟨r', s1, ⟨s2, s3⟩, s4, s5⟩ := c57_mul hc hne hnp he hε hwq hwp r2 p2 (p3.trans r3.symm)
      (List.length_pos_iff.mp (r4.symm ▸ r5)) r6 p6
    rw [r4, p4] at s4
    refine ⟨r', by simp only [BCircuit.run]; rw [r1, Outcome.bind_ok, p1, Outcome.bind_ok, s1], s2.trans r2,
      s3.trans r3, s4, by omega, ?_⟩
    simp only [BCircuit.noise, h1, h2, Option.getD_some]
    rw [r4, p4, r3] at s5
    exact s5
  | addPlain a p ih =>
    intro d hd
    obtain ⟨r, r1, r2, r3, r4, r5, Φ, r6, r7⟩ := ih hu.1 hd
    obtain ⟨hn, G, g1, g2⟩ := hu.2
    obtain ⟨r', s1, ⟨s2, s3⟩, s4, s5⟩ := c53_addPlain (by rw [r2]; exact hc.qs)
      (List.length_pos_iff.mp (r4.symm ▸ r5)) hn (by rw [r2]; exact g1) r6
    rw [r2] at r7
    exact ⟨r', by simp only [BCircuit.run]; rw [r1, Outcome.bind_ok, s1], s2.trans r2, s3.trans r3, s4.trans r4, r5,
      Φ + G, s5, by rw [s2, r2]; exact r7.add g2⟩
  | subPlain a p ih =>
    intro d hd
    obtain ⟨r, r1, r2, r3, r4, r5, Φ, r6, r7⟩ := ih hu.1 hd
    obtain ⟨hn, G, g1, g2⟩ := hu.2
    obtain ⟨r', s1, ⟨s2, s3⟩, s4, s5⟩ := c53_subPlain (by rw [r2]; exact hc.qs)
      (List.length_pos_iff.mp (r4.symm ▸ r5)) hn (by rw [r2]; exact g1) r6
    rw [r2] at r7
    exact ⟨r', by simp only [BCircuit.run]; rw [r1, Outcome.bind_ok, s1], s2.trans r2, s3.trans r3, s4.trans r4, r5,
      Φ - G, s5, by rw [s2, r2]; exact r7.sub g2⟩
  | absorb a p ih =>
    intro d hd
    have hd' : (a.comps fun i => (x i).c.length) = some d := hd
    obtain ⟨r, r1, r2, r3, r4, r5, r6⟩ := ih hu.1 hd
    obtain ⟨hn, G, g1, g2⟩ := hu.2
    obtain ⟨r', s1, ⟨s2, s3⟩, s4, s5⟩ := c57_absorb hc hne hnp he hε hwq hwp r2 hn g1 r6 g2
    refine ⟨r', by simp only [BCircuit.run]; rw [r1, Outcome.bind_ok, s1], s2.trans r2, s3.trans r3, s4.trans r4, r5,
      ?_⟩
    simp only [BCircuit.noise, hd', Option.getD_some]
    rw [r4, r3] at s5
    exact s5
  | absorbSimple a p ih =>
    intro d hd
    obtain ⟨r, r1, r2, r3, r4, r5, Φ, r6, r7⟩ := ih hu.1 hd
    obtain ⟨hn, g1, g2⟩ := hu.2
    obtain ⟨r', -, s1, ⟨s2, s3⟩, s4, s5⟩ := c53_absorb (by rw [r2]; exact hc.qs) hn (by rw [r2]; exact g1) r6
    rw [r2] at r7
    refine ⟨r', by simp only [BCircuit.run]; rw [r1, Outcome.bind_ok, s1], s2.trans r2, s3.trans r3, s4.trans r4, r5,
      _, s5, ?_⟩
    rw [s2, r2]
    have := r7.mul g2
    simp only [BCircuit.noise]
    push_cast
    exact this

theorem bslots_evalPoly {N : ℕ} {zeta : ZMod N} (h : zeta ^ 2 ^ l = -1) (h1 : 1 ≤ l) (F : ι → Fin (2 ^ l) → ℤ)
    (M : RPoly → Fin (2 ^ l) → ℤ) (i : ℕ) (u : BCircuit ι) :
    slotsOf zeta l (u.evalPoly F M) i =
      u.eval (fun j => slotsOf zeta l (F j) i) (fun p => slotsOf zeta l (M p) i) := by
  have neg : ∀ G : Fin (2 ^ l) → ℤ, slotsOf zeta l (-G) i = -slotsOf zeta l G i := fun G => by
    have := (c50_ring h h1 0 G i).2.1
    have z : slotsOf zeta l 0 i = 0 := by simp [slotsOf, slotValue]
    rw [zero_sub, z, zero_sub] at this
    exact this
  induction u with
  | input j => rfl
  | neg a ih => simp only [BCircuit.evalPoly, BCircuit.eval]; rw [neg, ih]
  | add a b ia ib => simp only [BCircuit.evalPoly, BCircuit.eval]; rw [(c50_ring h h1 _ _ i).1, ia, ib]
  | sub a b ia ib => simp only [BCircuit.evalPoly, BCircuit.eval]; rw [(c50_ring h h1 _ _ i).2.1, ia, ib]
  | mul a b ia ib => simp only [BCircuit.evalPoly, BCircuit.eval]; rw [(c50_ring h h1 _ _ i).2.2, ia, ib]
  | addPlain a p ih => simp only [BCircuit.evalPoly, BCircuit.eval]; rw [(c50_ring h h1 _ _ i).1, ih]
  | subPlain a p ih => simp only [BCircuit.evalPoly, BCircuit.eval]; rw [(c50_ring h h1 _ _ i).2.1, ih]
  | absorb a p ih => simp only [BCircuit.evalPoly, BCircuit.eval]; rw [(c50_ring h h1 _ _ i).2.2, ih]
  | absorbSimple a p ih => simp only [BCircuit.evalPoly, BCircuit.eval]; rw [(c50_ring h h1 _ _ i).2.2, ih]

/-- **C57.** Decryption of the result of a computation on BFV ciphertexts, products included, gives the result of
the same computation in every slot modulo `t`, if the noise is below `(1/2 - ε) Q`. -/
theorem c57_slots {e : FFEncoder} (he : EstimateWithin (max e.ctx.qs.length e.ctx.ps.length) ε est) (hε : ε < 1 / 2)
    (hE : GoodEncoder w l e)
    (hb : BfvConstants e.ctx e.mt) (hne : e.ctx.qs ≠ []) (hnp : e.ctx.ps ≠ []) (hwq : e.ctx.qs.length < 2 ^ w)
    (hwp : e.ctx.ps.length < 2 ^ w) {k : RKey} (hkm : k.ms = e.ctx.qs) (hk : KeyIs l k S)
    {x : ι → RCt} {M : ι → Fin (2 ^ l) → ℤ} {v : ι → ℚ} {N : RPoly → Fin (2 ^ l) → ℤ} {b : RPoly → ℚ}
    (hx : ∀ i, (x i).ms = e.ctx.qs ∧ (x i).power = 1 ∧ (x i).c ≠ [] ∧
      BfvEncrypts l S e.ctx.t (x i) (M i) (v i))
    (u : BCircuit ι) (hu : u.PlainsOk l e.ctx.t e.ctx.qs N b) {d : ℕ}
    (hd : u.comps (fun i => (x i).c.length) = some d)
    (hv : u.noise S e.ctx.t (modulusProd e.ctx.qs) (modulusProd e.ctx.ps) (1 / 2 + ε)
      (fun i => (x i).c.length) v b < (1 / 2 - ε) * modulusProd e.ctx.qs) :
    ∃ r, u.run est e.ctx x = .ok r ∧ k.decryptBfv (finiteFieldEncoder est e) r =
      .ok (List.ofFn fun i : Fin (2 ^ l) => (u.eval (fun j => slotsOf (nttRoot l e.mt) l (M j) i)
        (fun p => slotsOf (nttRoot l e.mt) l (N p) i)).val) := by
  obtain ⟨r, r1, r2, r3, r4, r5, r6⟩ := c57_circuit hE.ctx hne hnp he hε hwq hwp hx u hu hd
  have e1 : substPow (1 : ℤ).toNat S = S := Expand.substPow_one S
  rw [e1] at r6
  refine ⟨r, r1, ?_⟩
  obtain ⟨psi, t⟩ := hE.mt.tables
  have hroot : nttRoot l e.mt ^ 2 ^ l = -1 := by rw [nttRoot_eq hE.mt t]; exact t.root
  rw [(c57_decrypt (lev := e.ctx.qs.length) (within_mono he (by rw [hkm]; exact le_max_left _ _)) hε hE.ctx hb hE.mt.create hE.N (by rw [hkm, List.take_length])
    (by rw [hkm]; exact hne) (by rw [hkm]; exact hwq) hk (by rw [r2, hkm])
    (List.length_pos_iff.mp (r4.symm ▸ r5)) r3 r6 (by rw [hkm]; exact hv)).2 e hE rfl rfl]
  simp only [bslots_evalPoly hroot t.l1]

/-- **C57.** The scaled encoding of messages holds them with noise at most `t`. -/
theorem c57_encoding {t Q : ℕ} (ht : 0 < t) (F : Fin (2 ^ l) → ℤ) :
    BfvNear t Q (fun j => ⌈(Q * F j : ℚ) / t⌉) F t := fun i => by
  have ht' : (0 : ℚ) < t := by exact_mod_cast ht
  have c1 := Int.le_ceil ((Q * F i : ℚ) / t)
  have c2 := Int.ceil_lt_add_one ((Q * F i : ℚ) / t)
  rw [div_le_iff₀ ht'] at c1
  rw [← sub_lt_iff_lt_add, lt_div_iff₀ ht'] at c2
  rw [abs_le]
  constructor <;> nlinarith

/-- **C57.** A fresh encryption with the noise `B` (compare `c55_encrypt_bfv`) of a scaled encoding. -/
theorem c57_fresh {t : ℕ} (ht : 0 < t) {F R : Fin (2 ^ l) → ℤ} {B : ℤ}
    (h : Encrypts l S x ((fun j => ⌈(modulusProd x.ms * F j : ℚ) / t⌉) + R)) (hR : ∀ i, |R i| ≤ B) :
    BfvEncrypts l S t x F (t * (B + 1)) := by
  refine ⟨_, h, fun i => ?_⟩
  have h1 := c57_encoding (l := l) (Q := modulusProd x.ms) ht F i
  have h2 : |(R i : ℚ)| ≤ B := by exact_mod_cast hR i
  simp only [Pi.add_apply, Int.cast_add]
  refine le_trans (le_of_eq ?_) ((abs_add_le _ ((t : ℚ) * R i)).trans (add_le_add h1 (?_ : _ ≤ (t : ℚ) * B)) |>.trans
    (le_of_eq ?_))
  · congr 1; ring
  · rw [abs_mul, abs_of_nonneg (by positivity : (0 : ℚ) ≤ t)]
    exact mul_le_mul_of_nonneg_left h2 (by positivity)
  · ring

end Shell
