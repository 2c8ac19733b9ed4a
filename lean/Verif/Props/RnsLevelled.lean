import Verif.Spec.RnsLevelled
import Verif.Props.RnsCircuit
import Verif.Props.RnsRelin
import Verif.Props.RnsLevels
/-!
# C75: levelled computations with the RNS BGV scheme
-/

namespace Shell
open Spec Rns
variable {σ τ : Type} {w l : ℕ} {S Φ : Fin (2 ^ l) → ℤ}

theorem negMul_leq {F G : Fin (2 ^ l) → ℤ} {a b : ℚ} (hF : ∀ i, |(F i : ℚ)| ≤ a) (hG : ∀ i, |(G i : ℚ)| ≤ b)
    (i : Fin (2 ^ l)) : |((negMul F G i : ℤ) : ℚ)| ≤ 2 ^ l * a * b := by
  have ha : 0 ≤ a := (abs_nonneg _).trans (hF i)
  have hb : 0 ≤ b := (abs_nonneg _).trans (hG i)
  have h := negMul_le (a := ⌊a⌋) (b := ⌊b⌋) (F := F) (G := G)
    (fun i => Int.le_floor.mpr (by rw [Int.cast_abs]; exact hF i))
    (fun i => Int.le_floor.mpr (by rw [Int.cast_abs]; exact hG i)) i
  have h2 : |((negMul F G i : ℤ) : ℚ)| ≤ 2 ^ l * (⌊a⌋ : ℚ) * (⌊b⌋ : ℚ) := by
    rw [← Int.cast_abs]
    exact_mod_cast h
  refine h2.trans (mul_le_mul (mul_le_mul_of_nonneg_left (Int.floor_le a) (by positivity)) (Int.floor_le b) ?_
    (by positivity))
  exact_mod_cast Int.floor_nonneg.mpr hb

theorem slots_congr {N : ℕ} {zeta : ZMod N} {F G : Fin (2 ^ l) → ℤ} (h : CongMod N F G) (i : ℕ) :
    slotsOf zeta l F i = slotsOf zeta l G i := by
  unfold slotsOf
  congr 1
  funext j
  have := (ZMod.intCast_zmod_eq_zero_iff_dvd _ _).mpr (h j)
  push_cast at this
  exact sub_eq_zero.mp this

theorem slots_neg {N : ℕ} {zeta : ZMod N} (F : Fin (2 ^ l) → ℤ) (i : ℕ) :
    slotsOf zeta l (-F) i = -slotsOf zeta l F i := by
  unfold slotsOf slotValue
  simp [Finset.sum_neg_distrib]

theorem slots_smul {N : ℕ} {zeta : ZMod N} (c : ℕ) (F : Fin (2 ^ l) → ℤ) (i : ℕ) :
    slotsOf zeta l (fun j => (c : ℤ) * F j) i = c * slotsOf zeta l F i := by
  unfold slotsOf slotValue
  simp [Finset.mul_sum, mul_assoc]

theorem rotateSlot_lt {k i : ℕ} (h : 1 ≤ l) (hi : i < 2 ^ l) : rotateSlot l k i < 2 ^ l := by
  have hn := half_pow h
  have hp : 0 < 2 ^ (l - 1) := by positivity
  have h1 := Nat.mod_lt (i + k) hp
  have h2 := Nat.mod_lt (i - 2 ^ (l - 1) + k) hp
  unfold rotateSlot
  split_ifs <;> omega

theorem swapSlot_lt {i : ℕ} (h : 1 ≤ l) (hi : i < 2 ^ l) : swapSlot l i < 2 ^ l := by
  have hn := half_pow h
  unfold swapSlot
  split_ifs <;> omega

/-- Keys for the moduli `ms` that add at most `b` to the noise. -/
def RelinOk (l : ℕ) (S : Fin (2 ^ l) → ℤ) (t : ℕ) (ms : List Modulus) (b : ℚ) (key : RRelin) : Prop :=
  key.ms = ms ∧ ∃ (B : ℤ) (Gs : List ℤ) (logs : List ℕ), 0 ≤ B ∧ RelinFor l S t B key Gs logs ∧
    digitNoise l t B logs ≤ b

def GaloisOk (l : ℕ) (S : Fin (2 ^ l) → ℤ) (t : ℕ) (ms : List Modulus) (b : ℚ) (p : ℕ) (key : RGalois) : Prop :=
  key.ms = ms ∧ key.power = p ∧ p % 2 = 1 ∧ p < 2 * 2 ^ l ∧ ∃ (B : ℤ) (Gs : List ℤ) (logs : List ℕ), 0 ≤ B ∧
    GaloisFor l S t B key Gs logs ∧ digitNoise l t B logs ≤ b

/-- The ciphertext `r` is as the analysis says: at its level, under the secret `S`, with a noisy plaintext of bounded
size whose slots are `f`. -/
def LSound (l : ℕ) (e : FFEncoder) (S : Fin (2 ^ l) → ℤ) (r : RCt) (x : LInfo) (f : ℕ → ZMod e.mt.N) : Prop :=
  r.ms = e.ctx.qs.take x.level ∧ r.power = 1 ∧ r.c.length = x.comps ∧ 0 < x.level ∧ x.level ≤ e.ctx.qs.length ∧
    2 ≤ x.comps ∧ ∃ Φ, Encrypts l S r Φ ∧ (∀ i < 2 ^ l, slotsOf (nttRoot l e.mt) l Φ i = f i) ∧
      ∀ j, |(Φ j : ℚ)| ≤ x.noise

section
variable {e : FFEncoder} {r r' : RCt} {x y : LInfo} {f g : ℕ → ZMod e.mt.N}

theorem LSound.good (he : GoodEncoder w l e) (h : LSound l e S r x f) :
    (∀ m ∈ r.ms, GoodModulus w l m) ∧ r.ms ≠ [] ∧ r.c ≠ [] ∧ (∀ m ∈ r.ms, m ∈ e.ctx.qs) ∧ r.ms.length = x.level := by
  obtain ⟨h1, h2, h3, h4, h5, h6, _⟩ := h
  have hlen : r.ms.length = x.level := by rw [h1, List.length_take]; omega
  refine ⟨fun m hm => he.ctx.qs m ?_, ?_, ?_, ?_, hlen⟩
  · rw [h1] at hm; exact List.mem_of_mem_take hm
  · intro hn; rw [hn] at hlen; simp at hlen; omega
  · intro hn; rw [hn] at h3; simp at h3; omega
  · intro m hm; rw [h1] at hm; exact List.mem_of_mem_take hm

theorem root_of (he : GoodEncoder w l e) : nttRoot l e.mt ^ 2 ^ l = -1 ∧ 1 ≤ l ∧ l ≤ 15 := by
  obtain ⟨psi, t⟩ := he.mt.tables
  exact ⟨c50_root he.mt, t.l1, t.l15⟩

theorem sound_neg (he : GoodEncoder w l e) (h : LSound l e S r x f) :
    ∃ z, r.negate = .ok z ∧ LSound l e S z x (fun i => -f i) := by
  obtain ⟨g1, g2, g3, _, _⟩ := h.good he
  obtain ⟨h1, h2, h3, h4, h5, h6, Φ, h7, h8, h9⟩ := h
  obtain ⟨z, z1, z2, z3, z4⟩ := c53_negate g1 h7
  refine ⟨z, z1, z2.1.trans h1, z2.2.trans h2, z3.trans h3, h4, h5, h6, _, z4, fun i hi => ?_, fun j => ?_⟩
  · rw [slots_neg, h8 i hi]
  · simpa using h9 j

theorem sound_add (he : GoodEncoder w l e) (h : LSound l e S r x f) (h' : LSound l e S r' y g)
    (hl : x.level = y.level) (hc : x.comps = y.comps) :
    ∃ z, r.add r' = .ok z ∧ LSound l e S z ⟨x.level, x.comps, x.noise + y.noise⟩ (fun i => f i + g i) := by
  obtain ⟨g1, g2, g3, _, _⟩ := h.good he
  obtain ⟨h1, h2, h3, h4, h5, h6, Φ, h7, h8, h9⟩ := h
  obtain ⟨k1, k2, k3, k4, k5, k6, Ψ, k7, k8, k9⟩ := h'
  obtain ⟨z, z1, z2, z3, z4⟩ := c53_add g1 (by rw [k1, h1, hl]) (k2.trans h2.symm) (by rw [k3, h3, hc]) h7 k7
  refine ⟨z, z1, z2.1.trans h1, z2.2.trans h2, z3.trans h3, h4, h5, h6, _, z4, fun i hi => ?_, fun j => ?_⟩
  · rw [(c50_ring (root_of he).1 (root_of he).2.1 _ _ i).1, h8 i hi, k8 i hi]
  · simp only [Pi.add_apply, Int.cast_add]
    exact (abs_add_le _ _).trans (add_le_add (h9 j) (k9 j))

theorem sound_sub (he : GoodEncoder w l e) (h : LSound l e S r x f) (h' : LSound l e S r' y g)
    (hl : x.level = y.level) (hc : x.comps = y.comps) :
    ∃ z, r.sub r' = .ok z ∧ LSound l e S z ⟨x.level, x.comps, x.noise + y.noise⟩ (fun i => f i - g i) := by
  obtain ⟨g1, g2, g3, _, _⟩ := h.good he
  obtain ⟨h1, h2, h3, h4, h5, h6, Φ, h7, h8, h9⟩ := h
  obtain ⟨k1, k2, k3, k4, k5, k6, Ψ, k7, k8, k9⟩ := h'
  obtain ⟨z, z1, z2, z3, z4⟩ := c53_sub g1 (by rw [k1, h1, hl]) (k2.trans h2.symm) (by rw [k3, h3, hc]) h7 k7
  refine ⟨z, z1, z2.1.trans h1, z2.2.trans h2, z3.trans h3, h4, h5, h6, _, z4, fun i hi => ?_, fun j => ?_⟩
  · rw [(c50_ring (root_of he).1 (root_of he).2.1 _ _ i).2.1, h8 i hi, k8 i hi]
  · simp only [Pi.sub_apply, Int.cast_sub]
    exact (abs_sub _ _).trans (add_le_add (h9 j) (k9 j))

theorem sound_mul (he : GoodEncoder w l e) (h : LSound l e S r x f) (h' : LSound l e S r' y g)
    (hl : x.level = y.level) :
    ∃ z, r.mul r' = .ok z ∧
      LSound l e S z ⟨x.level, x.comps + y.comps - 1, 2 ^ l * x.noise * y.noise⟩ (fun i => f i * g i) := by
  obtain ⟨g1, g2, g3, _, _⟩ := h.good he
  obtain ⟨h1, h2, h3, h4, h5, h6, Φ, h7, h8, h9⟩ := h
  obtain ⟨k1, k2, k3, k4, k5, k6, Ψ, k7, k8, k9⟩ := h'
  obtain ⟨z, z1, z2, z3, z4⟩ := c53_mul g1 g2 (by rw [k1, h1, hl]) (k2.trans h2.symm) g3 h7 k7
  refine ⟨z, z1, z2.1.trans h1, z2.2.trans h2, by rw [z3, h3, k3], h4, h5, by dsimp only; omega, _, z4,
    fun i hi => ?_, negMul_leq h9 k9⟩
  rw [(c50_ring (root_of he).1 (root_of he).2.1 _ _ i).2.2, h8 i hi, k8 i hi]

/-- The encoding of messages for the moduli of a ciphertext. -/
theorem sound_encode (he : GoodEncoder w l e) (h : LSound l e S r x f) {m : List ℕ} (hw : ∀ a ∈ m, a < 2 ^ w)
    (hn : m.length ≤ 2 ^ l) :
    ∃ p F, ffEncodeBgv e m r.ms = .ok p ∧ p.ntt = true ∧ Represents l r.ms p F ∧
      (∀ j, |(F j : ℚ)| ≤ e.ctx.t / 2) ∧
      ∀ i < 2 ^ l, slotsOf (nttRoot l e.mt) l F i = ((m.getD i 0 : ℕ) : ZMod e.mt.N) := by
  obtain ⟨g1, g2, g3, g4, _⟩ := h.good he
  obtain ⟨p, F, p1, p2, p3, p4, p5⟩ := c50_encode_bgv he g2 g4 hw hn
  refine ⟨p, F, p1, p2, p3, fun j => ?_, p5⟩
  have h1 : (2 * |(F j : ℚ)|) ≤ e.ctx.t := by exact_mod_cast p4 j
  linarith

theorem sound_addVec (he : GoodEncoder w l e) (h : LSound l e S r x f) {m : List ℕ} (hw : ∀ a ∈ m, a < 2 ^ w)
    (hn : m.length ≤ 2 ^ l) :
    ∃ p z, ffEncodeBgv e m r.ms = .ok p ∧ r.addPlain p = .ok z ∧
      LSound l e S z ⟨x.level, x.comps, x.noise + e.ctx.t / 2⟩ (fun i => f i + (m.getD i 0 : ℕ)) := by
  obtain ⟨g1, g2, g3, _, _⟩ := h.good he
  obtain ⟨p, F, p1, p2, p3, p4, p5⟩ := sound_encode he h hw hn
  obtain ⟨h1, h2, h3, h4, h5, h6, Φ, h7, h8, h9⟩ := h
  obtain ⟨z, z1, z2, z3, z4⟩ := c53_addPlain g1 g3 p2 p3 h7
  refine ⟨p, z, p1, z1, z2.1.trans h1, z2.2.trans h2, z3.trans h3, h4, h5, h6, _, z4, fun i hi => ?_, fun j => ?_⟩
  · rw [(c50_ring (root_of he).1 (root_of he).2.1 _ _ i).1, h8 i hi, p5 i hi]
  · simp only [Pi.add_apply, Int.cast_add]
    exact (abs_add_le _ _).trans (add_le_add (h9 j) (p4 j))

theorem sound_subVec (he : GoodEncoder w l e) (h : LSound l e S r x f) {m : List ℕ} (hw : ∀ a ∈ m, a < 2 ^ w)
    (hn : m.length ≤ 2 ^ l) :
    ∃ p z, ffEncodeBgv e m r.ms = .ok p ∧ r.subPlain p = .ok z ∧
      LSound l e S z ⟨x.level, x.comps, x.noise + e.ctx.t / 2⟩ (fun i => f i - (m.getD i 0 : ℕ)) := by
  obtain ⟨g1, g2, g3, _, _⟩ := h.good he
  obtain ⟨p, F, p1, p2, p3, p4, p5⟩ := sound_encode he h hw hn
  obtain ⟨h1, h2, h3, h4, h5, h6, Φ, h7, h8, h9⟩ := h
  obtain ⟨z, z1, z2, z3, z4⟩ := c53_subPlain g1 g3 p2 p3 h7
  refine ⟨p, z, p1, z1, z2.1.trans h1, z2.2.trans h2, z3.trans h3, h4, h5, h6, _, z4, fun i hi => ?_, fun j => ?_⟩
  · rw [(c50_ring (root_of he).1 (root_of he).2.1 _ _ i).2.1, h8 i hi, p5 i hi]
  · simp only [Pi.sub_apply, Int.cast_sub]
    exact (abs_sub _ _).trans (add_le_add (h9 j) (p4 j))

theorem sound_mulVec (he : GoodEncoder w l e) (h : LSound l e S r x f) {m : List ℕ} (hw : ∀ a ∈ m, a < 2 ^ w)
    (hn : m.length ≤ 2 ^ l) :
    ∃ p z, ffEncodeBgv e m r.ms = .ok p ∧ r.absorb p = .ok z ∧
      LSound l e S z ⟨x.level, x.comps, 2 ^ l * x.noise * (e.ctx.t / 2)⟩ (fun i => f i * (m.getD i 0 : ℕ)) := by
  obtain ⟨g1, g2, g3, _, _⟩ := h.good he
  obtain ⟨p, F, p1, p2, p3, p4, p5⟩ := sound_encode he h hw hn
  obtain ⟨h1, h2, h3, h4, h5, h6, Φ, h7, h8, h9⟩ := h
  obtain ⟨z, z1, -, z2, z3, z4⟩ := c53_absorb g1 p2 p3 h7
  refine ⟨p, z, p1, z1, z2.1.trans h1, z2.2.trans h2, z3.trans h3, h4, h5, h6, _, z4, fun i hi => ?_,
    negMul_leq h9 p4⟩
  rw [(c50_ring (root_of he).1 (root_of he).2.1 _ _ i).2.2, h8 i hi, p5 i hi]

theorem sound_scale (he : GoodEncoder w l e) (h : LSound l e S r x f) {c : ℕ} (hc : c < 2 ^ w) :
    ∃ z, r.absorbInt c = .ok z ∧ LSound l e S z ⟨x.level, x.comps, c * x.noise⟩ (fun i => c * f i) := by
  obtain ⟨g1, g2, g3, _, _⟩ := h.good he
  obtain ⟨h1, h2, h3, h4, h5, h6, Φ, h7, h8, h9⟩ := h
  obtain ⟨z, z1, z2, z3, z4⟩ := (c53_absorb_scalar g1 h7).1 c hc
  refine ⟨z, z1, z2.1.trans h1, z2.2.trans h2, z3.trans h3, h4, h5, h6, _, z4, fun i hi => ?_, fun j => ?_⟩
  · rw [slots_smul, h8 i hi]
  · rw [Int.cast_mul, Int.cast_natCast, abs_mul, Nat.abs_cast]
    exact mul_le_mul_of_nonneg_left (h9 j) (Nat.cast_nonneg _)

theorem noise_add {F R : Fin (2 ^ l) → ℤ} {t : ℕ} {a b : ℚ} {k : ℕ} {B : ℤ} {logs : List ℕ} (hF : ∀ j, |(F j : ℚ)| ≤ a)
    (hR : ∀ j, |R j| ≤ k * (2 ^ l * B * (logs.map fun b => (2 : ℤ) ^ b).sum)) (hb : digitNoise l t B logs ≤ b)
    (j : Fin (2 ^ l)) : |((F j + t * R j : ℤ) : ℚ)| ≤ a + k * b := by
  push_cast
  refine (abs_add_le _ _).trans (add_le_add (hF j) ?_)
  rw [abs_mul, Nat.abs_cast]
  have h1 : |(R j : ℚ)| ≤ k * (2 ^ l * B * (logs.map fun b => (2 : ℚ) ^ b).sum) := by
    have h2 : ((logs.map fun b => (2 : ℤ) ^ b).sum : ℚ) = (logs.map fun b => (2 : ℚ) ^ b).sum := by
      clear hR hb
      induction logs with
      | nil => simp
      | cons b t ih => simpa using ih
    rw [← h2, ← Int.cast_abs]
    exact_mod_cast hR j
  calc (t : ℚ) * |(R j : ℚ)| ≤ t * (k * (2 ^ l * B * (logs.map fun b => (2 : ℚ) ^ b).sum)) :=
        mul_le_mul_of_nonneg_left h1 (Nat.cast_nonneg _)
    _ = k * digitNoise l t B logs := by unfold digitNoise; ring
    _ ≤ k * b := mul_le_mul_of_nonneg_left hb (Nat.cast_nonneg _)

theorem sound_lrelin (he : GoodEncoder w l e) (h : LSound l e S r x f) (hc : x.comps ≤ 3) {b : ℚ} {key : RRelin}
    (hk : RelinOk l S e.ctx.t (e.ctx.qs.take x.level) b key) :
    ∃ z, key.applyTo r = .ok z ∧ LSound l e S z ⟨x.level, 2, x.noise + (x.comps - 2 : ℕ) * b⟩ f := by
  obtain ⟨g1, g2, g3, _, _⟩ := h.good he
  obtain ⟨h1, h2, h3, h4, h5, h6, Φ, h7, h8, h9⟩ := h
  obtain ⟨k1, B, Gs, logs, k2, k3, k4⟩ := hk
  have hd := k3.degree
  obtain ⟨z, R, z1, z2, z3, z4, z5, z6⟩ := c52_relin_apply_partial (by rw [k1, ← h1]; exact g1) k2 k3 (h1.trans k1.symm)
    h2 (by omega) (by omega) (Or.inl (by omega)) h7
  refine ⟨z, z1, z2.trans h1, z3, z4, h4, h5, le_rfl, _, z5, fun i hi => ?_, noise_add h9 (by rw [← h3]; exact z6) k4⟩
  rw [← he.N, slots_noise, h8 i hi]

theorem sound_galois (he : GoodEncoder w l e) (h : LSound l e S r x f) (hc : x.comps = 2) {b : ℚ} {p : ℕ}
    {key : RGalois} (hk : GaloisOk l S e.ctx.t (e.ctx.qs.take x.level) b p key) {π : ℕ → ℕ}
    (hπ : ∀ i < 2 ^ l, π i < 2 ^ l ∧ ∀ F : Fin (2 ^ l) → ℤ,
      slotsOf (nttRoot l e.mt) l (substPow p F) i = slotsOf (nttRoot l e.mt) l F (π i)) :
    ∃ y z, r.substitute p = .ok y ∧ key.applyTo y = .ok z ∧
      LSound l e S z ⟨x.level, 2, x.noise + b⟩ (fun i => f (π i)) := by
  obtain ⟨g1, g2, g3, _, _⟩ := h.good he
  obtain ⟨h1, h2, h3, h4, h5, h6, Φ, h7, h8, h9⟩ := h
  obtain ⟨k1, k2, k3, k4, B, Gs, logs, k5, k6, k7⟩ := hk
  obtain ⟨y, z, R, y1, z1, z2, z3, z4, z5, z6⟩ := c52_rotate (root_of he).2.2 (by rw [k1, ← h1]; exact g1)
    (by rw [k1, ← h1]; exact g2) k5 k6 (h1.trans k1.symm) k2 k3 k4 h2 (h3.trans hc) h7
  refine ⟨y, z, y1, z1, z2.trans h1, z3, z4, h4, h5, le_rfl, _, z5, fun i hi => ?_, ?_⟩
  · rw [← he.N, slots_noise, (hπ i hi).2, h8 _ (hπ i hi).1]
  · have := noise_add (F := substPow p Φ) (a := x.noise) (k := 1) (R := R) (t := e.ctx.t)
      (fun j => ?_) (by rw [Nat.cast_one, one_mul]; exact z6) k7
    · simpa using this
    · rcases Expand.substPow_single l p k3 Φ j with h0 | ⟨i, h0 | h0⟩
      · rw [h0, Int.cast_zero, abs_zero]; exact (abs_nonneg _).trans (h9 j)
      · rw [h0]; exact h9 i
      · rw [h0, Int.cast_neg, abs_neg]; exact h9 i

theorem sound_reduce (he : GoodEncoder w l e) (h : LSound l e S r x f) (hl : 1 < x.level) {b : ℚ}
    (hS : ((norm1 S : ℤ) : ℚ) ≤ b) {qs : List ℕ} (hqs : qs = e.ctx.qs.map (·.N)) :
    ∃ row z, rd e.ctx.primeQInvs (r.ms.length - 1) = .ok row ∧
      r.modReduceBgv e.ctx.t (row.take (r.ms.length - 1)) = .ok z ∧
      LSound l e S z ⟨x.level - 1, x.comps, (qs.getD (x.level - 1) 1 % e.ctx.t : ℕ) * x.noise / qs.getD (x.level - 1) 1 +
        e.ctx.t / 2 * ∑ j ∈ Finset.range x.comps, b ^ j⟩ f := by
  obtain ⟨g1, g2, g3, g4, g5⟩ := h.good he
  obtain ⟨h1, h2, h3, h4, h5, h6, Φ, h7, h8, h9⟩ := h
  rw [g5]
  have hlt : x.level - 1 < e.ctx.qs.length := by omega
  have hm := List.getElem?_eq_getElem hlt
  obtain ⟨row, r1, r2⟩ := he.ctx.inverses.primeQInvs _ _ hm
  generalize hmm : e.ctx.qs[x.level - 1] = m at hm r2
  have hmem : m ∈ e.ctx.qs := List.mem_of_getElem? hm
  have hms : r.ms = e.ctx.qs.take (x.level - 1) ++ [m] := by
    rw [h1]
    conv_lhs => rw [show x.level = x.level - 1 + 1 by omega, List.take_add_one, hm]
    rfl
  have hq : qs.getD (x.level - 1) 1 = m.N := by
    rw [hqs, List.getD_eq_getElem?_getD, List.getElem?_map, hm]; rfl
  have hne : e.ctx.qs.take (x.level - 1) ≠ [] := by
    intro hn
    have := congrArg List.length hn
    rw [List.length_take, List.length_nil] at this
    omega
  obtain ⟨z, Ψ, z1, z2, z3, z4, z5, z6, E, z7⟩ := c56_modReduce_bgv (fun a ha => he.ctx.qs a (List.mem_of_mem_take ha))
    (he.ctx.qs m hmem) hne hms r2 e.ctx.t he.ctx.pos he.ctx.word h7
  have z6 := z6 (he.ctx.coprime m (List.mem_append_left _ hmem))
  refine ⟨row, z, by unfold rd; rw [r1], z1, z2, z3.trans h2, z4.trans h3, by dsimp only; omega, by dsimp only; omega, h6,
    Ψ, z5, fun i hi => ?_, fun j => ?_⟩
  · rw [← h8 i hi]
    exact slots_congr (by rw [he.N]; exact z6) i
  · obtain ⟨e1, e2⟩ := z7 j
    rw [h2] at e2
    rw [show ((1 : ℤ)).toNat = 1 from rfl, Expand.substPow_one, h3] at e2
    dsimp only
    rw [hq]
    have hN : (0 : ℚ) < m.N := Nat.cast_pos.mpr (he.ctx.qs m hmem).prime.pos
    have ht : (0 : ℚ) ≤ e.ctx.t := Nat.cast_nonneg _
    have hE : |(E j : ℚ)| ≤ m.N / 2 * ∑ i ∈ Finset.range x.comps, b ^ i := by
      have e3 : 2 * |(E j : ℚ)| ≤ m.N * ∑ i ∈ Finset.range x.comps, ((norm1 S : ℤ) : ℚ) ^ i := by exact_mod_cast e2
      have e4 : ∑ i ∈ Finset.range x.comps, ((norm1 S : ℤ) : ℚ) ^ i ≤ ∑ i ∈ Finset.range x.comps, b ^ i :=
        Finset.sum_le_sum fun i _ => pow_le_pow_left₀ (by exact_mod_cast norm1_nonneg S) hS i
      have := mul_le_mul_of_nonneg_left e4 hN.le
      linarith
    have e5 : (m.N : ℚ) * Ψ j = (m.N % e.ctx.t : ℕ) * Φ j + e.ctx.t * E j := by
      have := congrArg (Int.cast (R := ℚ)) e1
      simpa only [Int.cast_mul, Int.cast_add, Int.cast_natCast] using this
    have e6 : (Ψ j : ℚ) = ((m.N % e.ctx.t : ℕ) * Φ j + e.ctx.t * E j) / m.N := by
      rw [← e5]; field_simp
    rw [e6, abs_div, abs_of_pos hN, div_le_iff₀ hN]
    refine (abs_add_le _ _).trans ?_
    rw [abs_mul, abs_mul, Nat.abs_cast, Nat.abs_cast]
    have e7 := mul_le_mul_of_nonneg_left (h9 j) (Nat.cast_nonneg (α := ℚ) (m.N % e.ctx.t))
    have e8 := mul_le_mul_of_nonneg_left hE ht
    refine (add_le_add e7 e8).trans (le_of_eq ?_)
    field_simp

/-- Every computation the analysis supports runs without error, and ends with a ciphertext as analysed. -/
theorem levelled_sound {v : LEnv} {P : LParams} (hv : v.e = e) (he : GoodEncoder w l e) (hPl : P.l = l) (hPw : P.w = w)
    (hPt : P.t = e.ctx.t) (hPq : P.qs = e.ctx.qs.map (·.N)) (hS : ((norm1 S : ℤ) : ℚ) ≤ P.secret)
    {f g : ℕ → ℕ → ZMod e.mt.N} (hx : ∀ i, LSound l e S (v.x i) ⟨P.qs.length, 2, P.fresh⟩ (f i))
    (hy : ∀ i, LSound l e S (v.y i) ⟨P.qs.length, 2, P.sent⟩ (g i))
    (hr : ∀ lev ∈ P.relins, RelinOk l S e.ctx.t (e.ctx.qs.take lev) (P.switch lev) (v.relin lev))
    (hgal : ∀ a ∈ P.galois, GaloisOk l S e.ctx.t (e.ctx.qs.take a.1) (P.switch a.1) a.2 (v.galois a.1 a.2))
    (u : LCircuit) {info : LInfo} (hu : u.analyse P = some info) :
    ∃ r, u.run l v = .ok r ∧ LSound l e S r info (u.eval l f g) := by
  subst hv hPl hPw
  obtain ⟨hroot, hl1, -⟩ := root_of he
  have vec : ∀ {m : List ℕ}, P.vecOk m = true → (∀ a ∈ m, a < 2 ^ P.w) ∧ m.length ≤ 2 ^ P.l := by
    intro m hm
    unfold LParams.vecOk at hm
    simpa using hm
  have gal : ∀ {r : RCt} {x : LInfo} {F : ℕ → ZMod v.e.mt.N} {p : ℕ} {info : LInfo} {π : ℕ → ℕ},
      LSound P.l v.e S r x F → P.galoisInfo p x = some info →
      (∀ i < 2 ^ P.l, π i < 2 ^ P.l ∧ ∀ F : Fin (2 ^ P.l) → ℤ,
        slotsOf (nttRoot P.l v.e.mt) P.l (substPow p F) i = slotsOf (nttRoot P.l v.e.mt) P.l F (π i)) →
      ∃ z, (do (v.galois r.ms.length p).applyTo (← r.substitute p)) = .ok z ∧
        LSound P.l v.e S z info (fun i => F (π i)) := by
    intro r x F p info π h hi hπ
    unfold LParams.galoisInfo at hi
    split_ifs at hi with hc
    obtain rfl := Option.some.inj hi
    obtain ⟨y, z, y1, z1, z2⟩ := sound_galois he h hc.1 (hgal _ hc.2) hπ
    refine ⟨z, ?_, z2⟩
    rw [y1, Outcome.bind_ok, (h.good he).2.2.2.2, z1]
  induction u generalizing info with
  | input i => exact ⟨_, rfl, by obtain rfl := Option.some.inj hu; exact hx i⟩
  | received i => exact ⟨_, rfl, by obtain rfl := Option.some.inj hu; exact hy i⟩
  | neg a iha =>
    obtain ⟨ra, ea, sa⟩ := iha hu
    obtain ⟨z, z1, z2⟩ := sound_neg he sa
    exact ⟨z, by unfold LCircuit.run; rw [ea, Outcome.bind_ok, z1], z2⟩
  | add a b iha ihb =>
    unfold LCircuit.analyse at hu
    obtain ⟨x, hxa, hu⟩ := Option.bind_eq_some_iff.mp hu
    obtain ⟨y, hyb, hu⟩ := Option.bind_eq_some_iff.mp hu
    split_ifs at hu with hc
    obtain rfl := Option.some.inj hu
    obtain ⟨ra, ea, sa⟩ := iha hxa
    obtain ⟨rb, eb, sb⟩ := ihb hyb
    obtain ⟨z, z1, z2⟩ := sound_add he sa sb hc.1 hc.2
    exact ⟨z, by unfold LCircuit.run; rw [ea, Outcome.bind_ok, eb, Outcome.bind_ok, z1], z2⟩
  | sub a b iha ihb =>
    unfold LCircuit.analyse at hu
    obtain ⟨x, hxa, hu⟩ := Option.bind_eq_some_iff.mp hu
    obtain ⟨y, hyb, hu⟩ := Option.bind_eq_some_iff.mp hu
    split_ifs at hu with hc
    obtain rfl := Option.some.inj hu
    obtain ⟨ra, ea, sa⟩ := iha hxa
    obtain ⟨rb, eb, sb⟩ := ihb hyb
    obtain ⟨z, z1, z2⟩ := sound_sub he sa sb hc.1 hc.2
    exact ⟨z, by unfold LCircuit.run; rw [ea, Outcome.bind_ok, eb, Outcome.bind_ok, z1], z2⟩
  | mul a b iha ihb =>
    unfold LCircuit.analyse at hu
    obtain ⟨x, hxa, hu⟩ := Option.bind_eq_some_iff.mp hu
    obtain ⟨y, hyb, hu⟩ := Option.bind_eq_some_iff.mp hu
    split_ifs at hu with hc
    obtain rfl := Option.some.inj hu
    obtain ⟨ra, ea, sa⟩ := iha hxa
    obtain ⟨rb, eb, sb⟩ := ihb hyb
    obtain ⟨z, z1, z2⟩ := sound_mul he sa sb hc
    exact ⟨z, by unfold LCircuit.run; rw [ea, Outcome.bind_ok, eb, Outcome.bind_ok, z1], z2⟩
  | addVec a m iha =>
    unfold LCircuit.analyse at hu
    obtain ⟨x, hxa, hu⟩ := Option.bind_eq_some_iff.mp hu
    split_ifs at hu with hc
    obtain rfl := Option.some.inj hu
    obtain ⟨ra, ea, sa⟩ := iha hxa
    obtain ⟨p, z, p1, z1, z2⟩ := sound_addVec he sa (vec hc).1 (vec hc).2
    exact ⟨z, by unfold LCircuit.run; rw [ea, Outcome.bind_ok, p1, Outcome.bind_ok, z1], by rw [hPt]; exact z2⟩
  | subVec a m iha =>
    unfold LCircuit.analyse at hu
    obtain ⟨x, hxa, hu⟩ := Option.bind_eq_some_iff.mp hu
    split_ifs at hu with hc
    obtain rfl := Option.some.inj hu
    obtain ⟨ra, ea, sa⟩ := iha hxa
    obtain ⟨p, z, p1, z1, z2⟩ := sound_subVec he sa (vec hc).1 (vec hc).2
    exact ⟨z, by unfold LCircuit.run; rw [ea, Outcome.bind_ok, p1, Outcome.bind_ok, z1], by rw [hPt]; exact z2⟩
  | mulVec a m iha =>
    unfold LCircuit.analyse at hu
    obtain ⟨x, hxa, hu⟩ := Option.bind_eq_some_iff.mp hu
    split_ifs at hu with hc
    obtain rfl := Option.some.inj hu
    obtain ⟨ra, ea, sa⟩ := iha hxa
    obtain ⟨p, z, p1, z1, z2⟩ := sound_mulVec he sa (vec hc).1 (vec hc).2
    exact ⟨z, by unfold LCircuit.run; rw [ea, Outcome.bind_ok, p1, Outcome.bind_ok, z1], by rw [hPt]; exact z2⟩
  | scale a c iha =>
    unfold LCircuit.analyse at hu
    obtain ⟨x, hxa, hu⟩ := Option.bind_eq_some_iff.mp hu
    split_ifs at hu with hc
    obtain rfl := Option.some.inj hu
    obtain ⟨ra, ea, sa⟩ := iha hxa
    obtain ⟨z, z1, z2⟩ := sound_scale he sa hc
    exact ⟨z, by unfold LCircuit.run; rw [ea, Outcome.bind_ok, z1], z2⟩
  | relin a iha =>
    unfold LCircuit.analyse at hu
    obtain ⟨x, hxa, hu⟩ := Option.bind_eq_some_iff.mp hu
    split_ifs at hu with hc
    obtain rfl := Option.some.inj hu
    obtain ⟨ra, ea, sa⟩ := iha hxa
    obtain ⟨z, z1, z2⟩ := sound_lrelin he sa hc.1 (hr _ hc.2)
    exact ⟨z, by unfold LCircuit.run; rw [ea, Outcome.bind_ok, (sa.good he).2.2.2.2, z1], z2⟩
  | rotate a k iha =>
    unfold LCircuit.analyse at hu
    obtain ⟨x, hxa, hu⟩ := Option.bind_eq_some_iff.mp hu
    obtain ⟨ra, ea, sa⟩ := iha hxa
    obtain ⟨z, z1, z2⟩ := gal sa hu (π := rotateSlot P.l k)
      (fun i hi => ⟨rotateSlot_lt hl1 hi, fun F => c50_rotate hroot hl1 F k hi⟩)
    exact ⟨z, by unfold LCircuit.run; rw [ea, Outcome.bind_ok]; exact z1, z2⟩
  | swap a iha =>
    unfold LCircuit.analyse at hu
    obtain ⟨x, hxa, hu⟩ := Option.bind_eq_some_iff.mp hu
    obtain ⟨ra, ea, sa⟩ := iha hxa
    obtain ⟨z, z1, z2⟩ := gal sa hu (π := swapSlot P.l)
      (fun i hi => ⟨swapSlot_lt hl1 hi, fun F => c50_swap hroot hl1 F hi⟩)
    exact ⟨z, by unfold LCircuit.run; rw [ea, Outcome.bind_ok]; exact z1, z2⟩
  | reduce a iha =>
    unfold LCircuit.analyse at hu
    obtain ⟨x, hxa, hu⟩ := Option.bind_eq_some_iff.mp hu
    split_ifs at hu with hc
    obtain rfl := Option.some.inj hu
    obtain ⟨ra, ea, sa⟩ := iha hxa
    obtain ⟨row, z, w1, z1, z2⟩ := sound_reduce he sa hc hS hPq
    exact ⟨z, by unfold LCircuit.run; rw [ea, Outcome.bind_ok, w1, Outcome.bind_ok, z1], by rw [hPt]; exact z2⟩

end

end Shell
