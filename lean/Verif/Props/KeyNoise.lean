import Verif.Lemmas.KeyTail
import Verif.Lemmas.RnsSlotStore
/-!
# Property C105: key switching within the error estimates

For uniformly distributed bytes, a Galois key or relinearization key is, except with probability at most
`exp (-9 n d)` for a gadget of `d` digits, such that it adds to no ciphertext at all more noise than the increase of
`Error()`, in every coefficient.
-/

namespace Shell
open Spec Rns RnsErrorTrack NttRing Real
variable {σ τ ι κ : Type} {w l : ℕ} {S : Fin (2 ^ l) → ℤ} {k : RKey}

/-! ### Keys with small errors -/

theorem digitLogs_length_le : ∀ bs ks : List ℕ, (digitLogs bs ks).length ≤ ks.sum
  | [], ks => by simp [digitLogs]
  | _ :: _, [] => by simp [digitLogs]
  | b :: bs, k :: ks => by
    have := digitLogs_length_le bs ks
    simp only [digitLogs, List.length_append, List.length_replicate, List.sum_cons]
    omega

theorem drawn_bound {v : ℤ} {b n : ℕ} {logs : List ℕ} {psss : List (List (List (ℕ × ℕ)))} {Es Ds : List (Fin (2 ^ l) → ℤ)}
    (hlogs : ∀ c ∈ logs, c ≤ b) (hlen : logs.length ≤ n) (hn : psss.length = n)
    (hD : List.Forall₂ (fun b (D : Fin (2 ^ l) → ℤ) => ∀ i, |D i| < 2 ^ b) logs Ds) (j : Fin (2 ^ l)) :
    |sumMul Ds (psss.map (drawnPoly l v) ++ Es) j| ≤ 2 ^ b * (psss.map fun pss => norm1 (drawnPoly l v pss)).sum := by
  refine (sumMul_norm (digits_lt hlogs hD) j).trans (mul_le_mul_of_nonneg_left ?_ (by positivity))
  have hl := hD.length_eq
  rw [List.take_append_of_le_length (by rw [List.length_map]; omega), ← List.map_take, List.map_map]
  have h := List.sum_take_add_sum_drop (psss.map fun pss => norm1 (drawnPoly l v pss)) Ds.length
  have h0 : 0 ≤ ((psss.map fun pss => norm1 (drawnPoly l v pss)).drop Ds.length).sum := by
    refine List.sum_nonneg fun x hx => ?_
    obtain ⟨pss, -, rfl⟩ := List.mem_map.mp (List.mem_of_mem_drop hx)
    exact norm1_nonneg' _
  rw [← List.map_take] at h
  have e : (List.map (norm1 ∘ drawnPoly l v) (psss.take Ds.length)).sum =
      ((psss.take Ds.length).map fun pss => norm1 (drawnPoly l v pss)).sum := rfl
  rw [e]
  linarith

/-- The estimate covers the noise that small errors cause. -/
theorem switch_bound {P : RErrorParams} {v : ℤ} (hP : ParamsFor P l v) (hl : l < 31) {b d : ℕ} (hb : b < 31) {t : ℕ}
    (ht : (t : ℝ) ≤ P.exportT) {N : ℤ} (hN : (N : ℝ) ≤ 8 / √3 * √v * 2 ^ l * d) (c : ℕ) :
    ∃ e, P.boundOnKeySwitching c b d = .ok e ∧ ∀ R : ℤ, |R| ≤ c * (2 ^ b * N) → |((t * R : ℤ) : ℝ)| ≤ e := by
  refine ⟨8 / √3 * P.exportT * d * P.sigma * (2 ^ l : ℕ) * (2 ^ b : ℕ) * c, ?_, fun R hR => ?_⟩
  · unfold RErrorParams.boundOnKeySwitching shl1
    rw [hP.dim, if_pos hb, if_pos hl]
    rfl
  · have hR' : |(R : ℝ)| ≤ c * (2 ^ b * N) := by exact_mod_cast hR
    push_cast
    rw [abs_mul, Nat.abs_cast]
    have h1 : (N : ℝ) ≤ 8 / √3 * P.sigma * 2 ^ l * d := by
      refine hN.trans ?_
      have := hP.sigma
      gcongr
    have h2 : (0 : ℝ) ≤ 8 / √3 * P.sigma * 2 ^ l * d := by
      have := hP.sigma_nonneg
      positivity
    calc (t : ℝ) * |(R : ℝ)| ≤ P.exportT * (c * (2 ^ b * (8 / √3 * P.sigma * 2 ^ l * d))) := by
          refine mul_le_mul ht (hR'.trans ?_) (abs_nonneg _) ((Nat.cast_nonneg t).trans ht)
          gcongr
      _ = _ := by ring

/-- The hypotheses on a gadget: its digits are those of `Create`, at least one, and the bases fit an `int`. -/
structure SmallGadget (l : ℕ) (ms : List Modulus) (g : RGadget) : Prop where
  gadget : ∃ Gs, GadgetFor l ms g Gs (digitLogs g.logBs g.dims)
  nonempty : g.logBs ≠ []
  bases : ∀ b ∈ g.logBs, b < 31

theorem SmallGadget.base {ms : List Modulus} {g : RGadget} (h : SmallGadget l ms g) :
    ∃ b, logGadgetBase g = .ok b ∧ b < 31 ∧ ∀ c ∈ digitLogs g.logBs g.dims, c ≤ b := by
  cases hm : g.logBs.max? with
  | none => exact absurd (List.max?_eq_none_iff.mp hm) h.nonempty
  | some b =>
    have h1 := List.max?_eq_some_iff.mp hm
    exact ⟨b, by unfold logGadgetBase; rw [hm], h.bases b h1.1, digitLogs_le h1.2⟩

/-- C105: the gadgets that `RnsGadget::Create` makes from the constants of a context meet the hypotheses. -/
theorem c105_gadget {c : Rns.Ctx} (hc : GoodCtx w l c) (hw : w ≤ 128) (hl : 0 < l) {level : ℕ}
    (hlev : level < c.qs.length) {logBs : List ℕ} (hlen : logBs.length = level + 1)
    (hb : ∀ b ∈ logBs, 0 < b ∧ b < 31 ∧ b < w) :
    ∃ hats hatInvs g, c.complements level = .ok hats ∧ c.crtFactors level = .ok hatInvs ∧
      RGadget.create l logBs hats hatInvs (c.qs.take (level + 1)) = .ok g ∧ g.logBs = logBs ∧
      g.dims = List.zipWith (fun m b => (Nat.size m.N + (b - 1)) / b) (c.qs.take (level + 1)) logBs ∧
      SmallGadget l (c.qs.take (level + 1)) g := by
  obtain ⟨hats, hatInvs, g, Gs, h1, h2, h3, h4, h5⟩ := c51_context hc hw hl hlev hlen hb
  have hbs : g.logBs = logBs := by
    unfold RGadget.create at h3
    split_ifs at h3
    obtain ⟨_, _, h3⟩ := Outcome.bind_eq_ok.mp h3
    obtain ⟨_, _, h3⟩ := Outcome.bind_eq_ok.mp h3
    cases h3
    rfl
  refine ⟨hats, hatInvs, g, h1, h2, h3, hbs, h4, ⟨Gs, by rw [hbs]; exact h5⟩, ?_, ?_⟩
  · intro h
    rw [← hbs, h] at hlen
    simp at hlen
  · rw [hbs]
    exact fun b h => (hb b h).2.1

/-! ### The probability that a key is not quiet -/

/-- C105: for uniformly distributed bytes, every secret key and any generator of the masks, the probability that
`RnsGaloisKey::CreateForBgv` (or, with `t = 1`, `CreateForBfv`) returns a key that adds more noise to some ciphertext than
the increase of `Error()`. -/
theorem c105_galois (Gp : Gen τ) (hk : GoodKey w l k S) (hne : k.ms ≠ []) (hl : l < 31) {g : RGadget}
    (hg : SmallGadget l k.ms g) {v : ℤ} (hv : v ≤ 256) (hN : ∀ m ∈ k.ms.head?, 4 * v < m.N) {P : RErrorParams}
    (hP : ParamsFor P l v) {t : ℕ} (ht : t < 2 ^ w) (htP : (t : ℝ) ≤ P.exportT) (fuel : ℕ) (power : ℤ) (prng : PrngType)
    (sp : τ) (L : ℕ) :
    bytesProbability L (fun s => ∃ key, RGalois.create Gp bytesSource fuel k power v g prng t sp s = .ok key ∧
      ¬ QuietGalois l S P t key) ≤ exp (-(9 * 2 ^ l * g.dimension)) := by
  classical
  obtain ⟨Gs, hgad⟩ := hg.gadget
  by_cases hv0 : 0 < v
  · refine (bytesProbability_le ((errTree l v).times g.dimension) ?_ L).trans (errors_tail hv0 g.dimension)
    rintro s ⟨key, h1, h2⟩
    obtain ⟨k1, k2, k3, k4, -, -, -, psss, s', p1, p2⟩ := galois_drawn Gp hk hne hgad hv hN ht h1
    refine ⟨psss, s', p1, ?_⟩
    by_contra hc
    push Not at hc
    obtain ⟨b, b1, b2, b3⟩ := hg.base
    obtain ⟨_, _, _, _, -, -, l3, _⟩ := keyColumns_polys p2
    rw [List.length_map, gadgetMultiples, List.length_map, ← hgad.comps.length_eq, hgad.dim] at l3
    have hN' : (((psss.map fun pss => norm1 (drawnPoly l v pss)).sum : ℤ) : ℝ) ≤ 8 / √3 * √v * 2 ^ l * g.dimension := by
      refine le_trans (le_of_eq ?_) hc
      push_cast [List.map_map]
      rfl
    obtain ⟨e, e1, e2⟩ := switch_bound hP hl b2 htP hN' 1
    refine h2 fun x Φ x1 x2 x3 x4 => ?_
    obtain ⟨r, R, r1, r2, r3, r4, r5, r6⟩ := galois_apply_core (by rw [k2]; exact hk.good) (by rw [k2]; exact hne)
      (by rw [k2, k3]; exact hgad) (by rw [k1, k2]; exact p2) (fun Ds hDs i => by
        have := drawn_bound (v := v) (Es := []) b3 (digitLogs_length_le _ _) l3 hDs i
        rwa [List.append_nil] at this) x1 x2 x3 x4
    refine ⟨⟨r, x.error + e⟩, R, ?_, r2.trans x1, r3, r4, r5, fun i => ?_⟩
    · unfold applyGalois
      rw [r1, Outcome.bind_ok, k3, b1, Outcome.bind_ok, e1]
      rfl
    · show _ ≤ x.error + e - x.error
      rw [add_sub_cancel_left]
      exact e2 _ (by simpa using r6 i)
  · have : bytesProbability L (fun s => ∃ key, RGalois.create Gp bytesSource fuel k power v g prng t sp s = .ok key ∧
        ¬ QuietGalois l S P t key) = 0 := by
      unfold bytesProbability
      rw [Finset.filter_eq_empty_iff.mpr]
      · simp
      · rintro s - ⟨key, h1, -⟩
        exact hv0 (galois_drawn Gp hk hne hgad hv hN ht h1).2.2.2.2.2.2.1
    rw [this]
    exact (exp_pos _).le

/-- C105: the same for `RnsRelinKey::CreateForBgv` (or, with `t = 1`, `CreateForBfv`) of any degree, applied to ciphertexts
of degree 1 and 2. -/
theorem c105_relin (Gp : Gen τ) (hk : GoodKey w l k S) (hne : k.ms ≠ []) (hl : l < 31) {g : RGadget}
    (hg : SmallGadget l k.ms g) {v : ℤ} (hv : v ≤ 256) (hN : ∀ m ∈ k.ms.head?, 4 * v < m.N) {P : RErrorParams}
    (hP : ParamsFor P l v) {t : ℕ} (ht : t < 2 ^ w) (htP : (t : ℝ) ≤ P.exportT) (fuel : ℕ) (degree : ℤ)
    (prng : PrngType) (sp : τ) (L : ℕ) :
    bytesProbability L (fun s => ∃ key, RRelin.create Gp bytesSource fuel k degree v g prng t sp s = .ok key ∧
      ¬ QuietRelin l S P t key) ≤ exp (-(9 * 2 ^ l * g.dimension)) := by
  classical
  obtain ⟨Gs, hgad⟩ := hg.gadget
  by_cases hv0 : 0 < v
  · refine (bytesProbability_le ((errTree l v).times g.dimension) ?_ L).trans (errors_tail hv0 g.dimension)
    rintro s ⟨key, h1, h2⟩
    obtain ⟨k1, k2, k3, k4, -, psss, s', Es, p1, l3, p2⟩ := relin_drawn Gp hk hne hgad hv hN ht h1
    refine ⟨psss, s', p1, ?_⟩
    by_contra hc
    push Not at hc
    obtain ⟨b, b1, b2, b3⟩ := hg.base
    have hN' : (((psss.map fun pss => norm1 (drawnPoly l v pss)).sum : ℤ) : ℝ) ≤ 8 / √3 * √v * 2 ^ l * g.dimension := by
      refine le_trans (le_of_eq ?_) hc
      push_cast [List.map_map]
      rfl
    refine h2 fun x Φ x1 x2 x3 x3' x4 => ?_
    obtain ⟨e, e1, e2⟩ := switch_bound hP hl b2 htP hN' (x.ct.c.length - 2)
    obtain ⟨r, R, r1, r2, r3, r4, r5, r6⟩ := relin_apply_core (by rw [k2]; exact hk.good)
      (by rw [k2, k3]; exact hgad) (by rw [k1, k2]; exact p2) (fun i Ds hi hDs j => by
        obtain rfl : i = 0 := by omega
        rw [zero_mul, List.drop_zero]
        exact drawn_bound b3 (digitLogs_length_le _ _) l3 hDs j) x1 x2 x3 (by rw [k1]; omega) (.inl (by omega)) x4
    refine ⟨⟨r, x.error + e⟩, R, ?_, r2.trans x1, r3, r4, r5, fun i => ?_⟩
    · unfold applyRelin
      rw [r1, Outcome.bind_ok, k3, b1, Outcome.bind_ok, e1]
      rfl
    · show _ ≤ x.error + e - x.error
      rw [add_sub_cancel_left]
      exact e2 _ (r6 i)
  · have : bytesProbability L (fun s => ∃ key, RRelin.create Gp bytesSource fuel k degree v g prng t sp s = .ok key ∧
        ¬ QuietRelin l S P t key) = 0 := by
      unfold bytesProbability
      rw [Finset.filter_eq_empty_iff.mpr]
      · simp
      · rintro s - ⟨key, h1, -⟩
        exact hv0 (relin_drawn Gp hk hne hgad hv hN ht h1).2.2.2.2.1
    rw [this]
    exact (exp_pos _).le

/-! ### Programs that switch keys -/

theorem like_of_ok {a b r : RCt} (h : a.add b = .ok r ∨ a.sub b = .ok r) :
    b.c.length = a.c.length ∧ b.power = a.power := by
  have : ∃ u, RCt.check a b = .ok u := by
    rcases h with h | h
    · obtain ⟨u, hu, -⟩ := Outcome.bind_eq_ok.mp h; exact ⟨u, hu⟩
    · obtain ⟨u, hu, -⟩ := Outcome.bind_eq_ok.mp h; exact ⟨u, hu⟩
  obtain ⟨u, hu⟩ := this
  unfold RCt.check at hu
  split_ifs at hu with h1 h2 h3
  exact ⟨by omega, by omega⟩

/-- What a run of the program keeps true. -/
structure RunOk (l : ℕ) (S : Fin (2 ^ l) → ℤ) (ms : List Modulus) {N : ℕ} (zeta : ZMod N) (f : Fin (2 ^ l) → ZMod N)
    (r : RTracked) : Prop where
  ms : r.ct.ms = ms
  power : r.ct.power = 1
  nonempty : r.ct.c ≠ []
  value : ∃ Φ : Fin (2 ^ l) → ℤ, Encrypts l S r.ct Φ ∧ (∀ i, |(Φ i : ℝ)| ≤ r.error) ∧
    ∀ i : Fin (2 ^ l), slotsOf zeta l Φ i = f i

theorem noisy {N : ℕ} {zeta : ZMod N} {Φ R : Fin (2 ^ l) → ℤ} {x r : RTracked} {f : Fin (2 ^ l) → ZMod N}
    (h1 : Encrypts l S r.ct (fun i => Φ i + N * R i)) (h2 : ∀ i, |(Φ i : ℝ)| ≤ x.error)
    (h3 : ∀ i, |((N * R i : ℤ) : ℝ)| ≤ r.error - x.error) (h4 : ∀ i : Fin (2 ^ l), slotsOf zeta l Φ i = f i) :
    ∃ Φ : Fin (2 ^ l) → ℤ, Encrypts l S r.ct Φ ∧ (∀ i, |(Φ i : ℝ)| ≤ r.error) ∧
      ∀ i : Fin (2 ^ l), slotsOf zeta l Φ i = f i := by
  refine ⟨_, h1, fun i => ?_, fun i => by rw [slots_noise]; exact h4 i⟩
  have := abs_add_le (Φ i : ℝ) ((N * R i : ℤ) : ℝ)
  have h5 := h2 i
  have h6 := h3 i
  push_cast at this h6 ⊢
  linarith

theorem run_ok {ms : List Modulus} (hl : l ≤ 15) (h1 : 1 ≤ l) (hg : ∀ m ∈ ms, GoodModulus w l m) (hne : ms ≠ [])
    {N : ℕ} {zeta : ZMod N} (hz : zeta ^ 2 ^ l = -1) (P : RErrorParams) {x : ι → RTracked} {F : ι → Fin (2 ^ l) → ℤ}
    {M : RPoly → Fin (2 ^ l) → ℤ}
    (hx : ∀ i, (x i).ct.ms = ms ∧ (x i).ct.power = 1 ∧ (x i).ct.c ≠ [] ∧ REstimated l S (x i) (F i))
    {relin : RRelin} (hr : QuietRelin l S P N relin) (hrm : relin.ms = ms) (hrd : relin.degree = 2)
    {galois : κ → RGalois} {power : κ → ℕ} (hq : ∀ j, QuietGalois l S P N (galois j)) (hqm : ∀ j, (galois j).ms = ms)
    (hqp : ∀ j, (galois j).power = power j) (hodd : ∀ j, power j % 2 = 1) (hlt : ∀ j, power j < 2 * 2 ^ l)
    (u : SwitchProgram ι κ) (hu : u.PlainsOk w l ms M) (hw : u.Within P M) {r : RTracked}
    (h : u.run P x relin galois = .ok r) :
    RunOk l S ms zeta (u.eval (fun j i => slotsOf zeta l (F j) i) (fun p i => slotsOf zeta l (M p) i) power) r := by
  haveI : NeZero (2 ^ l) := ⟨by positivity⟩
  induction u generalizing r with
  | compute u =>
    obtain ⟨r1, r2, r3, r4⟩ := c66_computation_partial hg hne P hx u hu hw h
    exact ⟨r1, r2, r3, _, r4.encrypts, fun i => coeff_le_size r4.size i, fun i => slots_evalPoly hz h1 F M i u⟩
  | relinearize a ih =>
    obtain ⟨y, y1, h⟩ := Outcome.bind_eq_ok.mp h
    obtain ⟨y2, y3, y4, Φ, y5, y6, y7⟩ := ih hu hw y1
    have hlen : 2 ≤ y.ct.c.length ∧ y.ct.c.length ≤ 3 := by
      obtain ⟨c, hc, -⟩ := Outcome.bind_eq_ok.mp h
      unfold RRelin.applyTo at hc
      split_ifs at hc with c1 c2 c3
      obtain ⟨c0, _, hc⟩ := Outcome.bind_eq_ok.mp hc
      obtain ⟨c1', h1', -⟩ := Outcome.bind_eq_ok.mp hc
      unfold RCt.component at h1'
      split_ifs at h1' with c4
      rw [hrd] at c1
      omega
    obtain ⟨r', R, r1, r2, r3, r4, r5, r6⟩ := hr y Φ (y2.trans hrm.symm) y3 hlen.1 hlen.2 y5
    rw [h] at r1
    cases r1
    exact ⟨r2.trans hrm, r3, List.length_pos_iff.mp (by omega), noisy r5 y6 r6 y7⟩
  | rotate j a ih =>
    obtain ⟨y, y1, h⟩ := Outcome.bind_eq_ok.mp h
    obtain ⟨y2, y3, y4, Φ, y5, y6, y7⟩ := ih hu hw y1
    obtain ⟨z, z1, h⟩ := Outcome.bind_eq_ok.mp h
    have hlt' := hlt j
    have h16 : 2 ^ l ≤ 2 ^ 15 := Nat.pow_le_pow_right (by norm_num) hl
    obtain ⟨c, c1, c2, c3, c4, c5⟩ := c56_substitute_partial hl (by rw [y2]; exact hg) y4 (power j) (hodd j) hlt'
      (by rw [y3]; omega) y5
    unfold RTracked.substitute at z1
    rw [hqp, c1] at z1
    cases z1
    have hlen : c.c.length = 2 := by
      obtain ⟨d, hd, -⟩ := Outcome.bind_eq_ok.mp h
      unfold RGalois.applyTo at hd
      obtain ⟨_, hd, -⟩ := Outcome.bind_eq_ok.mp hd
      unfold RGalois.check at hd
      split_ifs at hd with d1 d2 d3
      simpa using d3
    obtain ⟨r', R, r1, r2, r3, r4, r5, r6⟩ := hq j ⟨c, y.error⟩ (substPow (power j) Φ) (c2.trans (y2.trans (hqm j).symm))
      (by show c.power = _; rw [c3, y3, hqp, one_mul]; exact Int.emod_eq_of_lt (by positivity) (by exact_mod_cast hlt'))
      hlen c5
    rw [h] at r1
    cases r1
    refine ⟨r2.trans (hqm j), r3, List.length_pos_iff.mp (by omega), noisy (x := ⟨c, y.error⟩) r5 (fun i => ?_) r6
      fun i => ?_⟩
    · show _ ≤ y.error
      have h0 : 0 ≤ y.error := (abs_nonneg _).trans (y6 0)
      have h7 : ∀ i, |Φ i| ≤ (⌊y.error⌋₊ : ℕ) := fun i => by
        have h8 : ((|Φ i|.toNat : ℕ) : ℝ) ≤ y.error := by
          have h9 : ((|Φ i|.toNat : ℕ) : ℤ) = |Φ i| := Int.toNat_of_nonneg (abs_nonneg _)
          have h10 : ((|Φ i|.toNat : ℕ) : ℝ) = |(Φ i : ℝ)| := by exact_mod_cast congrArg (Int.cast (R := ℝ)) h9
          rw [h10]; exact y6 i
        have := Nat.le_floor h8
        omega
      have h8 := substPow_abs (hodd j) h7 i
      have h9 : |((substPow (power j) Φ i : ℤ) : ℝ)| ≤ (⌊y.error⌋₊ : ℕ) := by exact_mod_cast h8
      exact h9.trans (Nat.floor_le h0)
    · show _ = a.eval _ _ _ (slotSource l (power j) i)
      rw [← y7]
      exact slots_subst hz h1 Φ (power j) (SlotStore.source_spec h1 (hodd j) i).symm
  | neg a ih =>
    obtain ⟨y, y1, h⟩ := Outcome.bind_eq_ok.mp h
    obtain ⟨y2, y3, y4, Φ, y5, y6, y7⟩ := ih hu hw y1
    obtain ⟨c, c1, c2, c3, c4⟩ := c53_negate (by rw [y2]; exact hg) y5
    unfold RTracked.negate at h
    rw [c1] at h
    cases h
    refine ⟨c2.1.trans y2, c2.2.trans y3, List.length_pos_iff.mp (by
      have := List.length_pos_iff.mpr y4
      show 0 < c.c.length
      omega), _, c4, fun i => by simpa using y6 i, fun i => ?_⟩
    show _ = -a.eval _ _ _ i
    rw [← y7]
    exact slots_evalPoly hz h1 (fun _ : Unit => Φ) M i (.neg (.input ()))
  | add a b ia ib =>
    obtain ⟨y, y1, h⟩ := Outcome.bind_eq_ok.mp h
    obtain ⟨z, z1, h⟩ := Outcome.bind_eq_ok.mp h
    obtain ⟨y2, y3, y4, Φ, y5, y6, y7⟩ := ia hu.1 hw.1 y1
    obtain ⟨z2, z3, z4, Ψ, z5, z6, z7⟩ := ib hu.2 hw.2 z1
    obtain ⟨c, hc, h⟩ := Outcome.bind_eq_ok.mp h
    cases h
    obtain ⟨c', c1, c2, c3, c4⟩ := c53_add (by rw [y2]; exact hg) (z2.trans y2.symm) (z3.trans y3.symm)
      (like_of_ok (.inl hc)).1 y5 z5
    rw [hc] at c1
    cases c1
    refine ⟨c2.1.trans y2, c2.2.trans y3, List.length_pos_iff.mp (by
      have := List.length_pos_iff.mpr y4
      show 0 < c.c.length
      omega), _, c4, fun i => ?_, fun i => ?_⟩
    · have h5 := abs_add_le (Φ i : ℝ) (Ψ i)
      have h6 := y6 i
      have h7 := z6 i
      show |(((Φ + Ψ) i : ℤ) : ℝ)| ≤ y.error + z.error
      rw [Pi.add_apply]
      push_cast
      linarith
    · show _ = a.eval _ _ _ i + b.eval _ _ _ i
      rw [← y7, ← z7]
      exact slots_evalPoly hz h1 (fun c : Bool => if c then Φ else Ψ) M i (.add (.input true) (.input false))
  | sub a b ia ib =>
    obtain ⟨y, y1, h⟩ := Outcome.bind_eq_ok.mp h
    obtain ⟨z, z1, h⟩ := Outcome.bind_eq_ok.mp h
    obtain ⟨y2, y3, y4, Φ, y5, y6, y7⟩ := ia hu.1 hw.1 y1
    obtain ⟨z2, z3, z4, Ψ, z5, z6, z7⟩ := ib hu.2 hw.2 z1
    obtain ⟨c, hc, h⟩ := Outcome.bind_eq_ok.mp h
    cases h
    obtain ⟨c', c1, c2, c3, c4⟩ := c53_sub (by rw [y2]; exact hg) (z2.trans y2.symm) (z3.trans y3.symm)
      (like_of_ok (.inr hc)).1 y5 z5
    rw [hc] at c1
    cases c1
    refine ⟨c2.1.trans y2, c2.2.trans y3, List.length_pos_iff.mp (by
      have := List.length_pos_iff.mpr y4
      show 0 < c.c.length
      omega), _, c4, fun i => ?_, fun i => ?_⟩
    · have h5 := abs_sub (Φ i : ℝ) (Ψ i)
      have h6 := y6 i
      have h7 := z6 i
      show |(((Φ - Ψ) i : ℤ) : ℝ)| ≤ y.error + z.error
      rw [Pi.sub_apply]
      push_cast
      linarith
    · show _ = a.eval _ _ _ i - b.eval _ _ _ i
      rw [← y7, ← z7]
      exact slots_evalPoly hz h1 (fun c : Bool => if c then Φ else Ψ) M i (.sub (.input true) (.input false))

/-- C105: with keys that stay within the estimates and ciphertexts within their estimates, every program whose result has
an `Error()` below half of the product of the moduli decrypts to what the program computes in the slots. -/
theorem c105_switching {W : ℕ} {e : FFEncoder} (he : GoodEncoder w l e) {lev : ℕ} (hl : l ≤ 15)
    (hms : e.ctx.qs.take lev = k.ms) (hne : k.ms ≠ []) (hk : KeyIs l k S) (htQ : e.ctx.t ≤ modulusProd k.ms)
    (hW : ∀ m ∈ k.ms, modulusProd k.ms * m.N ≤ 2 ^ W) {hatInvs : List ℕ} (hi : HatInvs k.ms hatInvs) (P : RErrorParams)
    {x : ι → RTracked} {F E : ι → Fin (2 ^ l) → ℤ} {M : RPoly → Fin (2 ^ l) → ℤ}
    (hx : ∀ i, Fresh k (x i).ct ∧ REstimated l S (x i) fun j => F i j + e.ctx.t * E i j)
    {relin : RRelin} (hr : QuietRelin l S P e.ctx.t relin) (hrm : relin.ms = k.ms) (hrd : relin.degree = 2)
    {galois : κ → RGalois} {power : κ → ℕ} (hq : ∀ j, QuietGalois l S P e.ctx.t (galois j))
    (hqm : ∀ j, (galois j).ms = k.ms) (hqp : ∀ j, (galois j).power = power j) (hodd : ∀ j, power j % 2 = 1)
    (hlt : ∀ j, power j < 2 * 2 ^ l) (u : SwitchProgram ι κ) (hu : u.PlainsOk w l k.ms M) (hw : u.Within P M)
    {r : RTracked} (h : u.run P x relin galois = .ok r) (hB : 2 * r.error < modulusProd k.ms) :
    k.decryptBgvWithCrt W e r.ct (modulusComplements W k.ms) hatInvs =
      .ok (List.ofFn fun i : Fin (2 ^ l) => (u.eval (fun j i => slotsOf (nttRoot l e.mt) l (F j) i)
        (fun p i => slotsOf (nttRoot l e.mt) l (M p) i) power i).val) := by
  have hg : ∀ q ∈ k.ms, GoodModulus w l q := fun q hq => by
    rw [← hms] at hq; exact he.ctx.qs q (List.mem_of_mem_take hq)
  obtain ⟨psi, tb⟩ := he.mt.tables
  have hz : nttRoot l e.mt ^ 2 ^ l = -1 := by
    rw [nttRoot_eq he.mt tb]; exact tb.root
  rw [← he.N] at hr hq hx
  obtain ⟨r1, r2, r3, Φ, r4, r5, r6⟩ := run_ok hl tb.l1 hg hne hz P (fun i => ⟨(hx i).1.1, (hx i).1.2.1, by
    have := (hx i).1.2.2
    exact List.length_pos_iff.mp (by omega), (hx i).2⟩) hr hrm hrd hq hqm hqp hodd hlt u hu hw h
  rw [c53_bgv_crt (M := Φ) (R := 0) he hms hne hk r1 r2 r3 (by simpa using r4) hW hi htQ (fun i => ?_)]
  · congr 2
    funext i
    rw [r6]
    congr 3
    funext j i
    rw [slots_noise]
  · have h2 : (2 * |(Φ i : ℝ)|) < modulusProd k.ms := by
      have := r5 i
      linarith
    have h3 : 2 * |Φ i| < (modulusProd k.ms : ℤ) := by exact_mod_cast h2
    simpa using h3

/-! ### Independent tapes -/

theorem tapesProbability_le [Fintype ι] (L : ι → ℕ) {event : (ι → List (Fin 256)) → Prop}
    {B : ι → List (Fin 256) → Prop} (h : ∀ t, event t → ∃ i, B i (t i)) :
    tapesProbability L event ≤ ∑ i, bytesProbability (L i) (B i) := by
  classical
  unfold tapesProbability bytesProbability
  have hsub : ((Finset.univ : Finset (∀ i, Fin (L i) → Fin 256)).filter fun t => event fun i => List.ofFn (t i)) ⊆
      Finset.univ.biUnion fun i => Fintype.piFinset fun j =>
        if j = i then Finset.univ.filter fun t : Fin (L j) → Fin 256 => B j (List.ofFn t) else Finset.univ := by
    intro t ht
    obtain ⟨i, hi⟩ := h _ (Finset.mem_filter.mp ht).2
    refine Finset.mem_biUnion.mpr ⟨i, Finset.mem_univ i, Fintype.mem_piFinset.mpr fun j => ?_⟩
    by_cases hj : j = i
    · subst hj; simpa using hi
    · simp [hj]
  have hc := (Finset.card_le_card hsub).trans Finset.card_biUnion_le
  have hc' : ((((Finset.univ : Finset (∀ i, Fin (L i) → Fin 256)).filter fun t =>
      event fun i => List.ofFn (t i)).card : ℕ) : ℝ) ≤ _ := Nat.cast_le.mpr hc
  rw [div_le_iff₀ (by positivity), Finset.sum_mul]
  refine hc'.trans ?_
  push_cast
  refine Finset.sum_le_sum fun i _ => le_of_eq ?_
  rw [Fintype.card_piFinset, ← Finset.mul_prod_erase Finset.univ _ (Finset.mem_univ i), if_pos rfl,
    Finset.prod_congr rfl (g := fun j => 256 ^ L j) (fun j hj => by
      rw [if_neg (Finset.ne_of_mem_erase hj)]; simp), ← Finset.prod_pow_eq_pow_sum,
    ← Finset.mul_prod_erase Finset.univ _ (Finset.mem_univ i)]
  push_cast
  field_simp

/-! ### Encryption, key generation and a program -/

/-- Fresh encryptions are within their estimates, up to a small probability. -/
theorem fresh_all (est : Estimate) {e : FFEncoder} (he : GoodEncoder w l e) {lev : ℕ} (hk : RoomyKey w l k S)
    (hms : e.ctx.qs.take lev = k.ms) {P : RErrorParams} (hP : ParamsFor P l k.variance) (htP : e.ctx.t ≤ P.exportT)
    (htw : e.ctx.t < 2 ^ w) {mss : List (List ℕ)}
    (hmsg : ∀ msgs ∈ mss, (∀ a ∈ msgs, a < 2 ^ w) ∧ msgs.length ≤ 2 ^ l ∧
      ∀ F : Fin (2 ^ l) → ℤ, (∀ j, 2 * |F j| ≤ e.ctx.t) →
        (∀ i < 2 ^ l, slotsOf (nttRoot l e.mt) l F i = ((msgs.getD i 0 : ℕ) : ZMod e.mt.N)) → SizeAtMost F P.bPlaintext)
    (fuel : ℕ) : ∃ F : ℕ → Fin (2 ^ l) → ℤ, (∀ i < mss.length, ∀ j : Fin (2 ^ l),
        slotsOf (nttRoot l e.mt) l (F i) j = (((mss.getD i []).getD j 0 : ℕ) : ZMod e.mt.N)) ∧
      ∀ L, bytesProbability L (fun t => ∃ xs s,
        inSequence (mss.map fun msgs => RnsErrorTrack.encryptBgv P bytesSource fuel k (finiteFieldEncoder est e) msgs) t =
          .ok (xs, s) ∧ ¬ ∀ i : Fin mss.length, ∃ E : Fin (2 ^ l) → ℤ, Fresh k (xs.getD i ⟨⟨[], [], 0⟩, 0⟩).ct ∧
            REstimated l S (xs.getD i ⟨⟨[], [], 0⟩, 0⟩) fun j => F i j + e.ctx.t * E j) ≤
        mss.length * (8 * 2 ^ l * exp (-30)) := by
  have hF : ∀ msgs ∈ mss, ∃ x F, ffEncodeBgv e msgs k.ms = .ok x ∧ x.ntt = true ∧ Represents l k.ms x F ∧
      (∀ j, 2 * |F j| ≤ e.ctx.t) ∧ ∀ i < 2 ^ l, slotsOf (nttRoot l e.mt) l F i = ((msgs.getD i 0 : ℕ) : ZMod e.mt.N) :=
    fun msgs h => c50_encode_bgv he hk.nonempty (fun m hm => by rw [← hms] at hm; exact List.mem_of_mem_take hm)
      (hmsg msgs h).1 (hmsg msgs h).2.1
  have hF' : ∀ i, ∃ x F, i < mss.length → ffEncodeBgv e (mss.getD i []) k.ms = .ok x ∧ Represents l k.ms x F ∧
      (∀ j, 2 * |F j| ≤ e.ctx.t) ∧
      ∀ j < 2 ^ l, slotsOf (nttRoot l e.mt) l F j = (((mss.getD i []).getD j 0 : ℕ) : ZMod e.mt.N) := by
    intro i
    by_cases h : i < mss.length
    · rw [List.getD_eq_getElem _ _ h]
      obtain ⟨x, F, h1, -, h2⟩ := hF mss[i] (List.getElem_mem _)
      exact ⟨x, F, fun _ => ⟨h1, h2⟩⟩
    · exact ⟨⟨0, [], false⟩, 0, fun h' => absurd h' h⟩
  choose pts F hF' using hF'
  have hlen : (mss.map fun msgs => RnsErrorTrack.encryptBgv P bytesSource fuel k (finiteFieldEncoder est e) msgs).length =
      mss.length := by simp
  refine ⟨F, fun i hi j => (hF' i hi).2.2.2 j j.2, fun L => ?_⟩
  refine ((many_draws_tail hk ⟨⟨[], [], 0⟩, 0⟩ (Φ := F) (B := P.bSecretKey) (c := e.ctx.t) (fuel := fuel)
    (fun i hi => ?_) (good := fun xs => ∀ i : Fin mss.length, ∃ E : Fin (2 ^ l) → ℤ,
      Fresh k (xs.getD i ⟨⟨[], [], 0⟩, 0⟩).ct ∧
        REstimated l S (xs.getD i ⟨⟨[], [], 0⟩, 0⟩) fun j => F i j + e.ctx.t * E j) ?_ L).trans
      (le_of_eq (by rw [hlen])))
  · rw [hlen] at hi
    obtain ⟨h1, h2, -⟩ := hF' i hi
    rw [List.getD_eq_getElem _ _ hi] at h1
    rw [List.getElem_map]
    exact bgv_draws hk.good (enc := finiteFieldEncoder est e) h1 h2 htw P fuel
  · intro xs hxs i
    obtain ⟨c1, c2, E, c3, c4, -⟩ := hxs i (by rw [hlen]; exact i.2)
    refine ⟨E, c1, c3, ?_⟩
    rw [c2, bSecretKey_eq]
    obtain ⟨-, -, f3, f4⟩ := hF' i i.2
    refine fresh_size htP ((hmsg (mss.getD i []) ?_).2.2 _ f3 f4) (hP.size c4)
    rw [List.getD_eq_getElem _ _ i.2]
    exact List.getElem_mem _

/-- C105: a relinearization key, Galois keys and the encryptions of lists of messages are made with independent tapes of
uniformly distributed bytes. This bounds the probability that all of them are returned, and that there is any program of
products, absorptions, relinearizations, rotations, negations, additions and subtractions that returns a ciphertext with an
`Error()` below half of the product of the moduli which does not decrypt to what the program computes on the messages. -/
theorem c105_program [Fintype κ] (Gp : Gen τ) (est : Estimate) {e : FFEncoder} (he : GoodEncoder w l e) {lev W : ℕ}
    (hl : l ≤ 15) (hk : RoomyKey w l k S) (hms : e.ctx.qs.take lev = k.ms) {P : RErrorParams}
    (hP : ParamsFor P l k.variance) (htP : e.ctx.t ≤ P.exportT) (htw : e.ctx.t < 2 ^ w)
    (htQ : e.ctx.t ≤ modulusProd k.ms) (hW : ∀ m ∈ k.ms, modulusProd k.ms * m.N ≤ 2 ^ W) {hatInvs : List ℕ}
    (hi : HatInvs k.ms hatInvs) {g : RGadget} (hg : SmallGadget l k.ms g) {mss : List (List ℕ)}
    (hmsg : ∀ msgs ∈ mss, (∀ a ∈ msgs, a < 2 ^ w) ∧ msgs.length ≤ 2 ^ l ∧
      ∀ F : Fin (2 ^ l) → ℤ, (∀ j, 2 * |F j| ≤ e.ctx.t) →
        (∀ i < 2 ^ l, slotsOf (nttRoot l e.mt) l F i = ((msgs.getD i 0 : ℕ) : ZMod e.mt.N)) → SizeAtMost F P.bPlaintext)
    (fuel : ℕ) (prng : PrngType) (power : κ → ℕ) (spr : τ) (spg : κ → τ) (L : Fin 2 ⊕ κ → ℕ) :
    tapesProbability L (fun t => ∃ xs s relin galois,
      inSequence (mss.map fun msgs => RnsErrorTrack.encryptBgv P bytesSource fuel k (finiteFieldEncoder est e) msgs)
        (t (.inl 0)) = .ok (xs, s) ∧
      RRelin.create Gp bytesSource fuel k 2 k.variance g prng e.ctx.t spr (t (.inl 1)) = .ok relin ∧
      (∀ j, RGalois.create Gp bytesSource fuel k (power j) k.variance g prng e.ctx.t (spg j) (t (.inr j)) =
        .ok (galois j)) ∧
      ∃ (u : SwitchProgram (Fin mss.length) κ) (M : RPoly → Fin (2 ^ l) → ℤ) (r : RTracked), u.PlainsOk w l k.ms M ∧
        u.Within P M ∧ u.run P (fun i : Fin mss.length => xs.getD i ⟨⟨[], [], 0⟩, 0⟩) relin galois = .ok r ∧
        2 * r.error < modulusProd k.ms ∧
        k.decryptBgvWithCrt W e r.ct (modulusComplements W k.ms) hatInvs ≠
          .ok (List.ofFn fun i : Fin (2 ^ l) =>
            (u.eval (fun (j : Fin mss.length) i => (((mss.getD j []).getD i 0 : ℕ) : ZMod e.mt.N))
              (fun p i => slotsOf (nttRoot l e.mt) l (M p) i) power i).val)) ≤
      mss.length * (8 * 2 ^ l * exp (-30)) + (Fintype.card κ + 1) * exp (-(9 * 2 ^ l * g.dimension)) := by
  obtain ⟨F, hF, hfresh⟩ := fresh_all est he hk hms hP htP htw hmsg fuel
  obtain ⟨Gs, hgad⟩ := hg.gadget
  have hl31 : l < 31 := by omega
  let B : Fin 2 ⊕ κ → List (Fin 256) → Prop
    | .inl 0 => fun t => ∃ xs s,
        inSequence (mss.map fun msgs => RnsErrorTrack.encryptBgv P bytesSource fuel k (finiteFieldEncoder est e) msgs) t =
          .ok (xs, s) ∧ ¬ ∀ i : Fin mss.length, ∃ E : Fin (2 ^ l) → ℤ, Fresh k (xs.getD i ⟨⟨[], [], 0⟩, 0⟩).ct ∧
            REstimated l S (xs.getD i ⟨⟨[], [], 0⟩, 0⟩) fun j => F i j + e.ctx.t * E j
    | .inl 1 => fun t => ∃ key, RRelin.create Gp bytesSource fuel k 2 k.variance g prng e.ctx.t spr t = .ok key ∧
        ¬ QuietRelin l S P e.ctx.t key
    | .inr j => fun t => ∃ key,
        RGalois.create Gp bytesSource fuel k (power j) k.variance g prng e.ctx.t (spg j) t = .ok key ∧
          ¬ QuietGalois l S P e.ctx.t key
  refine (tapesProbability_le L (B := B) ?_).trans ?_
  · rintro t ⟨xs, s, relin, galois, h1, h2, h3, u, M, r, hu, hw, hr, hB, hbad⟩
    by_contra hc
    push Not at hc
    have b1 : ∀ i : Fin mss.length, ∃ E : Fin (2 ^ l) → ℤ, Fresh k (xs.getD i ⟨⟨[], [], 0⟩, 0⟩).ct ∧
        REstimated l S (xs.getD i ⟨⟨[], [], 0⟩, 0⟩) fun j => F i j + e.ctx.t * E j := by
      by_contra hn
      exact hc (.inl 0) ⟨xs, s, h1, hn⟩
    have b2 : QuietRelin l S P e.ctx.t relin := by
      by_contra hn
      exact hc (.inl 1) ⟨relin, h2, hn⟩
    have b3 : ∀ j, QuietGalois l S P e.ctx.t (galois j) := fun j => by
      by_contra hn
      exact hc (.inr j) ⟨galois j, h3 j, hn⟩
    choose E hE using b1
    obtain ⟨q1, q2, -⟩ := relin_drawn Gp hk.good hk.nonempty hgad hk.atMost hk.room htw h2
    have q3 := fun j => galois_drawn Gp hk.good hk.nonempty hgad hk.atMost hk.room htw (h3 j)
    refine hbad ?_
    rw [c105_switching he hl hms hk.nonempty hk.good.key htQ hW hi P hE b2 q2 q1 b3 (fun j => (q3 j).2.1)
      (fun j => (q3 j).1) (fun j => by have := (q3 j).2.2.2.2.1; omega)
      (fun j => by have := (q3 j).2.2.2.2.2.1; exact_mod_cast this) u hu hw hr hB]
    congr 2
    funext i
    congr 2
    funext j i
    exact hF j j.2 i
  · rw [Fintype.sum_sum_type, Fin.sum_univ_two]
    have e1 := hfresh (L (.inl 0))
    have e2 := c105_relin Gp hk.good hk.nonempty hl31 hg hk.atMost hk.room hP htw htP fuel 2 prng spr (L (.inl 1))
    have e3 : ∑ j, bytesProbability (L (.inr j)) (B (.inr j)) ≤
        ∑ _j : κ, exp (-(9 * 2 ^ l * g.dimension : ℝ)) := Finset.sum_le_sum fun j _ =>
      c105_galois Gp hk.good hk.nonempty hl31 hg hk.atMost hk.room hP htw htP fuel (power j) prng (spg j) (L (.inr j))
    rw [Finset.sum_const, Finset.card_univ, nsmul_eq_mul] at e3
    have e1' : bytesProbability (L (.inl 0)) (B (.inl 0)) ≤ mss.length * (8 * 2 ^ l * exp (-30)) := e1
    have e2' : bytesProbability (L (.inl 1)) (B (.inl 1)) ≤ exp (-(9 * 2 ^ l * g.dimension)) := e2
    linarith

end Shell
