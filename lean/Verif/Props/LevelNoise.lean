import Verif.Spec.LevelNoise
import Verif.Props.KeyNoise
import Verif.Lemmas.RnsCtStore
/-!
# Property C108: modulus reduction within the error estimates

`ModReduce` of a BGV ciphertext leaves `Error()` as it is. This is right, in every coefficient and for any number of
reductions, if `Error()` is at least `t` times `1 + |s|_1 + |s|_1^2 + ..`; every rotation and every relinearization of a
product raises it above that, if the secret key is as short as sampled keys are, except with probability `exp (-9 n)`.
-/

namespace Shell
open Spec Rns RnsErrorTrack NttRing Real
variable {σ τ ι κ : Type} {w l : ℕ} {S : Fin (2 ^ l) → ℤ} {k : RKey}

/-- One reduction. -/
theorem reduce_step {ctx : Rns.Ctx} (hc : GoodCtx w l ctx) {lev : ℕ} (hlev : 0 < lev) (hn : lev + 1 ≤ ctx.qs.length)
    {x : RTracked} (hms : x.ct.ms = ctx.qs.take (lev + 1)) {Φ : Fin (2 ^ l) → ℤ} (hx : Encrypts l S x.ct Φ)
    (hΦ : ∀ i, |(Φ i : ℝ)| ≤ x.error)
    (hfloor : ctx.t * ∑ j ∈ Finset.range x.ct.c.length, (norm1 S : ℝ) ^ j ≤ x.error)
    (hbig : ∀ m ∈ ctx.qs, 2 * ctx.t ≤ m.N) :
    ∃ row y Φ', rd ctx.primeQInvs (x.ct.ms.length - 1) = .ok row ∧
      x.modReduce ctx.t (row.take (x.ct.ms.length - 1)) = .ok y ∧ y.ct.ms = ctx.qs.take lev ∧
      y.ct.power = x.ct.power ∧ y.ct.c.length = x.ct.c.length ∧ y.error = x.error ∧ Encrypts l S y.ct Φ' ∧
      CongMod ctx.t Φ' Φ ∧ ∀ i, |(Φ' i : ℝ)| ≤ y.error := by
  obtain ⟨m, hm⟩ : ∃ m, ctx.qs[lev]? = some m := ⟨ctx.qs[lev], List.getElem?_eq_getElem (by omega)⟩
  have hmem : m ∈ ctx.qs := List.mem_of_getElem? hm
  obtain ⟨row, hr1, hr2⟩ := hc.inverses.primeQInvs lev m hm
  have hsplit : x.ct.ms = ctx.qs.take lev ++ [m] := by
    rw [hms, List.take_succ, hm]; rfl
  have hlen : x.ct.ms.length - 1 = lev := by
    rw [hms, List.length_take]; omega
  have gm := hc.qs m hmem
  have hne : ctx.qs.take lev ≠ [] := by
    intro h0
    have := congrArg List.length h0
    rw [List.length_take, List.length_nil] at this
    omega
  obtain ⟨r, Φ', r1, r2, r3, r4, r5, r6, E, hE⟩ := c56_modReduce_bgv (fun m hm => hc.qs m (List.mem_of_mem_take hm)) gm hne
    hsplit hr2 ctx.t hc.pos hc.word hx
  refine ⟨row, ⟨r, x.error⟩, Φ', ?_, ?_, r2, r3, r4, rfl, r5,
    r6 (hc.coprime m (List.mem_append_left _ hmem)), fun i => ?_⟩
  · rw [hlen]
    unfold rd
    rw [hr1]
  · unfold RTracked.modReduce
    rw [hlen, r1]
    rfl
  obtain ⟨e1, e2⟩ := hE i
  have hN : (0 : ℝ) < m.N := by exact_mod_cast gm.prime.pos
  have hx0 : 0 ≤ x.error := (abs_nonneg _).trans (hΦ i)
  have ht : ((m.N % ctx.t : ℕ) : ℝ) ≤ m.N / 2 := by
    have h1 := Nat.mod_lt m.N hc.pos
    have h2 := hbig m hmem
    have h3 : 2 * (m.N % ctx.t) ≤ m.N := by omega
    have h4 : ((2 * (m.N % ctx.t) : ℕ) : ℝ) ≤ m.N := by exact_mod_cast h3
    push_cast at h4 ⊢
    linarith
  have hs : ∑ j ∈ Finset.range x.ct.c.length, norm1 (substPow x.ct.power.toNat S) ^ j ≤
      ∑ j ∈ Finset.range x.ct.c.length, norm1 S ^ j := Finset.sum_le_sum fun j _ =>
    pow_le_pow_left₀ (Finset.sum_nonneg fun _ _ => abs_nonneg _) (BgvStore.norm1_substPow_le _ _) j
  have e3 : 2 * |(E i : ℝ)| ≤ m.N * ∑ j ∈ Finset.range x.ct.c.length, (norm1 S : ℝ) ^ j := by
    have : (2 * |E i| : ℤ) ≤ m.N * ∑ j ∈ Finset.range x.ct.c.length, norm1 S ^ j :=
      e2.trans (mul_le_mul_of_nonneg_left hs (by positivity))
    exact_mod_cast this
  have e4 : (m.N : ℝ) * Φ' i = (m.N % ctx.t : ℕ) * Φ i + ctx.t * E i := by
    have h1 := congrArg (Int.cast : ℤ → ℝ) e1
    simpa only [Int.cast_mul, Int.cast_add, Int.cast_natCast] using h1
  have e5 : (m.N : ℝ) * |(Φ' i : ℝ)| ≤ (m.N % ctx.t : ℕ) * |(Φ i : ℝ)| + ctx.t * |(E i : ℝ)| := by
    have h1 := abs_add_le (((m.N % ctx.t : ℕ) : ℝ) * Φ i) (ctx.t * E i)
    rw [← e4, abs_mul, abs_mul, abs_mul, Nat.abs_cast, Nat.abs_cast, Nat.abs_cast] at h1
    exact h1
  have e6 : ((m.N % ctx.t : ℕ) : ℝ) * |(Φ i : ℝ)| ≤ m.N / 2 * x.error := mul_le_mul ht (hΦ i) (abs_nonneg _) (by positivity)
  have e7 : (ctx.t : ℝ) * |(E i : ℝ)| ≤ m.N / 2 * x.error := by
    have h1 : (ctx.t : ℝ) * (2 * |(E i : ℝ)|) ≤ ctx.t * (m.N * ∑ j ∈ Finset.range x.ct.c.length, (norm1 S : ℝ) ^ j) :=
      mul_le_mul_of_nonneg_left e3 (by positivity)
    have h2 := mul_le_mul_of_nonneg_left hfloor hN.le
    linarith
  refine le_of_mul_le_mul_left (e5.trans ?_) hN
  show _ ≤ (m.N : ℝ) * x.error
  linarith

/-- **C108.** Let the moduli of the context be at least `2 t`, and let `Error()` of a BGV ciphertext bound the coefficients of
the polynomial that it stands for, and be at least `t (1 + |s|_1 + .. )` with a term for each component. It can be reduced
any number of times while moduli are left; the result stands for a polynomial that is congruent modulo `t`, and the coefficients
of which are bounded by `Error()`, which does not change. -/
theorem c108_reduce {ctx : Rns.Ctx} (hc : GoodCtx w l ctx) {lev : ℕ} (hlev : 0 < lev)
    (hbig : ∀ m ∈ ctx.qs, 2 * ctx.t ≤ m.N) (n : ℕ) (hn : lev + n ≤ ctx.qs.length)
    {x : RTracked} (hms : x.ct.ms = ctx.qs.take (lev + n)) {Φ : Fin (2 ^ l) → ℤ} (hx : Encrypts l S x.ct Φ)
    (hΦ : ∀ i, |(Φ i : ℝ)| ≤ x.error)
    (hfloor : ctx.t * ∑ j ∈ Finset.range x.ct.c.length, (norm1 S : ℝ) ^ j ≤ x.error) :
    ∃ y Φ', reduceTimes ctx n x = .ok y ∧ y.ct.ms = ctx.qs.take lev ∧ y.ct.power = x.ct.power ∧
      y.ct.c.length = x.ct.c.length ∧ y.error = x.error ∧ Encrypts l S y.ct Φ' ∧ CongMod ctx.t Φ' Φ ∧
      ∀ i, |(Φ' i : ℝ)| ≤ y.error := by
  induction n generalizing x Φ with
  | zero => exact ⟨x, Φ, rfl, hms, rfl, rfl, rfl, hx, fun i => by simp, hΦ⟩
  | succ n ih =>
    obtain ⟨row, z, Ψ, z0, z1, z2, z3, z4, z5, z6, z7, z8⟩ := reduce_step hc (lev := lev + n) (by omega) hn hms hx hΦ hfloor hbig
    obtain ⟨y, Φ', y1, y2, y3, y4, y5, y6, y7, y8⟩ := ih (by omega) z2 z6 z8 (by rw [z4, z5]; exact hfloor)
    refine ⟨y, Φ', ?_, y2, y3.trans z3, y4.trans z4, y5.trans z5, y6, fun i => ?_, y8⟩
    · unfold reduceTimes
      rw [z0, Outcome.bind_ok, z1, Outcome.bind_ok, y1]
    · have := dvd_add (y7 i) (z7 i)
      rwa [sub_add_sub_cancel] at this

/-- The key is reduced with the ciphertext. -/
theorem reduceKey_ok {ctx : Rns.Ctx} {lev : ℕ} (hlev : 0 < lev) (n : ℕ) (hn : lev + n ≤ ctx.qs.length) {k : RKey}
    (hms : k.ms = ctx.qs.take (lev + n)) (hk : KeyIs l k S) :
    ∃ k', reduceKey n k = .ok k' ∧ k'.ms = ctx.qs.take lev ∧ KeyIs l k' S := by
  induction n generalizing k with
  | zero => exact ⟨k, rfl, hms, hk⟩
  | succ n ih =>
    have hsplit : k.ms = ctx.qs.take (lev + n) ++ [ctx.qs[lev + n]] := by
      rw [hms, ← add_assoc, List.take_succ, List.getElem?_eq_getElem (by omega)]; rfl
    have hne : ctx.qs.take (lev + n) ≠ [] := by
      intro h0
      have := congrArg List.length h0
      rw [List.length_take, List.length_nil] at this
      omega
    obtain ⟨z, z1, z2, -, z3⟩ := c56_key_modReduce hne hsplit hk
    obtain ⟨y, y1, y2, y3⟩ := ih (by omega) z2 z3
    refine ⟨y, ?_, y2, y3⟩
    unfold reduceKey
    rw [z1, Outcome.bind_ok, y1]

/-- **C108.** Key and ciphertext are reduced the same number of times. If twice `Error()` is below the product of the moduli
that are left, the result decrypts, under the reduced key, to the slots that the ciphertext stood for. -/
theorem c108_decrypt {W : ℕ} {e : FFEncoder} (he : GoodEncoder w l e) {lev : ℕ} (hlev : 0 < lev)
    (hbig : ∀ m ∈ e.ctx.qs, 2 * e.ctx.t ≤ m.N) (n : ℕ) (hn : lev + n ≤ e.ctx.qs.length)
    (hkm : k.ms = e.ctx.qs.take (lev + n)) (hk : KeyIs l k S)
    (hW : ∀ m ∈ e.ctx.qs.take lev, modulusProd (e.ctx.qs.take lev) * m.N ≤ 2 ^ W) {hatInvs : List ℕ}
    (hi : HatInvs (e.ctx.qs.take lev) hatInvs) {x : RTracked} (hms : x.ct.ms = k.ms) (hp : x.ct.power = 1)
    (h0 : x.ct.c ≠ []) {Φ : Fin (2 ^ l) → ℤ} (hx : Encrypts l S x.ct Φ) (hΦ : ∀ i, |(Φ i : ℝ)| ≤ x.error)
    (hfloor : e.ctx.t * ∑ j ∈ Finset.range x.ct.c.length, (norm1 S : ℝ) ^ j ≤ x.error) :
    ∃ k' y, reduceKey n k = .ok k' ∧ reduceTimes e.ctx n x = .ok y ∧ y.error = x.error ∧
      (2 * y.error < modulusProd (e.ctx.qs.take lev) →
        k'.decryptBgvWithCrt W e y.ct (modulusComplements W k'.ms) hatInvs =
          .ok (List.ofFn fun i : Fin (2 ^ l) => (slotsOf (nttRoot l e.mt) l Φ i).val)) := by
  obtain ⟨k', k1, k2, k3⟩ := reduceKey_ok hlev n hn hkm hk
  obtain ⟨y, Φ', y1, y2, y3, y4, y5, y6, y7, y8⟩ := c108_reduce he.ctx hlev hbig n hn (hms.trans hkm) hx hΦ hfloor
  refine ⟨k', y, k1, y1, y5, fun hB => ?_⟩
  choose R hR using y7
  have hR' : Φ' = fun i => Φ i + e.ctx.t * R i := funext fun i => by have := hR i; linarith
  have hne : k'.ms ≠ [] := by
    rw [k2]
    intro h
    have := congrArg List.length h
    rw [List.length_take, List.length_nil] at this
    omega
  have hsm : ∀ i, 2 * |Φ' i| < (modulusProd k'.ms : ℤ) := fun i => by
    have h2 : (2 * |(Φ' i : ℝ)|) < modulusProd k'.ms := by
      have := y8 i
      rw [k2]
      linarith
    exact_mod_cast h2
  have ht : e.ctx.t ≤ modulusProd k'.ms := by
    obtain ⟨m, hm⟩ := List.exists_mem_of_ne_nil _ hne
    have h1 : m ∈ e.ctx.qs := by rw [k2] at hm; exact List.mem_of_mem_take hm
    have h2 := hbig m h1
    have h3 : m.N ∣ modulusProd k'.ms := List.dvd_prod (List.mem_map_of_mem hm)
    have h4 := Nat.le_of_dvd (List.prod_pos fun a ha => by
      obtain ⟨q, q1, rfl⟩ := List.mem_map.mp ha
      rw [k2] at q1
      exact (he.ctx.qs q (List.mem_of_mem_take q1)).prime.pos) h3
    show e.ctx.t ≤ _
    unfold modulusProd at h4 ⊢
    omega
  exact c53_bgv_crt he k2.symm hne k3 (y2.trans k2.symm) (y3.trans hp)
    (List.length_pos_iff.mp (by rw [y4]; exact List.length_pos_iff.mpr h0)) (hR' ▸ y6) (by rw [k2]; exact hW)
    (by rw [k2]; exact hi) ht (fun i => by have := hsm i; rw [hR'] at this; exact this)

/-- The bound on key switching is large enough for reductions. -/
theorem floor_bound {P : RErrorParams} {v : ℤ} (hP : ParamsFor P l v) (hv : 0 < v) {b d c : ℕ} (hb : 0 < b) (hd : 0 < d)
    (hc : 0 < c) (hS : (norm1 S : ℝ) ≤ 8 / √3 * √v * 2 ^ l) {t : ℕ} (ht : (t : ℝ) ≤ P.exportT) {a : ℝ} (ha : 0 ≤ a) :
    t * ∑ j ∈ Finset.range 2, (norm1 S : ℝ) ^ j ≤
      a + 8 / √3 * P.exportT * d * P.sigma * (2 ^ l : ℕ) * (2 ^ b : ℕ) * c := by
  rw [Finset.sum_range_succ, Finset.sum_range_one, pow_zero, pow_one]
  have hv1 : 1 ≤ √(v : ℝ) := Real.one_le_sqrt.mpr (by exact_mod_cast hv)
  have h3 : √(3 : ℝ) ≤ 2 := Real.sqrt_le_iff.mpr ⟨by norm_num, by norm_num⟩
  have h3' : 0 < √(3 : ℝ) := by positivity
  have h8 : 1 ≤ 8 / √(3 : ℝ) := by rw [le_div_iff₀ h3']; linarith
  have hn : (1 : ℝ) ≤ 2 ^ l := one_le_pow₀ (by norm_num)
  have hs := hP.sigma
  have hA : 8 / √3 * √v * 2 ^ l ≤ 8 / √3 * P.sigma * (2 : ℝ) ^ l := by gcongr
  have hA1 : 1 ≤ 8 / √3 * √v * (2 : ℝ) ^ l :=
    one_le_mul_of_one_le_of_one_le (one_le_mul_of_one_le_of_one_le h8 hv1) hn
  have hb2 : (2 : ℝ) ≤ 2 ^ b := by
    calc (2 : ℝ) = 2 ^ 1 := (pow_one _).symm
      _ ≤ 2 ^ b := pow_le_pow_right₀ (by norm_num) hb
  have hd1 : (1 : ℝ) ≤ d := by exact_mod_cast hd
  have hc1 : (1 : ℝ) ≤ c := by exact_mod_cast hc
  have ht0 : (0 : ℝ) ≤ t := by positivity
  have hT0 : 0 ≤ P.exportT := ht0.trans ht
  have hσ : 0 ≤ P.sigma := by linarith
  set A := 8 / √3 * P.sigma * (2 : ℝ) ^ l with hAd
  have h1 : (t : ℝ) * (1 + norm1 S) ≤ P.exportT * (2 * A) :=
    mul_le_mul ht (by linarith) (by have : (0 : ℝ) ≤ norm1 S := by exact_mod_cast Finset.sum_nonneg fun _ _ => abs_nonneg _
                                    linarith) hT0
  have h2 : P.exportT * (2 * A) * (1 * 1) ≤ P.exportT * (2 ^ b * A) * (d * c) := by
    have hA0 : 0 ≤ A := by linarith
    gcongr
  have h4 : 8 / √3 * P.exportT * d * P.sigma * (2 ^ l : ℕ) * (2 ^ b : ℕ) * c = P.exportT * (2 ^ b * A) * (d * c) := by
    rw [hAd]
    push_cast
    ring
  rw [h4]
  linarith

/-- **C108.** If the coefficients of the secret key are at most `8 / sqrt 3` deviations on average, every ciphertext that a
Galois key returns has an `Error()` that is large enough for reductions. -/
theorem c108_rotated {P : RErrorParams} {v : ℤ} (hP : ParamsFor P l v) (hv : 0 < v) (hl : l < 31) {key : RGalois}
    {ms : List Modulus} (hg : SmallGadget l ms key.gadget) (hb : ∀ b ∈ key.gadget.logBs, 0 < b)
    (hd : 0 < key.gadget.dimension) (hS : (norm1 S : ℝ) ≤ 8 / √3 * √v * 2 ^ l) {t : ℕ} (ht : (t : ℝ) ≤ P.exportT)
    {x r : RTracked} (hx : 0 ≤ x.error) (h : applyGalois P key x = .ok r) :
    t * ∑ j ∈ Finset.range 2, (norm1 S : ℝ) ^ j ≤ r.error := by
  obtain ⟨b, b1, b2, -⟩ := hg.base
  have hb0 : 0 < b := hb b (((c66_gadget_base key.gadget).1 b).mp b1).1
  unfold applyGalois at h
  obtain ⟨c, -, h⟩ := Outcome.bind_eq_ok.mp h
  rw [b1, Outcome.bind_ok] at h
  unfold RErrorParams.boundOnKeySwitching shl1 at h
  rw [hP.dim, if_pos b2, if_pos hl] at h
  cases h
  exact floor_bound hP hv hb0 hd one_pos hS ht hx

/-- **C108.** The same for relinearization keys and ciphertexts of three components, the products. -/
theorem c108_relinearized {P : RErrorParams} {v : ℤ} (hP : ParamsFor P l v) (hv : 0 < v) (hl : l < 31) {key : RRelin}
    {ms : List Modulus} (hg : SmallGadget l ms key.gadget) (hb : ∀ b ∈ key.gadget.logBs, 0 < b)
    (hd : 0 < key.gadget.dimension) (hS : (norm1 S : ℝ) ≤ 8 / √3 * √v * 2 ^ l) {t : ℕ} (ht : (t : ℝ) ≤ P.exportT)
    {x r : RTracked} (hx : 0 ≤ x.error) (h3 : x.ct.c.length = 3) (h : applyRelin P key x = .ok r) :
    t * ∑ j ∈ Finset.range 2, (norm1 S : ℝ) ^ j ≤ r.error := by
  obtain ⟨b, b1, b2, -⟩ := hg.base
  have hb0 : 0 < b := hb b (((c66_gadget_base key.gadget).1 b).mp b1).1
  unfold applyRelin at h
  obtain ⟨c, -, h⟩ := Outcome.bind_eq_ok.mp h
  rw [b1, Outcome.bind_ok] at h
  unfold RErrorParams.boundOnKeySwitching shl1 at h
  rw [hP.dim, if_pos b2, if_pos hl] at h
  cases h
  exact floor_bound hP hv hb0 hd (by omega) hS ht hx

/-- **C108.** `Sample` of a secret key from uniformly distributed bytes: the probability that it returns a key the
coefficients of which are larger than `8 / sqrt 3` deviations on average, in absolute value. -/
theorem c108_key {ms : List Modulus} (hg : ∀ m ∈ ms, GoodModulus w l m) (hne : ms ≠ []) {v : ℤ} (hv0 : 0 < v) (hv : v ≤ 256)
    (hN : ∀ m ∈ ms.head?, 4 * v < m.N) (L : ℕ) :
    bytesProbability L (fun s => ∃ k s', RKey.sample bytesSource l v ms s = .ok (k, s') ∧
      ¬ ∃ S, KeyIs l k S ∧ (norm1 S : ℝ) ≤ 8 / √3 * √v * 2 ^ l) ≤ exp (-(9 * 2 ^ l)) := by
  classical
  have ht := errors_tail (l := l) hv0 1
  rw [Nat.cast_one, mul_one, mul_one] at ht
  refine (bytesProbability_le ((errTree l v).times 1) ?_ L).trans ht
  rintro s ⟨k, s', h1, h2⟩
  unfold RKey.sample at h1
  split_ifs at h1
  obtain ⟨⟨e, s1⟩, he, h1⟩ := Outcome.bind_eq_ok.mp h1
  cases h1
  obtain ⟨e1, -⟩ := sampleErr_ok bytesSource bytesSource_words hg (fun m hm => by have := hN m hm; omega) he
  obtain ⟨pss, p1, e2⟩ := err_drawn hg hv0 hv hne hN he
  refine ⟨[pss], s', ?_, ?_⟩
  · show ((errTree l v).bind fun x => ((errTree l v).times 0).bind fun xs => .ret (.ok (x :: xs))).run s = _
    rw [Tree.run_bind]
    refine (congrArg (fun o => Outcome.bind o _) p1).trans ?_
    rfl
  · by_contra hc
    push Not at hc
    refine h2 ⟨drawnPoly l v pss, ⟨e1, e2⟩, ?_⟩
    simpa using hc

/-! ### Programs -/

/-- **C108.** As in C105, messages are encrypted and keys are made with independent tapes of uniformly distributed bytes.
The bound is the one of C105 also for programs that are followed by reductions: on the probability that all keys and
ciphertexts are returned, and that there is any program, with a result whose `Error()` is large enough (see `c108_rotated` and
`c108_relinearized`), and any number of reductions of this result and of the secret key, while moduli are left, that fails, or
leads to twice `Error()` below the product of the moduli that are left and yet does not decrypt to what the program computes
on the messages. -/
theorem c108_program [Fintype κ] (Gp : Gen τ) (est : Estimate) {e : FFEncoder} (he : GoodEncoder w l e) {top : ℕ}
    (hl : l ≤ 15) (hk : RoomyKey w l k S) (htop : top ≤ e.ctx.qs.length) (hms : e.ctx.qs.take top = k.ms)
    (hbig : ∀ m ∈ e.ctx.qs, 2 * e.ctx.t ≤ m.N) {P : RErrorParams}
    (hP : ParamsFor P l k.variance) (htP : e.ctx.t ≤ P.exportT) {g : RGadget} (hg : SmallGadget l k.ms g) {mss : List (List ℕ)}
    (hmsg : ∀ msgs ∈ mss, (∀ a ∈ msgs, a < 2 ^ w) ∧ msgs.length ≤ 2 ^ l ∧
      ∀ F : Fin (2 ^ l) → ℤ, (∀ j, 2 * |F j| ≤ e.ctx.t) →
        (∀ i < 2 ^ l, slotsOf (nttRoot l e.mt) l F i = ((msgs.getD i 0 : ℕ) : ZMod e.mt.N)) → SizeAtMost F P.bPlaintext)
    (fuel : ℕ) (prng : PrngType) (power : κ → ℕ) (spr : τ) (spg : κ → τ) (L : Fin 2 ⊕ κ → ℕ) :
    tapesProbability L (fun t => ∃ xs s relin galois,
      inSequence (mss.map fun msgs => RnsErrorTrack.encryptBgv P bytesSource fuel k (finiteFieldEncoder est e) msgs)
        (t (.inl 0)) = .ok (xs, s) ∧
      RRelin.create Gp bytesSource fuel k 2 k.variance g prng e.ctx.t spr (t (.inl 1)) = .ok relin ∧
      (∀ j, RGalois.create Gp bytesSource fuel k (power j) k.variance g prng e.ctx.t (spg j) (t (.inr j)) =
        .ok (galois j)) ∧
      ∃ (u : SwitchProgram (Fin mss.length) κ) (M : RPoly → Fin (2 ^ l) → ℤ) (r : RTracked), u.PlainsOk w l k.ms M ∧
        u.Within P M ∧ u.run P (fun i : Fin mss.length => xs.getD i ⟨⟨[], [], 0⟩, 0⟩) relin galois = .ok r ∧
        e.ctx.t * ∑ j ∈ Finset.range r.ct.c.length, (norm1 S : ℝ) ^ j ≤ r.error ∧
        ∃ (lev n W : ℕ) (hatInvs : List ℕ), 0 < lev ∧ lev + n = top ∧ HatInvs (e.ctx.qs.take lev) hatInvs ∧
          (∀ m ∈ e.ctx.qs.take lev, modulusProd (e.ctx.qs.take lev) * m.N ≤ 2 ^ W) ∧
          ¬ ∃ k' y, reduceKey n k = .ok k' ∧ reduceTimes e.ctx n r = .ok y ∧ y.error = r.error ∧
            (2 * y.error < modulusProd (e.ctx.qs.take lev) →
              k'.decryptBgvWithCrt W e y.ct (modulusComplements W k'.ms) hatInvs =
                .ok (List.ofFn fun i : Fin (2 ^ l) =>
                  (u.eval (fun (j : Fin mss.length) i => (((mss.getD j []).getD i 0 : ℕ) : ZMod e.mt.N))
                    (fun p i => slotsOf (nttRoot l e.mt) l (M p) i) power i).val))) ≤
      mss.length * (8 * 2 ^ l * exp (-30)) + (Fintype.card κ + 1) * exp (-(9 * 2 ^ l * g.dimension)) := by
  have htw : e.ctx.t < 2 ^ w := he.ctx.word
  obtain ⟨F, hF, hfresh⟩ := fresh_all est he hk hms hP htP htw hmsg fuel
  obtain ⟨Gs, hgad⟩ := hg.gadget
  have hl31 : l < 31 := by omega
  let B : Fin 2 ⊕ κ → List (Fin 256) → Prop
    | .inl 0 => fun t => ∃ xs s,
        inSequence (mss.map fun msgs => RnsErrorTrack.encryptBgv P bytesSource fuel k (finiteFieldEncoder est e) msgs) t =
          .ok (xs, s) ∧ ¬ ∀ i : Fin mss.length, ∃ E : Fin (2 ^ l) → ℤ, Fresh k (xs.getD i ⟨⟨[], [], 0⟩, 0⟩).ct ∧
            REstimated l S (xs.getD i ⟨⟨[], [], 0⟩, 0⟩) fun j => F i j + e.ctx.t * E j
    | .inl 1 => fun t => ∃ key, RRelin.create Gp bytesSource fuel k 2 k.variance g prng e.ctx.t spr t = .ok key ∧
        ¬ QuietRelin l S P e.ctx.t key
    | .inr j => fun t => ∃ key,
        RGalois.create Gp bytesSource fuel k (power j) k.variance g prng e.ctx.t (spg j) t = .ok key ∧
          ¬ QuietGalois l S P e.ctx.t key
  refine (tapesProbability_le L (B := B) ?_).trans ?_
  · rintro t ⟨xs, s, relin, galois, h1, h2, h3, u, M, r, hu, hw, hr, hfloor, lev, n, W, hatInvs, hlev, htn, hi, hW, hbad⟩
    by_contra hc
    push Not at hc
    have b1 : ∀ i : Fin mss.length, ∃ E : Fin (2 ^ l) → ℤ, Fresh k (xs.getD i ⟨⟨[], [], 0⟩, 0⟩).ct ∧
        REstimated l S (xs.getD i ⟨⟨[], [], 0⟩, 0⟩) fun j => F i j + e.ctx.t * E j := by
      by_contra hn
      exact hc (.inl 0) ⟨xs, s, h1, hn⟩
    have b2 : QuietRelin l S P e.ctx.t relin := by
      by_contra hn
      exact hc (.inl 1) ⟨relin, h2, hn⟩
    have b3 : ∀ j, QuietGalois l S P e.ctx.t (galois j) := fun j => by
      by_contra hn
      exact hc (.inr j) ⟨galois j, h3 j, hn⟩
    choose E hE using b1
    obtain ⟨q1, q2, -⟩ := relin_drawn Gp hk.good hk.nonempty hgad hk.atMost hk.room htw h2
    have q3 := fun j => galois_drawn Gp hk.good hk.nonempty hgad hk.atMost hk.room htw (h3 j)
    obtain ⟨psi, tb⟩ := he.mt.tables
    have hz : nttRoot l e.mt ^ 2 ^ l = -1 := by
      rw [nttRoot_eq he.mt tb]; exact tb.root
    rw [← he.N] at b2 b3 hE
    obtain ⟨r1, r2, r3, Φ, r4, r5, r6⟩ := run_ok hl tb.l1 hk.good.good hk.nonempty hz P (fun i => ⟨(hE i).1.1, (hE i).1.2.1, by
      have := (hE i).1.2.2
      exact List.length_pos_iff.mp (by omega), (hE i).2⟩) b2 q2 q1 b3 (fun j => (q3 j).2.1)
      (fun j => (q3 j).1) (fun j => by have := (q3 j).2.2.2.2.1; omega)
      (fun j => by have := (q3 j).2.2.2.2.2.1; exact_mod_cast this) u hu hw hr
    obtain ⟨k', y, y1, y2, y3, y4⟩ := c108_decrypt he hlev hbig n (by omega) (by rw [htn]; exact hms.symm) hk.good.key hW hi
      r1 r2 r3 r4 r5 hfloor
    refine hbad ⟨k', y, y1, y2, y3, fun hB => ?_⟩
    rw [y4 hB]
    congr 2
    funext i
    rw [r6]
    congr 3
    funext j i
    rw [slots_noise]
    exact hF j j.2 i
  · rw [Fintype.sum_sum_type, Fin.sum_univ_two]
    have e1 := hfresh (L (.inl 0))
    have e2 := c105_relin Gp hk.good hk.nonempty hl31 hg hk.atMost hk.room hP htw htP fuel 2 prng spr (L (.inl 1))
    have e3 : ∑ j, bytesProbability (L (.inr j)) (B (.inr j)) ≤
        ∑ _j : κ, exp (-(9 * 2 ^ l * g.dimension : ℝ)) := Finset.sum_le_sum fun j _ =>
      c105_galois Gp hk.good hk.nonempty hl31 hg hk.atMost hk.room hP htw htP fuel (power j) prng (spg j) (L (.inr j))
    rw [Finset.sum_const, Finset.card_univ, nsmul_eq_mul] at e3
    have e1' : bytesProbability (L (.inl 0)) (B (.inl 0)) ≤ mss.length * (8 * 2 ^ l * exp (-30)) := e1
    have e2' : bytesProbability (L (.inl 1)) (B (.inl 1)) ≤ exp (-(9 * 2 ^ l * g.dimension)) := e2
    linarith

end Shell
