import Verif.Lemmas.IeeeRound
import Verif.Props.RnsEstimate
/-!
# C104: the error estimates stay in the range of `double`s, or overflow
-/

namespace Shell
open Spec DoubleError Rns Rns.Res RnsCtStore RnsEstimate Ieee

variable {c : ℕ} {cast : ℕ → ℝ}

/-! ### Rounding -/

/-- **C104.** Results are rounded as IEEE 754 requires: up to half a unit beyond the largest finite number a result is the
representable number next to the exact value, and from there on it is infinite. -/
theorem c104_round {x : ℝ} (h0 : 0 ≤ x) :
    (x < 2 ^ 1024 - 2 ^ 970 → ∃ y, (Val.round x : Val cast) = .fin y ∧ Representable y ∧
      ∀ z, Representable z → |y - x| ≤ |z - x|) ∧
    (2 ^ 1024 - 2 ^ 970 ≤ x → (Val.round x : Val cast) = .inf) := by
  have h970 : (0 : ℝ) < 2 ^ 1024 - 2 ^ 970 := sub_pos.mpr (pow_lt_pow_right₀ (by norm_num) (by norm_num))
  have low : (1 : ℝ) / 2 ^ 1022 ≤ 2 ^ 1024 - 2 ^ 970 := by
    have h1 : (1 : ℝ) / 2 ^ 1022 ≤ 1 := div_le_one_of_le₀ (one_le_pow₀ (by norm_num)) (by positivity)
    have h2 : (1 : ℝ) ≤ 2 ^ 970 := one_le_pow₀ (by norm_num)
    have h3 : (2 : ℝ) ^ 971 ≤ 2 ^ 1024 := pow_mono (by norm_num)
    rw [pow_succ _ 970] at h3
    generalize (2 : ℝ) ^ 970 = w at *
    generalize (2 : ℝ) ^ 1024 = v at *
    generalize (1 : ℝ) / 2 ^ 1022 = u at *
    linarith
  unfold Val.round
  constructor
  · intro h
    by_cases hx : x = 0
    · rw [if_pos hx]
      refine ⟨0, rfl, ⟨0, 0, by norm_num, by norm_num, by norm_num, by simp⟩, fun z _ => ?_⟩
      rw [hx, sub_self, abs_zero]
      exact abs_nonneg _
    · rw [if_neg hx]
      by_cases h1 : |x| < 1 / 2 ^ 1022
      · rw [if_pos h1]
        exact ⟨_, rfl, sub_representable h1, fun z hz => sub_best hz⟩
      · have h2 : |Double.rnd x| < 2 ^ 1024 := by
          rw [abs_of_nonneg (Double.rnd_nonneg h0)]
          exact (rnd_overflow h0).mpr h
        rw [if_neg h1, if_pos h2]
        exact ⟨_, rfl, rnd_representable (not_lt.mp h1) h2, fun z hz => Double.rnd_best (representable_isDouble hz)⟩
  · intro h
    have h1 : ¬ |x| < 1 / 2 ^ 1022 := by
      rw [abs_of_nonneg h0]
      exact not_lt.mpr (low.trans h)
    have h2 : ¬ |Double.rnd x| < 2 ^ 1024 := by
      rw [abs_of_nonneg (Double.rnd_nonneg h0)]
      exact fun k => absurd ((rnd_overflow h0).mp k) (not_lt.mpr h)
    rw [if_neg (h970.trans_le h).ne', if_neg h1, if_neg h2]

/-- A large number and an infinite result. -/
example : (∃ y, (Val.round (2 ^ 1000) : Val Double.castNearest) = .fin y ∧ Representable y ∧
      ∀ z, Representable z → |y - 2 ^ 1000| ≤ |z - 2 ^ 1000|) ∧
    (Val.round (2 ^ 1024) : Val Double.castNearest) = .inf := by
  refine ⟨(c104_round (by positivity)).1 ?_, (c104_round (by positivity)).2 (sub_le_self _ (by positivity))⟩
  have h1 : (2 : ℝ) ^ 1000 * 2 ≤ 2 ^ 1024 := by rw [← pow_succ]; exact pow_mono (by norm_num)
  have h2 : (2 : ℝ) ^ 970 < 2 ^ 1000 := pow_lt_pow_right₀ (by norm_num) (by norm_num)
  generalize (2 : ℝ) ^ 970 = w at *
  generalize (2 : ℝ) ^ 1000 = v at *
  generalize (2 : ℝ) ^ 1024 = u at *
  linarith

/-! ### Programs on RNS ciphertexts -/

/-- **C104 (part).** A BGV program, run with the `double`s of IEEE 754, returns the statuses and computes the objects and
the finite estimates that it computes with unbounded exponents (C96), if no estimate on the way leaves the range from
`2^-900` to `2^1000`.  Missing, because the code violates it: without the last condition estimates become infinite and
then NaN (`c104_overflow_violated`). -/
theorem c104_rns_bgv_partial (hc : Converts c cast) (h2 : c ≤ 2) {P : RParams (Dbl cast)} (hP : ChosenParams P) {v : Given}
    (hv : IntDimensions v) (pts : List RPoly) {cs : List RnsCtStore.Call} (hz : BgvScalars cs)
    (ho : ∀ i, let D := bgvRun (consts P) v ⟨pts, []⟩ [] (cs.take i)
      OrdinaryState D.2.1 D.2.2) :
    let D := bgvRun (consts P) v ⟨pts, []⟩ [] cs
    bgvRun (consts (ieeeParams P)) v ⟨pts, []⟩ [] cs = (D.1, D.2.1, D.2.2.map lift) := by
  have h := runWith_agree (run := fun m k => RnsCtStore.Call.run v m k) (f := bgvEffect (consts P) v)
    (f' := bgvEffect (consts (ieeeParams P)) v) cs
    (fun m es k hk hs => bgv_agree hc h2 (consts_agree hc h2 hP) hv hs fun a z h => hz a z (by
      simp only [List.mem_singleton] at h
      rcases h with rfl | rfl
      · exact .inl hk
      · exact .inr hk)) ⟨pts, []⟩ [] ho
  exact h

/-- **C104 (part).** The same for BFV programs. -/
theorem c104_rns_bfv_partial (hc : Converts c cast) (h2 : c ≤ 2) {P : RParams (Dbl cast)} (hP : ChosenParams P)
    (est : Estimate) {v : Given} (hv : IntDimensions v) (pts : List RPoly) {cs : List RnsBfvStore.Call}
    (hz : BfvScalars cs)
    (ho : ∀ i, let D := bfvRun (consts P) est v ⟨pts, []⟩ [] (cs.take i)
      OrdinaryState D.2.1 D.2.2) :
    let D := bfvRun (consts P) est v ⟨pts, []⟩ [] cs
    bfvRun (consts (ieeeParams P)) est v ⟨pts, []⟩ [] cs = (D.1, D.2.1, D.2.2.map lift) := by
  have h := runWith_agree (run := fun m k => RnsBfvStore.Call.run est v m k) (f := bfvEffect (consts P) v)
    (f' := bfvEffect (consts (ieeeParams P)) v) cs
    (fun m es k hk hs => bfv_agree hc h2 (consts_agree hc h2 hP) hv hs fun a z h => hz a z (by
      simp only [List.mem_singleton] at h
      rcases h with rfl | rfl
      · exact .inl hk
      · exact .inr hk)) ⟨pts, []⟩ [] ho
  exact h

/-! ### Exact estimates -/

/-- A range inside the one of `Ordinary`. -/
theorem Ieee.ordinary_of_near {r x t : ℝ} (ht : t ≤ 1 / 2) (hr : r = 0 ∨ 1 / 2 ^ 899 ≤ r ∧ r ≤ 2 ^ 999)
    (h : |x - r| ≤ r * t) : Ordinary x := by
  rcases hr with rfl | ⟨h1, h2⟩
  · left
    simpa using h
  · right
    have h0 : 0 ≤ r := (inv_pow_pos _).le.trans h1
    have h3 : |x - r| ≤ r / 2 := h.trans (by nlinarith)
    rw [abs_le] at h3
    have e1 := pow_half 899
    have e2 : (2 : ℝ) ^ 1000 = 2 ^ 999 * 2 := pow_succ _ _
    constructor
    · rw [show (900 : ℕ) = 899 + 1 from rfl, ← pow_half]
      linarith
    · rw [e2]
      have p : (0 : ℝ) < 2 ^ 999 := by positivity
      clear e1 e2 h1
      generalize (2 : ℝ) ^ 999 = w at *
      linarith [h3.2]

theorem Ieee.small_factor {c ℓ : ℕ} (h : (6 * c + 12) * (ℓ + 1) ≤ 2 ^ 51) :
    ((12 * c + 24) * (ℓ + 1) : ℝ) / 2 ^ 53 ≤ 1 / 2 := by
  have h' : ((6 * c + 12) * (ℓ + 1) : ℝ) ≤ 2 ^ 51 := by exact_mod_cast h
  rw [div_le_div_iff₀ (by norm_num) (by norm_num)]
  norm_num at h' ⊢
  linarith

/-- **C104 (part).** A BGV program of `ℓ` calls without products of ciphertexts: if no exact estimate on the way leaves the
range from `2^-899` to `2^999`, every `Error()` is a finite `double`, with a relative error of at most
`(12 c + 24) (ℓ + 1) / 2^53`. -/
theorem c104_rns_bgv_exact_partial (hc : Converts c cast) (h2 : c ≤ 2) {P : RParams (Dbl cast)} (hP : ChosenParams P)
    {v : Given} (hv : IntDimensions v) (pts : List RPoly) {cs : List RnsCtStore.Call} (hz : BgvScalars cs)
    (hm : BgvNoMul cs) (hl : (6 * c + 12) * (cs.length + 1) ≤ 2 ^ 51)
    (ho : ∀ i, let R := bgvRun (exactConsts P) v ⟨pts, []⟩ [] (cs.take i)
      (∀ r ∈ R.2.2, r = 0 ∨ 1 / 2 ^ 899 ≤ r ∧ r ≤ 2 ^ 999) ∧ ∀ x ∈ R.2.1.cts, x.c.length < 2 ^ 31) :
    let R := bgvRun (exactConsts P) v ⟨pts, []⟩ [] cs
    let I := bgvRun (consts (ieeeParams P)) v ⟨pts, []⟩ [] cs
    I.1 = R.1 ∧ I.2.1 = R.2.1 ∧ I.2.2.length = R.2.2.length ∧
      ∀ (a : ℕ) (r : ℝ), R.2.2[a]? = some r → ∃ x : ℝ, I.2.2[a]? = some (.fin x) ∧
        |x - r| ≤ r * ((12 * c + 24) * (cs.length + 1) / 2 ^ 53) := by
  have hs : 0 ≤ P.sigma.val := by
    rcases hP.2.2 with h | h
    · rw [h]
    · exact (inv_pow_pos _).le.trans h.1
  have main := c104_rns_bgv_partial hc h2 hP hv pts hz fun i => by
    obtain ⟨h3, h4⟩ := ho i
    obtain ⟨-, e2, e3, e4⟩ := c96_rns_bgv_session hc P hs v pts (cs.take i)
    have hlen : (6 * c + 12) * ((cs.take i).length + 1) ≤ 2 ^ 51 :=
      (Nat.mul_le_mul_left _ (by simp)).trans hl
    refine ⟨fun d hd => ?_, fun x hx => h4 x (e2 ▸ hx)⟩
    obtain ⟨a, ha⟩ := List.mem_iff_getElem?.mp hd
    have hr : ∃ r : ℝ, (bgvRun (exactConsts P) v ⟨pts, []⟩ [] (cs.take i)).2.2[a]? = some r := by
      have : a < (bgvRun (exactConsts P) v ⟨pts, []⟩ [] (cs.take i)).2.2.length :=
        e3 ▸ (List.getElem?_eq_some_iff.mp ha).1
      exact ⟨_, List.getElem?_eq_getElem this⟩
    obtain ⟨r, hr⟩ := hr
    obtain ⟨d', hd', -, h5⟩ := e4 a r hr
    rw [ha] at hd'
    cases hd'
    refine ordinary_of_near (small_factor hlen) (h3 r (List.mem_of_getElem? hr))
      (h5 (fun a b h => hm a b (List.mem_of_mem_take h)) (hlen.trans (by norm_num)))
  obtain ⟨e1, e2, e3, e4⟩ := c96_rns_bgv_session hc P hs v pts cs
  dsimp only at main ⊢
  rw [main]
  refine ⟨e1, e2, by rw [List.length_map]; exact e3, fun a r hr => ?_⟩
  obtain ⟨d, hd, -, h⟩ := e4 a r hr
  refine ⟨d.val, by rw [List.getElem?_map, hd]; rfl, h hm (hl.trans (by norm_num))⟩

/-- **C104 (part).** The same for BFV programs. -/
theorem c104_rns_bfv_exact_partial (hc : Converts c cast) (h2 : c ≤ 2) {P : RParams (Dbl cast)} (hP : ChosenParams P)
    (est : Estimate) {v : Given} (hv : IntDimensions v) (pts : List RPoly) {cs : List RnsBfvStore.Call}
    (hz : BfvScalars cs) (hm : BfvNoMul cs) (hl : (6 * c + 12) * (cs.length + 1) ≤ 2 ^ 51)
    (ho : ∀ i, let R := bfvRun (exactConsts P) est v ⟨pts, []⟩ [] (cs.take i)
      (∀ r ∈ R.2.2, r = 0 ∨ 1 / 2 ^ 899 ≤ r ∧ r ≤ 2 ^ 999) ∧ ∀ x ∈ R.2.1.cts, x.c.length < 2 ^ 31) :
    let R := bfvRun (exactConsts P) est v ⟨pts, []⟩ [] cs
    let I := bfvRun (consts (ieeeParams P)) est v ⟨pts, []⟩ [] cs
    I.1 = R.1 ∧ I.2.1 = R.2.1 ∧ I.2.2.length = R.2.2.length ∧
      ∀ (a : ℕ) (r : ℝ), R.2.2[a]? = some r → ∃ x : ℝ, I.2.2[a]? = some (.fin x) ∧
        |x - r| ≤ r * ((12 * c + 24) * (cs.length + 1) / 2 ^ 53) := by
  have hs : 0 ≤ P.sigma.val := by
    rcases hP.2.2 with h | h
    · rw [h]
    · exact (inv_pow_pos _).le.trans h.1
  have main := c104_rns_bfv_partial hc h2 hP est hv pts hz fun i => by
    obtain ⟨h3, h4⟩ := ho i
    obtain ⟨-, e2, e3, e4⟩ := c96_rns_bfv_session hc P hs est v pts (cs.take i)
    have hlen : (6 * c + 12) * ((cs.take i).length + 1) ≤ 2 ^ 51 :=
      (Nat.mul_le_mul_left _ (by simp)).trans hl
    refine ⟨fun d hd => ?_, fun x hx => h4 x (e2 ▸ hx)⟩
    obtain ⟨a, ha⟩ := List.mem_iff_getElem?.mp hd
    have hr : ∃ r : ℝ, (bfvRun (exactConsts P) est v ⟨pts, []⟩ [] (cs.take i)).2.2[a]? = some r := by
      have : a < (bfvRun (exactConsts P) est v ⟨pts, []⟩ [] (cs.take i)).2.2.length :=
        e3 ▸ (List.getElem?_eq_some_iff.mp ha).1
      exact ⟨_, List.getElem?_eq_getElem this⟩
    obtain ⟨r, hr⟩ := hr
    obtain ⟨d', hd', -, h5⟩ := e4 a r hr
    rw [ha] at hd'
    cases hd'
    refine ordinary_of_near (small_factor hlen) (h3 r (List.mem_of_getElem? hr))
      (h5 (fun a b h => hm a b (List.mem_of_mem_take h)) (hlen.trans (by norm_num)))
  obtain ⟨e1, e2, e3, e4⟩ := c96_rns_bfv_session hc P hs est v pts cs
  dsimp only at main ⊢
  rw [main]
  refine ⟨e1, e2, by rw [List.length_map]; exact e3, fun a r hr => ?_⟩
  obtain ⟨d, hd, -, h⟩ := e4 a r hr
  refine ⟨d.val, by rw [List.getElem?_map, hd]; rfl, h hm (hl.trans (by norm_num))⟩

/-! ### Overflows are not lost -/

/-- **C104.** If one of the ciphertexts that go into a BGV call has an estimate that is infinite or a NaN, so has the
result. -/
theorem c104_bgv_sticky {K : Consts (Val cast)} {v : Given} {m : Mem} {es : List (Val cast)} {k : RnsCtStore.Call}
    {e x : Val cast} {a : ℕ} (h : newEstimate (bgvEffect K v m es k) = some e) (ha : a ∈ bgvOperands k)
    (hx : es[a]? = some x) (hn : ¬ IsFinite x) : ¬ IsFinite e := by
  intro he
  suffices hf : FiniteAt es (bgvOperands k) from hn (hf a ha x hx)
  clear hn hx ha
  cases k with
  | encode u lev => cases h
  | input i => intro j hj; cases hj
  | received i => intro j hj; cases hj
  | copy a => exact finite_one (new_ok h) he
  | substitute a j => exact finite_one (new_ok h) he
  | opNew a op => exact bgvOp_finite (new_ok h) he
  | opIn a op => exact bgvOp_finite (new_set h) he
  | mul a b =>
    obtain ⟨x, hx, h⟩ := bind_inv (new_ok h)
    obtain ⟨y, hy, h⟩ := bind_inv h
    cases h
    exact finite_two hx hy (finite_mul he).1 (finite_mul he).2
  | relin a lev =>
    obtain ⟨_, -, h⟩ := bind_inv (new_ok h)
    obtain ⟨x, hx, h⟩ := bind_inv h
    exact finite_one hx (switch_finite h he)
  | galois a lev p =>
    obtain ⟨x, hx, h⟩ := bind_inv (new_ok h)
    exact finite_one hx (switch_finite h he)

/-- **C104.** The same for BFV calls. -/
theorem c104_bfv_sticky {K : Consts (Val cast)} {v : Given} {m : Mem} {es : List (Val cast)} {k : RnsBfvStore.Call}
    {e x : Val cast} {a : ℕ} (h : newEstimate (bfvEffect K v m es k) = some e) (ha : a ∈ bfvOperands k)
    (hx : es[a]? = some x) (hn : ¬ IsFinite x) : ¬ IsFinite e := by
  intro he
  suffices hf : FiniteAt es (bfvOperands k) from hn (hf a ha x hx)
  clear hn hx ha
  cases k with
  | encode u lev scaled => cases h
  | input i => intro j hj; cases hj
  | received i => intro j hj; cases hj
  | copy a => exact finite_one (new_ok h) he
  | substitute a j => exact finite_one (new_ok h) he
  | opNew a op => exact bfvOp_finite (new_ok h) he
  | opIn a op => exact bfvOp_finite (new_set h) he
  | mul a b =>
    obtain ⟨x, hx, h⟩ := bind_inv (new_ok h)
    obtain ⟨y, hy, h⟩ := bind_inv h
    cases h
    exact finite_two hx hy (finite_mul he).1 (finite_mul he).2
  | relin a lev =>
    obtain ⟨_, -, h⟩ := bind_inv (new_ok h)
    obtain ⟨x, hx, h⟩ := bind_inv h
    exact finite_one hx (switch_finite h he)
  | galois a lev p =>
    obtain ⟨x, hx, h⟩ := bind_inv (new_ok h)
    exact finite_one hx (switch_finite h he)

/-- The sum of a ciphertext with an infinite estimate and another. -/
example (K : Consts (Val Double.castNearest)) (v : Given) (m : Mem) (e : Val Double.castNearest)
    (h : newEstimate (bgvEffect K v m [.fin 3, .inf] (.opNew 0 (.add 1))) = some e) : ¬ IsFinite e :=
  c104_bgv_sticky h (a := 1) (by simp [bgvOperands]) rfl (by rintro ⟨x, hx⟩; cases hx)

/-! ### Symmetric-key programs -/

section
open Store WordCt
variable (hc : Converts c cast) (h2 : c ≤ 2) {ι : Type} {g : ι → Mag} {d : ι → Dbl cast}
  (h : ∀ i, (g i).Has (d i).val)
include hc h2 h

/-- **C104 (part).** A program of any calls on polynomials, ciphertexts and keys, run with the `double`s of IEEE 754,
returns the statuses and computes the polynomials and ciphertexts of the same program with unbounded exponents; if the
program, run on sizes, says that an estimate and all that went into it have at most 1022 bits before and after the point,
then it is finite and the same.  The estimates that the program starts from have the names `ι`; all of them have at most
1022 bits. -/
theorem c104_program_partial (e : Store.Env ι) (bR : ℕ → ℕ → Outcome ι) (keys : List Word.RKey) (m : Mem ι)
    (cs : List (KeyedCall ι)) :
    let M := runKeyed (e.map g) (fun a b => g <$> bR a b) keys (m.map g) (cs.map (KeyedCall.map g))
    let D := runKeyed (e.map d) (fun a b => d <$> bR a b) keys (m.map d) (cs.map (KeyedCall.map d))
    let i : ι → Val cast := fun j => lift (d j)
    let I := runKeyed (e.map i) (fun a b => i <$> bR a b) keys (m.map i) (cs.map (KeyedCall.map i))
    I.1 = D.1 ∧ M.1 = D.1 ∧ I.2.polys = D.2.polys ∧ I.2.cts.length = D.2.cts.length ∧
      M.2.cts.length = D.2.cts.length ∧
      ∀ (a : ℕ) (n : Obj Mag) (x : Obj (Dbl cast)), M.2.cts[a]? = some n → D.2.cts[a]? = some x → n.error.Has x.error.val ∧
        ∃ y : Obj (Val cast), I.2.cts[a]? = some y ∧ y.c = x.c ∧ y.power = x.power ∧ y.lazy = x.lazy ∧
          (n.error.s ≤ 1022 → y.error = .fin x.error.val) := by
  intro M D i I
  let z : ι → Sized c cast hc h2 := fun j => ⟨g j, d j, i j, h j, fun _ => rfl⟩
  have hM := runKeyed_map (φ := Sized.mag (c := c) (cast := cast) (hc := hc) (h2 := h2)) hom_mag (e.map z)
    (fun a b => z <$> bR a b) keys (m.map z) (cs.map (KeyedCall.map z))
  have hD := runKeyed_map (φ := Sized.dbl (c := c) (cast := cast) (hc := hc) (h2 := h2)) hom_sized (e.map z)
    (fun a b => z <$> bR a b) keys (m.map z) (cs.map (KeyedCall.map z))
  have hI := runKeyed_map (φ := Sized.ieee (c := c) (cast := cast) (hc := hc) (h2 := h2)) hom_ieee (e.map z)
    (fun a b => z <$> bR a b) keys (m.map z) (cs.map (KeyedCall.map z))
  simp only [List.map_map, mem_map_map, keyed_map_map, bR_map_map] at hM hD hI
  have hM : M = _ := hM
  have hD : D = _ := hD
  have hI : I = _ := hI
  rw [hM, hD, hI]
  refine ⟨rfl, rfl, rfl, by simp [Mem.map], by simp [Mem.map], fun a n x hn hx => ?_⟩
  simp only [Mem.map, List.getElem?_map, Option.map_eq_some_iff] at hn hx
  obtain ⟨w, hw, rfl⟩ := hn
  obtain ⟨w', hw', rfl⟩ := hx
  rw [hw] at hw'
  cases hw'
  exact ⟨w.error.has, Obj.map Sized.ieee w, by simp [Mem.map, hw], rfl, rfl, rfl, w.error.ok⟩

end

/-! ### Overflow -/

/-- Expressions, to follow the estimates of a given program. -/
inductive Ieee.Ex where
  | var (n : ℕ)
  | nat (n : ℕ)
  | add (a b : Ex)
  | mul (a b : Ex)
  | div (a b : Ex)
  deriving DecidableEq

namespace Ieee.Ex

instance : Add Ex := ⟨.add⟩
instance : Mul Ex := ⟨.mul⟩
instance : Div Ex := ⟨.div⟩
instance : NatCast Ex := ⟨.nat⟩

def eval {E : Type} [Add E] [Mul E] [Div E] [NatCast E] (f : ℕ → E) : Ex → E
  | var n => f n
  | nat n => n
  | add a b => a.eval f + b.eval f
  | mul a b => a.eval f * b.eval f
  | div a b => a.eval f / b.eval f

theorem hom_eval {E : Type} [Add E] [Mul E] [Div E] [NatCast E] (f : ℕ → E) : IsHom (eval f) :=
  ⟨fun _ _ => rfl, fun _ _ => rfl, fun _ _ => rfl, fun _ => rfl⟩

end Ieee.Ex

theorem Ieee.runWith_congr {C E : Type} {run : Mem → C → Res Mem} {f f' : Mem → List E → C → Effect E} {cs : List C}
    (h : ∀ k ∈ cs, ∀ m es, f m es k = f' m es k) (m : Mem) (es : List E) :
    runWith run f m es cs = runWith run f' m es cs := by
  induction cs generalizing m es with
  | nil => rfl
  | cons k cs ih =>
    simp only [runWith]
    rw [h k (by simp), ih fun k hk => h k (List.mem_cons_of_mem _ hk)]

/-- Six squarings of a fresh ciphertext, and `AbsorbInPlace` of the scalar 0. -/
def exOverflow : List RnsCtStore.Call :=
  [.input 0, .mul 0 0, .mul 1 1, .mul 2 2, .mul 3 3, .mul 4 4, .mul 5 5, .opNew 6 (.scale 0)]

namespace Ieee

def exSquare : ℕ → Ex
  | 0 => .var 0
  | n + 1 => exSquare n * exSquare n

theorem exOverflow_run :
    let D := bgvRun (⟨.var 1, .var 0, .var 2, fun _ _ _ => .err .internal⟩ : Consts Ex) exEstimateGiven ⟨[], []⟩ [] exOverflow
    D.1 = List.replicate 8 (.ok ()) ∧
      D.2.2 = (List.range 7).map exSquare ++ [exSquare 6 * (((0 : ℕ) : Ex) / ((2 : ℕ) : Ex))] := by
  decide +kernel

/-- A `double` is infinite or at least `2^k`. -/
def Big (k : ℕ) (v : Val cast) : Prop := v = .inf ∨ ∃ x, v = .fin x ∧ 2 ^ k ≤ x

theorem big_round {k : ℕ} {x : ℝ} (h : 2 ^ (k + 1) ≤ x) :
    (Val.round x : Val cast) = .inf ∨ (k < 1024 ∧ ∃ y, (Val.round x : Val cast) = .fin y ∧ 2 ^ k ≤ y) := by
  have h0 : (0 : ℝ) < 2 ^ (k + 1) := by positivity
  have hx : 0 < x := h0.trans_le h
  have h1 : ¬ |x| < 1 / 2 ^ 1022 := by
    rw [abs_of_pos hx, not_lt]
    refine le_trans ?_ h
    rw [div_le_iff₀ (by positivity), ← pow_add]
    exact one_le_pow₀ (by norm_num)
  have h2 := rnd_low hx.le
  have h3 : (2 : ℝ) ^ k ≤ Double.rnd x := by
    rw [pow_succ] at h
    linarith
  unfold Val.round
  rw [if_neg hx.ne', if_neg h1]
  by_cases h4 : |Double.rnd x| < 2 ^ 1024
  · rw [if_pos h4]
    rw [abs_of_nonneg (Double.rnd_nonneg hx.le)] at h4
    refine .inr ⟨?_, _, rfl, h3⟩
    by_contra h5
    exact absurd (lt_of_le_of_lt h3 h4) (not_lt.mpr (pow_mono (by omega)))
  · rw [if_neg h4]; exact .inl rfl

theorem big_square {k : ℕ} {v : Val cast} (h : Big (k + 1) v) :
    v * v = .inf ∨ (2 * k + 1 < 1024 ∧ Big (2 * k + 1) (v * v)) := by
  rcases h with rfl | ⟨x, rfl, hx⟩
  · exact .inl rfl
  · have : (2 : ℝ) ^ (2 * k + 1 + 1) ≤ x * x := by
      rw [show 2 * k + 1 + 1 = (k + 1) + (k + 1) by omega, pow_add]
      exact mul_le_mul hx hx (by positivity) ((by positivity : (0 : ℝ) ≤ 2 ^ (k + 1)).trans hx)
    rcases big_round (cast := cast) this with h | ⟨h1, y, h2, h3⟩
    · exact .inl h
    · exact .inr ⟨h1, .inr ⟨y, h2, h3⟩⟩

theorem big_next {k : ℕ} {v : Val cast} (h : Big (k + 1) v) : Big (2 * k + 1) (v * v) :=
  (big_square h).elim .inl And.right

/-- The parameters of the witness: polynomials of degree 4096, a plaintext modulus of 40 bits and errors of standard
deviation 3. -/
noncomputable def exBig : RParams (Dbl (Double.castNearest)) := ⟨12, 40, ⟨3⟩⟩

theorem exBig_chosen : ChosenParams exBig := by
  refine ⟨by decide, by decide, .inr ⟨?_, ?_⟩⟩ <;> norm_num [exBig]

theorem exBig_secretKey : Big 20 (consts (ieeeParams exBig)).secretKey := by
  right
  refine ⟨_, (consts_agree c96_converts.1 (by norm_num) exBig_chosen).secretKey, ?_⟩
  have h := (c96_rns_constants c96_converts.1 exBig (by norm_num [exBig]) (by decide) (by decide)).2.1.2.1
  refine le_trans ?_ h
  have e : RnsErrorTrack.RErrorParams.bSecretKey ⟨exBig.logN, exBig.logT, exBig.sigma.val⟩ = 1600 * 64 * (√3 + 18) := by
    have : √(4096 : ℝ) = 64 := by
      rw [show (4096 : ℝ) = 64 ^ 2 by norm_num]; exact Real.sqrt_sq (by norm_num)
    norm_num [RnsErrorTrack.RErrorParams.bSecretKey, RnsErrorTrack.RErrorParams.exportT,
      RnsErrorTrack.RErrorParams.dim, exBig, this]
  rw [e]
  have h3 := Real.sqrt_nonneg 3
  norm_num
  linarith

end Ieee

/-- **C104, violated.** After six squarings, each of which succeeds, `Error()` is infinite, and after `AbsorbInPlace` of
the scalar 0, which succeeds, it is a NaN. -/
theorem c104_overflow_violated :
    let I := bgvRun (consts (ieeeParams exBig)) exEstimateGiven ⟨[], []⟩ [] exOverflow
    I.1 = List.replicate 8 (.ok ()) ∧ I.2.2[6]? = some .inf ∧ I.2.2[7]? = some .nan := by
  let f : ℕ → Val Double.castNearest := fun _ => (consts (ieeeParams exBig)).secretKey
  have e1 := runWith_map (Ex.eval f) (run := fun m k => RnsCtStore.Call.run exEstimateGiven m k)
    (bgvEffect_map (Ex.hom_eval f) (⟨.var 1, .var 0, .var 2, fun _ _ _ => .err .internal⟩ : Consts Ex) exEstimateGiven)
    ⟨[], []⟩ [] exOverflow
  have e2 : bgvRun (consts (ieeeParams exBig)) exEstimateGiven ⟨[], []⟩ [] exOverflow = _ :=
    (runWith_congr (fun k hk m es => by
      simp only [exOverflow, List.mem_cons, List.not_mem_nil, or_false] at hk
      rcases hk with rfl | rfl | rfl | rfl | rfl | rfl | rfl | rfl <;> rfl) _ _).trans e1
  obtain ⟨h1, h2⟩ := exOverflow_run
  unfold bgvRun at h1 h2
  rw [e2]
  dsimp only
  have b0 : Big (19 + 1) ((exSquare 0).eval f) := exBig_secretKey
  have b1 : Big (38 + 1) ((exSquare 1).eval f) := big_next b0
  have b2 : Big (76 + 1) ((exSquare 2).eval f) := big_next b1
  have b3 : Big (152 + 1) ((exSquare 3).eval f) := big_next b2
  have b4 : Big (304 + 1) ((exSquare 4).eval f) := big_next b3
  have b5 : Big (608 + 1) ((exSquare 5).eval f) := big_next b4
  have b6 : (exSquare 6).eval f = .inf := (big_square b5).elim id fun h => absurd h.1 (by norm_num)
  refine ⟨h1, ?_, ?_⟩
  · rw [h2]
    exact congrArg some b6
  · rw [h2]
    refine congrArg some ?_
    show (exSquare 6).eval f * (Val.fin (Double.castNearest 0) / Val.fin (Double.castNearest 2)) = _
    have c0 : (Double.castNearest 0 : ℝ) = 0 := by simpa using c96_converts.1.1 0 (by norm_num)
    have c2 : (Double.castNearest 2 : ℝ) = 2 := by simpa using c96_converts.1.1 2 (by norm_num)
    rw [b6, c0, c2]
    have : (Val.fin 0 : Val Double.castNearest) / Val.fin 2 = .fin 0 := by
      refine Eq.trans (if_neg two_ne_zero) ?_
      rw [zero_div]
      exact if_pos rfl
    rw [this]
    exact if_pos rfl

/-! ### The hypotheses can be met -/

/-- A fresh ciphertext and six times it. -/
def exSmall : List RnsCtStore.Call := [.input 0, .opNew 0 (.scale 6)]

theorem Ieee.exSmall_run (i : ℕ) :
    let D := bgvRun (⟨.var 1, .var 0, .var 2, fun _ _ _ => .err .internal⟩ : Consts Ex) exEstimateGiven ⟨[], []⟩ []
      (exSmall.take i)
    (D.2.2 = [] ∨ D.2.2 = [.var 0] ∨ D.2.2 = [.var 0, .var 0 * (((6 : ℕ) : Ex) / ((2 : ℕ) : Ex))]) ∧
      ∀ x ∈ D.2.1.cts, x.c.length < 2 ^ 31 := by
  match i with
  | 0 => decide +kernel
  | 1 => decide +kernel
  | i + 2 =>
    rw [List.take_of_length_le (by simp [exSmall])]
    decide +kernel

/-- With the parameters of the overflow, both estimates of `exSmall` are finite and accurate. -/
example :
    let R := bgvRun (exactConsts exBig) exEstimateGiven ⟨[], []⟩ [] exSmall
    let I := bgvRun (consts (ieeeParams exBig)) exEstimateGiven ⟨[], []⟩ [] exSmall
    ∀ (a : ℕ) (r : ℝ), R.2.2[a]? = some r → ∃ x : ℝ, I.2.2[a]? = some (.fin x) ∧ |x - r| ≤ r * (108 / 2 ^ 53) := by
  intro R I a r hr
  have h := c104_rns_bgv_exact_partial c96_converts.1 (by norm_num) exBig_chosen (v := exEstimateGiven)
    ⟨fun _ => show 0 < 2 ^ 31 by norm_num, fun _ _ => show 0 < 2 ^ 31 by norm_num⟩ [] (cs := exSmall)
    (by intro a z h; simp [exSmall] at h; omega) (by intro a b; simp [exSmall]) (by simp [exSmall]) (by
      intro i
      let f : ℕ → ℝ := fun _ => (exactConsts exBig).secretKey
      have e1 := runWith_map (Ex.eval f) (run := fun m k => RnsCtStore.Call.run exEstimateGiven m k)
        (bgvEffect_map (Ex.hom_eval f) (⟨.var 1, .var 0, .var 2, fun _ _ _ => .err .internal⟩ : Consts Ex)
          exEstimateGiven) ⟨[], []⟩ [] (exSmall.take i)
      have e2 : bgvRun (exactConsts exBig) exEstimateGiven ⟨[], []⟩ [] (exSmall.take i) = _ :=
        (runWith_congr (fun k hk m es => by
          have hk := List.mem_of_mem_take hk
          simp only [exSmall, List.mem_cons, List.not_mem_nil, or_false] at hk
          rcases hk with rfl | rfl <;> rfl) _ _).trans e1
      obtain ⟨h1, h2⟩ := exSmall_run i
      unfold bgvRun at h1 h2
      rw [e2]
      refine ⟨fun r hr => ?_, h2⟩
      have hs : 1 ≤ f 0 ∧ f 0 ≤ 2 ^ 30 := by
        have e : f 0 = 1600 * 64 * (√3 + 18) := by
          have : √(4096 : ℝ) = 64 := by
            rw [show (4096 : ℝ) = 64 ^ 2 by norm_num]; exact Real.sqrt_sq (by norm_num)
          norm_num [f, exactConsts, RnsErrorTrack.RErrorParams.bSecretKey, RnsErrorTrack.RErrorParams.exportT,
            RnsErrorTrack.RErrorParams.dim, exBig, this]
        have h3 := Real.sqrt_nonneg 3
        have h4 : √3 ≤ 2 := by rw [Real.sqrt_le_left (by norm_num)]; norm_num
        rw [e]
        constructor <;> norm_num <;> linarith
      have key : ∀ r : ℝ, 1 ≤ r → r ≤ 2 ^ 32 → r = 0 ∨ 1 / 2 ^ 899 ≤ r ∧ r ≤ 2 ^ 999 := fun r h1 h2 =>
        .inr ⟨le_trans (div_le_one_of_le₀ (one_le_pow₀ (by norm_num)) (by positivity)) h1,
          h2.trans (pow_mono (by norm_num))⟩
      dsimp only at hr
      rcases h1 with h1 | h1 | h1 <;> rw [h1] at hr
      · simp at hr
      · simp only [List.map_cons, List.map_nil, List.mem_singleton] at hr
        rw [hr]
        exact key _ hs.1 (hs.2.trans (by norm_num))
      · simp only [List.map_cons, List.map_nil, List.mem_cons, List.not_mem_nil, or_false] at hr
        rcases hr with rfl | rfl
        · exact key _ hs.1 (hs.2.trans (by norm_num))
        · have e : Ex.eval f (.var 0 * (((6 : ℕ) : Ex) / ((2 : ℕ) : Ex))) = f 0 * 3 := by
            show f 0 * (((6 : ℕ) : ℝ) / ((2 : ℕ) : ℝ)) = _
            norm_num
          rw [e]
          have := hs.2
          norm_num at this
          exact key _ (by linarith [hs.1]) (by norm_num; linarith))
  obtain ⟨x, hx, hx'⟩ := h.2.2.2 a r hr
  refine ⟨x, hx, hx'.trans_eq ?_⟩
  norm_num [exSmall]

/-- Sizes of the estimates of a symmetric-key program that ends in a product: fresh ciphertexts of 21 bits give an estimate
of at most 2 * 23 + 1 bits; after six squarings it could have more than 1022. -/
example : (do
    let p ← MParams.create 16 12289
    let q ← Ntt.initNtt p 1
    let x : WordCt.Obj Mag := ⟨[[1, 2], [3, 4]], 1, ⟨21, true⟩, []⟩
    let r := Store.runKeyed (E := Mag) ⟨p, q, ⟨21, true⟩⟩ (fun _ _ => .ok ⟨40, true⟩) [] ⟨[], [x, x]⟩
      ([.plain (.ctIn 0 (.add 1)), .plain (.ctMul 0 0), .plain (.ctMul 2 2), .plain (.ctMul 3 3), .plain (.ctMul 4 4),
        .plain (.ctMul 5 5), .plain (.ctMul 6 6)] : List (Store.KeyedCall Mag))
    return r.2.cts.map fun (x : WordCt.Obj Mag) => x.error.s) = .ok [23, 21, 47, 95, 191, 383, 767, 1535] := by
  decide +kernel

/-- The constants of error_params.h have sizes. -/
example : (Constant.eval ⟨5, 8, 24⟩ 2048 .encryption : Mag).Has
    (Constant.eval ⟨5, 8, 24⟩ 2048 .encryption : Dbl Double.castNearest).val :=
  (Constant.eval ⟨5, 8, 24⟩ 2048 .encryption : Sized 1 _ c96_converts.1 (by norm_num)).has

end Shell
