import Verif.Model.RnsGaussian
import Verif.Props.Gaussian
import Verif.Props.RnsSchemeExample
/-!
# C63: Gaussian RNS polynomials

`SampleDiscreteGaussian` returns the polynomial whose coefficients are the drawn signed integers, modulo every
prime; and the drawn words are the integer combinations of base samples that the algorithm prescribes.
-/

namespace Shell
open Spec Rns Sampler Poly Ntt NttRing
variable {σ : Type} {w l : ℕ}

namespace Spec

/-- The signed number that a `w`-bit word stands for. -/
def signedWord (w x : ℕ) : ℤ := if 2 * x < 2 ^ w then x else (x : ℤ) - 2 ^ w

/-- A base sample as an integer: the number of table entries below the lower 63 bits of a random word, minus half
of the table. -/
def baseZ (G : Gen σ) (cdt : List ℕ) (s : σ) : Outcome (ℤ × σ) := do
  let (u, s) ← G.rand64 s
  .ok ((cdt.countP (· < u % 2 ^ 63) : ℤ) - (cdt.length / 2 : ℕ), s)

/-- Algorithm `SampleI` on integers. -/
def sampleIZ (base : σ → Outcome (ℤ × σ)) (z : ℕ → ℕ) : ℕ → σ → Outcome (ℤ × σ)
  | 0, s => base s
  | i + 1, s => do
    let (x1, s) ← sampleIZ base z i s
    let (x2, s) ← sampleIZ base z i s
    .ok (z i * x1 + max 1 (z i - 1 : ℕ) * x2, s)

/-- The Gaussian sample as an integer. -/
def sampleZ (G : Gen σ) (cdt : List ℕ) (z : ℕ → ℕ) (zTop i : ℕ) (s : σ) : Outcome (ℤ × σ) :=
  if i = 0 then baseZ G cdt s else do
    let (x1, s) ← sampleIZ (baseZ G cdt) z i s
    let (x2, s) ← sampleIZ (baseZ G cdt) z i s
    .ok (zTop * x1 + (zTop - 1 : ℕ) * x2, s)

/-- How large such a sample can get. -/
def gaussianBound (cdt : List ℕ) (z : ℕ → ℕ) : ℕ → ℕ
  | 0 => (cdt.length + 1) / 2
  | i + 1 => (z i + max 1 (z i - 1)) * gaussianBound cdt z i

end Spec

/-- The words are the integers modulo `2^w`. -/
def WordOf (w : ℕ) (x : Outcome (ℕ × σ)) (y : Outcome (ℤ × σ)) : Prop :=
  x = (do let (v, s) ← y
          .ok ((v % 2 ^ w).toNat, s))

theorem wordOf_ok (v : ℤ) (s : σ) : WordOf w (.ok ((v % 2 ^ w).toNat, s)) (.ok (v, s)) := rfl

theorem toNat_comb (a b : ℕ) (x y : ℤ) :
    (a * (x % 2 ^ w).toNat + b * (y % 2 ^ w).toNat) % 2 ^ w = ((a * x + b * y) % 2 ^ w).toNat := by
  have hp : (0 : ℤ) < 2 ^ w := by positivity
  have e : ((((a * (x % 2 ^ w).toNat + b * (y % 2 ^ w).toNat) % 2 ^ w : ℕ)) : ℤ) = (a * x + b * y) % 2 ^ w := by
    push_cast
    rw [Int.toNat_of_nonneg (Int.emod_nonneg _ hp.ne'), Int.toNat_of_nonneg (Int.emod_nonneg _ hp.ne')]
    rw [Int.add_emod, Int.mul_emod, Int.emod_emod_of_dvd _ dvd_rfl, ← Int.mul_emod, Int.mul_emod (b : ℤ),
      Int.emod_emod_of_dvd _ dvd_rfl, ← Int.mul_emod, ← Int.add_emod]
  rw [← e, Int.toNat_natCast]

theorem wordOf_comb {α : ℕ} {β : ℕ} {f : σ → Outcome (ℕ × σ)} {g : σ → Outcome (ℤ × σ)}
    (h : ∀ s, WordOf w (f s) (g s)) (s : σ) :
    WordOf w (do let (x1, s) ← f s
                 let (x2, s) ← f s
                 .ok ((α * x1 + β * x2) % 2 ^ w, s))
      (do let (x1, s) ← g s
          let (x2, s) ← g s
          .ok (α * x1 + β * x2, s)) := by
  unfold WordOf at h ⊢
  rw [h s]
  cases g s with
  | err e => rfl
  | ub e => rfl
  | ok q =>
    simp only [Outcome.bind_ok]
    rw [h q.2]
    cases g q.2 with
    | err e => rfl
    | ub e => rfl
    | ok r =>
      simp only [Outcome.bind_ok]
      rw [toNat_comb]

theorem base_word (G : Gen σ) {cdt : List ℕ} (hc : cdt.length < 2 ^ w) (s : σ) :
    WordOf w (sampleBase G w cdt s) (baseZ G cdt s) := by
  unfold WordOf baseZ
  rw [c41_base G w cdt hc]
  cases G.rand64 s <;> rfl

theorem sampleI_word (G : Gen σ) {cdt : List ℕ} (hc : cdt.length < 2 ^ w) (z : ℕ → ℕ) (i : ℕ) (s : σ) :
    WordOf w (sampleI (sampleBase G w cdt) w z i s) (sampleIZ (baseZ G cdt) z i s) := by
  induction i generalizing s with
  | zero => exact base_word G hc s
  | succ i ih =>
    rw [sampleI, sampleIZ]
    exact wordOf_comb (w := w) (α := z i) (β := max 1 (z i - 1)) ih s

/-- **C63.** The word that `SampleWithIterations` returns is, modulo `2^w`, the integer combination of base samples
prescribed by the algorithm. -/
theorem c63_word_partial (G : Gen σ) {cdt : List ℕ} (hc : cdt.length < 2 ^ w) (z : ℕ → ℕ) (zTop i : ℕ)
    (hi : i ≤ 30) (s : σ) :
    sampleWithIterations G w cdt z zTop i s = (do
      let (v, s) ← sampleZ G cdt z zTop i s
      .ok ((v % 2 ^ w).toNat, s)) := by
  rw [c41_sample_partial G w cdt z zTop i hi]
  unfold sampleZ
  split_ifs
  · exact base_word G hc s
  · exact wordOf_comb (sampleI_word G hc z i) s

theorem baseZ_bound (G : Gen σ) {cdt : List ℕ} {s s' : σ} {v : ℤ} (h : baseZ G cdt s = .ok (v, s')) :
    |v| ≤ ((cdt.length + 1) / 2 : ℕ) := by
  unfold baseZ at h
  obtain ⟨⟨u, s₁⟩, -, h⟩ := Outcome.bind_eq_ok.mp h
  cases h
  have h1 : cdt.countP (· < u % 2 ^ 63) ≤ cdt.length := List.countP_le_length
  rw [abs_le]
  constructor <;> omega

theorem comb_bound {a b B : ℕ} {x y : ℤ} (hx : |x| ≤ B) (hy : |y| ≤ B) :
    |(a : ℤ) * x + b * y| ≤ ((a + b) * B : ℕ) := by
  calc |(a : ℤ) * x + b * y| ≤ |(a : ℤ) * x| + |(b : ℤ) * y| := abs_add_le _ _
    _ = a * |x| + b * |y| := by rw [abs_mul, abs_mul, Nat.abs_cast, Nat.abs_cast]
    _ ≤ a * B + b * B := by gcongr
    _ = ((a + b) * B : ℕ) := by push_cast; ring

theorem sampleIZ_bound (G : Gen σ) {cdt : List ℕ} (z : ℕ → ℕ) (i : ℕ) {s s' : σ} {v : ℤ}
    (h : sampleIZ (baseZ G cdt) z i s = .ok (v, s')) : |v| ≤ gaussianBound cdt z i := by
  induction i generalizing s s' v with
  | zero => exact baseZ_bound G h
  | succ i ih =>
    rw [sampleIZ] at h
    obtain ⟨⟨x, s₁⟩, h1, h⟩ := Outcome.bind_eq_ok.mp h
    obtain ⟨⟨y, s₂⟩, h2, h⟩ := Outcome.bind_eq_ok.mp h
    cases h
    exact comb_bound (a := z i) (b := max 1 (z i - 1)) (ih h1) (ih h2)

theorem signedWord_emod {v : ℤ} (h : 2 * |v| < 2 ^ w) : signedWord w (v % 2 ^ w).toNat = v := by
  have hp : (0 : ℤ) < 2 ^ w := by positivity
  obtain ⟨h1, h2⟩ := abs_lt.mp (by linarith : |v| < 2 ^ w)
  unfold signedWord
  rcases le_or_gt 0 v with h0 | h0
  · rw [abs_of_nonneg h0] at h
    rw [Int.emod_eq_of_lt h0 h2, if_pos (by zify; rw [Int.toNat_of_nonneg h0]; exact h), Int.toNat_of_nonneg h0]
  · rw [abs_of_neg h0] at h
    rw [← Int.add_emod_right, Int.emod_eq_of_lt (by linarith) (by linarith), if_neg, Int.toNat_of_nonneg (by linarith)]
    · ring
    · zify
      rw [Int.toNat_of_nonneg (by linarith)]
      linarith

/-- **C63.** When the bound computed from the table and the weights is below half the range of the words, no
sample wraps around: the signed value of the word returned by `SampleWithIterations` is the integer combination of
the base samples, and it respects the bound. -/
theorem c63_no_wrap_partial (G : Gen σ) {cdt : List ℕ} (hc : cdt.length < 2 ^ w) (z : ℕ → ℕ) (zTop i : ℕ)
    (hi : i ≤ 30) (hb : 2 * gaussianBound cdt z i < 2 ^ w)
    (hb' : 2 * ((zTop + (zTop - 1)) * gaussianBound cdt z i) < 2 ^ w) {s s' : σ} {x : ℕ}
    (h : sampleWithIterations G w cdt z zTop i s = .ok (x, s')) :
    sampleZ G cdt z zTop i s = .ok (signedWord w x, s') ∧
      |signedWord w x| ≤ max 1 (zTop + (zTop - 1)) * gaussianBound cdt z i := by
  rw [c63_word_partial G hc z zTop i hi] at h
  obtain ⟨⟨v, s₁⟩, h1, h⟩ := Outcome.bind_eq_ok.mp h
  cases h
  have hv : 2 * |v| < 2 ^ w ∧ |v| ≤ max 1 (zTop + (zTop - 1) : ℕ) * gaussianBound cdt z i := by
    unfold sampleZ at h1
    split_ifs at h1 with h0
    · subst h0
      have hv := baseZ_bound G h1
      have hg : ((cdt.length + 1) / 2 : ℕ) = gaussianBound cdt z 0 := rfl
      rw [hg] at hv
      have hm : (gaussianBound cdt z 0 : ℤ) ≤ max 1 (zTop + (zTop - 1) : ℕ) * gaussianBound cdt z 0 :=
        le_mul_of_one_le_left (by positivity) (by exact_mod_cast le_max_left 1 _)
      exact ⟨by have : (2 * gaussianBound cdt z 0 : ℤ) < 2 ^ w := by exact_mod_cast hb
                linarith, hv.trans hm⟩
    · obtain ⟨⟨x, t₁⟩, g1, h1⟩ := Outcome.bind_eq_ok.mp h1
      obtain ⟨⟨y, t₂⟩, g2, h1⟩ := Outcome.bind_eq_ok.mp h1
      cases h1
      have := comb_bound (a := zTop) (b := zTop - 1) (sampleIZ_bound G z i g1) (sampleIZ_bound G z i g2)
      refine ⟨?_, this.trans ?_⟩
      · have h3 : (2 * ((zTop + (zTop - 1)) * gaussianBound cdt z i : ℕ) : ℤ) < 2 ^ w := by exact_mod_cast hb'
        linarith
      · rw [Nat.cast_mul]
        exact mul_le_mul_of_nonneg_right (by exact_mod_cast le_max_right 1 _) (by positivity)
  rw [signedWord_emod hv.1]
  refine ⟨h1, ?_⟩
  have := hv.2
  push_cast at this ⊢
  exact this

/-! ### The polynomial -/

theorem gaussianLoop_eq (f : σ → Outcome (ℕ × σ)) (w : ℕ) (ms : List Modulus) (n : ℕ) (i : ℕ) (pre : List ℕ) (s : σ) :
    loopFrom (fun _ r => gaussianStep f w ms r) n i
      (ms.map (fun m => pre.map fun c => Mont.importInt m.p (gaussianResidue w m.N c)), s) = (do
      let (xs, s) ← times f n s
      .ok (ms.map (fun m => (pre ++ xs).map fun c => Mont.importInt m.p (gaussianResidue w m.N c)), s)) := by
  induction n generalizing i pre s with
  | zero => simp [loopFrom, times]
  | succ n ih =>
    rw [loopFrom, times]
    unfold gaussianStep
    cases hf : f s with
    | err e => simp
    | ub e => simp
    | ok q =>
      simp only [Outcome.bind_ok]
      have e : (ms.zip (ms.map fun m => pre.map fun c => Mont.importInt m.p (gaussianResidue w m.N c))).map
          (fun mv => mv.2 ++ [Mont.importInt mv.1.p (gaussianResidue w mv.1.N q.1)]) =
          ms.map (fun m => (pre ++ [q.1]).map fun c => Mont.importInt m.p (gaussianResidue w m.N c)) := by
        clear ih hf
        induction ms with
        | nil => rfl
        | cons m ms ihm => simp [ihm]
      rw [e]
      have := ih (i + 1) (pre ++ [q.1]) q.2
      unfold gaussianStep at this
      rw [this]
      cases times f n q.2 <;> simp

theorem gaussianResidue_spec {m : Modulus} (hm : GoodModulus w l m) {c : ℕ} (hc : c < 2 ^ w) :
    gaussianResidue w m.N c < 2 ^ w ∧ (gaussianResidue w m.N c : ℤ) % m.N = signedWord w c % m.N := by
  have g := hm.good
  have hN := g.pos
  have h4 := g.lt
  have hw : 1 ≤ w := by
    by_contra h
    have : w = 0 := by omega
    subst this
    simp at h4
    omega
  obtain ⟨k, rfl⟩ : ∃ k, w = k + 1 := ⟨w - 1, by omega⟩
  have e2 : (2 ^ (k + 1) - 1) >>> 1 = 2 ^ k - 1 := by
    rw [Nat.shiftRight_one, pow_succ]
    have : 0 < 2 ^ k := by positivity
    omega
  have hk : 2 ^ (k + 1) = 2 * 2 ^ k := by rw [pow_succ]; ring
  have hkp : 0 < 2 ^ k := by positivity
  unfold gaussianResidue signedWord
  rw [e2]
  by_cases hneg : c > 2 ^ k - 1
  · rw [if_pos hneg, if_neg (by omega)]
    have e3 : trunc (k + 1) (-(c : ℤ)) = 2 ^ (k + 1) - c := by
      unfold trunc
      have : (-(c : ℤ)) % 2 ^ (k + 1) = ((2 ^ (k + 1) - c : ℕ) : ℤ) := by
        rw [← Int.add_emod_right, Int.emod_eq_of_lt, Nat.cast_sub hc.le]
        · push_cast; ring
        · have : (c : ℤ) < 2 ^ (k + 1) := by exact_mod_cast hc
          linarith
        · have : (0 : ℤ) < c := by omega
          linarith
      rw [this, Int.toNat_natCast]
    rw [e3]
    have hlt := Nat.mod_lt (2 ^ (k + 1) - c) hN
    have e4 : trunc (k + 1) ((m.N : ℤ) - ((2 ^ (k + 1) - c) % m.N : ℕ)) = m.N - (2 ^ (k + 1) - c) % m.N := by
      rw [← Nat.cast_sub hlt.le]
      unfold trunc
      rw [Int.emod_eq_of_lt (by positivity) (by have : m.N < 2 ^ (k + 1) := by omega
                                                exact_mod_cast (by omega : m.N - (2 ^ (k + 1) - c) % m.N < 2 ^ (k + 1)))]
      rw [Int.toNat_natCast]
    rw [e4]
    refine ⟨by omega, ?_⟩
    rw [Nat.cast_sub hlt.le, Int.natCast_mod, Nat.cast_sub hc.le]
    push_cast
    have e5 : (m.N : ℤ) - (2 ^ (k + 1) - c) % m.N ≡ 0 - (2 ^ (k + 1) - c) [ZMOD m.N] :=
      Int.ModEq.sub (by unfold Int.ModEq; simp) (Int.mod_modEq _ _)
    rw [zero_sub, neg_sub] at e5
    exact e5
  · rw [if_neg hneg, if_pos (by omega)]
    exact ⟨hc, rfl⟩

theorem times_all {α : Type} {f : σ → Outcome (α × σ)} {P : α → Prop} (h : ∀ s x s', f s = .ok (x, s') → P x) :
    ∀ (n : ℕ) (s s' : σ) (xs : List α), times f n s = .ok (xs, s') → ∀ x ∈ xs, P x := by
  intro n
  induction n with
  | zero => intro s s' xs h'; cases h'; simp
  | succ n ih =>
    intro s s' xs h'
    rw [times] at h'
    obtain ⟨⟨x, s₁⟩, h1, h'⟩ := Outcome.bind_eq_ok.mp h'
    obtain ⟨⟨ys, s₂⟩, h2, h'⟩ := Outcome.bind_eq_ok.mp h'
    cases h'
    intro y hy
    rcases List.mem_cons.mp hy with rfl | hy
    · exact h _ _ _ h1
    · exact ih _ _ _ h2 y hy

theorem sample_word_lt (G : Gen σ) (cdt : List ℕ) (z : ℕ → ℕ) (zTop i : ℕ) (hi : i ≤ 30) {s s' : σ} {x : ℕ}
    (hc : cdt.length < 2 ^ w) (h : sampleWithIterations G w cdt z zTop i s = .ok (x, s')) : x < 2 ^ w := by
  rw [c63_word_partial G hc z zTop i hi] at h
  obtain ⟨⟨v, s₁⟩, h1, h⟩ := Outcome.bind_eq_ok.mp h
  cases h
  have hp : (0 : ℤ) < 2 ^ w := by positivity
  have := Int.emod_lt_of_pos v hp
  zify
  rw [Int.toNat_of_nonneg (Int.emod_nonneg _ hp.ne')]
  exact this

/-- **C63.** `SampleDiscreteGaussian` draws `n = 2^log_n` words with `SampleWithIterations`, one per coefficient in
order, and returns in coefficient form the RNS polynomial whose coefficients are the signed numbers these words
stand for; it fails only if a draw fails. -/
theorem c63_polynomial_partial (G : Gen σ) {cdt : List ℕ} (hc : cdt.length < 2 ^ w) (z : ℕ → ℕ) (zTop i : ℕ)
    (hi : i ≤ 30) {ms : List Modulus} (hg : ∀ m ∈ ms, GoodModulus w l m) (hne : ms ≠ []) (s : σ) :
    (∀ xs s', times (sampleWithIterations G w cdt z zTop i) (2 ^ l) s = .ok (xs, s') →
      ∃ x, sampleGaussian G w cdt z zTop (.ok i) l ms s = .ok (x, s') ∧ x.ntt = false ∧ xs.length = 2 ^ l ∧
        Represents l ms x fun j => signedWord w (xs.getD j 0)) ∧
    (∀ x s', sampleGaussian G w cdt z zTop (.ok i) l ms s = .ok (x, s') →
      ∃ xs, times (sampleWithIterations G w cdt z zTop i) (2 ^ l) s = .ok (xs, s')) := by
  obtain ⟨m0, hm0⟩ := List.exists_mem_of_ne_nil _ hne
  obtain ⟨psi0, t0⟩ := (hg m0 hm0).tables
  have hl1 := t0.l1
  have hl15 := t0.l15
  have hloop := gaussianLoop_eq (sampleWithIterations G w cdt z zTop i) w ms (2 ^ l) 0 [] s
  simp only [List.map_nil, List.nil_append] at hloop
  have key : sampleGaussian G w cdt z zTop (.ok i) l ms s = (do
      let (xs, s) ← times (sampleWithIterations G w cdt z zTop i) (2 ^ l) s
      let x ← create (ms.map fun m => xs.map fun c => Mont.importInt m.p (gaussianResidue w m.N c)) false
      return (x, s)) := by
    unfold sampleGaussian
    rw [if_neg (by omega), if_neg (by simpa using hne), Outcome.bind_ok, Int.toNat_natCast]
    unfold shl1 loop
    rw [if_pos (by omega), Outcome.bind_ok, hloop]
    cases times (sampleWithIterations G w cdt z zTop i) (2 ^ l) s <;> simp
  refine ⟨fun xs s' h => ?_, fun x s' h => ?_⟩
  · have hlen := times_length _ _ _ _ _ h
    have hlt := times_all (P := fun c => c < 2 ^ w)
      (fun s x s' h => sample_word_lt G cdt z zTop i hi hc h) _ _ _ _ h
    refine ⟨⟨l, ms.map fun m => xs.map fun c => Mont.importInt m.p (gaussianResidue w m.N c), false⟩, ?_, rfl,
      hlen, rfl, ?_⟩
    · rw [key, h, Outcome.bind_ok]
      dsimp only
      rw [create_ok' (l := l) (by simpa using hne)]
      · rfl
      · intro v hv
        obtain ⟨m, -, rfl⟩ := List.mem_map.mp hv
        rw [List.length_map, hlen]
    · rw [List.forall₂_map_right_iff, List.forall₂_same]
      intro m hm
      have hgm := hg m hm
      show CoeffsAre m (2 ^ l) _ _
      refine ⟨by rw [List.length_map, hlen], ?_, ?_⟩
      · intro a ha
        obtain ⟨c, hc', rfl⟩ := List.mem_map.mp ha
        exact (importInt_lt hgm.good _ (gaussianResidue_spec hgm (hlt c hc')).1).le
      · intro j
        have hj : (j : ℕ) < xs.length := by rw [hlen]; exact j.2
        rw [getD_map' (fun c => Mont.importInt m.p (gaussianResidue w m.N c)) hj]
        have hx := hlt (xs.getD j 0) (by rw [List.getD_eq_getElem _ _ hj]; exact List.getElem_mem hj)
        obtain ⟨r1, r2⟩ := gaussianResidue_spec hgm hx
        rw [← r2]
        show ((m.p.exportInt _ : ℕ) : ℤ) = _
        rw [export_import hgm.good _ r1]
        rfl
  · rw [key] at h
    obtain ⟨⟨xs, s₁⟩, h1, h⟩ := Outcome.bind_eq_ok.mp h
    obtain ⟨y, -, h⟩ := Outcome.bind_eq_ok.mp h
    cases h
    exact ⟨xs, h1⟩

/-- **C63.** Refused arguments: `log_n ≤ 0`, no moduli, a deviation below that of the base sampler. -/
theorem c63_rejects (G : Gen σ) (cdt : List ℕ) (z : ℕ → ℕ) (zTop : ℕ) (it : Outcome ℤ) (logN : ℤ)
    (ms : List Modulus) (s : σ) :
    (logN ≤ 0 ∨ ms = [] → sampleGaussian G w cdt z zTop it logN ms s = .err .invalidArgument) ∧
    (it = .err .invalidArgument → sampleGaussian G w cdt z zTop it logN ms s = .err .invalidArgument) := by
  unfold sampleGaussian
  constructor
  · rintro (h | rfl)
    · rw [if_pos h]
    · simp
  · rintro rfl
    split_ifs <;> simp

/-- More than 30 iterations are undefined (C41), whatever the moduli. -/
theorem c63_iterations_overflow (G : Gen σ) (cdt : List ℕ) (z : ℕ → ℕ) (zTop : ℕ) {i : ℤ} (hi : 31 ≤ i) {logN : ℤ}
    (h1 : 1 ≤ logN) (h30 : logN ≤ 30) {ms : List Modulus} (hne : ms ≠ []) (s : σ) :
    sampleGaussian G w cdt z zTop (.ok i) logN ms s = .ub .badShift := by
  unfold sampleGaussian
  rw [if_neg (by omega), if_neg (by simpa using hne), Outcome.bind_ok]
  unfold shl1
  rw [if_pos (by omega), Outcome.bind_ok]
  have hp : 0 < 2 ^ logN.toNat := by positivity
  rw [loop_ub (fun _ _ => True) 0 hp .badShift trivial (fun j s hj => by omega)]
  · rfl
  · intro r _
    unfold gaussianStep
    rw [(c41_iterations_overflow G w cdt z zTop i hi r.2).2]
    rfl

/-! ### A concrete case -/

/-- Four coefficients drawn with one iteration (weight 3, final weight 2) from a table with five entries, modulo 97
and 193: the coefficients are -4, -18, 45 and 0. -/
example :
    (do let (x, s) ← sampleGaussian listGen 16 [10, 20, 30, 40, 50] (fun _ => 3) 2 (.ok 1) 2 exMs
          [5, 25, 45, 35, 10, 10, 45, 5, 99, 99, 99, 99, 25, 25, 25, 25, 77]
        return ((exMs.zip x.coeffs).map (fun u : Modulus × List ℕ => u.2.map (Mont.exportInt u.1.p)), s) :
        Outcome (List (List ℕ) × List ℕ)) = .ok ([[93, 79, 45, 0], [189, 175, 45, 0]], [77]) ∧
    times (sampleZ listGen [10, 20, 30, 40, 50] (fun _ => 3) 2 1) 4
      [5, 25, 45, 35, 10, 10, 45, 5, 99, 99, 99, 99, 25, 25, 25, 25, 77] = .ok ([-4, -18, 45, 0], [77]) ∧
    2 * ((2 + (2 - 1)) * gaussianBound [10, 20, 30, 40, 50] (fun _ => 3) 1) < 2 ^ 16 := by
  decide +kernel

end Shell
