import Verif.Lemmas.ErrorSample
import Verif.Props.Random
import Verif.Spec.Prng
/-!
# C38: the centered binomial error sampler
-/

namespace Shell
open Shell.Spec Shell.Prng Shell.Sampler
variable {σ : Type}

/-- C38: variances above 256 are rejected, for every modulus and generator. -/
theorem c38_rejects (G : Gen σ) (p : MParams) (n variance : ℕ) (s : σ) (h : 256 < variance) :
    sampleError G p n variance s = .err .invalidArgument := by
  unfold sampleError kMaxVariance; rw [if_pos h]

/-- C38: for each coefficient `2 * variance` bits are looked at in the first words of the pairs and
as many in the second words; no word is asked for more bits than it has. -/
theorem c38_bits (variance : ℕ) :
    ((chunks (2 * variance)).map Prod.snd).sum = 2 * variance ∧
    ∀ c ∈ chunks (2 * variance), c.2 ≤ 8 * Spec.width c.1 := by
  refine ⟨sizes_sum _, ?_⟩
  intro c hc
  unfold chunks at hc
  simp only [List.mem_append, List.mem_replicate] at hc
  rcases hc with (⟨-, rfl⟩ | ⟨-, rfl⟩) | hc
  · simp [Spec.width]
  · simp [Spec.width]
  · split_ifs at hc with h
    · cases hc
    · rw [List.mem_singleton] at hc; subst hc; simp [Spec.width]; omega

/-- C38: with a modulus of at least `2 * variance`, `SampleFromErrorDistribution` draws fresh pairs of
words for each coefficient and returns the residue of the number of ones in the first words minus the
number of ones in the second words; errors of the generator are passed on.

Partial: without the condition on the modulus the claim is false, see `c38_small_modulus_violated`. -/
theorem c38_sample_partial (G : Gen σ) (hG : Words G) {w N : ℕ} {p : MParams}
    (h : MParams.create w N = .ok p) (n variance : ℕ) (hv : variance ≤ 256) (hN : 2 * variance ≤ N)
    (s : σ) :
    sampleError G p n variance s = (do
      let (pss, s) ← times (drawPairs G ((chunks (2 * variance)).map Prod.fst)) n s
      .ok (pss.map fun ps =>
        Mont.importInt p (noise ((chunks (2 * variance)).map Prod.snd) ps % N).toNat, s)) := by
  have g := good_of_create h
  have hlt := g.lt
  unfold sampleError kMaxVariance
  rw [if_neg (by omega)]
  have hk : variance <<< 1 = 2 * variance := by rw [Nat.shiftLeft_eq]; ring
  simp only [hk]
  have hNt : p.modulus = trunc p.w (N : ℤ) := by rw [g.hw, trunc_nat (by omega), g.hN]
  have hstep : ∀ s : σ, (do
      let (c, s) ← errorLoop G p.w (2 * variance) (2 * variance) p.modulus s
      (.ok (Mont.importInt p (errorReduce p c), s) : Outcome (ℕ × σ))) = (do
      let (ps, s) ← drawPairs G ((chunks (2 * variance)).map Prod.fst) s
      .ok (Mont.importInt p (noise ((chunks (2 * variance)).map Prod.snd) ps % N).toNat, s)) := by
    intro s
    rw [hNt, errorLoop_eq G hG p.w _ _ le_rfl]
    cases drawPairs G ((chunks (2 * variance)).map Prod.fst) s with
    | err e => rfl
    | ub e => rfl
    | ok q =>
      simp only [Outcome.bind_ok]
      obtain ⟨b1, b2⟩ := noise_bound (sizes (2 * variance)) q.1
      rw [sizes_sum] at b1 b2
      push_cast at b1 b2
      rw [reduce_eq g _ (by omega) (by omega)]
      rfl
  have hloop := loop_fill (0 : ℕ) (fun s : σ => (do
      let (c, s) ← errorLoop G p.w (2 * variance) (2 * variance) p.modulus s
      (.ok (Mont.importInt p (errorReduce p c), s) : Outcome (ℕ × σ)))) n [] s
  simp only [List.nil_append, List.length_nil] at hloop
  have e1 : loop n (fun i (r : List ℕ × σ) => do
      let (c, s) ← errorLoop G p.w (2 * variance) (2 * variance) p.modulus r.2
      let coeffs ← wr r.1 i (Mont.importInt p (errorReduce p c))
      .ok (coeffs, s)) (List.replicate n 0, s) =
      times (fun s : σ => (do
      let (c, s) ← errorLoop G p.w (2 * variance) (2 * variance) p.modulus s
      (.ok (Mont.importInt p (errorReduce p c), s) : Outcome (ℕ × σ)))) n s := by
    unfold loop
    have e2 : (fun i (r : List ℕ × σ) => (do
      let (c, s) ← errorLoop G p.w (2 * variance) (2 * variance) p.modulus r.2
      let coeffs ← wr r.1 i (Mont.importInt p (errorReduce p c))
      (.ok (coeffs, s) : Outcome (List ℕ × σ)))) = (fun i (r : List ℕ × σ) => do
      let (x, s) ← (do
        let (c, s) ← errorLoop G p.w (2 * variance) (2 * variance) p.modulus r.2
        (.ok (Mont.importInt p (errorReduce p c), s) : Outcome (ℕ × σ)))
      let l ← wr r.1 i x
      .ok (l, s)) := by
      funext i r
      cases errorLoop G p.w (2 * variance) (2 * variance) p.modulus r.2 <;> rfl
    rw [e2, hloop]
    cases times (fun s : σ => (do
      let (c, s) ← errorLoop G p.w (2 * variance) (2 * variance) p.modulus s
      (.ok (Mont.importInt p (errorReduce p c), s) : Outcome (ℕ × σ)))) n s <;> rfl
  rw [e1]
  clear e1 hloop
  induction n generalizing s with
  | zero => rfl
  | succ n ih =>
    rw [times, hstep, times]
    cases drawPairs G ((chunks (2 * variance)).map Prod.fst) s with
    | err e => rfl
    | ub e => rfl
    | ok q =>
      simp only [Outcome.bind_ok]
      rw [ih]
      cases times (drawPairs G ((chunks (2 * variance)).map Prod.fst)) n q.2 <;> simp

/-- C38: what a caller sees: the requested number of canonical residues, each of which represents an
integer in `[-2 * variance, 2 * variance]`. -/
theorem c38_range_partial (G : Gen σ) (hG : Words G) {w N : ℕ} {p : MParams}
    (h : MParams.create w N = .ok p) (n variance : ℕ) (hN : 2 * variance ≤ N)
    (s s' : σ) (cs : List ℕ) (hs : sampleError G p n variance s = .ok (cs, s')) :
    cs.length = n ∧ ∀ c ∈ cs, c < N ∧ ∃ e : ℤ, -(2 * variance : ℤ) ≤ e ∧ e ≤ 2 * variance ∧
      (Mont.exportInt p c : ℤ) = e % N := by
  have g := good_of_create h
  have hlt := g.lt
  have hpos := g.pos
  by_cases hv : 256 < variance
  · rw [c38_rejects G p n variance s hv] at hs; cases hs
  rw [c38_sample_partial G hG h n variance (by omega) hN] at hs
  obtain ⟨q, hq, hs⟩ := Outcome.bind_eq_ok.mp hs
  cases hs
  refine ⟨by rw [List.length_map]; exact times_length _ _ _ _ _ hq, ?_⟩
  intro c hc
  obtain ⟨ps, -, rfl⟩ := List.mem_map.mp hc
  obtain ⟨b1, b2⟩ := noise_bound (sizes (2 * variance)) ps
  rw [sizes_sum] at b1 b2
  push_cast at b1 b2
  have hnn : 0 ≤ noise (sizes (2 * variance)) ps % (N : ℤ) := Int.emod_nonneg _ (by omega)
  have hltN : noise (sizes (2 * variance)) ps % (N : ℤ) < N := Int.emod_lt_of_pos _ (by omega)
  refine ⟨importInt_lt g _ (by unfold sizes at hnn hltN; omega), _, b1, b2, ?_⟩
  unfold sizes at *
  rw [(c01_import_export h).1 _ (by omega) |>.1]
  push_cast
  rw [Int.toNat_of_nonneg hnn, Int.emod_emod]

/-! ### The condition on the modulus is needed -/

/-- A generator delivering a given list of bytes (then zeros). -/
def listGen : Gen (List ℕ) where
  rand8 s := .ok (s.headD 0 % 2 ^ 8, s.tail)
  rand64 s := .ok (s.headD 0 % 2 ^ 64, s.tail)

theorem listGen_words : Words listGen where
  byte := by rintro s v s' h; cases h; exact Nat.mod_lt _ (by norm_num)
  word := by rintro s v s' h; cases h; exact Nat.mod_lt _ (by norm_num)

/-- The full C38 ("all moduli") fails: with modulus 3 and variance 2, no ones in the first byte and
four ones in the second, the sampled value is `-4`, whose residue is 2, but the sampler returns a
representation of 0. -/
theorem c38_small_modulus_violated : ∃ p c s', MParams.create 16 3 = .ok p ∧
    sampleError listGen p 1 2 [0, 15] = .ok ([c], s') ∧
    noise ((chunks 4).map Prod.snd) [(0, 15)] = -4 ∧ (-4 : ℤ) % 3 = 2 ∧ Mont.exportInt p c = 0 := by
  refine ⟨_, _, _, rfl, rfl, ?_, ?_, ?_⟩ <;> decide +kernel

/-! ### A concrete case -/

example : ∃ cs s', sampleError listGen exParams 3 8 [255, 0, 1, 3, 7, 0, 7, 255] = .ok (cs, s') ∧
    cs.map (Mont.exportInt exParams) = [7, 12287, 0] ∧
    2 * 8 ≤ 12289 ∧ MParams.create 16 12289 = .ok exParams :=
  ⟨_, _, rfl, by decide +kernel, by norm_num, exParams_ok⟩

end Shell
