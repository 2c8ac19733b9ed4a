import Verif.Lemmas.Sampler
import Mathlib.Data.ZMod.Basic

namespace Shell.Sampler
open Shell.Spec Shell.Prng
variable {σ : Type}

theorem countBits_le (b x : ℕ) : countBits b x ≤ b := by
  unfold countBits
  exact (List.length_filter_le _ _).trans (by simp)

theorem count8 : ∀ x < 2 ^ 8, Bits.countOnesInByte x = countBits 8 x := c12_count_ones.1

theorem count64 : ∀ x < 2 ^ 64, Bits.countOnes64 x = countBits 64 x := c12_count_ones.2

theorem countMask : ∀ k < 8, ∀ x < 2 ^ 8,
    Bits.countOnesInByte (x &&& (1 <<< k - 1) % 2 ^ 8) = countBits k x := by decide +kernel

/-- The bit sizes of the chunks. -/
def sizes (k : ℕ) : List ℕ := (chunks k).map Prod.snd

theorem chunks_ge64 {k : ℕ} (h : 64 ≤ k) : chunks k = (.rand64, 64) :: chunks (k - 64) := by
  unfold chunks
  have h1 : k / 64 = (k - 64) / 64 + 1 := by omega
  have h2 : k % 64 = (k - 64) % 64 := by omega
  have h3 : k % 8 = (k - 64) % 8 := by omega
  rw [h1, List.replicate_succ, ← h2, ← h3]
  rfl

theorem chunks_ge8 {k : ℕ} (h : 8 ≤ k) (h64 : k < 64) : chunks k = (.rand8, 8) :: chunks (k - 8) := by
  unfold chunks
  have h1 : k % 64 / 8 = (k - 8) % 64 / 8 + 1 := by omega
  have h2 : k / 64 = 0 := by omega
  have h2' : (k - 8) / 64 = 0 := by omega
  have h3 : k % 8 = (k - 8) % 8 := by omega
  rw [h1, h2, h2', List.replicate_succ, ← h3]
  rfl

theorem chunks_lt8 {k : ℕ} (h0 : 0 < k) (h : k < 8) : chunks k = [(.rand8, k)] := by
  unfold chunks
  have h1 : k % 64 / 8 = 0 := by omega
  have h2 : k / 64 = 0 := by omega
  have h3 : k % 8 = k := by omega
  rw [h1, h2, h3, if_neg (by omega)]
  rfl

theorem chunks_zero : chunks 0 = [] := rfl

theorem sizes_sum (k : ℕ) : (sizes k).sum = k := by
  unfold sizes chunks
  simp only [List.map_append, List.sum_append, List.map_replicate, List.sum_replicate, smul_eq_mul]
  split_ifs <;> simp <;> omega

theorem trunc_trunc_add (w : ℕ) (c x y : ℤ) :
    trunc w ((trunc w (c + x) : ℤ) + y) = trunc w (c + x + y) := by
  unfold trunc
  have hpos : (0 : ℤ) < 2 ^ w := by positivity
  rw [Int.toNat_of_nonneg (Int.emod_nonneg _ hpos.ne'), Int.emod_add_emod]

theorem trunc_sub (w : ℕ) (c x y : ℤ) :
    trunc w ((trunc w (c + x) : ℤ) - y) = trunc w (c + (x - y)) := by
  rw [sub_eq_add_neg, trunc_trunc_add]
  congr 1
  ring

theorem errorLoop_eq (G : Gen σ) (hG : Words G) (w : ℕ) (fuel k : ℕ) (hk : k ≤ fuel) (c : ℤ) (s : σ) :
    errorLoop G w fuel k (trunc w c) s = (do
      let (ps, s) ← drawPairs G ((chunks k).map Prod.fst) s
      .ok (trunc w (c + noise (sizes k) ps), s)) := by
  induction fuel generalizing k c s with
  | zero =>
    have : k = 0 := by omega
    subst this
    simp [errorLoop, chunks_zero, drawPairs, noise]
  | succ fuel ih =>
    rw [errorLoop]
    by_cases h0 : k = 0
    · subst h0
      simp [chunks_zero, drawPairs, noise]
    · rw [if_neg h0]
      by_cases h64 : k ≥ 64
      · rw [if_pos h64, sizes, chunks_ge64 h64]
        simp only [List.map_cons, drawPairs, draw]
        cases hq : G.rand64 s with
        | err e => rfl
        | ub e => rfl
        | ok q =>
          simp only [Outcome.bind_ok]
          cases hr : G.rand64 q.2 with
          | err e => rfl
          | ub e => rfl
          | ok r =>
            simp only [Outcome.bind_ok]
            rw [count64 q.1 (hG.word s q.1 q.2 hq), count64 r.1 (hG.word q.2 r.1 r.2 hr)]
            rw [trunc_trunc_add' w c, trunc_sub, ih (k - 64) (by omega)]
            cases drawPairs G ((chunks (k - 64)).map Prod.fst) r.2 with
            | err e => rfl
            | ub e => rfl
            | ok t =>
              simp only [Outcome.bind_ok, noise, sizes]
              congr 3
              ring
      · rw [if_neg h64]
        by_cases h8 : k ≥ 8
        · rw [if_pos h8, sizes, chunks_ge8 h8 (by omega)]
          simp only [List.map_cons, drawPairs, draw]
          cases hq : G.rand8 s with
          | err e => rfl
          | ub e => rfl
          | ok q =>
            simp only [Outcome.bind_ok]
            cases hr : G.rand8 q.2 with
            | err e => rfl
            | ub e => rfl
            | ok r =>
              simp only [Outcome.bind_ok]
              rw [count8 q.1 (hG.byte s q.1 q.2 hq), count8 r.1 (hG.byte q.2 r.1 r.2 hr)]
              rw [trunc_trunc_add' w c, trunc_sub, ih (k - 8) (by omega)]
              cases drawPairs G ((chunks (k - 8)).map Prod.fst) r.2 with
              | err e => rfl
              | ub e => rfl
              | ok t =>
                simp only [Outcome.bind_ok, noise, sizes]
                congr 3
                ring
        · rw [if_neg h8, sizes, chunks_lt8 (by omega) (by omega)]
          simp only [List.map_cons, List.map_nil, drawPairs, draw]
          cases hq : G.rand8 s with
          | err e => rfl
          | ub e => rfl
          | ok q =>
            simp only [Outcome.bind_ok]
            cases hr : G.rand8 q.2 with
            | err e => rfl
            | ub e => rfl
            | ok r =>
              simp only [Outcome.bind_ok]
              rw [countMask k (by omega) q.1 (hG.byte s q.1 q.2 hq),
                countMask k (by omega) r.1 (hG.byte q.2 r.1 r.2 hr)]
              rw [trunc_trunc_add' w c, trunc_sub]
              simp only [noise, add_zero]
where
  trunc_trunc_add' (w : ℕ) (c : ℤ) {x : ℤ} : trunc w ((trunc w c : ℤ) + x) = trunc w (c + x) := by
    have := trunc_trunc_add w c 0 x
    simpa using this

theorem noise_bound (ks : List ℕ) (ps : List (ℕ × ℕ)) :
    -(ks.sum : ℤ) ≤ noise ks ps ∧ noise ks ps ≤ (ks.sum : ℤ) := by
  induction ks generalizing ps with
  | nil => cases ps <;> simp [noise]
  | cons k ks ih =>
    cases ps with
    | nil =>
      simp only [noise]
      constructor
      · have := Int.natCast_nonneg (k :: ks).sum; omega
      · exact Int.natCast_nonneg _
    | cons p ps =>
      obtain ⟨h1, h2⟩ := ih ps
      have h3 := countBits_le k p.1
      have h4 := countBits_le k p.2
      simp only [noise, List.sum_cons]
      push_cast
      omega

theorem drawPairs_length (G : Gen σ) (ops : List Op) (s s' : σ) (ps : List (ℕ × ℕ))
    (h : drawPairs G ops s = .ok (ps, s')) : ps.length = ops.length := by
  induction ops generalizing s ps with
  | nil => cases h; rfl
  | cons op ops ih =>
    rw [drawPairs] at h
    obtain ⟨q, -, h⟩ := Outcome.bind_eq_ok.mp h
    obtain ⟨q2, -, h⟩ := Outcome.bind_eq_ok.mp h
    obtain ⟨r, hr, h⟩ := Outcome.bind_eq_ok.mp h
    cases h
    simp [ih q2.2 r.1 hr]

/-- The word stored for the error `e`, provided `|e|` does not exceed the modulus. -/
theorem reduce_eq {w N : ℕ} {p : MParams} (g : Good p w N) (e : ℤ) (h1 : -(N : ℤ) ≤ e) (h2 : e ≤ N) :
    Mont.importInt p (errorReduce p (trunc p.w ((N : ℤ) + e))) =
      Mont.importInt p ((e % N).toNat) := by
  have hlt := g.lt
  have hpos := g.pos
  have hmod : p.modulus = N := g.hN
  have hw : p.w = w := g.hw
  have hNe : trunc p.w ((N : ℤ) + e) = ((N : ℤ) + e).toNat := by
    rw [hw]
    have h0 : (0 : ℤ) ≤ N + e := by omega
    conv_lhs => rw [← Int.toNat_of_nonneg h0]
    rw [trunc_nat]
    have : ((N : ℤ) + e).toNat ≤ 2 * N := by omega
    omega
  have hred : errorReduce p (trunc p.w ((N : ℤ) + e)) =
      if 0 ≤ e then e.toNat else ((N : ℤ) + e).toNat := by
    unfold errorReduce
    rw [hNe, hmod, hw]
    by_cases he : 0 ≤ e
    · rw [if_pos (by omega), if_pos he]
      have : ((((N : ℤ) + e).toNat : ℤ) - N) = (e.toNat : ℤ) := by omega
      rw [this, trunc_nat]; omega
    · rw [if_neg (by omega), if_neg he, sub_zero, trunc_nat]; omega
  have hcong : (errorReduce p (trunc p.w ((N : ℤ) + e)) : ℤ) % N = e % N := by
    rw [hred]
    by_cases he : 0 ≤ e
    · rw [if_pos he, Int.toNat_of_nonneg he]
    · rw [if_neg he, Int.toNat_of_nonneg (by omega), Int.add_emod, Int.emod_self, zero_add,
        Int.emod_emod]
  have hb : errorReduce p (trunc p.w ((N : ℤ) + e)) < 2 ^ w := by
    rw [hred]; split_ifs <;> omega
  have hnn : 0 ≤ e % (N : ℤ) := Int.emod_nonneg _ (by omega)
  have hltN : e % (N : ℤ) < N := Int.emod_lt_of_pos _ (by omega)
  apply g.export_inj (importInt_lt g _ hb) (importInt_lt g _ (by omega))
  rw [export_import g _ hb, export_import g _ (by omega)]
  have : ((errorReduce p (trunc p.w ((N : ℤ) + e)) % N : ℕ) : ℤ) = (((e % N).toNat % N : ℕ) : ℤ) := by
    push_cast
    rw [hcong, Int.toNat_of_nonneg hnn, Int.emod_emod]
  exact_mod_cast this

end Shell.Sampler
