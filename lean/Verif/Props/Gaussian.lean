import Verif.Lemmas.Gaussian
import Verif.Props.Random
/-!
# C41: the discrete Gaussian sampler
-/

namespace Shell
open Shell.Spec Shell.Sampler
variable {σ : Type}

/-- C41: the table lookup returns the number of entries below `u`; in a sorted table all entries
before that index are below `u` and all entries from it on are at least `u`. -/
theorem c41_lookup (cdt : List ℕ) (u : ℕ) :
    findInCdt cdt u = cdt.countP (· < u) ∧
    (cdt.Pairwise (· ≤ ·) → ∀ (i : ℕ) (c : ℕ), cdt[i]? = some c →
      (i < findInCdt cdt u ↔ c < u)) := by
  have h1 : findInCdt cdt u = cdt.countP (· < u) := by
    unfold findInCdt; rw [find_eq, Nat.zero_add]
  refine ⟨h1, ?_⟩
  rw [h1]
  clear h1
  induction cdt with
  | nil => simp
  | cons d cdt ih =>
    intro hs i c hc
    obtain ⟨hd, hs⟩ := List.pairwise_cons.mp hs
    rw [List.countP_cons]
    simp only [decide_eq_true_eq]
    by_cases hdu : d < u
    · rw [if_pos hdu]
      cases i with
      | zero => simp at hc; subst hc; simp [hdu]
      | succ i =>
        rw [List.getElem?_cons_succ] at hc
        rw [← ih hs i c hc]; omega
    · rw [if_neg hdu]
      have h0 : cdt.countP (· < u) = 0 := by
        rw [List.countP_eq_zero]
        intro a ha
        have := hd a ha
        simp; omega
      rw [h0]
      have : d ≤ c := by
        cases i with
        | zero => simp at hc; omega
        | succ i =>
          rw [List.getElem?_cons_succ] at hc
          exact hd c (List.mem_of_getElem? hc)
      constructor <;> intro h <;> omega

/-- C41: a base sample uses one 64-bit word, of which 63 bits select the table entry; the result is
the index relative to the middle of the table, as a `w`-bit word. -/
theorem c41_base (G : Gen σ) (w : ℕ) (cdt : List ℕ) (hc : cdt.length < 2 ^ w) (s : σ) :
    sampleBase G w cdt s = (do
      let (u, s) ← G.rand64 s
      .ok ((((cdt.countP (· < u % 2 ^ 63) : ℤ) - (cdt.length / 2 : ℕ)) % 2 ^ w).toNat, s)) := by
  unfold sampleBase
  cases G.rand64 s with
  | err e => rfl
  | ub e => rfl
  | ok q =>
    simp only [Outcome.bind_ok]
    have e : (1 <<< 63 - 1 : ℕ) = 2 ^ 63 - 1 := by decide
    rw [e, Nat.and_two_pow_sub_one_eq_mod, (c41_lookup _ _).1]
    have h1 : cdt.countP (· < q.1 % 2 ^ 63) ≤ cdt.length := List.countP_le_length
    rw [Nat.mod_eq_of_lt (h1.trans_lt hc),
      Nat.mod_eq_of_lt ((Nat.div_le_self cdt.length 2).trans_lt hc)]
    rfl

/-- C41: with up to 30 iterations, the iterative sampler is the recursive combination: it consumes the
base samples in the same order, returns the same value, and fails when the recursion fails.

Partial: for 31 or more iterations the code's `1 << i` is not a valid number of samples, see
`c41_iterations_overflow`. -/
theorem c41_iterative_partial (G : Gen σ) (w : ℕ) (cdt : List ℕ) (z : ℕ → ℕ) (i : ℕ) (h : i ≤ 30)
    (s : σ) :
    sampleIIterative G w cdt z i s = sampleI (sampleBase G w cdt) w z i s := by
  rcases Nat.eq_zero_or_pos i with rfl | h0
  · unfold sampleIIterative; simp [sampleI]
  · exact iterative_eq G w cdt z i h0 (by omega) s

/-- C41: `SampleWithIterations` combines two such samples. -/
theorem c41_sample_partial (G : Gen σ) (w : ℕ) (cdt : List ℕ) (z : ℕ → ℕ) (zTop i : ℕ) (h : i ≤ 30)
    (s : σ) :
    sampleWithIterations G w cdt z zTop i s =
      if i = 0 then sampleBase G w cdt s else (do
        let (x1, s) ← sampleI (sampleBase G w cdt) w z i s
        let (x2, s) ← sampleI (sampleBase G w cdt) w z i s
        .ok ((zTop * x1 + (zTop - 1) * x2) % 2 ^ w, s)) := by
  unfold sampleWithIterations
  rw [if_neg (by omega)]
  by_cases h0 : i = 0
  · rw [if_pos (by omega), if_pos h0]
  · rw [if_neg (by omega), if_neg h0]
    simp only [c41_iterative_partial G w cdt z i h, Nat.mod_mul_mod, ← Nat.add_mod]

/-- C41: negative iteration counts are rejected. -/
theorem c41_rejects (G : Gen σ) (w : ℕ) (cdt : List ℕ) (z : ℕ → ℕ) (zTop : ℕ) (i : ℤ) (h : i < 0)
    (s : σ) :
    sampleIIterative G w cdt z i s = .err .invalidArgument ∧
    sampleWithIterations G w cdt z zTop i s = .err .invalidArgument := by
  unfold sampleIIterative sampleWithIterations
  rw [if_pos h, if_pos h]; exact ⟨rfl, rfl⟩

/-- The full C41 ("every number of iterations") fails from 31 iterations on: the behaviour is
undefined. -/
theorem c41_iterations_overflow (G : Gen σ) (w : ℕ) (cdt : List ℕ) (z : ℕ → ℕ) (zTop : ℕ) (i : ℤ)
    (h : 31 ≤ i) (s : σ) :
    sampleIIterative G w cdt z i s = .ub .badShift ∧
    sampleWithIterations G w cdt z zTop i s = .ub .badShift := by
  have e : sampleIIterative G w cdt z i s = .ub .badShift := by
    unfold sampleIIterative
    rw [if_neg (by omega), if_neg (by omega), if_pos h]
  refine ⟨e, ?_⟩
  unfold sampleWithIterations
  rw [if_neg (by omega), if_neg (by omega), e]; rfl

/-! ### A concrete case -/

/-- A table with five entries; two iterations with weights 3 and 5 combine the base samples
-2, 0, 2, 1 into `5 (3·(-2) + 2·0) + 4 (3·2 + 2·1) = 2`. -/
example :
    sampleI (sampleBase (⟨fun _ => .err .internal, fun s => .ok (s.headD 0, s.tail)⟩ : Gen (List ℕ))
      16 [10, 20, 30, 40, 50]) 16 (fun l => if l = 0 then 3 else 5) 2 [5, 25, 45, 35, 99] =
        .ok (2, [99]) ∧
    sampleIIterative (⟨fun _ => .err .internal, fun s => .ok (s.headD 0, s.tail)⟩ : Gen (List ℕ))
      16 [10, 20, 30, 40, 50] (fun l => if l = 0 then 3 else 5) 2 [5, 25, 45, 35, 99] =
        .ok (2, [99]) ∧ [10, 20, 30, 40, 50].Pairwise (· ≤ ·) := by decide +kernel

end Shell
