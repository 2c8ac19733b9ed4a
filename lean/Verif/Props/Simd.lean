import Verif.Lemmas.Simd
import Verif.Lemmas.LazyRns
/-!
# Property C59: the SIMD kernels compute what the scalar code computes
-/

namespace Shell
open Simd Rns

/-- `r` is `out` with `a[i] * b[i]` added to the element `i`, for every `i` below the length of `a`, modulo `2^W`. -/
def Spec.MulAdded (W : ℕ) (a b out r : List ℕ) : Prop :=
  r.length = out.length ∧
    (∀ i < a.length, r.getD i 0 = (out.getD i 0 + a.getD i 0 * b.getD i 0) % 2 ^ W) ∧
    ∀ i, a.length ≤ i → r.getD i 0 = out.getD i 0

open Spec

theorem mulAdded_of_done {w : ℕ} {a b out r : List ℕ} (h : Done w a b out a.length r) :
    MulAdded (2 * w) a b out r :=
  ⟨h.1, fun i hi => by rw [h.2.2 i, if_pos hi], fun i hi => by rw [h.2.2 i, if_neg (by omega)]⟩

section
variable {a b out : List ℕ}

/-- **C59.** The scalar code adds the products, for vectors of every length. -/
theorem c59_scalar (w : ℕ) (lo : ∀ x ∈ out, x < 2 ^ (2 * w)) (hab : a.length ≤ b.length)
    (hao : a.length ≤ out.length) : ∃ r, batchScalar w a b out = .ok r ∧ MulAdded (2 * w) a b out r := by
  obtain ⟨r, e, h⟩ := batchScalar_ok hab hao lo
  exact ⟨r, e, mulAdded_of_done h⟩

/-- **C59.** The kernel for 32-bit integers, with a vector of any number of lanes divisible by four (128-bit vectors
have four), returns what the scalar code returns, for vectors of every length and all words. -/
theorem c59_simd32 (N : ℕ) (hN : N % 4 = 0) (la : ∀ x ∈ a, x < 2 ^ 32) (lb : ∀ x ∈ b, x < 2 ^ 32)
    (lo : ∀ x ∈ out, x < 2 ^ 64) (hab : a.length ≤ b.length) (hao : a.length ≤ out.length) :
    batch32 N a b out = batchScalar 32 a b out ∧ ∃ r, batch32 N a b out = .ok r ∧ MulAdded 64 a b out r := by
  obtain ⟨r, e, h⟩ := batch_ok (w := 32) (chunk_ok 32 N hN) la lb lo hab hao
  obtain ⟨r', e', h'⟩ := batchScalar_ok (w := 32) hab hao lo
  have e2 : batch32 N a b out = .ok r := e
  exact ⟨by rw [e2, e', done_eq h h'], r, e2, mulAdded_of_done h⟩

/-- **C59.** The kernel for 64-bit integers, with a vector of any number of lanes divisible by four (256-bit vectors
have four), returns what the scalar code returns, for vectors of every length and all words. -/
theorem c59_simd64_partial (N : ℕ) (hN : N % 4 = 0) (la : ∀ x ∈ a, x < 2 ^ 64) (lb : ∀ x ∈ b, x < 2 ^ 64)
    (lo : ∀ x ∈ out, x < 2 ^ 128) (hab : a.length ≤ b.length) (hao : a.length ≤ out.length) :
    batch64 N a b out = batchScalar 64 a b out ∧ ∃ r, batch64 N a b out = .ok r ∧ MulAdded 128 a b out r := by
  obtain ⟨r, e, h⟩ := batch_ok (w := 64) (chunk64_ok 64 N hN) la lb lo hab hao
  obtain ⟨r', e', h'⟩ := batchScalar_ok (w := 64) hab hao lo
  have e2 : batch64 N a b out = .ok r := e
  exact ⟨by rw [e2, e', done_eq h h'], r, e2, mulAdded_of_done h⟩

end

/-- **C59.** Neither the kernels nor the scalar code check lengths: a shorter second vector is read past its end. -/
theorem c59_short (body : List ℕ → List ℕ → List ℕ → List ℕ) (w N : ℕ) {a b out : List ℕ} (hab : b.length < a.length)
    (hao : a.length ≤ out.length) : batchScalar w a b out = .ub .outOfBounds ∧
      (0 < N → b.length < N → N ≤ a.length → batch body w N a b out = .ub .outOfBounds) := by
  constructor
  · refine loop_ub (fun _ o => a.length ≤ o.length) b.length hab _ hao (fun j o hj ho => ?_) fun o ho => ?_
    · unfold scalarStep
      rw [rd_ok (by omega), Outcome.bind_ok, rd_ok hj, Outcome.bind_ok, rd_ok (by omega), Outcome.bind_ok,
        wr_ok (by omega)]
      exact ⟨_, rfl, by simpa using ho⟩
    · unfold scalarStep
      rw [rd_ok (by omega), Outcome.bind_ok, rd_ub (le_refl _), Outcome.bind_ub]
  · intro hN hb ha
    unfold batch
    rw [loop_ub (fun _ _ => True) 0 (Nat.div_pos ha hN) .outOfBounds trivial (fun j o hj _ => by omega) fun o _ => ?_,
      Outcome.bind_ub]
    unfold vectorStep
    rw [slice_ok (by omega), Outcome.bind_ok]
    unfold slice
    rw [if_pos (by omega), Outcome.bind_ub]

/-- Five elements and four. -/
example : batchScalar 32 [1, 2, 3, 4, 5] [1, 2, 3, 4] [0, 0, 0, 0, 0] = .ub .outOfBounds ∧
    batch32 4 [1, 2, 3, 4] [1, 2, 3] [0, 0, 0, 0] = .ub .outOfBounds := by decide +kernel

/-- **C59 fails on 128-bit vectors.**  With two 64-bit lanes (SSE4, NEON) `Per4LaneBlockShuffle` leaves a lane
unspecified.  Whatever it returns, as a function of the two lanes it is given, the kernel is wrong for one of two
inputs: the high word of the first product is not among them. -/
theorem c59_two_lanes (shuf : (ℕ → ℕ) → ℕ → ℕ)
    (hs : ∀ u v : ℕ → ℕ, u 0 = v 0 → u 1 = v 1 → shuf u 0 = shuf v 0 ∧ shuf u 1 = shuf v 1) :
    ∃ a ∈ [[0, 0], [2 ^ 32, 0]],
      batch (chunk64With shuf 64 2) 64 2 a [2 ^ 32, 0] [0, 0] ≠ batchScalar 64 a [2 ^ 32, 0] [0, 0] := by
  by_contra hcon
  push Not at hcon
  have h1 := hcon [0, 0] (by simp)
  have h2 := hcon [2 ^ 32, 0] (by simp)
  rw [show batchScalar 64 [0, 0] [2 ^ 32, 0] [0, 0] = .ok [0, 0] by decide +kernel] at h1
  rw [show batchScalar 64 [2 ^ 32, 0] [2 ^ 32, 0] [0, 0] = .ok [2 ^ 64, 0] by decide +kernel] at h2
  have key : ∀ x : List ℕ, x.length = 2 → batch (chunk64With shuf 64 2) 64 2 x [2 ^ 32, 0] [0, 0] =
      .ok (chunk64With shuf 64 2 [0, 0] x [2 ^ 32, 0]) := by
    intro x hx
    match x, hx with
    | [y, z], _ =>
      unfold batch
      simp only [List.length_cons, List.length_nil]
      rw [show (0 + 1 + 1) / 2 = 1 from rfl, show 0 + 1 + 1 - 1 * 2 = 0 from rfl]
      simp only [loop, loopFrom, vectorStep, slice]
      simp [Outcome.bind_ok, Pure.pure, Bind.bind, Outcome.bind]
  rw [key _ rfl] at h1 h2
  have g1 := Outcome.ok.inj h1
  have g2 := Outcome.ok.inj h2
  have f : ∀ (out x b r : List ℕ), chunk64With shuf 64 2 out x b = r → (chunk64With shuf 64 2 out x b).getD 0 0 =
      r.getD 0 0 := fun _ _ _ _ h => by rw [h]
  have g1' := f _ _ _ _ g1
  have g2' := f _ _ _ _ g2
  have hh := hs (interleaveLower (mulEven 64 (load [0, 0]) (load [2 ^ 32, 0])) (mulOdd 64 (load [0, 0]) (load [2 ^ 32, 0])))
    (interleaveLower (mulEven 64 (load [2 ^ 32, 0]) (load [2 ^ 32, 0]))
      (mulOdd 64 (load [2 ^ 32, 0]) (load [2 ^ 32, 0]))) (by decide +kernel) (by decide +kernel)
  simp only [chunk64With] at g1' g2'
  rw [getD_append, if_pos (by simp [storeWords]), getD_storeWords _ _ _ _ (by norm_num), addCarry_pair] at g1' g2'
  rw [hh.1, hh.2] at g1'
  rw [g1'] at g2'
  exact absurd g2' (by decide +kernel)

/-! ### The kernels in `FusedMulAddInPlace` -/

theorem zipWith_eq_of_mulAdded {W : ℕ} {a b out r : List ℕ} (ha : a.length = out.length) (hb : b.length = out.length)
    (h : MulAdded W a b out r) :
    List.zipWith (fun c (ab : ℕ × ℕ) => (c + ab.1 * ab.2 % 2 ^ W) % 2 ^ W) out (a.zip b) = r := by
  apply List.ext_getElem?
  intro i
  by_cases hi : i < out.length
  · have h1 := h.2.1 i (by omega)
    have hr : i < r.length := by rw [h.1]; exact hi
    rw [List.getD_eq_getElem _ _ hr, List.getD_eq_getElem _ _ hi, List.getD_eq_getElem _ _ (by omega),
      List.getD_eq_getElem _ _ (by omega)] at h1
    rw [List.getElem?_eq_getElem hr, h1, List.getElem?_zipWith, List.getElem?_eq_getElem hi,
      List.getElem?_eq_getElem (by simp; omega), List.getElem_zip]
    simp
  · rw [List.getElem?_eq_none (by simp; omega), List.getElem?_eq_none (by rw [h.1]; omega)]

/-- **C59.** The kernels can replace the inner loop of the generic `FusedMulAddInPlace`: the theorems of C58 are about
the specialisations too. -/
theorem c59_fusedMulAdd {m : Modulus} {c a b : List ℕ} (hw : m.p.w = 32 ∨ m.p.w = 64)
    (ha : a.length = c.length) (hb : b.length = c.length) (la : ∀ x ∈ a, x < 2 ^ m.p.w) (lb : ∀ x ∈ b, x < 2 ^ m.p.w)
    (lc : ∀ x ∈ c, x < 2 ^ (2 * m.p.w)) (N : ℕ) (hN : N % 4 = 0) :
    LRns.addProducts c.length m (c, a, b) = if m.p.w = 32 then batch32 N a b c else batch64 N a b c := by
  have hf : LRns.addProducts c.length m (c, a, b) = .ok (List.zipWith (fun c (ab : ℕ × ℕ) =>
      (c + ab.1 * ab.2 % 2 ^ (2 * m.p.w)) % 2 ^ (2 * m.p.w)) c (a.zip b)) := by
    unfold LRns.addProducts LRns.firstN
    simp only
    rw [if_neg (by omega), if_neg (by omega), if_neg (by omega), Outcome.bind_ok, Outcome.bind_ok, Outcome.bind_ok,
      List.take_length, List.take_of_length_le (by omega), List.take_of_length_le (by omega)]
    rfl
  rw [hf]
  rcases hw with hw | hw <;> rw [hw] at la lb lc
  · obtain ⟨_, r, e, h⟩ := c59_simd32 N hN la lb lc (by omega) (by omega)
    rw [hw, if_pos rfl, e, zipWith_eq_of_mulAdded ha hb h]
  · obtain ⟨_, r, e, h⟩ := c59_simd64_partial N hN la lb lc (by omega) (by omega)
    rw [hw, if_neg (by norm_num), e, zipWith_eq_of_mulAdded ha hb h]

/-- Nine elements and four lanes: two vector iterations and one element left, with carries between the words. -/
example : batch64 4 (List.replicate 9 (2 ^ 62 + 5)) (List.replicate 9 (2 ^ 63 + 7)) (List.replicate 9 (2 ^ 64 - 1)) =
    .ok (List.replicate 9 (2 ^ 64 - 1 + (2 ^ 62 + 5) * (2 ^ 63 + 7))) ∧
    batch32 8 (List.range 13) (List.range 13) (List.range 13) = .ok ((List.range 13).map fun i => i + i * i) := by
  decide +kernel

end Shell
