import Verif.Lemmas.Sampler
import Verif.Props.Montgomery
/-!
# C40: random residues

`ImportRandom` draws candidates of `log_modulus` bits until one is below the modulus.
-/

namespace Shell
open Shell.Spec Shell.Prng Shell.Sampler
variable {σ : Type}

/-- A sequence of `n` candidates that are all rejected leads the generator from `s` to `s'`. -/
inductive Rejected (G : Gen σ) (p : MParams) : ℕ → σ → σ → Prop
  | none (s : σ) : Rejected G p 0 s s
  | cons {n : ℕ} {s s₁ s' : σ} {r : ℕ} (h : generateRandomInt G p.w p.logModulus s = .ok (r, s₁))
      (hr : p.modulus ≤ r) (t : Rejected G p n s₁ s') : Rejected G p (n + 1) s s'

/-- C40: a candidate of `L` bits is made of `L` bits of the words returned by the generator: which
calls are made and how many bits of each word are used depends only on `L`. -/
theorem c40_candidate (G : Gen σ) (w L : ℕ) (hw : w = 16 ∨ w = 32 ∨ w = 64 ∨ w = 128) (hL : 0 < L)
    (hLw : L < w) (s : σ) :
    generateRandomInt G w L s = (do
      let (ws, s) ← drawWords G ((pieces L).map Prod.fst) s
      .ok (assemble ((pieces L).map Prod.snd) ws, s)) ∧
    ((pieces L).map Prod.snd).sum = L :=
  ⟨generate_eq G hw hL hLw s, pieces_sum⟩

/-- C40: candidates are uniform: every value below `2^L` arises from exactly one choice of the `L`
bits, and the other bits of the words do not matter. -/
theorem c40_candidate_uniform (L v : ℕ) (hv : v < 2 ^ L) :
    (∃! us : List ℕ, List.Forall₂ (fun u k => u < 2 ^ k) us ((pieces L).map Prod.snd) ∧
      assemble ((pieces L).map Prod.snd) us = v) ∧
    ∀ ws : List ℕ, assemble ((pieces L).map Prod.snd) ws < 2 ^ L := by
  refine ⟨assemble_bij _ v (by rw [pieces_sum]; exact hv), fun ws => ?_⟩
  have := assemble_lt ((pieces L).map Prod.snd) ws
  rwa [pieces_sum] at this

/-- C40: `ImportRandom` returns `r` exactly when `r` is the first candidate below the modulus; in
particular the result is a canonical residue. -/
theorem c40_first_accepted (G : Gen σ) (p : MParams) (fuel : ℕ) (s s' : σ) (r : ℕ) :
    importRandom G p fuel s = .ok (r, s') ↔
      ∃ n < fuel, ∃ s₁, Rejected G p n s s₁ ∧
        generateRandomInt G p.w p.logModulus s₁ = .ok (r, s') ∧ r < p.modulus := by
  induction fuel generalizing s with
  | zero => simp [importRandom]
  | succ fuel ih =>
    rw [importRandom]
    constructor
    · intro h
      obtain ⟨q, hq, h⟩ := Outcome.bind_eq_ok.mp h
      simp only at h
      obtain ⟨hge, h⟩ | ⟨hlt, h⟩ := ite_eq_iff.mp h
      · obtain ⟨n, hn, s₁, h1, h2⟩ := (ih q.2).mp h
        exact ⟨n + 1, by omega, s₁, .cons hq hge h1, h2⟩
      · cases h
        exact ⟨0, by omega, s, .none s, hq, by omega⟩
    · rintro ⟨n, hn, s₁, h1, h2, h3⟩
      cases h1 with
      | none => simp [h2, not_le.mpr h3]
      | @cons n s sm _ r' hr hge t =>
        rw [hr]
        simp only [Outcome.bind_ok]
        rw [if_pos hge]
        exact (ih sm).mpr ⟨n, by omega, s₁, t, h2, h3⟩

/-- C40: for parameters made by `Create`, the candidates have exactly as many bits as the modulus, so
more than half of them are accepted, and every residue modulo the modulus is the result of exactly
one accepted candidate. -/
theorem c40_residues {w N : ℕ} {p : MParams} (h : MParams.create w N = .ok p) (hN : N < 2 ^ 128) :
    N < 2 ^ p.logModulus ∧ 2 ^ p.logModulus ≤ 2 * N ∧ p.modulus = N ∧
    ∀ y < N, ∃! r, r < N ∧ Mont.exportInt p r = y := by
  have g := good_of_create h
  have hp := (create_ok_iff w N p).mp h
  have hlog : p.logModulus = Bits.bitLength N := by rw [hp.2.2]; rfl
  have hmod : p.modulus = N := by rw [hp.2.2]; rfl
  obtain ⟨h1, h2⟩ := c12_bit_length N hN
  rw [hlog]
  refine ⟨h1, ?_, hmod, ?_⟩
  · by_contra hc
    have hpos : 0 < Bits.bitLength N := by
      by_contra h0
      have : Bits.bitLength N = 0 := by omega
      rw [this] at h1
      have := g.pos
      omega
    have hlt : N < 2 ^ (Bits.bitLength N - 1) := by
      obtain ⟨m, hm⟩ : ∃ m, Bits.bitLength N = m + 1 := ⟨_, (Nat.sub_add_cancel hpos).symm⟩
      rw [hm, pow_succ] at hc
      rw [hm, Nat.add_sub_cancel]; omega
    have := h2 _ hlt
    omega
  · intro y hy
    obtain ⟨c1, -, -, -, -, c2⟩ := c01_import_export h
    have hw := g.lt
    refine ⟨Mont.importInt p y, ⟨(c1 y (by omega)).2, ?_⟩, ?_⟩
    · rw [(c1 y (by omega)).1, Nat.mod_eq_of_lt hy]
    · rintro r ⟨hr, he⟩
      rw [← he, (c2 r hr).2]

/-- C40: `SamplePolynomialFromPrng` returns exactly the requested number of residues, each obtained
by its own `ImportRandom` from the generator's continuing stream; non-positive counts are rejected. -/
theorem c40_polynomial (G : Gen σ) (p : MParams) (fuel : ℕ) (n : ℤ) (s : σ) :
    (n < 1 → samplePolynomial G p fuel n s = .err .invalidArgument) ∧
    (1 ≤ n → samplePolynomial G p fuel n s = times (importRandom G p fuel) n.toNat s) ∧
    ∀ s' cs, samplePolynomial G p fuel n s = .ok (cs, s') →
      (cs.length : ℤ) = n ∧ ∀ c ∈ cs, c < p.modulus := by
  have heq : 1 ≤ n → samplePolynomial G p fuel n s = times (importRandom G p fuel) n.toNat s := by
    intro hn
    unfold samplePolynomial loop
    rw [if_neg (by omega)]
    have := loop_push (importRandom G p fuel) n.toNat 0 [] s
    rw [this]
    cases times (importRandom G p fuel) n.toNat s <;> simp
  refine ⟨fun h => ?_, heq, ?_⟩
  · unfold samplePolynomial; rw [if_pos h]
  · intro s' cs h
    by_cases hn : n < 1
    · unfold samplePolynomial at h; rw [if_pos hn] at h; cases h
    · rw [heq (by omega)] at h
      refine ⟨?_, ?_⟩
      · have := times_length _ _ _ _ _ h; omega
      · generalize n.toNat = m at h
        induction m generalizing s cs with
        | zero => cases h; simp
        | succ m ih =>
          rw [times] at h
          obtain ⟨q, hq, h⟩ := Outcome.bind_eq_ok.mp h
          obtain ⟨t, ht, h⟩ := Outcome.bind_eq_ok.mp h
          cases h
          obtain ⟨_, _, _, _, _, hlt⟩ := (c40_first_accepted G p fuel s q.2 q.1).mp hq
          intro c hc
          rcases List.mem_cons.mp hc with rfl | hc
          · exact hlt
          · refine ih q.2 ?_ t.1 ht c hc
            intro hn'
            unfold samplePolynomial loop
            rw [if_neg (by omega)]
            rw [loop_push (importRandom G p fuel) n.toNat 0 [] q.2]
            cases times (importRandom G p fuel) n.toNat q.2 <;> simp

/-! ### A concrete case: modulus 12289 (14 bits), a generator returning a counter -/

/-- A toy generator: the state is the next value. -/
def counterGen : Gen ℕ where
  rand8 s := .ok (s % 2 ^ 8, s + 1)
  rand64 s := .ok (s % 2 ^ 64, s + 1)

/-- From 12290 on, the candidates 12290, …, 16383 are rejected, then 16384 is truncated to 14 bits
and accepted as 0. -/
example : importRandom counterGen exParams 2 16383 = .ok (0, 16385) ∧
    importRandom counterGen exParams 1 16383 = .ub .diverge ∧
    samplePolynomial counterGen exParams 4 3 5 = .ok ([5, 6, 7], 8) := by decide +kernel

example : Words counterGen where
  byte := by rintro s v s' h; cases h; exact Nat.mod_lt _ (by norm_num)
  word := by rintro s v s' h; cases h; exact Nat.mod_lt _ (by norm_num)

end Shell
