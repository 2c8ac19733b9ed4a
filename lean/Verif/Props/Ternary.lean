import Verif.Lemmas.Ternary
import Verif.Props.ErrorSample
/-!
# C39: the uniform ternary sampler
-/

namespace Shell
open Shell.Spec Shell.Sampler
variable {σ : Type}

/-- C39: non-positive counts are rejected. -/
theorem c39_rejects (G : Gen σ) (p : MParams) (fuel : ℕ) (n : ℤ) (s : σ) (h : n ≤ 0) :
    sampleTernary G p fuel n s = .err .invalidArgument := by
  unfold sampleTernary; rw [if_pos h]

/-- C39: the coefficients are the residues of the values picked from the bits drawn, in batches of
eight positions sharing the pairs of bytes; errors of the generator are passed on. -/
theorem c39_sample (G : Gen σ) {w N : ℕ} {p : MParams} (h : MParams.create w N = .ok p)
    (fuel : ℕ) (n : ℤ) (hn : 0 < n) (s : σ) :
    sampleTernary G p fuel n s = (do
      let (ts, s) ← drawTrits G fuel (batches n.toNat) s
      .ok (ts.map fun t : Trit => Mont.importInt p (t.toInt % (N : ℤ)).toNat, s)) := by
  unfold sampleTernary
  rw [if_neg (by omega), ternaryLoop_eq G (good_of_create h) fuel _ _ le_rfl]
  rfl

/-- C39: what a caller sees: the requested number of canonical residues, each one of the residues of
-1, 0 and 1. -/
theorem c39_values (G : Gen σ) {w N : ℕ} {p : MParams} (h : MParams.create w N = .ok p)
    (fuel : ℕ) (n : ℤ) (s s' : σ) (cs : List ℕ) (hs : sampleTernary G p fuel n s = .ok (cs, s')) :
    (cs.length : ℤ) = n ∧ ∀ c ∈ cs, c < N ∧ ∃ e : ℤ, (e = -1 ∨ e = 0 ∨ e = 1) ∧
      (Mont.exportInt p c : ℤ) = e % N := by
  by_cases hn : n ≤ 0
  · rw [c39_rejects G p fuel n s hn] at hs; cases hs
  rw [c39_sample G h fuel n (by omega)] at hs
  obtain ⟨q, hq, hs⟩ := Outcome.bind_eq_ok.mp hs
  cases hs
  have g := good_of_create h
  have hpos := g.pos
  have hlt := g.lt
  refine ⟨?_, ?_⟩
  · have := drawTrits_length G fuel _ _ _ _ hq
    rw [batches_sum] at this
    rw [List.length_map, this]; omega
  · intro c hc
    obtain ⟨t, -, rfl⟩ := List.mem_map.mp hc
    have h1 : 0 ≤ t.toInt % (N : ℤ) := Int.emod_nonneg _ (by omega)
    have h2 : t.toInt % (N : ℤ) < N := Int.emod_lt_of_pos _ (by omega)
    refine ⟨importInt_lt g _ (by omega), t.toInt, by cases t <;> simp [Trit.toInt], ?_⟩
    rw [(c01_import_export h).1 _ (by omega) |>.1]
    push_cast
    rw [Int.toNat_of_nonneg h1, Int.emod_emod]

/-- C39: `patterns m` lists every sequence of `m` pairs of bits exactly once. -/
theorem c39_patterns (m : ℕ) :
    (∀ l : List (Bool × Bool), l ∈ patterns m ↔ l.length = m) ∧ (patterns m).Nodup ∧
      (patterns m).length = 4 ^ m :=
  ⟨mem_patterns m, patterns_nodup m, patterns_length m⟩

/-- C39: uniformity: after any number of rounds, the three values are picked by equally many patterns
of bits, and a single pattern leaves the position without a value. -/
theorem c39_uniform (m : ℕ) :
    (∀ t t' : Trit, (patterns m).countP (fun l => pick true l = some t) =
      (patterns m).countP (fun l => pick true l = some t')) ∧
    (patterns m).countP (fun l => pick true l = none) = 1 := by
  have key : ∀ (m : ℕ) (b : Bool), (∀ t t' : Trit,
      (patterns m).countP (fun l => pick b l = some t) =
      (patterns m).countP (fun l => pick b l = some t')) ∧
      (patterns m).countP (fun l => pick b l = none) = 1 := by
    intro m
    induction m with
    | zero => intro b; simp [patterns, pick]
    | succ m ih =>
      intro b
      refine ⟨fun t t' => ?_, ?_⟩
      · rw [count_step, count_step, (ih false).1 t t']
      · rw [count_none_step, (ih false).2]
  exact key m true

/-- C39: once a value is picked, further rounds do not change it, so the values of the positions of a
batch do not depend on when the other positions finish. -/
theorem c39_stable (l r : List (Bool × Bool)) (t : Trit) (h : pick true l = some t) :
    pick true (l ++ r) = some t := by
  induction r using List.reverseRecOn with
  | nil => simpa
  | append_singleton r x ih => rw [← List.append_assoc, pick_append, ih]

/-! ### A concrete case -/

/-- Ten coefficients modulo 12289; position 1 of the first batch needs a second round. -/
example : ∃ cs s', sampleTernary listGen exParams 5 10 [0b00000101, 0b00000110, 0b10, 0b10, 1, 0] =
      .ok (cs, s') ∧
    cs.map (Mont.exportInt exParams) = [1, 1, 12288, 0, 0, 0, 0, 0, 1, 0] ∧
    MParams.create 16 12289 = .ok exParams :=
  ⟨_, _, rfl, by decide +kernel, exParams_ok⟩

end Shell
