import Verif.Lemmas.PrngThreads
import Verif.Props.Prng
/-!
# C37: the thread-safe generators under every schedule

`run K sched (initial g programs)` executes the given programs (one list of `Rand8`/`Rand64` calls
per thread) under an arbitrary schedule, where each scheduled step reads or writes one piece of the
shared state.
-/

namespace Shell
open Shell.Prng Shell.Spec

/-- What C37 demands of a state reached by an execution: `log` is a sequential order of the completed
calls such that

* every completed call returned the piece of the key stream at its place in that order;
* every thread received exactly the results that the order attributes to it, in order;
* the calls of every thread are those of its program, in program order, and all of them once the
  thread has finished. -/
structure Linearized (block : ℕ → List ℕ) (programs : List (List Op)) (S : Sys) : Prop where
  value : ∀ (j t : ℕ) (op : Op) (v : ℕ), S.log[j]? = some (t, op, v) →
    v = valueAt block 8160 op (offset (S.log.map fun e => e.2.1) j)
  own : ∀ (t : ℕ) (th : Thread), S.threads[t]? = some th →
    th.results = (S.log.filter fun e => e.1 = t).map fun e => e.2
  program : ∀ (t : ℕ) (th : Thread), S.threads[t]? = some th → ∃ p, programs[t]? = some p ∧
    (th.results.map Prod.fst) <+: p ∧
    (th.cur = none → th.todo = [] → th.results.map Prod.fst = p)
  threads : S.threads.length = programs.length
  known : ∀ e ∈ S.log, e.1 < programs.length

theorem step_known {K : Kind} {S S' : Sys} {t : ℕ} (h : step K S t = .ok S')
    (hk : ∀ e ∈ S.log, e.1 < S.threads.length) :
    S.log <+: S'.log ∧ S'.threads.length = S.threads.length ∧ ∀ e ∈ S'.log, e.1 < S'.threads.length := by
  unfold step at h
  cases ht : S.threads[t]? with
  | none => rw [ht] at h; cases h; exact ⟨List.prefix_rfl, rfl, hk⟩
  | some th =>
    have hlt : t < S.threads.length := by
      by_contra hc
      rw [List.getElem?_eq_none (by omega)] at ht; cases ht
    rw [ht] at h
    simp only at h
    cases hcur : th.cur with
    | none =>
      rw [hcur] at h
      simp only at h
      cases htodo : th.todo with
      | nil => rw [htodo] at h; cases h; exact ⟨List.prefix_rfl, rfl, hk⟩
      | cons op rest =>
        rw [htodo] at h
        simp only at h
        obtain ⟨_, h⟩ | ⟨_, h⟩ := ite_eq_iff.mp h <;> cases h
        · exact ⟨List.prefix_rfl, by simp, fun e he => by simpa using hk e he⟩
        · exact ⟨List.prefix_rfl, rfl, hk⟩
    | some a =>
      rw [hcur] at h
      simp only at h
      have key : ∀ (r : Outcome (State × Active)), (do
          let (g, a) ← r
          (.ok { S with gen := g, threads := S.threads.set t { th with cur := some a } } : Outcome Sys))
          = .ok S' → S.log <+: S'.log ∧ S'.threads.length = S.threads.length ∧
            ∀ e ∈ S'.log, e.1 < S'.threads.length := by
        intro r hr
        cases r with
        | ok q => cases hr; exact ⟨List.prefix_rfl, by simp, fun e he => by simpa using hk e he⟩
        | err e => cases hr
        | ub e => cases hr
      cases hph : a.phase with
      | ret =>
        rw [hph] at h
        cases h
        refine ⟨List.prefix_append _ _, by simp, fun e he => ?_⟩
        simp only [List.mem_append, List.mem_singleton] at he
        rcases he with he | rfl
        · simpa using hk e he
        · simpa using hlt
      | refill => rw [hph] at h; exact key _ h
      | read => rw [hph] at h; exact key _ h
      | advance b => rw [hph] at h; exact key _ h

theorem run_known {K : Kind} (sched : List ℕ) {S S' : Sys} (h : run K sched S = .ok S')
    (hk : ∀ e ∈ S.log, e.1 < S.threads.length) :
    S.log <+: S'.log ∧ S'.threads.length = S.threads.length ∧ ∀ e ∈ S'.log, e.1 < S'.threads.length := by
  induction sched generalizing S with
  | nil => cases h; exact ⟨List.prefix_rfl, rfl, hk⟩
  | cons t ts ih =>
    unfold run at h
    obtain ⟨S1, h1, h2⟩ := Outcome.bind_eq_ok.mp h
    obtain ⟨a1, a2, a3⟩ := step_known h1 hk
    obtain ⟨b1, b2, b3⟩ := ih h2 a3
    exact ⟨a1.trans b1, b2.trans a2, b3⟩

theorem linearized_of_inv {K : Kind} (hK : K.bufSize = 8160) {key : List ℕ} {block : ℕ → List ℕ}
    {M : ℕ} {programs : List (List Op)} {S : Sys} (hI : Inv K key block M programs S)
    (hk : ∀ e ∈ S.log, e.1 < S.threads.length) : Linearized block programs S where
  value := by
    intro j t op v hj
    have h1 := congrArg (fun l => l[j]?) hI.lin
    simp only [List.getElem?_map, hj, Option.map_some, valuesFrom_getElem?, Nat.zero_add, hK,
      Option.some.injEq] at h1
    exact h1
  own := fun t th ht => (hI.thr t th ht).1
  program := by
    intro t th ht
    refine ⟨_, (hI.thr t th ht).2, ?_, ?_⟩
    · rw [List.append_assoc]; exact List.prefix_append _ _
    · intro h1 h2; rw [h1, h2]; simp
  threads := hI.len
  known := fun e he => by rw [← hI.len]; exact hk e he

/-- C37: for every number of threads, every programs of `Rand8` and `Rand64` calls and every
schedule, any execution that does not stop is linearizable. -/
theorem c37_linearizable (K : Kind) (hK : K.bufSize = 8160) (key : List ℕ)
    (block : ℕ → List ℕ) (src : ∀ M, Source K key block M)
    (g : State) (hg : create K key = .ok g) (programs : List (List Op)) (sched : List ℕ) (S : Sys)
    (hrun : run K sched (initial g programs) = .ok S) : Linearized block programs S := by
  have hkey : key.length = K.seedLen := by
    by_contra hne
    rw [c36_create_rejects K key hne] at hg; cases hg
  set total := (programs.map fun p => (p.map width).sum).sum with htot
  have hM : total ≤ (total + 1) * K.bufSize := by rw [hK]; omega
  have hat : At K key block (total + 1) 0 g := by
    unfold create resalt at hg
    rw [if_neg (by simpa using hkey), (src 1).fill 0 (by omega)] at hg
    cases hg
    exact ⟨rfl, 0, Nat.succ_pos _, rfl, rfl, Nat.zero_le _, by simp⟩
  have hI := inv_initial (src (total + 1)) hat hM
  rcases inv_run (src (total + 1)) (by omega) (by omega) sched hI with ⟨-, h1⟩ | ⟨S', h1, h2⟩
  · rw [h1] at hrun; cases hrun
  · rw [h1] at hrun; cases hrun
    exact linearized_of_inv hK h2 (run_known sched h1 (by simp [initial])).2.2

/-- C37: no execution reaches undefined behaviour (and none fails) while the programs together ask
for at most `(2^31 - 1) * 8160` bytes, see `c36_refill_overflow`. -/
theorem c37_no_ub (K : Kind) (hK : K.bufSize = 8160) (key : List ℕ) (hkey : key.length = K.seedLen)
    (block : ℕ → List ℕ) (src : ∀ M, Source K key block M) (programs : List (List Op))
    (hprog : (programs.map fun p => (p.map width).sum).sum ≤ (2 ^ 31 - 1) * 8160) :
    ∃ g, create K key = .ok g ∧ ∀ sched, ∃ S, run K sched (initial g programs) = .ok S := by
  obtain ⟨g, h1, h2⟩ := create_at (src (2 ^ 31 - 1)) (by norm_num) (by norm_num) hkey
  refine ⟨g, h1, fun sched => ?_⟩
  have hI := inv_initial (src (2 ^ 31 - 1)) h2 (by rw [hK]; exact hprog)
  rcases inv_run (src (2 ^ 31 - 1)) (by omega) (by omega) sched hI with ⟨h, -⟩ | ⟨S, h, -⟩
  · norm_num at h
  · exact ⟨S, h⟩

/-- C37: different completed calls received disjoint, and adjacent calls adjacent, ranges of the
stream: the range of call `j` ends where that of call `j + 1` starts. -/
theorem c37_ranges (ops : List Op) (j : ℕ) (op : Op) (hj : ops[j]? = some op) :
    offset ops j + width op = offset ops (j + 1) ∧
    ∀ k, j < k → offset ops j + width op ≤ offset ops k := by
  have hstep : offset ops (j + 1) = offset ops j + width op := by
    unfold offset
    rw [List.take_add_one, hj]
    simp
  have hmono : ∀ a b, a ≤ b → offset ops a ≤ offset ops b := by
    intro a b hab
    obtain ⟨d, rfl⟩ := Nat.exists_eq_add_of_le hab
    unfold offset
    rw [List.take_add, List.map_append, List.sum_append]
    omega
  exact ⟨hstep.symm, fun k hk => hstep ▸ hmono (j + 1) k hk⟩

/-- C37: the order respects real time: continuing an execution only appends to the order, so a call
that completed before another one started comes first. -/
theorem c37_real_time (K : Kind) (g : State) (programs : List (List Op)) (s₁ s₂ : List ℕ) (S S' : Sys)
    (h₁ : run K s₁ (initial g programs) = .ok S) (h₂ : run K s₂ S = .ok S') : S.log <+: S'.log :=
  (run_known s₂ h₂ (run_known s₁ h₁ (by simp [initial])).2.2).1

/-- C37: mutual exclusion and absence of deadlock.  In a reached state at most one thread is inside a
call; and as long as a thread has something left to do, some thread can take a step that changes the
state. -/
theorem c37_progress (K : Kind) (hK : K.bufSize = 8160) (key : List ℕ) (hkey : key.length = K.seedLen)
    (block : ℕ → List ℕ) (src : ∀ M, Source K key block M) (programs : List (List Op))
    (hprog : (programs.map fun p => (p.map width).sum).sum ≤ (2 ^ 31 - 1) * 8160)
    (g : State) (hg : create K key = .ok g) (sched : List ℕ) (S : Sys)
    (hrun : run K sched (initial g programs) = .ok S) :
    (∀ (t u : ℕ) (th th' : Thread), S.threads[t]? = some th → S.threads[u]? = some th' →
      th.cur ≠ none → th'.cur ≠ none → t = u) ∧
    ((∃ th ∈ S.threads, th.cur ≠ none ∨ th.todo ≠ []) →
      ∃ t S', step K S t = .ok S' ∧ S' ≠ S) := by
  obtain ⟨g', h1, h2⟩ := create_at (src (2 ^ 31 - 1)) (by norm_num) (by norm_num) hkey
  rw [hg] at h1; cases h1
  have hI := inv_initial (src (2 ^ 31 - 1)) h2 (by rw [hK]; exact hprog)
  rcases inv_run (src (2 ^ 31 - 1)) (by omega) (by omega) sched hI with ⟨h, -⟩ | ⟨S', h, hS⟩
  · norm_num at h
  rw [h] at hrun; cases hrun
  have hm := hS.mutex
  unfold MutexOk at hm
  cases ho : S.owner with
  | none =>
    rw [ho] at hm
    refine ⟨fun t u th th' ht _ hc => absurd (hm.2 t th ht) hc, ?_⟩
    rintro ⟨th, hth, hdo⟩
    obtain ⟨t, ht⟩ := List.mem_iff_getElem?.mp hth
    have hcur := hm.2 t th ht
    refine ⟨t, ?_⟩
    unfold step
    rw [ht]
    simp only [hcur]
    cases htodo : th.todo with
    | nil => rcases hdo with hdo | hdo <;> contradiction
    | cons op rest =>
      simp only
      rw [if_pos ho]
      refine ⟨_, rfl, fun heq => ?_⟩
      have := congrArg Sys.owner heq
      rw [ho] at this; cases this
  | some o =>
    rw [ho] at hm
    obtain ⟨th, a, e1, e2, e3, e4⟩ := hm
    refine ⟨?_, fun _ => ⟨o, ?_⟩⟩
    · intro t u tht thu ht hu hct hcu
      have a1 : t = o := by by_contra hne; exact hct (e4 t tht hne ht)
      have a2 : u = o := by by_contra hne; exact hcu (e4 u thu hne hu)
      rw [a1, a2]
    · unfold step
      rw [e1]
      simp only [e2]
      by_cases hret : a.phase = .ret
      · simp only [hret]
        refine ⟨_, rfl, fun heq => ?_⟩
        have := congrArg Sys.owner heq
        rw [ho] at this; cases this
      · have hle := le_sum rem S.threads o th e1
        have hrem : rem th = width a.op + (th.todo.map width).sum := by simp [rem, e2]
        have hb := hS.budget
        rcases bodyStep_ok (src (2 ^ 31 - 1)) (by omega) (by omega) e3 hret (by omega)
          with ⟨h, -⟩ | ⟨⟨g', a'⟩, b1, -, -, b2⟩
        · norm_num at h
        · have hne : ({ S with gen := g', threads := S.threads.set o { th with cur := some a' } } : Sys)
              ≠ S := by
            intro heq
            have h3 := congrArg (fun s : Sys => s.threads[o]?) heq
            simp only [getElem?_set_self' e1] at h3
            rw [e1, Option.some.injEq] at h3
            have h4 := congrArg Thread.cur h3
            simp only [e2, Option.some.injEq] at h4
            exact b2 (congrArg Active.phase h4)
          cases hph : a.phase with
          | ret => exact absurd hph hret
          | _ =>
            simp only [b1, Outcome.bind_ok]
            exact ⟨_, rfl, by rw [← ho] at *; exact hne⟩

/-! ### The hypotheses can be met: three threads with interleaved `Rand64` and `Rand8` calls -/

example : ∃ g, create (chacha toyStream) (List.replicate 32 7) = .ok g ∧ ∀ sched, ∃ S,
    run (chacha toyStream) sched (initial g [[.rand64, .rand8], [.rand8], [.rand64]]) = .ok S ∧
    Linearized (fun c => toyStream (List.replicate 32 7) (chachaNonce c) 8160)
      [[.rand64, .rand8], [.rand8], [.rand64]] S := by
  have src : ∀ M, Source (chacha toyStream) (List.replicate 32 7)
      (fun c => toyStream (List.replicate 32 7) (chachaNonce c) 8160) M := fun M =>
    ⟨fun _ _ => rfl, fun _ _ => (toyStream_ok _ _ _).1, fun _ _ => (toyStream_ok _ _ _).2⟩
  obtain ⟨g, h1, h2⟩ := c37_no_ub (chacha toyStream) rfl (List.replicate 32 7) (by simp [chacha]) _ src
    [[.rand64, .rand8], [.rand8], [.rand64]] (by simp [width])
  refine ⟨g, h1, fun sched => ?_⟩
  obtain ⟨S, h3⟩ := h2 sched
  exact ⟨S, h3, c37_linearizable (chacha toyStream) rfl _ _ src g h1 _ sched S h3⟩

end Shell
