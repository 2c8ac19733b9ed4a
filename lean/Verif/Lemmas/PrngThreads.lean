import Verif.Lemmas.Prng

namespace Shell.Prng
open Shell.Spec

variable {K : Kind} {key : List ℕ} {block : ℕ → List ℕ} {M : ℕ}

/-- The accumulator after `i` bytes of a call that started at offset `p`. -/
def AccOk (block : ℕ → List ℕ) (B : ℕ) : Op → ℕ → ℕ → ℕ → Prop
  | .rand8, p, i, acc => i = 1 → acc = byteAt block B p
  | .rand64, p, i, acc => acc = partialLE (fun j => byteAt block B (p + j)) i

/-- A call in progress that started at offset `p`. -/
def Body (K : Kind) (key : List ℕ) (block : ℕ → List ℕ) (M p : ℕ) (g : State) (a : Active) : Prop :=
  AccOk block K.bufSize a.op p a.i a.acc ∧ At K key block M (p + a.i) g ∧
  match a.phase with
  | .refill => a.i < width a.op
  | .read => a.i < width a.op ∧ g.pos < K.bufSize
  | .advance b => a.i < width a.op ∧ g.pos < K.bufSize ∧ b = byteAt block K.bufSize (p + a.i)
  | .ret => a.i = width a.op

theorem bytes_eq_width (op : Op) : op.bytes = width op := by cases op <;> rfl

/-- The outcome of an action of the generator that has been promised `M` blocks: it fulfils `P`, or
it overflows the salt counter, which needs `2^31` blocks. -/
def OkOr {α : Type} (M : ℕ) (x : Outcome α) (P : α → Prop) : Prop :=
  (2 ^ 31 ≤ M ∧ x = .ub .signedOverflow) ∨ ∃ r, x = .ok r ∧ P r

theorem refill_at' (h : Source K key block M) (hB : 0 < K.bufSize) {p : ℕ}
    {s : State} (hs : At K key block M p s) (hp : p < M * K.bufSize) :
    OkOr M (refill K s) fun s' => At K key block M p s' ∧ s'.pos < K.bufSize := by
  by_cases hM31 : M < 2 ^ 31
  · exact .inr (refill_at h hM31 hB hs hp)
  · obtain ⟨hk, c, hc, hsalt, hbuf, hpos, hpp⟩ := hs
    unfold refill
    by_cases hlt : s.pos ≥ s.buf.length
    · rw [if_pos hlt]
      rw [hbuf, h.size c hc] at hlt
      have hpe : s.pos = K.bufSize := le_antisymm hpos hlt
      have hc1 : c + 1 < M := by
        by_contra hcon
        have : M ≤ c + 1 := by omega
        have h2 := Nat.mul_le_mul_right K.bufSize this
        rw [hpp, hpe] at hp
        have : (c + 1) * K.bufSize = c * K.bufSize + K.bufSize := by ring
        omega
      unfold resalt
      rw [hk, hsalt, h.fill _ hc1]
      simp only [Outcome.bind_ok]
      unfold incInt
      by_cases hi : c + 1 + 1 < 2 ^ 31
      · rw [if_pos hi]
        refine .inr ⟨_, rfl, ⟨rfl, c + 1, hc1, rfl, rfl, Nat.zero_le _, ?_⟩, hB⟩
        show p = (c + 1) * K.bufSize + 0
        rw [hpp, hpe]; ring
      · rw [if_neg hi]; exact .inl ⟨by omega, rfl⟩
    · rw [if_neg hlt]
      rw [hbuf, h.size c hc] at hlt
      exact .inr ⟨s, rfl, ⟨hk, c, hc, hsalt, hbuf, hpos, hpp⟩, by omega⟩

theorem bodyStep_ok (h : Source K key block M) (hB : 0 < K.bufSize)
    (hB31 : K.bufSize < 2 ^ 31) {p : ℕ} {g : State} {a : Active} (ha : Body K key block M p g a)
    (hret : a.phase ≠ .ret) (hp : p + width a.op ≤ M * K.bufSize) :
    OkOr M (bodyStep K g a) fun r => Body K key block M p r.1 r.2 ∧ r.2.op = a.op ∧
      r.2.phase ≠ a.phase := by
  suffices hh : (2 ^ 31 ≤ M ∧ bodyStep K g a = .ub .signedOverflow) ∨
      ∃ g' a', bodyStep K g a = .ok (g', a') ∧ Body K key block M p g' a' ∧ a'.op = a.op ∧
        a'.phase ≠ a.phase by
    rcases hh with hh | ⟨g', a', h1, h2⟩
    · exact .inl hh
    · exact .inr ⟨(g', a'), h1, h2⟩
  obtain ⟨op, i, acc, ph⟩ := a
  obtain ⟨hacc, hat, hph⟩ := ha
  cases ph with
  | refill =>
    rcases refill_at' h hB hat (by simp only at hph hp ⊢; omega) with ⟨h0, h1⟩ | ⟨g', h1, h2, h3⟩
    · left
      simp only [bodyStep, h1, Outcome.bind_ub]
      exact ⟨h0, trivial⟩
    · refine .inr ⟨g', ⟨op, i, acc, .read⟩, ?_, ⟨hacc, h2, hph, h3⟩, rfl, nofun⟩
      simp only [bodyStep, h1, Outcome.bind_ok]
  | read =>
    refine .inr ⟨g, ⟨op, i, acc, .advance (byteAt block K.bufSize (p + i))⟩, ?_,
      ⟨hacc, hat, hph.1, hph.2, rfl⟩, rfl, nofun⟩
    simp only [bodyStep, readByte_at h hat hph.2, Outcome.bind_ok]
  | advance b =>
    simp only at hph hat hacc hp
    obtain ⟨hi, hpos, rfl⟩ := hph
    obtain ⟨g', h1, h2⟩ := advance_at hB31 hat hpos
    have hph' : ∀ acc', (match (if i + 1 < op.bytes then Phase.refill else Phase.ret) with
        | .refill => (⟨op, i + 1, acc', if i + 1 < op.bytes then .refill else .ret⟩ : Active).i < width op
        | .read => i + 1 < width op ∧ g'.pos < K.bufSize
        | .advance b => i + 1 < width op ∧ g'.pos < K.bufSize ∧
            b = byteAt block K.bufSize (p + (i + 1))
        | .ret => i + 1 = width op) := by
      intro acc'
      rw [bytes_eq_width]
      by_cases hlt : i + 1 < width op
      · rw [if_pos hlt]; exact hlt
      · rw [if_neg hlt]; simp only; omega
    cases op with
    | rand8 =>
      refine .inr ⟨g', ⟨.rand8, i + 1, byteAt block K.bufSize (p + i),
        if i + 1 < Op.bytes .rand8 then .refill else .ret⟩,
        by simp only [bodyStep, h1, Outcome.bind_ok], ⟨?_, h2, hph' 0⟩, rfl,
        by simp only; split_ifs <;> exact nofun⟩
      intro h'
      have : i = 0 := by simp only at h'; omega
      subst this; rfl
    | rand64 =>
      refine .inr ⟨g', ⟨.rand64, i + 1, accumulate acc i (byteAt block K.bufSize (p + i)),
        if i + 1 < Op.bytes .rand64 then .refill else .ret⟩,
        by simp only [bodyStep, h1, Outcome.bind_ok], ⟨?_, h2, hph' 0⟩, rfl,
        by simp only; split_ifs <;> exact nofun⟩
      simp only [AccOk] at hacc ⊢
      rw [hacc]
      simp only [width] at hi hp
      exact accumulate_eq (fun j => byteAt block K.bufSize (p + j)) i hi
        (fun j hj => byteAt_lt h hB (by omega))
  | ret => exact absurd rfl hret

theorem body_start {p : ℕ} {g : State} (hat : At K key block M p g) (op : Op) :
    Body K key block M p g ⟨op, 0, 0, .refill⟩ := by
  refine ⟨?_, hat, ?_⟩
  · cases op with
    | rand8 => intro h; cases h
    | rand64 => simp [AccOk, partialLE]
  · cases op <;> simp [width]

theorem body_ret {p : ℕ} {g : State} {a : Active} (ha : Body K key block M p g a)
    (hret : a.phase = .ret) :
    a.acc = valueAt block K.bufSize a.op p ∧ At K key block M (p + width a.op) g := by
  obtain ⟨op, i, acc, ph⟩ := a
  simp only at hret
  subst hret
  obtain ⟨hacc, hat, hi⟩ := ha
  simp only at hi
  subst hi
  refine ⟨?_, hat⟩
  cases op with
  | rand8 => exact hacc rfl
  | rand64 => exact hacc

/-- Bytes a thread will still take, counting the call in progress in full. -/
def rem (th : Thread) : ℕ :=
  ((th.cur.map fun a => width a.op).getD 0) + (th.todo.map width).sum

theorem sum_set {α : Type} (f : α → ℕ) (l : List α) (t : ℕ) (x y : α) (h : l[t]? = some x) :
    ((l.set t y).map f).sum + f x = (l.map f).sum + f y := by
  induction l generalizing t with
  | nil => simp at h
  | cons a l ih =>
    cases t with
    | zero =>
      simp only [List.getElem?_cons_zero, Option.some.injEq] at h
      subst h
      simp only [List.set_cons_zero, List.map_cons, List.sum_cons]; omega
    | succ t =>
      simp only [List.getElem?_cons_succ] at h
      have := ih t h
      simp only [List.set_cons_succ, List.map_cons, List.sum_cons]; omega

theorem le_sum {α : Type} (f : α → ℕ) (l : List α) (t : ℕ) (x : α) (h : l[t]? = some x) :
    f x ≤ (l.map f).sum := by
  induction l generalizing t with
  | nil => simp at h
  | cons a l ih =>
    cases t with
    | zero =>
      simp only [List.getElem?_cons_zero, Option.some.injEq] at h
      subst h; simp
    | succ t =>
      simp only [List.getElem?_cons_succ] at h
      have := ih t h
      simp only [List.map_cons, List.sum_cons]; omega

/-- The state of the mutex and of the generator, `p` bytes having been handed out by completed
calls. -/
def MutexOk (K : Kind) (key : List ℕ) (block : ℕ → List ℕ) (M p : ℕ) (S : Sys) : Prop :=
  match S.owner with
  | none => At K key block M p S.gen ∧ ∀ (t : ℕ) (th : Thread), S.threads[t]? = some th → th.cur = none
  | some t => ∃ (th : Thread) (a : Active), S.threads[t]? = some th ∧ th.cur = some a ∧ Body K key block M p S.gen a ∧
      ∀ (u : ℕ) (th' : Thread), u ≠ t → S.threads[u]? = some th' → th'.cur = none

/-- The invariant of all executions. -/
structure Inv (K : Kind) (key : List ℕ) (block : ℕ → List ℕ) (M : ℕ) (programs : List (List Op))
    (S : Sys) : Prop where
  len : S.threads.length = programs.length
  lin : S.log.map (·.2.2) = valuesFrom block K.bufSize (S.log.map (·.2.1)) 0
  thr : ∀ (t : ℕ) (th : Thread), S.threads[t]? = some th →
    th.results = (S.log.filter (fun e => e.1 = t)).map (·.2) ∧
    programs[t]? = some (th.results.map Prod.fst ++ (th.cur.map Active.op).toList ++ th.todo)
  mutex : MutexOk K key block M ((S.log.map (fun e => width e.2.1)).sum) S
  budget : (S.log.map (fun e => width e.2.1)).sum + (S.threads.map rem).sum ≤ M * K.bufSize

theorem getElem?_set_some {α : Type} {l : List α} {t u : ℕ} {x y z : α} (h : l[t]? = some x)
    (hz : (l.set t y)[u]? = some z) : (u = t ∧ z = y) ∨ (u ≠ t ∧ l[u]? = some z) := by
  have hl : t < l.length := by
    by_contra hc
    rw [List.getElem?_eq_none (by omega)] at h; cases h
  rw [List.getElem?_set] at hz
  by_cases e : t = u
  · subst e
    simp only [if_true, hl] at hz
    left; exact ⟨rfl, by simpa using hz.symm⟩
  · rw [if_neg e] at hz
    right; exact ⟨fun h => e h.symm, hz⟩

theorem getElem?_set_self' {α : Type} {l : List α} {t : ℕ} {x y : α} (h : l[t]? = some x) :
    (l.set t y)[t]? = some y := by
  have hl : t < l.length := by
    by_contra hc
    rw [List.getElem?_eq_none (by omega)] at h; cases h
  rw [List.getElem?_set]; simp [hl]

theorem inv_initial (h : Source K key block M) {programs : List (List Op)} {g : State}
    (hg : At K key block M 0 g)
    (hb : (programs.map fun p => (p.map width).sum).sum ≤ M * K.bufSize) :
    Inv K key block M programs (initial g programs) where
  len := by simp [initial]
  lin := by simp [initial, valuesFrom]
  thr := by
    intro t th ht
    simp only [initial, List.getElem?_map] at ht ⊢
    cases hp : programs[t]? with
    | none => rw [hp] at ht; cases ht
    | some p =>
      rw [hp] at ht
      simp only [Option.map_some, Option.some.injEq] at ht
      subst ht
      simp
  mutex := by
    refine ⟨by simpa [initial] using hg, ?_⟩
    intro t th ht
    simp only [initial, List.getElem?_map] at ht
    cases hp : programs[t]? with
    | none => rw [hp] at ht; cases ht
    | some p =>
      rw [hp] at ht
      simp only [Option.map_some, Option.some.injEq] at ht
      subst ht; rfl
  budget := by
    have : (programs.map fun p => (⟨p, none, []⟩ : Thread)).map rem =
        programs.map fun p => (p.map width).sum := by
      rw [List.map_map]; congr 1; funext p; simp [rem]
    simp only [initial, List.map_nil, List.sum_nil, this]
    simpa using hb

theorem inv_step (h : Source K key block M) (hB : 0 < K.bufSize)
    (hB31 : K.bufSize < 2 ^ 31) {programs : List (List Op)} {S : Sys}
    (hI : Inv K key block M programs S) (t : ℕ) :
    OkOr M (step K S t) fun S' => Inv K key block M programs S' := by
  unfold step
  cases ht : S.threads[t]? with
  | none => exact .inr ⟨S, rfl, hI⟩
  | some th =>
    obtain ⟨hres, hprog⟩ := hI.thr t th ht
    simp only
    cases hcur : th.cur with
    | none =>
      simp only
      cases htodo : th.todo with
      | nil => exact .inr ⟨S, rfl, hI⟩
      | cons op rest =>
        simp only
        by_cases ho : S.owner = none
        · rw [if_pos ho]
          have hm := hI.mutex
          unfold MutexOk at hm
          rw [ho] at hm
          simp only at hm
          refine .inr ⟨_, rfl, ?_, hI.lin, ?_, ?_, ?_⟩
          · simp [hI.len]
          · intro u th' hu
            rcases getElem?_set_some ht hu with ⟨rfl, rfl⟩ | ⟨hne, hu'⟩
            · refine ⟨hres, ?_⟩
              rw [hprog, hcur, htodo]; simp
            · exact hI.thr u th' hu'
          · unfold MutexOk
            refine ⟨_, _, getElem?_set_self' ht, rfl, body_start hm.1 op, ?_⟩
            intro u th' hne hu
            rcases getElem?_set_some ht hu with ⟨rfl, rfl⟩ | ⟨_, hu'⟩
            · exact absurd rfl hne
            · exact hm.2 u th' hu'
          · have := sum_set rem S.threads t th
              { th with todo := rest, cur := some ⟨op, 0, 0, .refill⟩ } ht
            have hb := hI.budget
            have e1 : rem { th with todo := rest, cur := some ⟨op, 0, 0, .refill⟩ } = rem th := by
              simp [rem, hcur, htodo]
            rw [e1] at this
            simp only
            omega
        · rw [if_neg ho]; exact .inr ⟨S, rfl, hI⟩
    | some a =>
      simp only
      have hm := hI.mutex
      unfold MutexOk at hm
      -- the thread inside a call owns the mutex
      cases ho : S.owner with
      | none => rw [ho] at hm; have := hm.2 t th ht; rw [hcur] at this; cases this
      | some o =>
        rw [ho] at hm
        obtain ⟨th', a', h1, h2, h3, h4⟩ := hm
        have hot : t = o := by
          by_contra hne
          have := h4 t th hne ht
          rw [hcur] at this; cases this
        subst hot
        rw [ht] at h1; cases h1
        rw [hcur] at h2; cases h2
        have hle := le_sum rem S.threads t th ht
        have hb := hI.budget
        have hrem : rem th = width a.op + (th.todo.map width).sum := by simp [rem, hcur]
        by_cases hret : a.phase = .ret
        · simp only [hret]
          obtain ⟨hv, hat⟩ := body_ret h3 hret
          refine .inr ⟨_, rfl, ?_, ?_, ?_, ?_, ?_⟩
          · simp [hI.len]
          · simp only [List.map_append, List.map_cons, List.map_nil, valuesFrom_append, valuesFrom,
              hI.lin, hv, Nat.zero_add, List.map_map]
            rfl
          · intro u th' hu
            rcases getElem?_set_some ht hu with ⟨rfl, rfl⟩ | ⟨hne, hu'⟩
            · refine ⟨?_, ?_⟩
              · simp only [hres, List.filter_append, List.map_append]
                simp
              · rw [hprog, hcur]; simp
            · obtain ⟨r1, r2⟩ := hI.thr u th' hu'
              refine ⟨?_, r2⟩
              rw [r1]
              simp [List.filter_append, Ne.symm hne]
          · unfold MutexOk
            refine ⟨?_, ?_⟩
            · simp only [List.map_append, List.sum_append, List.map_cons, List.map_nil, List.sum_cons,
                List.sum_nil, Nat.add_zero]
              exact hat
            · intro u th' hu
              rcases getElem?_set_some ht hu with ⟨rfl, rfl⟩ | ⟨hne, hu'⟩
              · rfl
              · exact h4 u th' hne hu'
          · have := sum_set rem S.threads t th
              { th with cur := none, results := th.results ++ [(a.op, a.acc)] } ht
            rw [hrem] at this
            have e2 : rem { th with cur := none, results := th.results ++ [(a.op, a.acc)] } =
              (th.todo.map width).sum := by simp [rem]
            rw [e2] at this
            simp only [List.map_append, List.sum_append, List.map_cons, List.map_nil, List.sum_cons,
                List.sum_nil, Nat.add_zero]
            omega
        · rcases bodyStep_ok h hB hB31 h3 hret (by omega) with ⟨h0, e1⟩ | ⟨⟨g', a'⟩, e1, e2, e3, -⟩
          · refine .inl ⟨h0, ?_⟩
            cases hph : a.phase with
            | ret => exact absurd hph hret
            | _ => simp only [e1, Outcome.bind_ub]
          simp only at e2 e3
          have hgoal : Inv K key block M programs
              { S with gen := g', threads := S.threads.set t { th with cur := some a' } } := by
            refine ⟨?_, hI.lin, ?_, ?_, ?_⟩
            · simp [hI.len]
            · intro u th' hu
              rcases getElem?_set_some ht hu with ⟨rfl, rfl⟩ | ⟨hne, hu'⟩
              · refine ⟨hres, ?_⟩
                rw [hprog, hcur]; simp [e3]
              · exact hI.thr u th' hu'
            · unfold MutexOk
              simp only [ho]
              refine ⟨_, a', getElem?_set_self' ht, rfl, e2, ?_⟩
              intro u th' hne hu
              rcases getElem?_set_some ht hu with ⟨rfl, rfl⟩ | ⟨_, hu'⟩
              · exact absurd rfl hne
              · exact h4 u th' hne hu'
            · have := sum_set rem S.threads t th { th with cur := some a' } ht
              have e4 : rem { th with cur := some a' } = rem th := by simp [rem, hcur, e3]
              rw [e4] at this
              simp only
              omega
          refine .inr ⟨_, ?_, hgoal⟩
          cases hph : a.phase with
          | ret => exact absurd hph hret
          | _ => simp only [e1, Outcome.bind_ok, ho]

theorem inv_run (h : Source K key block M) (hB : 0 < K.bufSize)
    (hB31 : K.bufSize < 2 ^ 31) {programs : List (List Op)} (sched : List ℕ) {S : Sys}
    (hI : Inv K key block M programs S) :
    OkOr M (run K sched S) fun S' => Inv K key block M programs S' := by
  induction sched generalizing S with
  | nil => exact .inr ⟨S, rfl, hI⟩
  | cons t ts ih =>
    rcases inv_step h hB hB31 hI t with ⟨h0, h1⟩ | ⟨S1, h1, h2⟩
    · exact .inl ⟨h0, by unfold run; rw [h1]; rfl⟩
    · unfold run
      rw [h1, Outcome.bind_ok]
      exact ih h2

end Shell.Prng
