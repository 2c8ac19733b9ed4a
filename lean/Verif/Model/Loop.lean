import Verif.Model.Core
/-!
Counting loops and vector access.  `loop n f s` is `for (i = 0; i < n; i++) s = f(i, s)`, stopping at
the first error or undefined behaviour; `rd v i` is `v[i]` of a `std::vector`, whose out-of-range use
is undefined behaviour.
-/

namespace Shell

/-- `k` iterations starting with index `i` (C++ semantics; used for example at rns/rns_polynomial.cc:255-336). -/
def loopFrom {σ : Type} (f : ℕ → σ → Outcome σ) : ℕ → ℕ → σ → Outcome σ
  | 0, _, s => .ok s
  | k + 1, i, s => do
    let s' ← f i s
    loopFrom f k (i + 1) s'

/-- `for (i = 0; i < n; i++) s = f(i, s)` (C++ semantics; used for example at dft_transformations.h:63-80). -/
def loop {σ : Type} (n : ℕ) (f : ℕ → σ → Outcome σ) (s : σ) : Outcome σ := loopFrom f n 0 s

/-- `v[i]` (C++ semantics; used for example at ntt_parameters.h:36-40). -/
def rd {α : Type} (v : List α) (i : ℕ) : Outcome α :=
  match v[i]? with
  | some x => .ok x
  | none => .ub .outOfBounds

/-- `v[i] = x` (C++ semantics; used for example at ntt_parameters.h:36-40). -/
def wr {α : Type} (v : List α) (i : ℕ) (x : α) : Outcome (List α) :=
  if i < v.length then .ok (v.set i x) else .ub .outOfBounds

end Shell
