import Verif.Model.Word
/-!
Specification vocabulary for compressed encryption.
-/

namespace Shell.Spec
open Shell.Word
variable {σ τ : Type}

/-- The generator whose first `n` calls are answered by `P` and all later calls by `Q`; the state is
`n` with the states of `P` and `Q`. -/
def splice (P : Gen σ) (Q : Gen τ) : Gen (ℕ × σ × τ) where
  rand8 := fun
    | (0, s, t) => do
      let (r, t) ← Q.rand8 t
      .ok (r, 0, s, t)
    | (n + 1, s, t) => do
      let (r, s) ← P.rand8 s
      .ok (r, n, s, t)
  rand64 := fun
    | (0, s, t) => do
      let (r, t) ← Q.rand64 t
      .ok (r, 0, s, t)
    | (n + 1, s, t) => do
      let (r, s) ← P.rand64 s
      .ok (r, n, s, t)

/-- `cts` are what consecutive calls of `Encrypt` return for the messages `ms` if in each call the
generator's first outputs are the continuing stream of `P` from state `s` (as many as are used for the
pad), and the remaining ones the continuing stream of `Q` from state `t`; `s'`, `t'` are the states
afterwards. -/
inductive Encrypted (P : Gen σ) (Q : Gen τ) (fuel : ℕ) (k : Key) (bEnc : ℕ) :
    List (List ℕ) → σ → τ → List Ct → σ → τ → Prop
  | nil (s t) : Encrypted P Q fuel k bEnc [] s t [] s t
  | cons {m ms s t x xs s₁ t₁ s' t'} (calls : ℕ)
      (now : encrypt (splice P Q) fuel k m bEnc (calls, s, t) = .ok (x, 0, s₁, t₁))
      (later : Encrypted P Q fuel k bEnc ms s₁ t₁ xs s' t') :
      Encrypted P Q fuel k bEnc (m :: ms) s t (x :: xs) s' t'

end Shell.Spec
