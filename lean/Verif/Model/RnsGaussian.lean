import Verif.Model.RnsKeys
/-!
# `SampleDiscreteGaussian` (rns/error_distribution.h:88-136)
-/

namespace Shell.Rns
variable {σ : Type}

/-- The `w`-bit word imported for a sampled word (rns/error_distribution.h:117-124): values above
`kNegativeThreshold = max >> 1` stand for negative numbers. -/
def gaussianResidue (w N coeff : ℕ) : ℕ :=
  if coeff > (2 ^ w - 1) >>> 1 then trunc w ((N : ℤ) - (trunc w (-(coeff : ℤ)) % N : ℕ)) else coeff

/-- The loop body over the coefficients (rns/error_distribution.h:114-130) on the coefficient vectors and the
state of the generator. -/
def gaussianStep (sample : σ → Outcome (ℕ × σ)) (w : ℕ) (ms : List Modulus) (r : List (List ℕ) × σ) :
    Outcome (List (List ℕ) × σ) := do
  let (c, s) ← sample r.2
  .ok ((ms.zip r.1).map (fun mv => mv.2 ++ [Mont.importInt mv.1.p (gaussianResidue w mv.1.N c)]), s)

/-- `SampleDiscreteGaussian` (rns/error_distribution.h:93-136). The sampler is given by the number of iterations
it computes for the standard deviation (`iterations`, an error when the deviation is below the base), its table
and the weights it computes from the deviation; its pointer is not null. -/
def sampleGaussian (G : Gen σ) (w : ℕ) (cdt : List ℕ) (z : ℕ → ℕ) (zTop : ℕ) (iterations : Outcome ℤ)
    (logN : ℤ) (ms : List Modulus) (s : σ) : Outcome (RPoly × σ) :=
  if logN ≤ 0 then .err .invalidArgument
  else if ms.isEmpty then .err .invalidArgument
  else do
    let i ← iterations
    let n ← shl1 logN.toNat
    let (vs, s) ← loop n (fun _ r =>
      gaussianStep (Sampler.sampleWithIterations G w cdt z zTop i) w ms r) (ms.map fun _ => [], s)
    let x ← create vs false
    return (x, s)

end Shell.Rns
