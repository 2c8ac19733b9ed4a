import Verif.Model.Montgomery
import Verif.Model.Transcription
/-!
# `shell_encryption/gadget.h`
-/

namespace Shell.Gadget
open Transcription

/-- `GadgetSize` (gadget.h:43-47): the number of digits. -/
def gadgetSize (logModulus logBase : ℕ) : Outcome ℕ :=
  if logBase = 0 then .ub .divByZero else .ok ((logModulus + (logBase - 1)) / logBase)

/-- The loop of `BaseDecompose` (gadget.h:68-77) for `dimension` more digits, on the exported
coefficients `cur`. -/
def digitsLoop (p : MParams) (mask logBase : ℕ) : ℕ → List ℕ → List (List ℕ)
  | 0, _ => []
  | d + 1, cur =>
    cur.map (fun x => Mont.importInt p (x &&& mask)) ::
      digitsLoop p mask logBase d (cur.map fun x => x >>> logBase)

/-- `BaseDecompose` (gadget.h:52-79) on stored words; `logBase` of the word width or more is an
over-wide shift. -/
def baseDecompose (p : MParams) (coeffs : List ℕ) (logBase dimension : ℕ) :
    Outcome (List (List ℕ)) := do
  let cur := coeffs.map (Mont.exportInt p)
  let one ← shl p.w 1 logBase
  let mask := trunc p.w ((one : ℤ) - 1)
  return digitsLoop p mask logBase dimension cur

end Shell.Gadget
