import Verif.Model.RnsErrorTrack
import Verif.Model.RnsKeys
/-! # Several modulus reductions, one after the other -/

namespace Shell.Spec
open Rns RnsErrorTrack

/-- `ModReduce` of a BGV ciphertext `n` times, with the plaintext modulus and the inverses of the context. -/
noncomputable def reduceTimes (ctx : Rns.Ctx) : ℕ → RTracked → Outcome RTracked
  | 0, x => .ok x
  | n + 1, x => do
    let row ← rd ctx.primeQInvs (x.ct.ms.length - 1)
    let y ← x.modReduce ctx.t (row.take (x.ct.ms.length - 1))
    reduceTimes ctx n y

/-- `ModReduce` of a BFV ciphertext `n` times. -/
noncomputable def reduceTimesBfv (ctx : Rns.Ctx) : ℕ → RTracked → Outcome RTracked
  | 0, x => .ok x
  | n + 1, x => do
    let y ← x.modReduceBfv ctx
    reduceTimesBfv ctx n y

/-- `ModReduce` of a secret key `n` times. -/
def reduceKey : ℕ → RKey → Outcome RKey
  | 0, k => .ok k
  | n + 1, k => do
    let k ← k.modReduce
    reduceKey n k

end Shell.Spec
