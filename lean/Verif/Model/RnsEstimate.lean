import Verif.Model.RnsBfvStore
import Verif.Model.DoubleError
/-!
# The error estimates of programs on RNS ciphertexts

The programs of `Verif/Model/RnsCtStore.lean` and `Verif/Model/RnsBfvStore.lean`, with the estimate `error_` that every
ciphertext carries: number `a` of the list of estimates belongs to ciphertext number `a`.  As in
`Verif/Model/DoubleError.lean` the estimates are of any type with the arithmetic of the code.
-/

namespace Shell.RnsEstimate
open Rns Rns.Res RnsCtStore DoubleError

/-- What the operations take from `RnsErrorParams` (rns/rns_error_params.h:84-142, 153-156). -/
structure Consts (E : Type) where
  plaintext : E
  secretKey : E
  publicKey : E
  switch : ℕ → ℕ → ℕ → Outcome E

section
variable {E : Type} [Add E] [Mul E] [Div E] [NatCast E]

/-- The constants of rns/rns_error_params.h in the given arithmetic (rns/rns_error_params.h:84-142, 153-156). -/
def consts [Sqrt E] (P : RParams E) : Consts E :=
  ⟨P.bPlaintext, P.bSecretKey, P.bPublicKey, P.boundOnKeySwitching⟩

/-- What a successful call does to the estimates: nothing, a new ciphertext has one, or the one of ciphertext `a`
changes (`error_`, rns/rns_ciphertext.h:512). -/
inductive Effect (E : Type) where
  | none
  | push (e : Outcome E)
  | set (a : ℕ) (e : Outcome E)

/-- The objects and the estimates after a call; `r` is the call without estimates.  All members change `error_` after
their last check, so that a failing call leaves the estimates as they are (for example rns/rns_ciphertext.h:111-128). -/
def step (m : Mem) (es : List E) (r : Res Mem) (f : Effect E) : Res (Mem × List E) :=
  match r.2 with
  | .ok () =>
    match f with
    | .none => ((r.1, es), .ok ())
    | .push o => withTemp (m, es) o fun e => ((r.1, es ++ [e]), .ok ())
    | .set a o => withTemp (m, es) o fun e => ((r.1, es.set a e), .ok ())
  | s => ((r.1, es), s)

/-- The statuses that the calls of a program return, and the objects and estimates at the end; `run` is a call without
estimates, and `f` what it does to the estimates (rns/rns_ciphertext.h:40-513). -/
def runWith {C : Type} (run : Mem → C → Res Mem) (f : Mem → List E → C → Effect E) :
    Mem → List E → List C → List (Outcome Unit) × Mem × List E
  | m, es, [] => ([], m, es)
  | m, es, c :: cs =>
    let r := step m es (run m c) (f m es c)
    (r.2 :: (runWith run f r.1.1 r.1.2 cs).1, (runWith run f r.1.1 r.1.2 cs).2)

/-- `ErrorAfterApplication` of a Galois key (rns/rns_galois_key.h:264-270) and of a relinearization key
(rns/rns_relinearization_key.h:158-164). -/
def afterSwitch (K : Consts E) (g : RGadget) (numComponents : ℕ) (e : E) : Outcome E := do
  let b ← RnsErrorTrack.logGadgetBase g
  let s ← K.switch numComponents b g.dimension
  return e + s

/-- The estimate after a member of a BGV ciphertext whose estimate was `e` (rns/rns_ciphertext.h:101-259,
rns/rns_bgv_ciphertext.h:146-157). -/
def bgvOp (K : Consts E) (es : List E) (e : E) : RnsCtStore.Op → Outcome E
  | .negate => .ok e
  | .add b => do return e + (← rd es b)
  | .sub b => do return e + (← rd es b)
  | .addPlain _ => .ok e
  | .subPlain _ => .ok e
  | .absorb _ => .ok (e * K.plaintext)
  | .scale c => .ok (e * ((c : E) / (2 : ℕ)))
  | .fused b _ => do return e + (← rd es b) * K.plaintext
  | .reduce => .ok e

/-- The estimates after a call (rns/rns_secret_key.h:224-230, rns/rns_bgv_public_key.h:122-129,
rns/rns_ciphertext.h:101-259, 383-406, rns/rns_bgv_ciphertext.h:146-174, rns/rns_relinearization_key.h:80-105,
rns/rns_galois_key.h:137-148). -/
def bgvEffect (K : Consts E) (v : Given) (m : Mem) (es : List E) : RnsCtStore.Call → Effect E
  | .encode _ _ => .none
  | .input _ => .push (.ok K.secretKey)
  | .received _ => .push (.ok K.publicKey)
  | .copy a => .push (rd es a)
  | .opNew a op => .push (do bgvOp K es (← rd es a) op)
  | .opIn a op => .set a (do bgvOp K es (← rd es a) op)
  | .mul a b => .push (do return (← rd es a) * (← rd es b))
  | .substitute a _ => .push (rd es a)
  | .relin a lev => .push (do
      let x ← rd m.cts a
      afterSwitch K (v.relin lev).gadget (x.c.length - 2) (← rd es a))
  | .galois a lev p => .push (do afterSwitch K (v.galois lev p).gadget 1 (← rd es a))

/-- The statuses that the calls of a BGV program return, and the objects and estimates at the end
(rns/rns_bgv_ciphertext.h:55-174). -/
def bgvRun (K : Consts E) (v : Given) (m : Mem) (es : List E) (cs : List RnsCtStore.Call) :
    List (Outcome Unit) × Mem × List E :=
  runWith (fun m c => c.run v m) (bgvEffect K v) m es cs

/-- The estimate after a member of a BFV ciphertext whose estimate was `e` (rns/rns_ciphertext.h:101-259,
rns/rns_bfv_ciphertext.h:171-186, rns/rns_bfv_ciphertext.cc:95, 220). -/
def bfvOp (K : Consts E) (es : List E) (e : E) : RnsBfvStore.Op → Outcome E
  | .negate => .ok e
  | .add b => do return e + (← rd es b)
  | .sub b => do return e + (← rd es b)
  | .addPlain _ => .ok e
  | .subPlain _ => .ok e
  | .absorb _ => .ok (e * K.plaintext)
  | .absorbSimple _ => .ok (e * K.plaintext)
  | .scale c => .ok (e * ((c : E) / (2 : ℕ)))
  | .fused b _ => do return e + (← rd es b) * K.plaintext
  | .reduce => .ok e

/-- The estimates after a call (rns/rns_secret_key.h:343-353, rns/rns_bfv_public_key.h:119-127,
rns/rns_ciphertext.h:101-259, rns/rns_bfv_ciphertext.h:171-202, rns/rns_bfv_ciphertext.cc:95, 201-204, 220,
rns/rns_relinearization_key.h:80-105, rns/rns_galois_key.h:137-161). -/
def bfvEffect (K : Consts E) (v : Given) (m : Mem) (es : List E) : RnsBfvStore.Call → Effect E
  | .encode _ _ _ => .none
  | .input _ => .push (.ok K.secretKey)
  | .received _ => .push (.ok K.publicKey)
  | .copy a => .push (rd es a)
  | .opNew a op => .push (do bfvOp K es (← rd es a) op)
  | .opIn a op => .set a (do bfvOp K es (← rd es a) op)
  | .mul a b => .push (do return (← rd es a) * (← rd es b))
  | .substitute a _ => .push (rd es a)
  | .relin a lev => .push (do
      let x ← rd m.cts a
      afterSwitch K (v.relin lev).gadget (x.c.length - 2) (← rd es a))
  | .galois a lev p => .push (do afterSwitch K (v.galois lev p).gadget 1 (← rd es a))

/-- The statuses that the calls of a BFV program return, and the objects and estimates at the end
(rns/rns_bfv_ciphertext.h:60-202). -/
def bfvRun (K : Consts E) (est : Estimate) (v : Given) (m : Mem) (es : List E) (cs : List RnsBfvStore.Call) :
    List (Outcome Unit) × Mem × List E :=
  runWith (fun m c => c.run est v m) (bfvEffect K v) m es cs

end

end Shell.RnsEstimate
