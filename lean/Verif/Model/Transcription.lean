import Verif.Model.Montgomery
/-!
# `shell_encryption/transcription.h` and the serialisation members of `MontgomeryInt`
-/

namespace Shell.Transcription

/-- `x << k` assigned to a `W`-bit unsigned integer.  The operand is promoted to at least 32 bits, so
the shift is undefined when `k` reaches the promoted width
(C++ semantics; used for example at transcription.h:98, 117, 125). -/
def shl (W x k : ℕ) : Outcome ℕ :=
  if k < max W 32 then .ok ((x <<< k) % 2 ^ W) else .ub .badShift

/-- `x >> k` on a `W`-bit unsigned integer (promoted to at least 32 bits)
(C++ semantics; used for example at transcription.h:122). -/
def shr (W x k : ℕ) : Outcome ℕ :=
  if k < max W 32 then .ok (x >>> k) else .ub .badShift

/-- Mutable state of the output side of the loops: the output vector, the index `output_ptr` points
to, `size_output_chunk` and `number_output_bits_needed` (transcription.h:78-91). -/
structure OutState where
  out : List ℕ
  ptr : ℕ
  size : ℕ
  needed : ℕ
  deriving DecidableEq, Repr

/-- One access `*output_ptr |= m` (transcription.h:125). -/
def orAt (st : OutState) (m : ℕ) : Outcome (List ℕ) :=
  if st.ptr < st.out.length then .ok (st.out.set st.ptr (st.out.getD st.ptr 0 ||| m))
  else .ub .outOfBounds

/-- The `while (number_bits_in_input > 0)` loop (transcription.h:101-129).  `input` is the loaded
word, `nb` is `number_bits_in_input`, `rem` is `remaining_bits_in_input`.  A step that processes no
bits would loop forever in the C++ code; the model reports it as `fatal`. -/
def inner (Win Wout outb rem input : ℕ) (nb : ℕ) (st : OutState) : Outcome OutState :=
  if hnb : nb = 0 then .ok st
  else
    let st := if st.needed = 0 then
        { st with ptr := st.ptr + 1, size := min rem outb, needed := min rem outb }
      else st
    let proc := min nb st.needed
    if hp : proc = 0 then .ub .fatal
    else do
      let bitsLeft ← shl Win input (nb - proc)
      let m ← shr Win bitsLeft (Win - proc)
      let mask := m % 2 ^ Wout
      let sh ← shl Wout mask (st.size - st.needed)
      let out ← orAt st sh
      inner Win Wout outb rem input (nb - proc)
        { out := out, ptr := st.ptr, size := st.size, needed := st.needed - proc }
termination_by nb
decreasing_by exact Nat.sub_lt (Nat.pos_of_ne_zero hnb) (Nat.pos_of_ne_zero hp)

/-- The loop over the input chunks (transcription.h:92-134), over the first `input_chunks` elements of
the input vector. -/
def outer (Win Wout inb outb : ℕ) : List ℕ → ℕ → OutState → Outcome OutState
  | [], _, st => .ok st
  | v :: vs, rem, st => do
    let nb := min inb rem
    let input ← shl Win v (Win - nb)
    let st ← inner Win Wout outb rem input nb st
    outer Win Wout inb outb vs (rem - inb) st

/-- An `int` expression: undefined outside `[-2^31, 2^31)`
(C++ semantics; used for example at transcription.h:60-79). -/
def int32 (x : ℤ) : Outcome ℤ :=
  if -2 ^ 31 ≤ x ∧ x < 2 ^ 31 then .ok x else .ub .signedOverflow

/-- `int` division: undefined for a zero divisor (C++ semantics; used for example at transcription.h:78-79). -/
def idiv (x y : ℤ) : Outcome ℤ := if y = 0 then .ub .divByZero else .ok (x.tdiv y)

/-- `TranscribeBits<InputInt, OutputInt>` (transcription.h:35-136) for types of `Win` and `Wout` bits.
The three `int` arguments are integers.  For a negative chunk width that passes the checks, the first
loop iteration shifts by more than the width of the type; the model stops there. -/
def transcribeBits (Win Wout : ℕ) (input : List ℕ) (len inb outb : ℤ) : Outcome (List ℕ) := do
  if inb > Win then .err .invalidArgument
  else if outb > Wout then .err .invalidArgument
  else if len < 0 then .err .invalidArgument
  else if len = 0 then
    if input = [] then .ok [] else .err .invalidArgument
  else do
    let a ← int32 (len + inb)
    let a ← int32 (a - 1)
    let c ← idiv a inb
    let inputChunks := trunc 64 c
    if input.length < inputChunks then .err .invalidArgument
    else do
      let b ← int32 (outb - 1)
      let b ← int32 (len + b)
      let d ← idiv b outb
      -- `std::vector(n, 0)` with a negative `n` converted to `size_t` throws `std::length_error`
      if d < 0 then .ub .fatal
      else if inputChunks = 0 then .ok (List.replicate d.toNat 0)
      else if inb < 0 ∨ outb < 0 then .ub .badShift
      else do
        let size := min len.toNat outb.toNat
        let st ← outer Win Wout inb.toNat outb.toNat (input.take inputChunks) len.toNat
          { out := List.replicate d.toNat 0, ptr := 0, size := size, needed := size }
        return st.out

end Shell.Transcription

namespace Shell.Mont
open Shell.Transcription

/-- `kMaxNumCoeffs` (constants.h:65). -/
def kMaxNumCoeffs : ℕ := 2 ^ 15

/-- `MontgomeryInt::Serialize` (montgomery.cc:101-112); the resulting string is its list of bytes. -/
def serialize (p : MParams) (a : ℕ) : Outcome (List ℕ) :=
  transcribeBits p.w 8 [a] p.logModulus p.logModulus 8

/-- `MontgomeryInt::SerializeVector` (montgomery.cc:114-141). -/
def serializeVector (p : MParams) (v : List ℕ) : Outcome (List ℕ) :=
  if v.length > kMaxNumCoeffs then .err .invalidArgument
  else if v = [] then .err .invalidArgument
  else transcribeBits p.w 8 v (v.length * p.logModulus : ℕ) p.logModulus 8

/-- `MontgomeryInt::Deserialize` (montgomery.cc:143-157). -/
def deserialize (p : MParams) (s : List ℕ) : Outcome ℕ := do
  let v ← transcribeBits 8 p.w s p.logModulus 8 p.logModulus
  match v with
  | [] => .ub .outOfBounds
  | x :: _ => .ok x

/-- `MontgomeryInt::DeserializeVector` (montgomery.cc:159-192). -/
def deserializeVector (p : MParams) (numCoeffs : ℤ) (s : List ℕ) : Outcome (List ℕ) :=
  if numCoeffs < 0 then .err .invalidArgument
  else if numCoeffs > kMaxNumCoeffs then .err .invalidArgument
  else do
    let v ← transcribeBits 8 p.w s (p.logModulus * numCoeffs) 8 p.logModulus
    if v.length < numCoeffs.toNat then .err .invalidArgument
    else .ok (v.take numCoeffs.toNat)

end Shell.Mont
