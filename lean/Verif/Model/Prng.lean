import Verif.Model.Loop
/-!
# `shell_encryption/prng/`: the HKDF and ChaCha20 generators

The four generator classes (`HkdfPrng`, `SingleThreadHkdfPrng`, `ChaChaPrng`,
`SingleThreadChaChaPrng`) share one shape: a key, a buffer of key stream bytes, a position in that
buffer and a salt counter.  They differ in the seed length, the encoding of the salt counter and the
primitive that fills the buffer.  `Kind` records these differences; the cryptographic primitives
themselves (`Hkdf::ComputeHkdf` of Tink, `CRYPTO_chacha_20` of OpenSSL) are arbitrary functions.

Bytes are naturals.  `position_in_buffer` and `salt_counter` are C++ `int`s: incrementing the maximal
`int` is undefined behaviour.
-/

namespace Shell.Prng

/-- Increment of a C++ `int` (C++ semantics; used for example at prng/hkdf_prng_util.cc:41, 58). -/
def incInt (x : ℕ) : Outcome ℕ := if x + 1 < 2 ^ 31 then .ok (x + 1) else .ub .signedOverflow

/-- What distinguishes the generator classes: `SeedLength()`, the buffer size and the function
filling the buffer from the key and the salt counter (prng/hkdf_prng_util.h:42-43, prng/chacha_prng_util.h:34-36). -/
structure Kind where
  seedLen : ℕ
  bufSize : ℕ
  fill : List ℕ → ℕ → Outcome (List ℕ)

/-- The ASCII bytes of the string `"salt"` (prng/hkdf_prng_util.cc:31, prng/chacha_prng_util.cc:33). -/
def saltBytes : List ℕ := [115, 97, 108, 116]

/-- Decimal ASCII digits of an `int`, as appended by `absl::StrCat` (prng/hkdf_prng_util.cc:31). -/
def decimal (n : ℕ) : List ℕ := (Nat.toDigits 10 n).map Char.toNat

/-- `absl::StrCat("salt", *salt_counter)` (prng/hkdf_prng_util.cc:31). -/
def hkdfSalt (counter : ℕ) : List ℕ := saltBytes ++ decimal counter

/-- HKDF generators: `kHkdfKeyBytesSize`, `kHkdfMaxOutputBytes` (prng/hkdf_prng_util.h:42-43) and the
call of `ComputeHkdf` (prng/hkdf_prng_util.cc:31-36); `compute key salt size` is Tink's
`ComputeHkdf(SHA256, key, salt, "", size)`. -/
def hkdf (compute : List ℕ → List ℕ → ℕ → Outcome (List ℕ)) : Kind where
  seedLen := 64
  bufSize := 255 * 32
  fill key counter := compute key (hkdfSalt counter) (255 * 32)

/-- The loop writing `nonce[4 + i] = counter & 0xFF; counter >>= 8` (prng/chacha_prng_util.cc:43-46):
the little-endian bytes of the counter. -/
def nonceBytes : ℕ → ℕ → List ℕ
  | 0, _ => []
  | i + 1, counter => (counter &&& 0xFF) :: nonceBytes i (counter >>> 8)

/-- The nonce (prng/chacha_prng_util.cc:38-46): `"salt"` and 8 counter bytes; the size test of
line 39 compares two constants and always passes. -/
def chachaNonce (counter : ℕ) : List ℕ := saltBytes ++ nonceBytes 8 counter

/-- ChaCha20 generators: `kChaChaKeyBytesSize`, `kChaChaOutputBytes` (prng/chacha_prng_util.h:34-36)
and the call of `CRYPTO_chacha_20` on a zero buffer (prng/chacha_prng_util.cc:33, 51-54);
`stream key nonce size` are the first `size` key stream bytes. -/
def chacha (stream : List ℕ → List ℕ → ℕ → List ℕ) : Kind where
  seedLen := 32
  bufSize := 255 * 32
  fill key counter := .ok (stream key (chachaNonce counter) (255 * 32))

/-- Data members of a generator (prng/hkdf_prng.h:94-97, prng/chacha_prng.h likewise). -/
structure State where
  key : List ℕ
  pos : ℕ
  salt : ℕ
  buf : List ℕ
  deriving DecidableEq, Repr

/-- `HkdfPrngResalt` (prng/hkdf_prng_util.cc:28-43) and `ChaChaPrngResalt`
(prng/chacha_prng_util.cc:30-59). -/
def resalt (K : Kind) (s : State) : Outcome State := do
  let buf ← K.fill s.key s.salt
  let salt ← incInt s.salt
  .ok { s with buf := buf, salt := salt, pos := 0 }

/-- `Create` of the four classes (prng/hkdf_prng.cc:36-52, prng/chacha_prng.cc:35-52,
prng/single_thread_hkdf_prng.cc:36-52, prng/single_thread_chacha_prng.cc:35-52). -/
def create (K : Kind) (key : List ℕ) : Outcome State :=
  if key.length ≠ K.seedLen then .err .invalidArgument
  else resalt K ⟨key, 0, 0, []⟩

/-- The refill test at the start of `HkdfPrngRand8` / `ChaChaPrngRand8`
(prng/hkdf_prng_util.cc:53-56, prng/chacha_prng_util.cc:78-81). -/
def refill (K : Kind) (s : State) : Outcome State :=
  if s.pos ≥ s.buf.length then resalt K s else .ok s

/-- `buffer->at(position)`, which throws (terminating the process) out of range
(prng/hkdf_prng_util.cc:57, prng/chacha_prng_util.cc:82). -/
def readByte (s : State) : Outcome ℕ :=
  match s.buf[s.pos]? with
  | some b => .ok b
  | none => .ub .fatal

/-- `++(*position_in_buffer)` (prng/hkdf_prng_util.cc:58, prng/chacha_prng_util.cc:83). -/
def advance (s : State) : Outcome State := do
  let p ← incInt s.pos
  .ok { s with pos := p }

/-- `HkdfPrngRand8` (prng/hkdf_prng_util.cc:49-60) and `ChaChaPrngRand8`
(prng/chacha_prng_util.cc:73-85). -/
def rand8 (K : Kind) (s : State) : Outcome (ℕ × State) := do
  let s ← refill K s
  let b ← readByte s
  let s ← advance s
  .ok (b, s)

/-- One accumulation step `rand64 += Uint64{rand8} << (8 * i)`
(prng/hkdf_prng_util.cc:70, prng/chacha_prng_util.cc:95). -/
def accumulate (acc i b : ℕ) : ℕ := (acc + (b <<< (8 * i)) % 2 ^ 64) % 2 ^ 64

/-- `HkdfPrngRand64` (prng/hkdf_prng_util.cc:62-73) and `ChaChaPrngRand64`
(prng/chacha_prng_util.cc:87-98). -/
def rand64 (K : Kind) (s : State) : Outcome (ℕ × State) :=
  loop 8 (fun i (r : ℕ × State) => do
    let (b, s) ← rand8 K r.2
    .ok (accumulate r.1 i b, s)) (0, s)

/-- The two calls a user of a generator can make (prng/prng.h:30-31). -/
inductive Op where
  | rand8
  | rand64
  deriving DecidableEq, Repr

/-- `Rand8()` / `Rand64()` of the single-threaded generators
(prng/single_thread_hkdf_prng.cc:54-62, prng/single_thread_chacha_prng.cc:54-62). -/
def call (K : Kind) : Op → State → Outcome (ℕ × State)
  | .rand8, s => rand8 K s
  | .rand64, s => rand64 K s

/-- A sequence of calls on one generator, with the list of returned values (clients of prng/prng.h:28-37). -/
def calls (K : Kind) : List Op → State → Outcome (List ℕ × State)
  | [], s => .ok ([], s)
  | op :: ops, s => do
    let (v, s) ← call K op s
    let (vs, s) ← calls K ops s
    .ok (v :: vs, s)

/-! ## The thread-safe generators under a scheduler

`HkdfPrng` and `ChaChaPrng` hold `absl::MutexLock lock(&mu_)` for the whole of `Rand8` / `Rand64`
(prng/hkdf_prng.cc:54-64, prng/chacha_prng.cc:54-64).  A thread repeatedly acquires the mutex, runs
the body in small steps that read and write the shared members one at a time, and releases the mutex
when it returns. -/

/-- Where a thread is inside a call. `Phase.refill` is about to test the position, `Phase.read` about
to read a byte, `Phase.advance` has read a byte and is about to increment the position; `ret` is
about to destroy the lock guard and return
(prng/hkdf_prng.cc:54-64, prng/hkdf_prng_util.cc:49-73, prng/chacha_prng_util.cc:73-98). -/
inductive Phase where
  | refill
  | read
  | advance (b : ℕ)
  | ret
  deriving DecidableEq, Repr

/-- A call in progress: the operation, the number of bytes already taken, the accumulator
(prng/hkdf_prng_util.cc:49-73, prng/chacha_prng_util.cc:73-98). -/
structure Active where
  op : Op
  i : ℕ
  acc : ℕ
  phase : Phase
  deriving DecidableEq, Repr

/-- A thread: the calls it still has to make, the call in progress, the results it received
(clients of prng/hkdf_prng.cc:54-64, prng/chacha_prng.cc:54-64). -/
structure Thread where
  todo : List Op
  cur : Option Active
  results : List (Op × ℕ)
  deriving DecidableEq, Repr

/-- The shared generator, the mutex (`none` = free) and all threads (prng/hkdf_prng.h:85-97). -/
structure Sys where
  gen : State
  owner : Option ℕ
  threads : List Thread
  /-- Completed calls with their thread, in the order in which they released the mutex (history
  variable, not part of the program state). -/
  log : List (ℕ × Op × ℕ)
  deriving DecidableEq, Repr

/-- Number of bytes a call takes (prng/hkdf_prng_util.cc:49-73, prng/chacha_prng_util.cc:73-98). -/
def Op.bytes : Op → ℕ
  | .rand8 => 1
  | .rand64 => 8

/-- One small step of the body of a call. `Rand8` returns the byte, `Rand64` accumulates
(prng/hkdf_prng_util.cc:49-73, prng/chacha_prng_util.cc:73-98). -/
def bodyStep (K : Kind) (g : State) (a : Active) : Outcome (State × Active) :=
  match a.phase with
  | .refill => do
    let g ← refill K g
    .ok (g, { a with phase := .read })
  | .read => do
    let b ← readByte g
    .ok (g, { a with phase := .advance b })
  | .advance b => do
    let g ← advance g
    let acc := match a.op with
      | .rand8 => b
      | .rand64 => accumulate a.acc a.i b
    .ok (g, { a with i := a.i + 1, acc := acc,
                     phase := if a.i + 1 < a.op.bytes then .refill else .ret })
  | .ret => .ok (g, a)

/-- One step of thread `t` chosen by the scheduler (prng/hkdf_prng.cc:54-64,
prng/chacha_prng.cc:54-64).  A thread waiting for a mutex held by another thread, or without
remaining calls, does nothing. -/
def step (K : Kind) (S : Sys) (t : ℕ) : Outcome Sys :=
  match S.threads[t]? with
  | none => .ok S
  | some th =>
    match th.cur with
    | none =>
      match th.todo with
      | [] => .ok S
      | op :: rest =>
        if S.owner = none then
          .ok { S with owner := some t,
                       threads := S.threads.set t
                         { th with todo := rest, cur := some ⟨op, 0, 0, .refill⟩ } }
        else .ok S
    | some a =>
      match a.phase with
      | .ret =>
        .ok { S with owner := none,
                     threads := S.threads.set t
                       { th with cur := none, results := th.results ++ [(a.op, a.acc)] },
                     log := S.log ++ [(t, a.op, a.acc)] }
      | _ => do
        let (g, a) ← bodyStep K S.gen a
        .ok { S with gen := g, threads := S.threads.set t { th with cur := some a } }

/-- An execution under a schedule (the sequence of thread numbers that take a step)
(clients of prng/hkdf_prng.cc:54-64, prng/chacha_prng.cc:54-64). -/
def run (K : Kind) : List ℕ → Sys → Outcome Sys
  | [], S => .ok S
  | t :: ts, S => do
    let S ← step K S t
    run K ts S

/-- The initial system: a fresh generator, a free mutex, threads with their programs
(prng/hkdf_prng.cc:36-52, prng/chacha_prng.cc:35-52). -/
def initial (g : State) (programs : List (List Op)) : Sys :=
  ⟨g, none, programs.map fun p => ⟨p, none, []⟩, []⟩

end Shell.Prng
