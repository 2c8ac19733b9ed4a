import Verif.Model.Int256
/-!
# Printing a `uint256`

Model of `operator<<(std::ostream&, const uint256&)` (int256.cc:151-217).  The text is a list of characters.
Printing of a single `absl::uint128` is a library function; it is modelled by the usual digit loop with the
flags, the width and the fill character of the stream it is sent to.
-/

namespace Shell.Print

/-- `flags & std::ios::basefield` (int256.cc:157): `hex`, `oct`, and everything else. -/
inductive Base | hex | oct | dec
  deriving DecidableEq, Repr

/-- `flags & std::ios::adjustfield` (int256.cc:209). -/
inductive Adjust | left | right | internal
  deriving DecidableEq, Repr

/-- The parts of a stream's state that `operator<<` reads (int256.cc:152, 207-212). -/
structure Fmt where
  base : Base
  showbase : Bool
  uppercase : Bool
  adjust : Adjust
  width : ℤ
  fill : Char

/-- The number a `Base` stands for (int256.cc:157-170). -/
def Base.radix : Base → ℕ
  | .hex => 16
  | .oct => 8
  | .dec => 10

/-- One digit of the library's output of an unsigned integer (standard library / absl; used at int256.cc:188-209). -/
def digit (upper : Bool) (d : ℕ) : Char :=
  if d < 10 then Char.ofNat (48 + d) else Char.ofNat ((if upper then 55 else 87) + d)

/-- The digit loop of the library's output of an unsigned integer, least significant digit first onto `acc`
(standard library / absl; used at int256.cc:188-209). -/
def digitLoop (radix : ℕ) (upper : Bool) : ℕ → ℕ → List Char → List Char
  | 0, _, acc => acc
  | f + 1, v, acc =>
    if v / radix = 0 then digit upper (v % radix) :: acc
    else digitLoop radix upper f (v / radix) (digit upper (v % radix) :: acc)

/-- What `std::showbase` puts before a number: nothing before a zero
(standard library / absl; used at int256.cc:177-209). -/
def basePrefix (b : Base) (upper : Bool) (v : ℕ) : List Char :=
  if v = 0 then []
  else match b with
    | .hex => ['0', if upper then 'X' else 'x']
    | .oct => ['0']
    | .dec => []

/-- `std::ostringstream os` with the flags copied by int256.cc:177-180: the text so far, `showbase`, the width of
the next field and the fill character.  The adjustment of a new stream is to the right. -/
structure OStr where
  text : List Char
  showbase : Bool
  width : ℕ
  fill : Char

/-- A new `ostringstream` with the copied flags (int256.cc:177-180). -/
def OStr.new (f : Fmt) : OStr := ⟨[], f.showbase, 0, ' '⟩

/-- `os << absl::uint128(v)` (int256.cc:193, 199, ..., 203): the digits, preceded by the base if asked for, padded
on the left to the field width, which is then reset. -/
def OStr.put (f : Fmt) (os : OStr) (v : ℕ) : OStr :=
  let rep := (if os.showbase then basePrefix f.base f.uppercase v else []) ++
    digitLoop f.base.radix f.uppercase 128 v []
  { os with text := os.text ++ (List.replicate (os.width - rep.length) os.fill ++ rep), width := 0 }

/-- `os << std::noshowbase << std::setfill('0') << std::setw(div_base_log)` (int256.cc:189, 193, 197, 201). -/
def OStr.zeros (os : OStr) (divBaseLog : ℕ) : OStr :=
  { os with showbase := false, fill := '0', width := divBaseLog }

/-- `div` (int256.cc:155-171). -/
def divisor : Base → U256
  | .hex => ⟨0, 0x1000000000000000⟩
  | .oct => ⟨0, 0o1000000000000000000000⟩
  | .dec => ⟨0, 10000000000000000000⟩

/-- `div_base_log` (int256.cc:155-171). -/
def divBaseLog : Base → ℕ
  | .hex => 15
  | .oct => 21
  | .dec => 19

/-- One of the blocks `print |= ...; if (print) { os << chunk; os << noshowbase ... }` (int256.cc:190-205). -/
def chunk (f : Fmt) (v : U256) (s : Bool × OStr) : Bool × OStr :=
  let print := s.1 || v.lo != 0
  if print then (print, (s.2.put f v.lo).zeros (divBaseLog f.base)) else (print, s.2)

/-- The padding of the whole representation (int256.cc:207-214). -/
def pad (f : Fmt) (rep : List Char) : List Char :=
  if f.width > rep.length then
    match f.adjust with
    | .left => rep ++ List.replicate (f.width - rep.length).toNat f.fill
    | _ => List.replicate (f.width - rep.length).toNat f.fill ++ rep
  else rep

/-- `operator<<` (int256.cc:151-217): what is written to the stream. -/
def print (f : Fmt) (b : U256) : Outcome (List Char) := do
  let div := divisor f.base
  let (high, low) ← U256.divMod b div
  let (high, midLow) ← U256.divMod high div
  let (high, midMid) ← U256.divMod high div
  let (high, midHigh) ← U256.divMod high div
  let s := chunk f high (false, OStr.new f)
  let s := chunk f midHigh s
  let s := chunk f midMid s
  let s := chunk f midLow s
  let rep := (s.2.put f low.lo).text
  return pad f rep

end Shell.Print
