import Mathlib.Data.Nat.Digits.Defs
import Verif.Model.Print
/-!
# The text of a number

Positional notation, by Mathlib's `Nat.digits`.
-/

namespace Shell.Spec
open Print

/-- The sixteen digits. -/
def digitTable (upper : Bool) : List Char :=
  if upper then "0123456789ABCDEF".toList else "0123456789abcdef".toList

/-- The number `v` in positional notation, most significant digit first; zero is one `0`. -/
def numeral (radix : ℕ) (upper : Bool) (v : ℕ) : List Char :=
  if v = 0 then ['0'] else (Nat.digits radix v).reverse.map fun d => (digitTable upper).getD d '?'

/-- The prefix the C++ standard prescribes for `showbase`. -/
def showPrefix (b : Base) (upper : Bool) (v : ℕ) : List Char :=
  if v = 0 then []
  else match b with
    | .hex => if upper then "0X".toList else "0x".toList
    | .oct => "0".toList
    | .dec => []

/-- How the C++ standard formats an unsigned integer: prefix and digits, filled up to the width on the right for
`left`, after the `0x` of a hexadecimal number for `internal`, on the left otherwise. -/
def formatted (f : Fmt) (v : ℕ) : List Char :=
  let pre := if f.showbase then showPrefix f.base f.uppercase v else []
  let num := numeral f.base.radix f.uppercase v
  let padding := List.replicate (f.width - (pre ++ num).length).toNat f.fill
  match f.adjust with
  | .left => pre ++ num ++ padding
  | .internal => if f.base = .hex then pre ++ padding ++ num else padding ++ pre ++ num
  | .right => padding ++ pre ++ num

end Shell.Spec
