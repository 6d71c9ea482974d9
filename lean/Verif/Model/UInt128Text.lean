import Verif.Model.UInt128
/-
Model of the text input and output of 128-bit integers (trng/uint128.hpp:46-262, templates
`impl::operator<<` and `impl::operator>>`).  Characters are `Char` with their ASCII codes (other
character types and locales are not modelled).  The template is modelled for the native class
(`BitVec 128`); for the portable class every operator it uses agrees with `BitVec 128` by the
theorems C43.
-/
namespace Trng.U128Text

/-- `stream_flags & basefield`; `dec` also stands for the `default` label. -/
inductive Base where
  | oct | dec | hex
deriving DecidableEq, Repr

/-- `stream_flags & adjustfield`; `left` also stands for the `default` label. -/
inductive Adjust where
  | left | internal | right
deriving DecidableEq, Repr

/-- uint128.hpp:58-67 `to_hex`. -/
def toHex (x : Nat) (upper : Bool) : Char :=
  if x < 10 then Char.ofNat ('0'.toNat + x)
  else if upper then Char.ofNat ('A'.toNat + x - 10)
  else Char.ofNat ('a'.toNat + x - 10)

/-- uint128.hpp:83-88, 92-97, 99-104: the three `while (value > zero)` loops; the new digit is
inserted in front.  128 iterations are enough. -/
def digitLoop (b : Base) (upper : Bool) : (fuel : Nat) → (value : BitVec 128) →
    (digits : List Char) → List Char
  | 0, _, digits => digits
  | fuel + 1, value, digits =>
    if value > 0 then
      match b with
      | .oct => digitLoop b upper fuel (value >>> 3) (toHex (value &&& 7).toNat upper :: digits)
      | .dec => digitLoop b upper fuel (value / 10)
          (Char.ofNat ((value % 10).toNat + '0'.toNat) :: digits)
      | .hex => digitLoop b upper fuel (value >>> 4) (toHex (value &&& 15).toNat upper :: digits)
    else digits

/-- uint128.hpp:78-106. -/
def digits (b : Base) (upper : Bool) (value : BitVec 128) : List Char :=
  if value = 0 then ['0'] else digitLoop b upper 128 value []

/-- uint128.hpp:108-121. -/
def basePrefix (b : Base) (showbase upper : Bool) : List Char :=
  if showbase then
    match b with
    | .oct => ['0']
    | .dec => []
    | .hex => ['0', if upper then 'X' else 'x']
  else []

/-- uint128.hpp:48-143 `operator<<`: the characters written. -/
def print (b : Base) (showbase upper : Bool) (width : Nat) (fill : Char) (adj : Adjust)
    (value : BitVec 128) : List Char :=
  let digits := digits b upper value
  let base := basePrefix b showbase upper
  let padding := List.replicate (width - base.length - digits.length) fill
  match adj with
  | .left => base ++ digits ++ padding
  | .internal => base ++ padding ++ digits
  | .right => padding ++ base ++ digits

/-- uint128.hpp:152-154 `is_dec_digit`. -/
def isDecDigit (c : Char) : Bool := '0'.toNat ≤ c.toNat && c.toNat ≤ '9'.toNat
/-- uint128.hpp:160-162 `is_oct_digit`. -/
def isOctDigit (c : Char) : Bool := '0'.toNat ≤ c.toNat && c.toNat ≤ '7'.toNat
/-- uint128.hpp:168-171 `is_hex_digit`. -/
def isHexDigit (c : Char) : Bool :=
  ('0'.toNat ≤ c.toNat && c.toNat ≤ '9'.toNat) || ('a'.toNat ≤ c.toNat && c.toNat ≤ 'f'.toNat) ||
  ('A'.toNat ≤ c.toNat && c.toNat ≤ 'F'.toNat)
/-- uint128.hpp:172-174 `is_hex_basechar`. -/
def isHexBaseChar (c : Char) : Bool := c == 'x' || c == 'X'
/-- uint128.hpp:155-158, 163-166. -/
def decDigit (c : Char) : BitVec 128 := BitVec.ofNat 128 (c.toNat - '0'.toNat)
/-- uint128.hpp:175-184. -/
def hexDigit (c : Char) : BitVec 128 :=
  if '0'.toNat ≤ c.toNat ∧ c.toNat ≤ '9'.toNat then BitVec.ofNat 128 (c.toNat - '0'.toNat)
  else if 'a'.toNat ≤ c.toNat ∧ c.toNat ≤ 'f'.toNat then
    BitVec.ofNat 128 (c.toNat - 'a'.toNat + 10)
  else BitVec.ofNat 128 (c.toNat - 'A'.toNat + 10)

/-- uint128.hpp:196-203: octal loop. Input: the remaining characters; `none`: failbit. -/
def octLoop : List Char → BitVec 128 → Option (BitVec 128 × List Char)
  | [], result => some (result, [])
  | c :: cs, result =>
    if isOctDigit c then
      if result ≥ 0x20000000000000000000000000000000#128 then none
      else octLoop cs (result * 8 + decDigit c)
    else some (result, c :: cs)

/-- uint128.hpp:217-229: decimal loop. -/
def decLoop : List Char → BitVec 128 → Option (BitVec 128 × List Char)
  | [], result => some (result, [])
  | c :: cs, result =>
    if isDecDigit c then
      if result ≥ 0x1999999999999999999999999999999a#128 then none
      else
        let result := result * 10
        let nextDigit := decDigit c
        if nextDigit > 0xffffffffffffffffffffffffffffffff#128 - result then none
        else decLoop cs (result + nextDigit)
    else some (result, c :: cs)

/-- uint128.hpp:241-253: hexadecimal loop; `pos` counts the characters read. -/
def hexLoop : List Char → (pos : Nat) → BitVec 128 → Option (BitVec 128 × List Char)
  | [], _, result => some (result, [])
  | c :: cs, pos, result =>
    if isHexDigit c || (pos == 1 && isHexBaseChar c) then
      if pos == 1 && isHexBaseChar c then hexLoop cs (pos + 1) result
      else if result ≥ 0x10000000000000000000000000000000#128 then none
      else hexLoop cs (pos + 1) (result * 16 + hexDigit c)
    else some (result, c :: cs)

/-- `std::ws`: the white space of the "C" locale. -/
def isSpace (c : Char) : Bool :=
  c == ' ' || c == '\t' || c == '\n' || c == '\x0b' || c == '\x0c' || c == '\r'

/-- uint128.hpp:147-262 `operator>>`: the value read and the characters left, or `none` if
failbit is set (in which case the target is not assigned). -/
def read (b : Base) (input : List Char) : Option (BitVec 128 × List Char) :=
  let input := input.dropWhile isSpace
  match input with
  | [] => none
  | c :: cs =>
    match b with
    | .oct => if isOctDigit c then octLoop (c :: cs) 0 else none
    | .dec => if isDecDigit c then decLoop (c :: cs) 0 else none
    | .hex => if isHexDigit c then hexLoop (c :: cs) 0 0 else none

end Trng.U128Text
