import Verif.Model.UInt128Text
import Verif.Model.LCG64
import Verif.Model.LCG64CountShift
import Verif.Model.Count128
import Verif.Model.Minstd
import Verif.Model.MRG
import Verif.Model.LagFib
import Verif.Model.MT
import Verif.Model.Xoshiro
import Mathlib.Data.Nat.Digits.Defs

/-! Model of the text output and input of the engines.  The stream is a narrow character stream in the "C" locale; the
library's conversions between numbers and text and the stream state are modelled as the C++ standard describes them.  The
callers' `skipws`, `basefield` etc. play no role because all operators set the flags to `dec | fixed | left` first.  A field
width set by the caller reaches the first character only (`width`, `fill`). -/
namespace Trng.Stream
open LagFib (Params)

/-- The state of an input stream: the characters left, `eofbit` and `failbit`. -/
structure In where
  rest : List Char
  eof : Bool := false
  fail : Bool := false
deriving DecidableEq, Repr

namespace In

/-- `good()`. -/
def good (s : In) : Bool := !s.eof && !s.fail
/-- `setstate(failbit)`. -/
def setFail (s : In) : In := { s with fail := true }

/-- `get(c)`; the character is `none` if there was none. -/
def getc (s : In) : Option Char × In :=
  if s.good then
    match s.rest with
    | [] => (none, { s with eof := true, fail := true })
    | c :: cs => (some c, { s with rest := cs })
  else (none, s.setFail)

/-- `peek()`, on a stream that is good. -/
def peek (s : In) : Option Char × In :=
  match s.rest with
  | [] => (none, { s with eof := true })
  | c :: _ => (some c, s)

/-- utility.hpp:103-118 `delim_c`. -/
def delimC (d : Char) (s : In) : In :=
  let r := s.getc
  if r.2.good = false ∨ r.1 ≠ some d then r.2.setFail else r.2

/-- utility.hpp:91-94: the loop of `delim_str`; whether `i` reached `len`. -/
def delimLoop : List Char → In → Bool × In
  | [], s => (true, s)
  | d :: ds, s =>
    match s.getc with
    | (some c, s) => if c ≠ d then (false, s) else delimLoop ds s
    | (none, s) => delimLoop ds s

/-- utility.hpp:82-101 `delim_str`. -/
def delimStr (str : List Char) (s : In) : In :=
  let r := delimLoop str s
  if r.1 = false then r.2.setFail else r.2

/-- utility.hpp:126-138 `ignore_spaces_cl`; the loop ends after at most one turn per character. -/
def ignoreLoop : Nat → In → In
  | 0, s => s
  | fuel + 1, s =>
    if s.good then
      match s.peek with
      | (none, s) => s
      | (some c, s) => if ¬(c = ' ' ∨ c = '\t' ∨ c = '\n') then s else ignoreLoop fuel s.getc.2
    else s

/-- utility.hpp:126-138 `ignore_spaces_cl`. -/
def ignoreSpaces (s : In) : In := ignoreLoop (s.rest.length + 1) s

/-- The decimal digits. -/
def isDigit (c : Char) : Bool := '0'.toNat ≤ c.toNat && c.toNat ≤ '9'.toNat

/-- The value of a string of decimal digits. -/
def value (ds : List Char) : Nat := ds.foldl (fun v c => v * 10 + (c.toNat - '0'.toNat)) 0

/-- The sign of the number in the text, if any, and the text after it. -/
def takeSign : List Char → Option Char × List Char
  | '+' :: r => (some '+', r)
  | '-' :: r => (some '-', r)
  | r => (none, r)

/-- `in >> x` for an integer without skipping of white space, up to the conversion (`num_get::do_get`, stages 1 and 2):
the sign, the digits and the stream.  `eofbit` is set if the end of the input was reached. -/
def scan (s : In) : Option Char × List Char × In :=
  let r := takeSign s.rest
  let k := r.2.dropWhile isDigit
  (r.1, r.2.takeWhile isDigit, { s with rest := k, eof := k.isEmpty })

/-- `in >> x` for an unsigned integer of `w` bits (`num_get::do_get`, stage 3): without digits, or if the number is too large,
`failbit` is set; a minus sign negates the value modulo 2^w. -/
def readU (w : Nat) (s : In) : BitVec w × In :=
  if s.good then
    let r := s.scan
    if r.2.1 = [] then (0, r.2.2.setFail)
    else if 2 ^ w ≤ value r.2.1 then (BitVec.ofNat w (2 ^ w - 1), r.2.2.setFail)
    else (if r.1 = some '-' then -(BitVec.ofNat w (value r.2.1)) else BitVec.ofNat w (value r.2.1), r.2.2)
  else (0, s.setFail)

/-- `in >> x` for an `int` (32 bits). -/
def readInt (s : In) : Int × In :=
  if s.good then
    let r := s.scan
    let v : Int := if r.1 = some '-' then -(value r.2.1 : Int) else value r.2.1
    if r.2.1 = [] then (0, r.2.2.setFail)
    else if v < -2 ^ 31 then (-2 ^ 31, r.2.2.setFail)
    else if 2 ^ 31 ≤ v then (2 ^ 31 - 1, r.2.2.setFail)
    else (v, r.2.2)
  else (0, s.setFail)

/-- `in >> x` for an `uint128` (uint128.hpp:147-262, `U128Text.read`). -/
def readU128 (s : In) : BitVec 128 × In :=
  if s.good then
    match U128Text.read .dec s.rest with
    | none => (0, s.setFail)
    | some (v, r) => (v, { s with rest := r, eof := r.isEmpty })
  else (0, s.setFail)

end In
open In

/-! ### Output -/

/-- `out << x` for an unsigned integer. -/
def decimal (n : Nat) : List Char :=
  if n = 0 then ['0'] else (Nat.digits 10 n).reverse.map fun d => Char.ofNat ('0'.toNat + d)
/-- `out << x` for a signed integer. -/
def decimalInt (i : Int) : List Char := if i < 0 then '-' :: decimal i.natAbs else decimal i.natAbs
/-- `out << x` for an unsigned integer of `w` bits. -/
def outU {w : Nat} (x : BitVec w) : List Char := decimal x.toNat
/-- `out << x` for an `uint128`, flags `dec | fixed | left`, width 0. -/
def outU128 (x : BitVec 128) : List Char := U128Text.print .dec false false 0 ' ' .left x

/-- `out << '['` when the caller has set a field width. -/
def outOpen (width : Nat) (fill : Char) : List Char := '[' :: List.replicate (width - 1) fill

/-- lcg64.hpp:195-202, and the same lines in lcg64_shift.hpp, lcg64_count_shift.hpp, count128_lcg_shift.hpp, mrg2.hpp, mrg3.hpp,
mrg3s.hpp, mrg4.hpp, mrg5.hpp, mrg5s.hpp, yarn2.hpp, yarn3.hpp, yarn3s.hpp, yarn4.hpp, yarn5.hpp, yarn5s.hpp, mt19937.hpp,
mt19937_64.hpp: an engine with parameters `P` and status `S`, given as their texts. -/
def print2 (width : Nat) (fill : Char) (name P S : List Char) : List Char :=
  outOpen width fill ++ name ++ [' '] ++ P ++ [' '] ++ S ++ [']']
/-- minstd.hpp:127-134, lagfib2xor.hpp, lagfib2plus.hpp, lagfib4xor.hpp, lagfib4plus.hpp, xoshiro256plus.hpp:170-177: an engine
without parameters. -/
def print1 (width : Nat) (fill : Char) (name S : List Char) : List Char :=
  outOpen width fill ++ name ++ [' '] ++ S ++ [']']

/-- lcg64.hpp:204-220 and the corresponding lines of the engines of `print2`: `readP`, `readS` read parameters and status into
new objects. -/
def read2 {π σ : Type} (name : List Char) (readP : In → π × In) (readS : In → σ × In) (R : π × σ) (s : In) : (π × σ) × In :=
  let s := ((s.ignoreSpaces.delimC '[').delimStr name).delimC ' '
  let p := readP s
  let q := readS (p.2.delimC ' ')
  let s := q.2.delimC ']'
  if s.fail then (R, s) else ((p.1, q.1), s)
/-- minstd.hpp:136-149 and the corresponding lines of the engines of `print1`. -/
def read1 {σ : Type} (name : List Char) (readS : In → σ × In) (R : σ) (s : In) : σ × In :=
  let s := ((s.ignoreSpaces.delimC '[').delimStr name).delimC ' '
  let q := readS s
  let s := q.2.delimC ']'
  if s.fail then (R, s) else (q.1, s)

/-! ### lcg64, lcg64_shift -/

/-- lcg64.hpp:98-106 (lcg64_shift.hpp:98-106). -/
def lcgParam (P : LCG64.Param) : List Char := ['('] ++ outU P.a ++ [' '] ++ outU P.b ++ [')']
/-- lcg64.hpp:137-145 (lcg64_shift.hpp:137-145). -/
def lcgStatus (r : BitVec 64) : List Char := ['('] ++ outU r ++ [')']
/-- lcg64.hpp:108-120; `P` is the object read into. -/
def readLcgParam (P : LCG64.Param) (s : In) : LCG64.Param × In :=
  let a := (s.delimC '(').readU 64
  let b := (a.2.delimC ' ').readU 64
  let s := b.2.delimC ')'
  if s.fail then (P, s) else (⟨a.1, b.1⟩, s)
/-- lcg64.hpp:147-158. -/
def readLcgStatus (r : BitVec 64) (s : In) : BitVec 64 × In :=
  let a := (s.delimC '(').readU 64
  let s := a.2.delimC ')'
  if s.fail then (r, s) else (a.1, s)
/-- lcg64.hpp:194-202, lcg64_shift.hpp: `name` is the only difference. -/
def printLcg (width : Nat) (fill : Char) (name : List Char) (E : LCG64) : List Char :=
  print2 width fill name (lcgParam E.P) (lcgStatus E.r)
/-- lcg64.hpp:204-220; new parameter and status objects hold zeros (lcg64.hpp:75-76, 124). -/
def readLcg (name : List Char) (R : LCG64) (s : In) : LCG64 × In :=
  let x := read2 name (readLcgParam ⟨0, 0⟩) (readLcgStatus 0) (R.P, R.r) s
  (⟨x.1.1, x.1.2⟩, x.2)

/-! ### lcg64_count_shift -/

/-- lcg64_count_shift.hpp:103-111. -/
def countParam (P : LCG64Count.Param) : List Char :=
  ['('] ++ outU P.a ++ [' '] ++ outU P.b ++ [' '] ++ outU P.inc ++ [')']
/-- lcg64_count_shift.hpp:142-150. -/
def countStatus (S : BitVec 64 × BitVec 64) : List Char := ['('] ++ outU S.1 ++ [' '] ++ outU S.2 ++ [')']
/-- lcg64_count_shift.hpp:113-125. -/
def readCountParam (P : LCG64Count.Param) (s : In) : LCG64Count.Param × In :=
  let a := (s.delimC '(').readU 64
  let b := (a.2.delimC ' ').readU 64
  let c := (b.2.delimC ' ').readU 64
  let s := c.2.delimC ')'
  if s.fail then (P, s) else (⟨a.1, b.1, c.1⟩, s)
/-- lcg64_count_shift.hpp:152-164. -/
def readCountStatus (S : BitVec 64 × BitVec 64) (s : In) : (BitVec 64 × BitVec 64) × In :=
  let a := (s.delimC '(').readU 64
  let b := (a.2.delimC ' ').readU 64
  let s := b.2.delimC ')'
  if s.fail then (S, s) else ((a.1, b.1), s)
/-- lcg64_count_shift.hpp:208-216. -/
def printCount (width : Nat) (fill : Char) (name : List Char) (E : LCG64Count) : List Char :=
  print2 width fill name (countParam E.P) (countStatus (E.r, E.count))
/-- lcg64_count_shift.hpp:218-234. -/
def readCount (name : List Char) (R : LCG64Count) (s : In) : LCG64Count × In :=
  let x := read2 name (readCountParam ⟨0, 0, 0⟩) (readCountStatus (0, 0)) (R.P, (R.r, R.count)) s
  (⟨x.1.1, x.1.2.1, x.1.2.2⟩, x.2)

/-! ### count128_lcg_shift -/

/-- count128_lcg_shift.hpp:87-95. -/
def count128Param (P : Count128.Param) : List Char :=
  ['('] ++ outU128 P.increment ++ [' '] ++ outU P.a ++ [' '] ++ outU P.b ++ [')']
/-- count128_lcg_shift.hpp:126-134. -/
def count128Status (r : BitVec 128) : List Char := ['('] ++ outU128 r ++ [')']
/-- count128_lcg_shift.hpp:97-109. -/
def readCount128Param (P : Count128.Param) (s : In) : Count128.Param × In :=
  let a := (s.delimC '(').readU128
  let b := (a.2.delimC ' ').readU 64
  let c := (b.2.delimC ' ').readU 64
  let s := c.2.delimC ')'
  if s.fail then (P, s) else (⟨a.1, b.1, c.1⟩, s)
/-- count128_lcg_shift.hpp:136-147. -/
def readCount128Status (r : BitVec 128) (s : In) : BitVec 128 × In :=
  let a := (s.delimC '(').readU128
  let s := a.2.delimC ')'
  if s.fail then (r, s) else (a.1, s)
/-- count128_lcg_shift.hpp:183-191. -/
def printCount128 (width : Nat) (fill : Char) (name : List Char) (E : Count128) : List Char :=
  print2 width fill name (count128Param E.P) (count128Status E.r)
/-- count128_lcg_shift.hpp:193-209. -/
def readCount128 (name : List Char) (R : Count128) (s : In) : Count128 × In :=
  let x := read2 name (readCount128Param ⟨0, 0, 0⟩) (readCount128Status 0) (R.P, R.r) s
  (⟨x.1.1, x.1.2⟩, x.2)

/-! ### minstd -/

/-- minstd.hpp:77-85. -/
def minstdStatus (r : BitVec 32) : List Char := ['('] ++ outU r ++ [')']
/-- minstd.hpp:87-98. -/
def readMinstdStatus (r : BitVec 32) (s : In) : BitVec 32 × In :=
  let a := (s.delimC '(').readU 32
  let s := a.2.delimC ')'
  if s.fail then (r, s) else (a.1, s)
/-- minstd.hpp:126-134. -/
def printMinstd (width : Nat) (fill : Char) (name : List Char) (E : Minstd) : List Char :=
  print1 width fill name (minstdStatus E.r)
/-- minstd.hpp:136-149; a new status holds 1 (minstd.hpp:64). -/
def readMinstd (name : List Char) (R : Minstd) (s : In) : Minstd × In :=
  let x := read1 name (readMinstdStatus 1) R.r s
  (⟨x.1⟩, x.2)

/-! ### xoshiro256plus -/

/-- xoshiro256plus.hpp:97-105. -/
def xoshiroStatus (E : Xoshiro) : List Char :=
  ['('] ++ outU E.r0 ++ [' '] ++ outU E.r1 ++ [' '] ++ outU E.r2 ++ [' '] ++ outU E.r3 ++ [')']
/-- xoshiro256plus.hpp:107-120. -/
def readXoshiroStatus (S : Xoshiro) (s : In) : Xoshiro × In :=
  let a := (s.delimC '(').readU 64
  let b := (a.2.delimC ' ').readU 64
  let c := (b.2.delimC ' ').readU 64
  let d := (c.2.delimC ' ').readU 64
  let s := d.2.delimC ')'
  if s.fail then (S, s) else (⟨a.1, b.1, c.1, d.1⟩, s)
/-- xoshiro256plus.hpp:169-177. -/
def printXoshiro (width : Nat) (fill : Char) (name : List Char) (E : Xoshiro) : List Char :=
  print1 width fill name (xoshiroStatus E)
/-- xoshiro256plus.hpp:179-193. -/
def readXoshiro (name : List Char) (R : Xoshiro) (s : In) : Xoshiro × In := read1 name (readXoshiroStatus {}) R s

/-! ### The mrg and yarn engines -/

/-- An array filled from a list. -/
def array {α : Type} {n : Nat} (d : α) (l : List α) : Fin n → α := fun i => l.getD i d

/-- mrg_parameter.hpp:84-88 (mrg_status.hpp:86-90): the numbers, with a blank after each but the last. -/
def outSep {α : Type} (out : α → List Char) : List α → List Char
  | [] => []
  | x :: l => out x ++ (if l = [] then [] else ' ' :: outSep out l)
/-- mrg_parameter.hpp:78-92 (mrg_status.hpp:80-94). -/
def mrgTuple {n : Nat} (a : Fin n → Int) : List Char := ['('] ++ outSep decimalInt (List.ofFn a) ++ [')']
/-- mrg_parameter.hpp:101-105 (mrg_status.hpp:103-107): the loop, with `m` numbers to be read. -/
def sepLoop {α : Type} (rd : In → α × In) : (m : Nat) → In → List α × In
  | 0, s => ([], s)
  | m + 1, s =>
    let x := rd s
    let r := sepLoop rd m (if 0 < m then x.2.delimC ' ' else x.2)
    (x.1 :: r.1, r.2)
/-- mrg_parameter.hpp:94-111 (mrg_status.hpp:96-113). -/
def readMrgTuple {n : Nat} (a : Fin n → Int) (s : In) : (Fin n → Int) × In :=
  let r := sepLoop readInt n (s.delimC '(')
  let s := r.2.delimC ')'
  if s.fail then (a, s) else (array 0 r.1, s)
/-- mrg2.hpp:100-108 etc. -/
def printMrg {n : Nat} (width : Nat) (fill : Char) (name : List Char) (E : MRG n) : List Char :=
  print2 width fill name (mrgTuple E.a) (mrgTuple E.r)
/-- mrg2.hpp:110-126 etc. -/
def readMrg {n : Nat} (name : List Char) (R : MRG n) (s : In) : MRG n × In :=
  let x := read2 name (readMrgTuple fun _ => 0) (readMrgTuple fun _ => 0) (R.a, R.r) s
  (⟨x.1.1, x.1.2⟩, x.2)

/-! ### The lagged Fibonacci engines -/

/-- lagfib2plus.hpp:97-98 (and lagfib2xor.hpp, lagfib4xor.hpp, lagfib4plus.hpp). -/
def outPre {α : Type} (out : α → List Char) (l : List α) : List Char := l.flatMap fun x => ' ' :: out x
/-- lagfib2plus.hpp:91-102. -/
def lagfibStatus {P : Params} {w : Nat} (E : LagFib P w) : List Char :=
  ['('] ++ outU E.index ++ outPre outU (List.ofFn E.r) ++ [')']
/-- lagfib2plus.hpp:111-112: the loop, with `m` numbers to be read. -/
def preLoop {α : Type} (rd : In → α × In) : (m : Nat) → In → List α × In
  | 0, s => ([], s)
  | m + 1, s =>
    let x := rd (s.delimC ' ')
    let r := preLoop rd m x.2
    (x.1 :: r.1, r.2)
/-- lagfib2plus.hpp:104-118. -/
def readLagfibStatus {P : Params} {w : Nat} (S : LagFib P w) (s : In) : LagFib P w × In :=
  let i := (s.delimC '(').readU 32
  let r := preLoop (readU w) P.size i.2
  let s := r.2.delimC ')'
  if s.fail then (S, s) else (⟨array 0 r.1, i.1⟩, s)
/-- lagfib2plus.hpp:191-199. -/
def printLagfib {P : Params} {w : Nat} (width : Nat) (fill : Char) (name : List Char) (E : LagFib P w) : List Char :=
  print1 width fill name (lagfibStatus E)
/-- lagfib2plus.hpp:201-214. -/
def readLagfib {P : Params} {w : Nat} (name : List Char) (R : LagFib P w) (s : In) : LagFib P w × In :=
  read1 name (readLagfibStatus {}) R s
/-- lagfib2xor.hpp `init_name` (lagfib2plus.hpp:218-223, lagfib4xor.hpp:223-228, lagfib4plus.hpp): `stem` is the class name. -/
def lagfibName (stem : List Char) (P : Params) (w : Nat) : List Char :=
  stem ++ ['_'] ++ decimal w ++ P.all.flatMap fun l => '_' :: decimal l

/-! ### The Mersenne twisters -/

/-- utility.hpp:162-173: `operator<<` of an `io_range` with delimiter " ". -/
def outRange {α : Type} (out : α → List Char) : List α → List Char
  | [] => []
  | x :: l => out x ++ (if l = [] then [] else [' '] ++ outRange out l)
/-- mt19937.hpp:131-139 (mt19937_64.hpp:135-143). -/
def mtStatus {w : Nat} {P : MT.Params w} (E : MT P) : List Char :=
  ['('] ++ decimalInt E.mti ++ [' '] ++ outRange outU (List.ofFn E.mt) ++ [')']
/-- utility.hpp:175-186: `operator>>` of an `io_range` with delimiter " " and `m` numbers to be read; what is not read keeps
the value `d`. -/
def rangeLoop {α : Type} (d : α) (rd : In → α × In) : (m : Nat) → In → List α × In
  | 0, s => ([], s)
  | m + 1, s =>
    if s.fail then (List.replicate (m + 1) d, s)
    else
      let x := rd s
      let r := rangeLoop d rd m (if 0 < m then x.2.delimStr [' '] else x.2)
      (x.1 :: r.1, r.2)
/-- mt19937.hpp:141-153 (mt19937_64.hpp:145-157). -/
def readMtStatus {w : Nat} {P : MT.Params w} (S : MT P) (s : In) : MT P × In :=
  let i := (s.delimC '(').readInt
  let r := rangeLoop 0 (readU w) P.N (i.2.delimC ' ')
  let s := r.2.delimC ')'
  if s.fail then (S, s) else (⟨i.1, array 0 r.1⟩, s)
/-- mt19937.hpp:103-114 (mt19937_64.hpp:106-117): the parameter object is empty. -/
def readMtParam (s : In) : Unit × In := ((), (s.delimC '(').delimC ')')
/-- mt19937.hpp:180-188 (mt19937_64.hpp:188-196). -/
def printMt {w : Nat} {P : MT.Params w} (width : Nat) (fill : Char) (name : List Char) (E : MT P) : List Char :=
  print2 width fill name ['(', ')'] (mtStatus E)
/-- mt19937.hpp:190-206 (mt19937_64.hpp:198-214). -/
def readMt {w : Nat} {P : MT.Params w} (name : List Char) (R : MT P) (s : In) : MT P × In :=
  let x := read2 name readMtParam (readMtStatus {}) ((), R) s
  (x.1.2, x.2)

end Trng.Stream

namespace Trng.Stream
open LagFib (Params)

/-! ### All engines -/

/-- The engine types: the template arguments of the lagged Fibonacci engines are `P` and the number `w` of bits of
`integer_type` (which is not a character type). -/
inductive Engine where
  | lcg64 | lcg64Shift | lcg64CountShift | count128LcgShift | minstd | xoshiro256plus
  | mrg (k : Kind) | yarn (k : Kind)
  | lagfib (P : Params) (w : Nat)
  | mt19937 | mt19937_64

namespace Engine

/-- The objects of the type. -/
def State : Engine → Type
  | lcg64 | lcg64Shift => LCG64
  | lcg64CountShift => LCG64Count
  | count128LcgShift => Count128
  | minstd => Minstd
  | xoshiro256plus => Xoshiro
  | mrg k | yarn k => MRG k.order
  | lagfib P w => LagFib P w
  | mt19937 => MT MT.mt19937
  | mt19937_64 => MT MT.mt19937_64

/-- mrg2.cc etc. `name_str`, without "mrg" or "yarn". -/
def suffix : Kind → List Char
  | .k2 => ['2'] | .k3 => ['3'] | .k3s => ['3', 's'] | .k4 => ['4'] | .k5 => ['5'] | .k5s => ['5', 's']

/-- `name()`: lcg64.cc, lcg64_shift.cc, lcg64_count_shift.cc, count128_lcg_shift.cc, minstd.cc, xoshiro256plus.cc, mrg2.cc,
..., yarn5s.cc, mt19937.cc, mt19937_64.cc `name_str`; lagfib2xor.hpp etc. `init_name`. -/
def name : Engine → List Char
  | lcg64 => "lcg64".toList
  | lcg64Shift => "lcg64_shift".toList
  | lcg64CountShift => "lcg64_count_shift".toList
  | count128LcgShift => "count128_lcg_shift".toList
  | minstd => "minstd".toList
  | xoshiro256plus => "xoshiro256plus".toList
  | mrg k => "mrg".toList ++ suffix k
  | yarn k => "yarn".toList ++ suffix k
  | lagfib P w => lagfibName ("lagfib".toList ++ decimal P.all.length ++
      (match P.op with | .xor => "xor".toList | .plus => "plus".toList)) P w
  | mt19937 => "mt19937".toList
  | mt19937_64 => "mt19937_64".toList

/-- `operator<<` for a stream with the given field width and fill character. -/
def print (width : Nat) (fill : Char) : (E : Engine) → E.State → List Char
  | lcg64, e => printLcg width fill (name lcg64) e
  | lcg64Shift, e => printLcg width fill (name lcg64Shift) e
  | lcg64CountShift, e => printCount width fill (name lcg64CountShift) e
  | count128LcgShift, e => printCount128 width fill (name count128LcgShift) e
  | minstd, e => printMinstd width fill (name minstd) e
  | xoshiro256plus, e => printXoshiro width fill (name xoshiro256plus) e
  | mrg k, e => printMrg width fill (name (mrg k)) e
  | yarn k, e => printMrg width fill (name (yarn k)) e
  | lagfib P w, e => printLagfib width fill (name (lagfib P w)) e
  | mt19937, e => printMt width fill (name mt19937) e
  | mt19937_64, e => printMt width fill (name mt19937_64) e

/-- `operator>>`: the object and the stream afterwards. -/
def read : (E : Engine) → E.State → In → E.State × In
  | lcg64, e, s => readLcg (name lcg64) e s
  | lcg64Shift, e, s => readLcg (name lcg64Shift) e s
  | lcg64CountShift, e, s => readCount (name lcg64CountShift) e s
  | count128LcgShift, e, s => readCount128 (name count128LcgShift) e s
  | minstd, e, s => readMinstd (name minstd) e s
  | xoshiro256plus, e, s => readXoshiro (name xoshiro256plus) e s
  | mrg k, e, s => readMrg (name (mrg k)) e s
  | yarn k, e, s => readMrg (name (yarn k)) e s
  | lagfib P w, e, s => readLagfib (name (lagfib P w)) e s
  | mt19937, e, s => readMt (name mt19937) e s
  | mt19937_64, e, s => readMt (name mt19937_64) e s

end Engine
end Trng.Stream
