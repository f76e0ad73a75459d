import Verif.JString.Model
import Verif.Bits.Model
/-!
# Numbers as text: Integer.cpp and Long.cpp

Strings are byte lists as in `Verif.JString`.
-/
namespace Verif.NumText

open Verif.JString Verif.CInt Verif.Bits

/-! ## Standard library -/

/-- The digit characters (also the table of Long.cpp:597-604). -/
def digitChars : List Byte := txt "0123456789abcdefghijklmnopqrstuvwxyz"

def digitChar (d : Nat) : Byte := digitChars.getD d 0

/-- `stream << std::dec/std::oct/std::hex << n` for `n >= 0`, and `%ld` without
the sign: repeated division, at most `fuel` digits. -/
def digits (b : Nat) : (fuel : Nat) → (n : Nat) → Str
  | 0, _ => []
  | f + 1, n => if n < b then [digitChar n] else digits b f (n / b) ++ [digitChar (n % b)]

/-- `std::bitset<32>(v).to_string()`: bit 31 first. -/
def bitString (x : BitVec 32) : Str :=
  (List.range 32).map fun k => if x.getLsbD (31 - k) then chr '1' else chr '0'

/-- `isspace` in the "C" locale. -/
def isSpace (c : Byte) : Bool := c.toNat = 32 || (9 ≤ c.toNat && c.toNat ≤ 13)

/-- Value of a character in `strtoul`. -/
def strtoulDigit (c : Byte) : Option Nat :=
  if isDigit c then some (c.toNat - 48)
  else if isUpper (toUpperB c) then some ((toUpperB c).toNat - 65 + 10)
  else none

/-- The digits of `strtoul`: value and number of digits read. -/
def scan (b : Nat) : (acc : Nat) → Str → Nat
  | acc, [] => acc
  | acc, c :: s =>
    match strtoulDigit c with
    | some d => if d < b then scan b (acc * b + d) s else acc
    | none => acc

/-- Does a digit of radix `b` come next? -/
def startsDigit (b : Nat) : Str → Bool
  | [] => false
  | c :: _ => match strtoulDigit c with
    | some d => d < b
    | none => false

/-- The optional sign of `strtoul`. -/
def stripSign : Str → Bool × Str
  | [] => (false, [])
  | c :: s => if c = chr '-' then (true, s) else if c = chr '+' then (false, s) else (false, c :: s)

/-- The `0x` prefix, skipped for base 16 when a hexadecimal digit follows. -/
def stripHex (b : Nat) : Str → Str
  | z :: x :: s => if b = 16 ∧ z = chr '0' ∧ toLowerB x = chr 'x' ∧ startsDigit 16 s then s else z :: x :: s
  | s => s

/-- `std::stoul(s, nullptr, base)` for bases 2..36 (libstdc++ over glibc's
`strtoul`): leading white space, sign, prefix, then the longest run of digits;
`invalid_argument` without digits, `out_of_range` above `ULONG_MAX`; a minus
sign negates modulo 2^64.  The argument is a C string. -/
def stoul (s : Str) (b : Nat) : Outcome (BitVec 64) :=
  let (negative, s) := stripSign ((cstr s).dropWhile isSpace)
  let s := stripHex b s
  if startsDigit b s then
    let n := scan b 0 s
    if n < 2 ^ 64 then .ok (if negative then - BitVec.ofNat 64 n else BitVec.ofNat 64 n)
    else .throw .outOfRange
  else .throw .invalidArgument

/-- The `try`/`catch` around `std::stoul` (Integer.cpp:376-384, 426-432). -/
def stoulCatch (s : Str) (b : Nat) : Outcome (BitVec 64) :=
  match stoul s b with
  | .throw .invalidArgument => .throw .numberFormat
  | .throw .outOfRange => .throw .numberFormat
  | r => r

/-! ## Integer -/

/-- Integer.cpp:535-572 `toUnsignedString(int, radix)`. -/
def toUnsignedString (x : BitVec 32) (radix : Int) : Outcome Str :=
  if x = 0 then .ok (txt "0")
  else
    let radix := if radix > 32 ∨ radix < 2 then 10 else radix
    if radix = 2 then getStringFromIndex (bitString x) (indexOfChar (bitString x) 49)
    else if radix = 8 then .ok (digits 8 64 (toUnsignedLong x).toNat)
    else if radix = 16 then .ok (digits 16 64 (toUnsignedLong x).toNat)
    else if radix = 10 then .ok (digits 10 64 (toUnsignedLong x).toNat)
    else .throw .unsupportedOperation

/-- Integer.cpp:531-533, 578-584 `toBinaryString`, `toHexString`, `toOctalString`. -/
def toBinaryString (x : BitVec 32) : Outcome Str := toUnsignedString x 2
def toHexString (x : BitVec 32) : Outcome Str := toUnsignedString x 16
def toOctalString (x : BitVec 32) : Outcome Str := toUnsignedString x 8

/-- Integer.cpp:603-610 `toString(int, radix)`. -/
def toString (m : Sem) (x : BitVec 32) (radix : Int) : Outcome Str :=
  if x.slt 0 then do
    let y ← neg m x
    let u ← toUnsignedString y radix
    .ok (txt "-" ++ u)
  else toUnsignedString x radix

/-- The range check and narrowing of Integer.cpp:386-395. -/
def narrowInt (r : BitVec 64) : Outcome (BitVec 32) :=
  if r.toInt > INT_MAX ∨ r.toInt < INT_MIN then .throw .numberFormat else .ok (r.setWidth 32)

/-- Integer.cpp:373-395, after the sign has been removed. -/
def parseMagnitude (s : Str) (radix : Nat) (negative : Bool) : Outcome (BitVec 32) := do
  let u ← stoulCatch s radix
  narrowInt (if negative then -u else u)

/-- Integer.cpp:355-395 `parseInt(String, radix)`. -/
def parseInt (s : Str) (radix : Int) : Outcome (BitVec 32) :=
  if s.length = 0 then .throw .numberFormat
  else if radix > 32 ∨ radix < 2 then .throw .numberFormat
  else do
    let c ← charAt s 0
    if c = chr '0' ∧ s.length = 1 then .ok 0
    else if c = chr '-' ∧ isDigit c = false then do
      let t ← getStringFromIndex s 1
      parseMagnitude t radix.toNat true
    else parseMagnitude s radix.toNat false

/-- Integer.cpp:426-441: conversion and check against 0 and 0xffffffff. -/
def parseUnsignedTail (s : Str) (radix : Nat) : Outcome (BitVec 32) := do
  let u ← stoulCatch s radix
  if u.toInt > 4294967295 ∨ u.toInt < 0 then .throw .numberFormat else .ok (u.setWidth 32)

/-- Integer.cpp:401-441 `parseUnsignedInt(String, radix)`. -/
def parseUnsignedInt (s : Str) (radix : Int) : Outcome (BitVec 32) :=
  if s.length = 0 then .throw .numberFormat
  else if radix > 32 ∨ radix < 2 then .throw .numberFormat
  else do
    let c ← charAt s 0
    if c = chr '0' ∧ s.length = 1 then .ok 0
    else if isDigit c = false ∧ c = chr '-' then .throw .numberFormat
    else if isDigit c = false ∧ c = chr '+' then do
      let t ← getStringFromIndex s 1
      parseUnsignedTail t radix.toNat
    else parseUnsignedTail s radix.toNat

/-- Integer.cpp:251-257: the base from the prefix. -/
def decodeBase (s : Str) : Outcome Int := do
  let c ← charAt s 0
  if c = chr '0' then do
    let d ← charAt s 1
    if d = chr 'x' ∨ d = chr 'X' then .ok 16 else .ok 8
  else .ok 10

/-- Integer.cpp:251-264. -/
def decodeTail (m : Sem) (s : Str) (negative : Bool) : Outcome (BitVec 32) := do
  let base ← decodeBase s
  let r ← parseInt s base
  if negative then neg m r else .ok r

/-- Integer.cpp:235-265 `decode`. -/
def decode (m : Sem) (s : Str) : Outcome (BitVec 32) :=
  if s.length = 0 then .throw .numberFormat
  else do
    let c ← charAt s 0
    if c = chr '0' ∧ s.length = 1 then .ok 0
    else if c = chr '-' ∧ isDigit c = false then do
      let t ← getStringFromIndex s 1
      decodeTail m t true
    else decodeTail m s false

/-- The loop of Integer.cpp:202-206. -/
def countOnes (s : Str) : (i n : Nat) → (acc : Int) → Outcome Int
  | _, 0, acc => .ok acc
  | i, n + 1, acc => do
    let c ← charAt s i
    countOnes s (i + 1) n (if c = chr '1' then acc + 1 else acc)

/-- Integer.cpp:198-209 `bitCount`. -/
def bitCount (x : BitVec 32) : Outcome Int := do
  let s ← toBinaryString x
  countOnes s 0 s.length 0

/-- Integer.cpp:344-353 `numberOfTrailingZeros`. -/
def numberOfTrailingZeros (x : BitVec 32) : Outcome Int :=
  if x = 0 then .ok 32
  else do
    let s ← toBinaryString x
    let last ← lastIndexOfChar s 49
    .ok ((s.length : Int) - last - 1)

/-! ## Long -/

/-- Result of a `long` computation whose mathematical value is `x`. -/
def chk64 (x : Int) : Outcome Int :=
  if -2 ^ 63 ≤ x ∧ x < 2 ^ 63 then .ok x else .ub

/-- Character.cpp:517-583 `digit`. -/
def charDigit (c : Int) (radix : Int) : Int :=
  if radix = 10 then
    if 48 ≤ c ∧ c ≤ 57 then c - 48 else -1
  else if radix = 16 then
    if 48 ≤ c ∧ c ≤ 57 then c - 48
    else if 97 ≤ c ∧ c ≤ 102 then c - 97 + 10
    else -1
  else -1

/-- Long.cpp:392-410, the loop from position `index`, `n` characters left. The
result is `none` when the code leaves with `return -1`. -/
def parseLoop (s : Str) (radix limit multmin : Int) : (index n : Nat) → (result : Int) → Outcome (Option Int)
  | _, 0, result => .ok (some result)
  | index, n + 1, result => do
    let c ← charAt s index
    let digit := charDigit c.toInt radix
    if digit < 0 then .ok none
    else if result < multmin then .ok none
    else do
      let r ← chk64 (result * radix)
      let l ← chk64 (limit + digit)
      if r < l then .ok none
      else do
        let r' ← chk64 (r - digit)
        parseLoop s radix limit multmin (index + 1) n r'

/-- `long / int` (C++ truncates; zero divisor and overflow trap). -/
def divLong (a b : Int) : Outcome Int :=
  if b = 0 ∨ ¬ (a.tdiv b < 2 ^ 63) then .ub else .ok (a.tdiv b)

/-- Long.cpp:391-414. -/
def parseTail (s : Str) (radix : Int) (index : Nat) (negative : Bool) : Outcome Int := do
  let limit : Int := if negative then -2 ^ 63 else -(2 ^ 63 - 1)
  let multmin ← divLong limit radix
  let r ← parseLoop s radix limit multmin index (s.length - index) 0
  match r with
  | none => .ok (-1)
  | some r => if negative then .ok r else chk64 (-r)

/-- Long.cpp:362-415 `parseLong(String, radix)`. -/
def parseLong (s : Str) (radix : Int) : Outcome Int :=
  if s.length > 0 then do
    let c ← charAt s 0
    if c.toInt < 48 then
      if c = chr '-' then
        if s.length = 1 then .ok (-1) else parseTail s radix 1 true
      else if c = chr '+' then
        if s.length = 1 then .ok (-1) else parseTail s radix 1 false
      else .ok (-1)
    else parseTail s radix 0 false
  else .ok (-1)

/-- Long.cpp:146-153: the sign. -/
def decodeSign (s : Str) : Outcome (Bool × Nat) := do
  let c ← charAt s 0
  if c = chr '-' then .ok (true, 1) else if c = chr '+' then .ok (false, 1) else .ok (false, 0)

/-- Long.cpp:155-165: the radix specifier; new index and radix. -/
def decodePrefix (s : Str) (index : Nat) : Outcome (Nat × Int) := do
  let x ← startsWithAt s (txt "0x") index
  let y ← startsWithAt s (txt "0X") index
  let h ← startsWithAt s (txt "#") index
  let z ← startsWithAt s (txt "0") index
  if x ∨ y then .ok (index + 2, 16)
  else if h then .ok (index + 1, 16)
  else if z ∧ s.length > 1 + index then .ok (index + 1, 8)
  else .ok (index, 10)

/-- Long.cpp:167-177. -/
def decodeRest (s : Str) (negative : Bool) (index : Nat) (radix : Int) : Outcome Int := do
  let a ← startsWithAt s (txt "-") index
  let b ← startsWithAt s (txt "+") index
  if a ∨ b then .ok (-1)
  else do
    let t ← getStringFromIndex s index
    let r ← parseLong t radix
    if negative then chk64 (-r) else .ok r

/-- Long.cpp:135-178 `decode`. -/
def decodeLong (s : Str) : Outcome Int :=
  if s.length = 0 then .ok (-1)
  else do
    let sg ← decodeSign s
    let px ← decodePrefix s sg.2
    decodeRest s sg.1 px.1 px.2

/-- `asprintf("%ld", v)`, the text of a `Long` object (Long.cpp:37-66, 531-533
`toString()`). -/
def longText (v : BitVec 64) : Str :=
  if v.toInt < 0 then chr '-' :: digits 10 64 v.toInt.natAbs else digits 10 64 v.toInt.natAbs

/-- Long.cpp:591-612 `formatUnsignedLong`, the `do … while`: `n` is `charPos`
before the decrement. `(int) val` keeps the low 32 bits. -/
def formatLoop (shift : Nat) : (n : Nat) → (val : BitVec 64) → Str → Outcome Str
  | 0, _, buf => .ok buf
  | n + 1, val, buf => do
    let i := (val.setWidth 32 &&& (BitVec.ofNat 32 (2 ^ shift - 1))).toNat
    let buf' ← Arr.set buf n (digitChar i)
    let val' := val.sshiftRight shift
    if val' ≠ 0 ∧ n > 0 then formatLoop shift n val' buf' else .ok buf'

/-- Long.cpp:621-637 `toUnsignedString0`. -/
def toUnsignedString0 (val : BitVec 64) (shift : Nat) : Outcome Str :=
  let mag := 64 - (longNumberOfLeadingZeros val).toNat
  let chars := max ((mag + (shift - 1)) / shift) 1
  formatLoop shift chars val (List.replicate chars (chr '0'))

/-- Long.cpp:499-524 `toHexString`, `toBinaryString`, `toOctalString`. -/
def longToHexString (v : BitVec 64) : Outcome Str := toUnsignedString0 v 4
def longToBinaryString (v : BitVec 64) : Outcome Str := toUnsignedString0 v 1
def longToOctalString (v : BitVec 64) : Outcome Str := toUnsignedString0 v 3

/-- Long.cpp:541-544 static `toString(long)`: the local is `static`, so the
object made at the first call of the process answers all later calls.  The
state is that object, absent before the first call. -/
def longToStringStatic (cache : Option (BitVec 64)) (v : BitVec 64) : Str × Option (BitVec 64) :=
  match cache with
  | some w => (longText w, some w)
  | none => (longText v, some v)

end Verif.NumText
