import Verif.Bits.Model
/-!
# `java.lang.Character`

`/repo/library/Java/Lang/Character/Character.cpp`.  `unicode` is `wchar_t`, a
signed 32-bit integer on the platform (Kernel/Type.hpp:37); `char` is signed.
-/
namespace Verif.Character

open Verif.CInt Verif.Bits

/-- A multi-character literal of four characters, as gcc evaluates it. -/
def multiChar (a b c d : Nat) : BitVec 32 := BitVec.ofNat 32 (((a * 256 + b) * 256 + c) * 256 + d)

/-- Character.cpp:331 `'\u000D800'`: `\u` takes four hexadecimal digits, so the
literal is the four characters `\r`, `8`, `0`, `0`. -/
def MIN_HIGH_SURROGATE : BitVec 32 := multiChar 13 56 48 48
/-- Character.cpp:340 `'\u000DBFF'`: `\r`, `B`, `F`, `F`. -/
def MAX_HIGH_SURROGATE : BitVec 32 := multiChar 13 66 70 70
/-- Character.cpp:349 `'\u000DC00'`: `\r`, `C`, `0`, `0`. -/
def MIN_LOW_SURROGATE : BitVec 32 := multiChar 13 67 48 48
/-- Character.cpp:358 `'\u000DFFF'`: `\r`, `F`, `F`, `F`. -/
def MAX_LOW_SURROGATE : BitVec 32 := multiChar 13 70 70 70
/-- Character.cpp:364. -/
def MIN_SURROGATE : BitVec 32 := MIN_HIGH_SURROGATE
/-- Character.cpp:370. -/
def MAX_SURROGATE : BitVec 32 := MAX_LOW_SURROGATE
/-- Character.cpp:377. -/
def MIN_SUPPLEMENTARY_CODE_POINT : BitVec 32 := 0x10000#32

/-- Character.cpp:413-418 `charCount`. -/
def charCount (codePoint : BitVec 32) : Int :=
  if codePoint.toInt ≥ MIN_SUPPLEMENTARY_CODE_POINT.toInt then 2 else 1

/-- Character.cpp:498-501 `isHighSurrogate`. -/
def isHighSurrogate (ch : BitVec 32) : Bool :=
  decide (ch.toInt ≥ MIN_HIGH_SURROGATE.toInt ∧ ch.toInt < MAX_HIGH_SURROGATE.toInt + 1)

/-- Character.cpp:503-505 `isLowSurrogate`. -/
def isLowSurrogate (ch : BitVec 32) : Bool :=
  decide (ch.toInt ≥ MIN_LOW_SURROGATE.toInt ∧ ch.toInt < MAX_LOW_SURROGATE.toInt + 1)

/-- Character.cpp:507-509 `isSurrogate`. -/
def isSurrogate (ch : BitVec 32) : Bool :=
  decide (ch.toInt ≥ MIN_SURROGATE.toInt ∧ ch.toInt < MAX_SURROGATE.toInt + 1)

/-- Character.cpp:511-515 `toCodePoint`. -/
def toCodePoint (m : Sem) (high low : BitVec 32) : Outcome (BitVec 32) := do
  let a ← shl m high 10
  let a ← add m a low
  let b ← shl m MIN_HIGH_SURROGATE 10
  let c ← sub m MIN_SUPPLEMENTARY_CODE_POINT b
  let c ← sub m c MIN_LOW_SURROGATE
  add m a c

/-- Character.cpp:490-492 `compare`: both operands are promoted to `int`. -/
def compare (x y : Byte) : Int := x.toInt - y.toInt

/-- `(unicode) c`, `(int) c` for a `char`. -/
def widen (c : Byte) : BitVec 32 := c.signExtend 32

/-- Character.cpp:439-443 `codePointAtImpl`, the part for a high surrogate. -/
def pairAt (m : Sem) (a : List Byte) (c1 : BitVec 32) (index limit : Int) : Outcome (BitVec 32) :=
  if index < limit then do
    let c ← Arr.get a index
    if isLowSurrogate (widen c) then toCodePoint m c1 (widen c) else .ok c1
  else .ok c1

/-- Character.cpp:436-445 `codePointAtImpl`. -/
def codePointAtImpl (m : Sem) (a : List Byte) (index limit : Int) : Outcome (BitVec 32) := do
  let c ← Arr.get a index
  if isHighSurrogate (widen c) then pairAt m a (widen c) (index + 1) limit else .ok (widen c)

/-- Character.cpp:424-426 `codePointAt(a, index)`. -/
def codePointAt (m : Sem) (a : List Byte) (index : Int) : Outcome (BitVec 32) := codePointAtImpl m a index a.length

/-- Character.cpp:428-433 `codePointAt(a, index, limit)`. -/
def codePointAtLimit (m : Sem) (a : List Byte) (index limit : Int) : Outcome (BitVec 32) :=
  if index ≥ limit ∨ limit < 0 ∨ limit > a.length then .ok (-1) else codePointAtImpl m a index limit

/-- Character.cpp:462-465 `codePointBeforeImpl`, the part for a low surrogate. -/
def pairBefore (m : Sem) (a : List Byte) (c2 : BitVec 32) (index : Int) : Outcome (BitVec 32) := do
  let c ← Arr.get a (index - 1)
  if isHighSurrogate (widen c) then toCodePoint m (widen c) c2 else .ok c2

/-- Character.cpp:459-468 `codePointBeforeImpl`. -/
def codePointBeforeImpl (m : Sem) (a : List Byte) (index start : Int) : Outcome (BitVec 32) := do
  let c ← Arr.get a (index - 1)
  if isLowSurrogate (widen c) ∧ index - 1 > start then pairBefore m a (widen c) (index - 1) else .ok (widen c)

/-- Character.cpp:447-449 `codePointBefore(a, index)`. -/
def codePointBefore (m : Sem) (a : List Byte) (index : Int) : Outcome (BitVec 32) := codePointBeforeImpl m a index 0

/-- Character.cpp:451-456 `codePointBefore(a, index, start)`. -/
def codePointBeforeStart (m : Sem) (a : List Byte) (index start : Int) : Outcome (BitVec 32) :=
  if index ≤ start ∨ start < 0 ∨ start ≥ a.length then .ok (-1) else codePointBeforeImpl m a index start

/-- Local variables of the loop of `codePointCountImpl`. -/
structure Count where
  i : Int
  n : Int

/-- Character.cpp:481-484: `i < endIndex && isLowSurrogate(a[i])`, `i` already
advanced. -/
def lowAt (a : List Byte) (i endIndex : Int) : Outcome Bool :=
  if i < endIndex then do
    let c ← Arr.get a i
    .ok (isLowSurrogate (widen c))
  else .ok false

/-- Character.cpp:480-486, one turn of the loop. -/
def countBody (a : List Byte) (endIndex : Int) (s : Count) : Outcome (Step Count Int) :=
  if s.i < endIndex then do
    let c ← Arr.get a s.i
    let b ← if isHighSurrogate (widen c) then lowAt a (s.i + 1) endIndex else .ok false
    .ok (.next (if b then ⟨s.i + 2, s.n - 1⟩ else ⟨s.i + 1, s.n⟩))
  else .ok (.done s.n)

/-- Character.cpp:477-488 `codePointCountImpl`. -/
def codePointCountImpl (a : List Byte) (offset count : Int) : Outcome Int :=
  iter (countBody a (offset + count)) (a.length + 1) ⟨offset, count⟩

/-- Character.cpp:470-475 `codePointCount`. -/
def codePointCount (a : List Byte) (offset count : Int) : Outcome Int :=
  if count > a.length - offset ∨ offset < 0 ∨ count < 0 then .ok (-1) else codePointCountImpl a offset count

/-- Character.cpp:517-583 `digit`: the two `switch` statements. -/
def digit (codePoint radix : Int) : Int :=
  if radix = 10 then
    if codePoint = 48 then 0 else if codePoint = 49 then 1 else if codePoint = 50 then 2
    else if codePoint = 51 then 3 else if codePoint = 52 then 4 else if codePoint = 53 then 5
    else if codePoint = 54 then 6 else if codePoint = 55 then 7 else if codePoint = 56 then 8
    else if codePoint = 57 then 9 else -1
  else if radix = 16 then
    if codePoint = 48 then 0 else if codePoint = 49 then 1 else if codePoint = 50 then 2
    else if codePoint = 51 then 3 else if codePoint = 52 then 4 else if codePoint = 53 then 5
    else if codePoint = 54 then 6 else if codePoint = 55 then 7 else if codePoint = 56 then 8
    else if codePoint = 57 then 9 else if codePoint = 97 then 10 else if codePoint = 98 then 11
    else if codePoint = 99 then 12 else if codePoint = 100 then 13 else if codePoint = 101 then 14
    else if codePoint = 102 then 15 else -1
  else -1

end Verif.Character
