import Verif.StringBuilder.Model
import Verif.JString.Model
/-!
# `java.lang.StringBuffer`

`/repo/library/Java/Lang/StringBuffer/StringBuffer.cpp`.  The state is the block
`original` points to and the two `int` fields (StringBuffer.hpp:37-39), the same
as that of `StringBuilder`.  The methods of `StringBuffer` (665-985) take a mutex
and call the method of `StringBufferUnSafe` of the same name (32-662); only
`insert(int, CharSequence)` calls another one.

Simplifications: allocation succeeds; a `String` argument is the list of its
characters, fewer than 2^31; a `const CharSequence &` is not null; one thread.
-/
namespace Verif.StringBuffer

open Verif.StringBuilder (SB swap anySurrogate reverseLoop fixPairs)

/-- String.hpp:41 `DEFAULT_CAPACITY`. -/
def defaultCapacity : Int := 16

/-- StringBuffer.cpp:36-44 `StringBufferUnSafe(int)`. -/
def ofCapacity (capacity : Int) : Outcome SB :=
  if capacity < 0 then .throw .negativeArraySize else .ok ⟨Block.calloc capacity.toNat, 0, capacity⟩

/-- StringBuffer.cpp:100-104, one turn of the loop. -/
def growBody (minimumCapacity cap : Int) : Outcome (Step Int Int) :=
  (chk32 (cap * 2 + 2)).bind fun n => .ok (if n < minimumCapacity then .next n else .done n)

/-- StringBuffer.cpp:91-108 `ensureCapacity`. Every turn doubles the capacity, so
the loop ends or overflows within 32 turns. -/
def ensureCapacity (minimumCapacity : Int) : OM SB Unit := do
  let s ← OM.read
  if minimumCapacity ≤ 0 then OM.ret ()
  else if minimumCapacity ≤ s.cap then OM.ret ()
  else do
    let n ← OM.lift (iter (growBody minimumCapacity) 33 s.cap)
    OM.write { s with mem := s.mem.realloc n.toNat, cap := n }

/-- StringBuffer.cpp:124-130: `append(String, int, int)` after the checks. -/
def appendAt (l : List Byte) (offset len : Int) : OM SB Unit := do
  let s ← OM.read
  let n ← OM.lift (chk32 (s.len + len))
  ensureCapacity n
  let s ← OM.read
  let m ← OM.lift (s.mem.copyIn s.len (l.drop offset.toNat) len)
  OM.write { s with mem := m, len := n }

/-- StringBuffer.cpp:118-131 `append(String, int, int)`. -/
def appendSlice (l : List Byte) (offset len : Int) : OM SB Unit :=
  if offset < 0 ∨ len < 0 then OM.raise .indexOutOfBounds
  else do
    let stop ← OM.lift (chk32 (offset + len))
    if stop > l.length then OM.raise .indexOutOfBounds else appendAt l offset len

/-- StringBuffer.cpp:110-112 `append(String)`; also `append(string)` (164-166),
`append(boolean)` (192-198), `append(CharSequence)` (73-78), and the overloads
that convert their argument to a `String` first. -/
def append (l : List Byte) : OM SB Unit := appendSlice l 0 l.length

/-- StringBuffer.cpp:200-202 `append(char)`: `String::valueOf('\0')` is empty
(String.cpp:487-490). -/
def appendChar (c : Byte) : OM SB Unit := append (if c = 0 then [] else [c])

/-- StringBuffer.cpp:80-89 `append(CharSequence, int, int)`. -/
def appendSub (l : List Byte) (start endIndex : Int) : OM SB Unit :=
  if start < 0 ∨ start > endIndex ∨ start > l.length then OM.raise .indexOutOfBounds
  else appendSlice l start (endIndex - start)

/-- StringBuffer.cpp:46-51, 53-63: constructors from a text. -/
def ofText (l : List Byte) : Res SB Unit :=
  OM.bind (OM.lift (chk32 (l.length + defaultCapacity)))
    (fun n => OM.bind (OM.write ⟨Block.calloc n.toNat, 0, n⟩) fun _ => append l) ⟨[], 0, 0⟩

/-- StringBuffer.cpp:153-162, 679-690: the copy constructors; also what `operator=`
(649-661, 973-985) leaves for another object. -/
def copy (t : SB) : Outcome SB :=
  (t.mem.load 0 t.len.toNat).bind fun l => ((Block.calloc t.cap.toNat).store 0 l).bind fun m => .ok ⟨m, t.len, t.cap⟩

/-- StringBuffer.cpp:649-661, 973-985 `operator=`. When an object is assigned to
itself (`other = none`), `other.original` is the block that was just allocated, so
the loop copies the zeros of the new block onto themselves. -/
def assign (other : Option SB) : OM SB Unit :=
  match other with
  | some t => do
    let c ← OM.lift (copy t)
    OM.write c
  | none => do
    let s ← OM.read
    let c ← OM.lift (copy { s with mem := Block.calloc s.cap.toNat })
    OM.write c

/-- StringBuffer.cpp:204-207 `append(StringBuffer)`: the C string at the other
buffer's `original`. -/
def appendBuffer (t : SB) : OM SB Unit := do
  let l ← OM.lift t.mem.cstring
  append l

/-- StringBuffer.cpp:223: the low surrogate of a code point as a `char`. -/
def lowByte (cp : BitVec 32) : Byte := ((cp &&& 0x3ff#32) + 0xDC00#32).setWidth 8

/-- StringBuffer.cpp:224-226: the high surrogate of a code point as a `char`. -/
def highByte (cp : BitVec 32) : Byte := ((cp >>> 10) + (0xD800#32 - (0x10000#32 >>> 10))).setWidth 8

/-- StringBuffer.cpp:209-233 `appendCodePoint`. -/
def appendCodePoint (cp : BitVec 32) : OM SB Unit :=
  if (cp >>> 16).toNat = 0 then appendChar (cp.setWidth 8)
  else if (cp >>> 16).toNat < 17 then do
    let _ ← appendChar (highByte cp)
    appendChar (lowByte cp)
  else OM.raise .interrupted

/-- StringBuffer.cpp:141-150: `insert(int, String, int, int)` after the checks. -/
def insertAt (index : Int) (l : List Byte) (offset len : Int) : OM SB Unit := do
  let s ← OM.read
  let n ← OM.lift (chk32 (s.len + len))
  ensureCapacity n
  let s ← OM.read
  let m ← OM.lift (s.mem.move (index + len) index (s.len - index))
  let m ← OM.lift (m.copyIn index (l.drop offset.toNat) len)
  OM.write { s with mem := m, len := n }

/-- StringBuffer.cpp:133-151 `insert(int, String, int, int)`. -/
def insertSlice (index : Int) (l : List Byte) (offset len : Int) : OM SB Unit := do
  let s ← OM.read
  if index < 0 ∨ index > s.len ∨ offset < 0 ∨ len < 0 then OM.raise .stringIndexOutOfBounds
  else do
    let stop ← OM.lift (chk32 (offset + len))
    if stop > l.length then OM.raise .stringIndexOutOfBounds else insertAt index l offset len

/-- StringBuffer.cpp:430-434 `insert(int, String)`; also the overloads for
`string`, numbers and `boolean` (393-449), which convert to a `String` first. -/
def insert (offset : Int) (l : List Byte) : OM SB Unit := insertSlice offset l 0 l.length

/-- StringBuffer.cpp:425-428 `insert(int, char)`. -/
def insertChar (offset : Int) (c : Byte) : OM SB Unit := insert offset (if c = 0 then [] else [c])

/-- StringBuffer.cpp:451-469 `insert(int, CharSequence, int, int)`. -/
def insertSub (offset : Int) (l : List Byte) (start endIndex : Int) : OM SB Unit := do
  let s ← OM.read
  if offset < 0 then OM.raise .indexOutOfBounds
  else if offset > s.len ∨ start < 0 ∨ endIndex < 0 ∨ start > endIndex ∨ endIndex > l.length then OM.raise .indexOutOfBounds
  else insertSlice offset l start (endIndex - start)

/-- StringBuffer.cpp:898-902 `insert(int, const CharSequence &)`: passes a
`const CharSequence *`, which converts to `boolean` and to nothing else the
overloads take. -/
def insertSequence (offset : Int) (_ : List Byte) : OM SB Unit := insert offset (txt "true")

/-- StringBuffer.cpp:322-334: the move of `deletes`. -/
def deleteMove (start endIndex : Int) : OM SB Unit := do
  let s ← OM.read
  if endIndex > s.len then do
    let m ← OM.lift (s.mem.move start s.len s.len)
    OM.write { s with mem := m, len := start }
  else do
    let m ← OM.lift (s.mem.move start endIndex (s.len - start))
    OM.write { s with mem := m, len := s.len - (endIndex - start) }

/-- StringBuffer.cpp:306-335 `deletes`. -/
def deletes (start endIndex : Int) : OM SB Unit := do
  let s ← OM.read
  if start < 0 then OM.raise .stringIndexOutOfBounds
  else if start > endIndex ∨ start > s.len then OM.raise .stringIndexOutOfBounds
  else if start = endIndex ∨ start = s.len then OM.ret ()
  else deleteMove start endIndex

/-- StringBuffer.cpp:337-353 `deleteCharAt`. -/
def deleteCharAt (index : Int) : OM SB Unit := do
  let s ← OM.read
  if index < 0 then OM.raise .stringIndexOutOfBounds
  else if index ≥ s.len then OM.raise .stringIndexOutOfBounds
  else do
    let m ← OM.lift (s.mem.move index (index + 1) (s.len - index))
    OM.write { s with mem := m, len := s.len - 1 }

/-- StringBuffer.cpp:515-529: `replace` after the checks. The tail is moved by as
many bytes as the new text has. -/
def replaceTail (start endIndex : Int) (l : List Byte) : OM SB Unit := do
  let s ← OM.read
  let n ← OM.lift (chk32 (s.len + l.length))
  let n := n - endIndex + start
  ensureCapacity n
  let s ← OM.read
  let m ← OM.lift (s.mem.move (start + l.length) endIndex l.length)
  let m ← OM.lift (m.copyIn start l l.length)
  OM.write { s with mem := m, len := n }

/-- StringBuffer.cpp:503-530 `replace`. -/
def replace (start endIndex : Int) (l : List Byte) : OM SB Unit := do
  let s ← OM.read
  if start < 0 then OM.raise .stringIndexOutOfBounds
  else if start > s.len ∨ start > endIndex then OM.raise .stringIndexOutOfBounds
  else replaceTail start (if endIndex > s.len then s.len else endIndex) l

/-- StringBuffer.cpp:532-567 `reverse`. Its loops are those of
`StringBuilder::reverse`. -/
def reverse : OM SB Unit := do
  let s ← OM.read
  let r ← OM.lift (reverseLoop s.len (s.len.tdiv 2).toNat 0 (s.mem, false))
  let m ← OM.lift (if r.2 then fixPairs (s.len - 1) s.len.toNat 0 r.1 else .ok r.1)
  OM.write { s with mem := m }

/-- StringBuffer.cpp:569-578 `setCharAt`. -/
def setCharAt (index : Int) (c : Byte) : OM SB Unit := do
  let s ← OM.read
  if index < 0 then OM.raise .indexOutOfBounds
  else if index ≥ s.len then OM.raise .indexOutOfBounds
  else do
    let m ← OM.lift (s.mem.wr index c)
    OM.write { s with mem := m }

/-- StringBuffer.cpp:592-594: NUL from `i` down to `stop`, `n` turns. -/
def wipeDown (m : Block) (i : Int) : Nat → Outcome Block
  | 0 => .ok m
  | n + 1 => (m.wr i 0#8).bind fun m => wipeDown m (i - 1) n

/-- StringBuffer.cpp:580-597 `setLength`. Both loops include their last index. -/
def setLength (newLength : Int) : OM SB Unit :=
  if newLength < 0 then OM.raise .indexOutOfBounds
  else do
    let s ← OM.read
    if newLength > s.len then do
      ensureCapacity newLength
      let s ← OM.read
      let m ← OM.lift (s.mem.store s.len (List.replicate (newLength - s.len + 1).toNat 0#8))
      OM.write { s with mem := m, len := newLength }
    else do
      let m ← OM.lift (wipeDown s.mem s.len (s.len - newLength + 1).toNat)
      OM.write { s with mem := m, len := newLength }

/-- StringBuffer.cpp:235-245 `charAt`. -/
def charAt (index : Int) : OM SB Byte := do
  let s ← OM.read
  if index < 0 then OM.raise .indexOutOfBounds
  else if index ≥ s.len then OM.raise .indexOutOfBounds
  else OM.lift (s.mem.rd index)

/-- StringBuffer.cpp:257-264: a high surrogate at `index`. -/
def pairAt (m : Sem) (s : SB) (c : Byte) (following : Int) : Outcome (BitVec 32) :=
  if following < s.len then do
    let d ← s.mem.rd following
    if Character.isLowSurrogate (Character.widen d) then Character.toCodePoint m (Character.widen c) (Character.widen d)
    else .ok (Character.widen c)
  else .ok (Character.widen c)

/-- StringBuffer.cpp:247-267 `codePointAt`. -/
def codePointAt (m : Sem) (index : Int) : OM SB (BitVec 32) := do
  let s ← OM.read
  if index < 0 then OM.raise .indexOutOfBounds
  else if index ≥ s.len then OM.raise .indexOutOfBounds
  else do
    let c ← OM.lift (s.mem.rd index)
    if Character.isHighSurrogate (Character.widen c) then OM.lift (pairAt m s c (index + 1)) else OM.ret (Character.widen c)

/-- StringBuffer.cpp:277-283: a low surrogate before `index`. -/
def pairBefore (m : Sem) (s : SB) (c : Byte) (index : Int) : Outcome (BitVec 32) := do
  let d ← s.mem.rd (index - 2)
  if Character.isLowSurrogate (Character.widen d) then Character.toCodePoint m (Character.widen d) (Character.widen c)
  else .ok (Character.widen c)

/-- StringBuffer.cpp:269-285 `codePointBefore`. -/
def codePointBefore (m : Sem) (index : Int) : OM SB (BitVec 32) := do
  let s ← OM.read
  if index < 0 ∨ index = 0 then OM.raise .indexOutOfBounds
  else if index > s.len then OM.raise .indexOutOfBounds
  else do
    let c ← OM.lift (s.mem.rd (index - 1))
    if Character.isLowSurrogate (Character.widen c) ∧ index > 1 then OM.lift (pairBefore m s c index)
    else OM.ret (Character.widen c)

/-- StringBuffer.cpp:295-297: the condition, evaluated from the left. -/
def pairHere (m : Block) (i : Int) : Outcome Bool := do
  let c ← m.rd (i + 1)
  if Character.isHighSurrogate (Character.widen c) then do
    let d ← m.rd i
    .ok (Character.isLowSurrogate (Character.widen d))
  else .ok false

/-- StringBuffer.cpp:294-301: the loop of `codePointCount`, `n` turns at most. -/
def countLoop (m : Block) (stop : Int) : Nat → Int → Int → Outcome Int
  | 0, _, count => .ok count
  | n + 1, i, count =>
    if i < stop then do
      let b ← pairHere m i
      if b then countLoop m stop n (i + 2) (count - 1) else countLoop m stop n (i + 1) count
    else .ok count

/-- StringBuffer.cpp:287-304 `codePointCount`. -/
def codePointCount (beginIndex endIndex : Int) : OM SB Int := do
  let s ← OM.read
  if beginIndex < 0 ∨ endIndex > s.len ∨ beginIndex > endIndex then OM.raise .indexOutOfBounds
  else OM.lift (countLoop s.mem endIndex (endIndex - beginIndex).toNat beginIndex (endIndex - beginIndex))

/-- StringBuffer.cpp:114-116 `length`. -/
def length : OM SB Int := do
  let s ← OM.read
  OM.ret s.len

/-- StringBuffer.cpp:65-67 `capacity`. -/
def capacity : OM SB Int := do
  let s ← OM.read
  OM.ret s.cap

/-- StringBuffer.cpp:636-638 `toString`, 805-807 `getValue`: a `String` from the C
string at `original`. -/
def toString : OM SB (List Byte) := do
  let s ← OM.read
  OM.lift s.mem.cstring

/-- StringBuffer.cpp:616-634 `subString(start, end)`. -/
def subString (start endIndex : Int) : OM SB (List Byte) := do
  let s ← OM.read
  if start < 0 ∨ endIndex < 0 then OM.raise .stringIndexOutOfBounds
  else if start ≥ s.len ∨ endIndex > s.len ∨ start > endIndex then OM.raise .stringIndexOutOfBounds
  else do
    let l ← OM.lift (s.mem.load start (endIndex - start).toNat)
    OM.ret (cstr l)

/-- StringBuffer.cpp:612-614 `subString(start)`. -/
def subStringFrom (start : Int) : OM SB (List Byte) := do
  let s ← OM.read
  subString start s.len

/-- StringBuffer.cpp:640-647 `trimToSize`. -/
def trimToSize : OM SB Unit := do
  let s ← OM.read
  if s.cap ≤ s.len then OM.ret () else OM.write { s with mem := s.mem.realloc s.len.toNat, cap := s.len }

/-- StringBuffer.cpp:493-501 `offsetByCodePoints`. -/
def offsetByCodePoints (index _codePointOffset : Int) : OM SB Int := do
  let s ← OM.read
  if index < 0 ∨ index > s.len then OM.raise .indexOutOfBounds else OM.ret 0

/-! ## Searching -/

/-- StringBuffer.cpp:378-390: `indexOf` for a start that is not negative; `t` is the
text and `p` the pattern. -/
def indexIn (t p : List Byte) (fromIndex : Int) : Outcome Int :=
  if t.length = 0 ∨ p = [] then .ok (-1)
  else if JString.pastEnd t fromIndex ∨ t.length < p.length then .ok (-1)
  else do
    let u ← JString.substr t fromIndex.toNat t.length
    match JString.find u (cstr p) 0 with
    | some i => .ok ((i : Int) + fromIndex)
    | none => .ok (-1)

/-- StringBuffer.cpp:373-391 `indexOf(String, int)`; a negative start calls
`indexOf(String)`, which calls this again with start 0 (369-371). -/
def indexOfFrom (p : List Byte) (fromIndex : Int) : OM SB Int := do
  let t ← toString
  if fromIndex < 0 then OM.lift (indexIn t (cstr p) 0) else OM.lift (indexIn t p fromIndex)

/-- StringBuffer.cpp:369-371 `indexOf(String)`. -/
def indexOf (p : List Byte) : OM SB Int := indexOfFrom (cstr p) 0

/-- StringBuffer.cpp:471-474 `lastIndexOf(String)`. -/
def lastIndexOf (p : List Byte) : OM SB Int := do
  let t ← toString
  OM.ret (JString.lastIndexOf t p)

/-- StringBuffer.cpp:476-491 `lastIndexOf(String, int)`. The two reversals are done
by a `StringBuilder` and read back as C strings. -/
def lastIndexOfFrom (p : List Byte) (fromIndex : Int) : OM SB Int := do
  let t ← toString
  let s ← OM.read
  let i ← OM.lift (chk32 (s.len - fromIndex))
  let i ← OM.lift (chk32 (i - p.length))
  let u ← OM.lift (JString.getStringFromIndex t.reverse i)
  if JString.indexOf u (cstr p.reverse) = -1 then OM.ret (-1)
  else OM.ret (u.length - p.length - JString.indexOf u (cstr p.reverse))

/-! ## Histories -/

/-- Calls on a `StringBuffer`. -/
inductive Op
  | append (l : List Byte)
  | appendSlice (l : List Byte) (offset len : Int)
  | appendSub (l : List Byte) (start endIndex : Int)
  | appendChar (c : Byte)
  | appendCodePoint (cp : BitVec 32)
  | insert (offset : Int) (l : List Byte)
  | insertSlice (index : Int) (l : List Byte) (offset len : Int)
  | insertSub (offset : Int) (l : List Byte) (start endIndex : Int)
  | insertChar (offset : Int) (c : Byte)
  | deletes (start endIndex : Int)
  | deleteCharAt (index : Int)
  | replace (start endIndex : Int) (l : List Byte)
  | reverse
  | setCharAt (index : Int) (c : Byte)
  | setLength (n : Int)
  | ensureCapacity (n : Int)
  | trimToSize
  | charAt (index : Int)
  | codePointAt (index : Int)
  | codePointBefore (index : Int)
  | codePointCount (beginIndex endIndex : Int)
  | length
  | capacity
  | toString
  | subString (start endIndex : Int)
  | subStringFrom (start : Int)

/-- What a call returns; the methods that return `*this` by reference count as
`unit`. -/
inductive Ans
  | unit
  | int (i : Int)
  | char (c : Byte)
  | text (l : List Byte)
  deriving DecidableEq, Repr

/-- Dispatch. -/
def step (m : Sem) : Op → OM SB Ans
  | .append l => do let _ ← append l; OM.ret .unit
  | .appendSlice l o n => do let _ ← appendSlice l o n; OM.ret .unit
  | .appendSub l i j => do let _ ← appendSub l i j; OM.ret .unit
  | .appendChar c => do let _ ← appendChar c; OM.ret .unit
  | .appendCodePoint c => do let _ ← appendCodePoint c; OM.ret .unit
  | .insert i l => do let _ ← insert i l; OM.ret .unit
  | .insertSlice i l o n => do let _ ← insertSlice i l o n; OM.ret .unit
  | .insertSub i l a b => do let _ ← insertSub i l a b; OM.ret .unit
  | .insertChar i c => do let _ ← insertChar i c; OM.ret .unit
  | .deletes i j => do let _ ← deletes i j; OM.ret .unit
  | .deleteCharAt i => do let _ ← deleteCharAt i; OM.ret .unit
  | .replace i j l => do let _ ← replace i j l; OM.ret .unit
  | .reverse => do let _ ← reverse; OM.ret .unit
  | .setCharAt i c => do let _ ← setCharAt i c; OM.ret .unit
  | .setLength n => do let _ ← setLength n; OM.ret .unit
  | .ensureCapacity n => do let _ ← ensureCapacity n; OM.ret .unit
  | .trimToSize => do let _ ← trimToSize; OM.ret .unit
  | .charAt i => do let c ← charAt i; OM.ret (.char c)
  | .codePointAt i => do let c ← codePointAt m i; OM.ret (.int c.toInt)
  | .codePointBefore i => do let c ← codePointBefore m i; OM.ret (.int c.toInt)
  | .codePointCount i j => do let n ← codePointCount i j; OM.ret (.int n)
  | .length => do let n ← length; OM.ret (.int n)
  | .capacity => do let n ← capacity; OM.ret (.int n)
  | .toString => do let l ← toString; OM.ret (.text l)
  | .subString i j => do let l ← subString i j; OM.ret (.text l)
  | .subStringFrom i => do let l ← subStringFrom i; OM.ret (.text l)

end Verif.StringBuffer
