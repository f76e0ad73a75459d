import Verif.Obj
import Verif.Buf
import Verif.CStr
import Verif.Character.Model
/-!
# `java.lang.StringBuilder`

`/repo/library/Java/Lang/StringBuilder/StringBuilder.cpp`.  The state is the
block `original` points to and the two `int` fields.

Simplifications: allocation succeeds; a null `original` is the empty block; a
`String` argument is the list of its characters, fewer than 2^31; the field
`backupOriginalForToString` is not kept.
-/
namespace Verif.StringBuilder

/-- StringBuilder.hpp:43-46. -/
structure SB where
  mem : Block
  len : Int
  cap : Int
  deriving DecidableEq, Repr

/-- StringBuilder.hpp:49. -/
def defaultCapacity : Int := 16

/-- StringBuilder.cpp:38-46 `StringBuilder(int)`. -/
def ofCapacity (capacity : Int) : Outcome SB :=
  if capacity < 0 then .throw .negativeArraySize else .ok ⟨Block.calloc capacity.toNat, 0, capacity⟩

/-- StringBuilder.cpp:307-310: the new capacity. -/
def newCapacity (cap minimumCapacity : Int) : Outcome Int :=
  (chk32 (cap * 2 + 2)).bind fun n => .ok (if n < minimumCapacity then minimumCapacity else n)

/-- StringBuilder.cpp:302-314 `ensureCapacity`. -/
def ensureCapacity (minimumCapacity : Int) : OM SB Unit := do
  let s ← OM.read
  if minimumCapacity ≤ 0 ∨ minimumCapacity ≤ s.cap then OM.ret ()
  else do
    let n ← OM.lift (newCapacity s.cap minimumCapacity)
    OM.write { s with mem := s.mem.realloc n.toNat, cap := n }

/-- StringBuilder.cpp:170-182 `append(String)`; also `append(char)` (93-99),
`append(Array<Character>)` (101-111), `append(Array<char>)` (113-123) and
`append(initializer_list)` (157-168), and the overloads that convert their
argument to a `String` first. -/
def append (l : List Byte) : OM SB Unit := do
  let s ← OM.read
  let n ← OM.lift (chk32 (s.len + l.length))
  ensureCapacity n
  let s ← OM.read
  let m ← OM.lift (s.mem.store s.len l)
  OM.write { s with mem := m, len := n }

/-- StringBuilder.cpp:48-64: constructors from a text. -/
def ofText (l : List Byte) : Res SB Unit :=
  OM.bind (OM.lift (chk32 (defaultCapacity + l.length))) (fun n => OM.bind (ensureCapacity n) fun _ => append l) ⟨[], 0, 0⟩

/-- StringBuilder.cpp:66-74: the copy constructor. -/
def copy (t : SB) : Outcome SB :=
  (t.mem.load 0 t.len.toNat).bind fun l => ((Block.calloc t.cap.toNat).store 0 l).bind fun m => .ok ⟨m, t.len, t.cap⟩

/-- The returned copy of `return *this;` in a method returning `StringBuilder`. -/
def returnThis : OM SB SB := do
  let s ← OM.read
  OM.lift (copy s)

/-- StringBuilder.cpp:138-155 `append(CharSequence, int, int)`. -/
def appendSlice (l : List Byte) (start endIndex : Int) : OM SB Unit :=
  if start < 0 ∨ start > endIndex ∨ endIndex > l.length then OM.raise .indexOutOfBounds
  else append ((l.drop start.toNat).take (endIndex - start).toNat)

/-- StringBuilder.cpp:505-523, 449-465, 388-403, 352-360: make room at `offset` and store
`l` there. -/
def insertAt (offset : Int) (l : List Byte) : OM SB Unit := do
  let s ← OM.read
  let n ← OM.lift (chk32 (s.len + l.length))
  ensureCapacity n
  let s ← OM.read
  let m ← OM.lift (s.mem.move (offset + l.length) offset (s.len - offset))
  let m ← OM.lift (m.store offset l)
  OM.write { s with mem := m, len := n }

/-- StringBuilder.cpp:500-524 `insert(int, String)`. -/
def insert (offset : Int) (l : List Byte) : OM SB Unit := do
  let s ← OM.read
  if offset < 0 ∨ offset > s.len then OM.raise .stringIndexOutOfBounds else insertAt offset l

/-- StringBuilder.cpp:347-363 `insert(int, char)`. -/
def insertChar (offset : Int) (c : Byte) : OM SB Unit := do
  let s ← OM.read
  if offset < 0 ∨ offset > s.len then OM.raise .indexOutOfBounds else insertAt offset [c]

/-- StringBuilder.cpp:378-404, 406-432 `insert(int, Array, int, int)`; also
`append(Array, int, int)` (125-131). -/
def insertSlice (index : Int) (l : List Byte) (offset length : Int) : OM SB Unit := do
  let s ← OM.read
  if index < 0 ∨ index > s.len then OM.raise .stringIndexOutOfBounds
  else do
    let stop ← OM.lift (chk32 (offset + length))
    if offset < 0 ∨ length < 0 ∨ stop > l.length then OM.raise .stringIndexOutOfBounds
    else insertAt index ((l.drop offset.toNat).take length.toNat)

/-- StringBuilder.cpp:438-466 `insert(int, CharSequence, int, int)`. -/
def insertSub (offset : Int) (l : List Byte) (start endIndex : Int) : OM SB Unit := do
  let s ← OM.read
  if offset < 0 ∨ offset > s.len then OM.raise .indexOutOfBounds
  else if start < 0 ∨ endIndex < 0 ∨ start > endIndex ∨ endIndex > l.length then OM.raise .indexOutOfBounds
  else insertAt offset ((l.drop start.toNat).take (endIndex - start).toNat)

/-- StringBuilder.cpp:278-285, 293-299: move the tail down over a range. -/
def deleteTail (start endIndex : Int) : OM SB SB := do
  let s ← OM.read
  let m ← OM.lift (s.mem.move start endIndex (s.len - endIndex))
  OM.write { s with mem := m, len := s.len - (endIndex - start) }
  returnThis

/-- StringBuilder.cpp:267-286 `deleteRange`. -/
def deleteRange (start endIndex : Int) : OM SB SB := do
  let s ← OM.read
  if start < 0 then OM.raise .stringIndexOutOfBounds
  else
    let e := if endIndex > s.len then s.len else endIndex
    if start > e then OM.raise .stringIndexOutOfBounds else deleteTail start e

/-- StringBuilder.cpp:288-300 `deleteCharAt`. -/
def deleteCharAt (index : Int) : OM SB SB := do
  let s ← OM.read
  if index < 0 ∨ index ≥ s.len then OM.raise .stringIndexOutOfBounds else deleteTail index (index + 1)

/-- StringBuilder.cpp:560-575 `replace` after the checks. -/
def replaceTail (start endIndex : Int) (l : List Byte) : OM SB SB := do
  let s ← OM.read
  let n ← OM.lift (chk32 (s.len + l.length))
  let n := n - (endIndex - start)
  ensureCapacity n
  let s ← OM.read
  let m ← OM.lift (s.mem.move (endIndex + l.length - (endIndex - start)) endIndex (s.len - endIndex))
  let m ← OM.lift (m.copyIn start l l.length)
  OM.write { s with mem := m, len := n }
  returnThis

/-- StringBuilder.cpp:546-576 `replace`. -/
def replace (start endIndex : Int) (l : List Byte) : OM SB SB := do
  let s ← OM.read
  if start < 0 then OM.raise .stringIndexOutOfBounds
  else if start > s.len then OM.raise .stringIndexOutOfBounds
  else if start > endIndex then OM.raise .stringIndexOutOfBounds
  else replaceTail start (if endIndex > s.len then s.len else endIndex) l

/-- StringBuilder.cpp:586-588: exchange two characters. -/
def swap (m : Block) (i j : Int) : Outcome Block := do
  let temp ← m.rd i
  let y ← m.rd j
  let m ← m.wr i y
  m.wr j temp

/-- StringBuilder.cpp:589. -/
def anySurrogate (m : Block) (i j : Int) : Outcome Bool := do
  let a ← m.rd i
  let b ← m.rd j
  .ok (Character.isSurrogate (Character.widen a) || Character.isSurrogate (Character.widen b))

/-- StringBuilder.cpp:584-592: the loop of `reverse`, `n` turns left. -/
def reverseLoop (len : Int) : Nat → Int → Block × Bool → Outcome (Block × Bool)
  | 0, _, r => .ok r
  | n + 1, index, r => do
    let m ← swap r.1 index (len - 1 - index)
    let b ← anySurrogate m index (len - 1 - index)
    reverseLoop len n (index + 1) (m, b || r.2)

/-- StringBuilder.cpp:821-826, a low surrogate at `index`: exchange it with a
following high surrogate. -/
def fixPair (m : Block) (index : Int) (ch2 : Byte) : Outcome (Block × Int) := do
  let ch1 ← m.rd (index + 1)
  if Character.isHighSurrogate (Character.widen ch1) then do
    let m ← m.wr index ch1
    let m ← m.wr (index + 1) ch2
    .ok (m, index + 2)
  else .ok (m, index + 1)

/-- StringBuilder.cpp:813-829 `reverseAllValidSurrogatePairs`. -/
def fixPairs (stop : Int) : Nat → Int → Block → Outcome Block
  | 0, _, m => .ok m
  | n + 1, index, m =>
    if index < stop then do
      let ch2 ← m.rd index
      let r ← if Character.isLowSurrogate (Character.widen ch2) then fixPair m index ch2 else .ok (m, index + 1)
      fixPairs stop n r.2 r.1
    else .ok m

/-- StringBuilder.cpp:578-597 `reverse`. -/
def reverse : OM SB SB := do
  let s ← OM.read
  let r ← OM.lift (reverseLoop s.len (s.len.tdiv 2).toNat 0 (s.mem, false))
  let m ← OM.lift (if r.2 then fixPairs (s.len - 1) s.len.toNat 0 r.1 else .ok r.1)
  OM.write { s with mem := m }
  returnThis

/-- StringBuilder.cpp:599-605 `setCharAt`. -/
def setCharAt (index : Int) (c : Byte) : OM SB Unit := do
  let s ← OM.read
  if index < 0 ∨ index ≥ s.len then OM.raise .stringIndexOutOfBounds
  else do
    let m ← OM.lift (s.mem.wr index c)
    OM.write { s with mem := m }

/-- StringBuilder.cpp:612-625 `setLength`. -/
def setLength (newLength : Int) : OM SB Unit :=
  if newLength < 0 then OM.raise .indexOutOfBounds
  else do
    ensureCapacity newLength
    let s ← OM.read
    let m ← OM.lift (s.mem.store s.len (List.replicate (newLength - s.len).toNat 0#8))
    OM.write { s with mem := m, len := newLength }

/-- StringBuilder.cpp:224-230 `charAt`. -/
def charAt (index : Int) : OM SB Byte := do
  let s ← OM.read
  if index < 0 ∨ index ≥ s.len then OM.raise .indexOutOfBounds else OM.lift (s.mem.rd index)

/-- StringBuilder.cpp:534-536 `length`. -/
def length : OM SB Int := do
  let s ← OM.read
  OM.ret s.len

/-- StringBuilder.cpp:220-222 `capacity`. -/
def capacity : OM SB Int := do
  let s ← OM.read
  OM.ret s.cap

/-- StringBuilder.cpp:656-667 `toString`: the copy ends with a NUL and becomes a
`String` as a C string. -/
def toString : OM SB (List Byte) := do
  let s ← OM.read
  let _ ← OM.lift (chk32 (s.len + 1))
  let l ← OM.lift (s.mem.load 0 s.len.toNat)
  OM.ret (cstr l)

/-- StringBuilder.cpp:631-654 `substring(start, end)`. -/
def substring (start endIndex : Int) : OM SB (List Byte) := do
  let s ← OM.read
  if start < 0 ∨ start > s.len then OM.raise .stringIndexOutOfBounds
  else if endIndex < 0 ∨ endIndex > s.len then OM.raise .stringIndexOutOfBounds
  else if start > endIndex then OM.raise .stringIndexOutOfBounds
  else do
    let l ← OM.lift (s.mem.load start (endIndex - start).toNat)
    OM.ret (cstr l)

/-- StringBuilder.cpp:627-629 `substring(start)`. -/
def substringFrom (start : Int) : OM SB (List Byte) := do
  let s ← OM.read
  substring start s.len

/-- StringBuilder.cpp:669-675 `trimToSize`. -/
def trimToSize : OM SB Unit := do
  let s ← OM.read
  if s.cap > s.len then OM.write { s with mem := s.mem.realloc s.len.toNat, cap := s.len } else OM.ret ()

/-- StringBuilder.cpp:232-244 `codePointAt`. -/
def codePointAt (m : Sem) (index : Int) : OM SB (BitVec 32) := do
  let s ← OM.read
  if index < 0 ∨ index ≥ s.len then OM.raise .indexOutOfBounds
  else do
    let l ← OM.lift (s.mem.load 0 s.len.toNat)
    OM.lift (Character.codePointAt m l index)

/-- StringBuilder.cpp:246-249 `codePointBefore`. -/
def codePointBefore (m : Sem) (index : Int) : OM SB (BitVec 32) := do
  let i ← OM.lift (chk32 (index - 1))
  codePointAt m i

/-- StringBuilder.cpp:251-265 `codePointCount`: the characters are copied from the
start of the text, not from `beginIndex`. -/
def codePointCount (beginIndex endIndex : Int) : OM SB Int := do
  let s ← OM.read
  if beginIndex < 0 ∨ endIndex > s.len ∨ beginIndex > endIndex then OM.raise .indexOutOfBounds
  else do
    let l ← OM.lift (s.mem.load 0 endIndex.toNat)
    OM.lift (Character.codePointCount l 0 (endIndex - beginIndex))

/-! ## Searching -/

/-- `s[i]` for a `String`. -/
def ch (s : List Byte) (i : Int) : Outcome Byte := if i < 0 then .ub else Str.at s i.toNat

/-- `nextTable[i]`. -/
def tabRd (t : List Int) (i : Int) : Outcome Int :=
  if i < 0 then .ub
  else match t[i.toNat]? with
    | some x => .ok x
    | none => .ub

/-- `nextTable[i] = x`. -/
def tabWr (t : List Int) (i x : Int) : Outcome (List Int) :=
  if i < 0 then .ub else if i.toNat < t.length then .ok (t.set i.toNat x) else .ub

/-- Local variables of the loop of `initializeNextTable`. -/
structure NT where
  tab : List Int
  pos : Int
  k : Int

/-- StringBuilder.cpp:701-712, one turn of the loop. -/
def nextBody (p : List Byte) (s : NT) : Outcome (Step NT (List Int)) :=
  if s.pos < p.length then do
    let a ← ch p (s.pos - 1)
    let b ← ch p s.k
    if a = b then do
      let t ← tabWr s.tab s.pos (s.k + 1)
      .ok (.next ⟨t, s.pos + 1, s.k + 1⟩)
    else if s.k > 0 then do
      let k ← tabRd s.tab s.k
      .ok (.next ⟨s.tab, s.pos, k⟩)
    else do
      let t ← tabWr s.tab s.pos 0
      .ok (.next ⟨t, s.pos + 1, s.k⟩)
  else .ok (.done s.tab)

/-- StringBuilder.cpp:677-715 `initializeNextTable` for a text that is not empty. -/
def nextTable (p : List Byte) : Outcome (List Int) := do
  let t ← tabWr (List.replicate p.length 0) 0 (-1)
  if p.length = 1 then .ok t
  else do
    let t ← tabWr t 1 0
    if p.length = 2 then .ok t
    else iter (nextBody p) (2 * p.length + 2) ⟨t, 2, 0⟩

/-- StringBuilder.cpp:744-760, one turn of the loop of `stringMatches`; the state
is (`startIndex`, `position`). -/
def matchBody (target pattern : List Byte) (tab : List Int) (s : Int × Int) : Outcome (Step (Int × Int) Int) :=
  if s.1 + s.2 < target.length then do
    let a ← ch pattern s.2
    let b ← ch target (s.1 + s.2)
    if a = b then
      if s.2 = pattern.length - 1 then .ok (.done s.1) else .ok (.next (s.1, s.2 + 1))
    else do
      let x ← tabRd tab s.2
      if x > -1 then .ok (.next (s.1 + s.2, x)) else .ok (.next (s.1 + 1, 0))
  else .ok (.done (-1))

/-- StringBuilder.cpp:717-764 `stringMatches`. The table is computed from the text
searched, not from the pattern. -/
def stringMatches (target pattern : List Byte) (startIndex : Int) : Outcome Int :=
  if startIndex > target.length then .ok (if pattern.length = 0 then (target.length : Int) else -1)
  else
    let start := if startIndex < 0 then 0 else startIndex
    if pattern.length = 0 then .ok start
    else if target.length = 0 then .ok (-1)
    else do
      let tab ← nextTable target
      iter (matchBody target pattern tab) ((target.length + 1) * (pattern.length + 1) + 1) (start, 0)

/-- StringBuilder.cpp:791-807, one turn of the loop of `stringMatchesReverse`. -/
def revBody (target pattern : List Byte) (tab : List Int) (s : Int × Int) : Outcome (Step (Int × Int) Int) :=
  if s.1 - s.2 ≥ 0 then do
    let a ← ch pattern (pattern.length - s.2 - 1)
    let b ← ch target (s.1 - s.2)
    if a = b then
      if s.2 = pattern.length - 1 then .ok (.done (s.1 - pattern.length + 1)) else .ok (.next (s.1, s.2 + 1))
    else do
      let x ← tabRd tab s.2
      if x > -1 then .ok (.next (s.1 - s.2, x)) else .ok (.next (s.1 - 1, 0))
  else .ok (.done (-1))

/-- StringBuilder.cpp:766-811 `stringMatchesReverse`. -/
def stringMatchesReverse (target pattern : List Byte) (startIndex : Int) : Outcome Int :=
  if startIndex < 0 then .ok (-1)
  else
    let right : Int := target.length - pattern.length
    let start := if startIndex < right then right else startIndex
    if pattern.length = 0 then .ok start
    else do
      let tab ← nextTable pattern
      iter (revBody target pattern tab) ((start.toNat + 2) * (pattern.length + 1) + 1) (start, 0)

/-- StringBuilder.cpp:331-333 `indexOf(String)`. -/
def indexOf (p : List Byte) : OM SB Int := do
  let t ← toString
  OM.lift (stringMatches t p 0)

/-- StringBuilder.cpp:335-337 `indexOf(String, int)`. -/
def indexOfFrom (p : List Byte) (fromIndex : Int) : OM SB Int := do
  let t ← toString
  OM.lift (stringMatches t p fromIndex)

/-- StringBuilder.cpp:526-528 `lastIndexOf(String)`. -/
def lastIndexOf (p : List Byte) : OM SB Int := do
  let t ← toString
  let s ← OM.read
  OM.lift (stringMatchesReverse t p s.len)

/-- StringBuilder.cpp:530-532 `lastIndexOf(String, int)`. -/
def lastIndexOfFrom (p : List Byte) (fromIndex : Int) : OM SB Int := do
  let t ← toString
  OM.lift (stringMatchesReverse t p fromIndex)

/-! ## Histories -/

/-- Calls on a `StringBuilder`. -/
inductive Op
  | append (l : List Byte)
  | appendSlice (l : List Byte) (start endIndex : Int)
  | insert (offset : Int) (l : List Byte)
  | insertChar (offset : Int) (c : Byte)
  | insertSlice (index : Int) (l : List Byte) (offset length : Int)
  | insertSub (offset : Int) (l : List Byte) (start endIndex : Int)
  | deleteRange (start endIndex : Int)
  | deleteCharAt (index : Int)
  | replace (start endIndex : Int) (l : List Byte)
  | reverse
  | setCharAt (index : Int) (c : Byte)
  | setLength (n : Int)
  | ensureCapacity (n : Int)
  | trimToSize
  | charAt (index : Int)
  | codePointAt (index : Int)
  | codePointBefore (index : Int)
  | codePointCount (beginIndex endIndex : Int)
  | length
  | toString
  | substring (start endIndex : Int)
  | substringFrom (start : Int)

/-- What a call returns. `built` is the text of a returned `StringBuilder`. -/
inductive Ans
  | unit
  | int (i : Int)
  | char (c : Byte)
  | text (l : List Byte)
  | built (l : List Byte)
  deriving DecidableEq, Repr

/-- The text a returned builder holds. -/
def built (r : SB) : OM SB Ans := do
  let l ← OM.lift (r.mem.load 0 r.len.toNat)
  OM.ret (.built l)

/-- Dispatch. -/
def step (m : Sem) : Op → OM SB Ans
  | .append l => do let _ ← append l; OM.ret .unit
  | .appendSlice l i j => do let _ ← appendSlice l i j; OM.ret .unit
  | .insert i l => do let _ ← insert i l; OM.ret .unit
  | .insertChar i c => do let _ ← insertChar i c; OM.ret .unit
  | .insertSlice i l o n => do let _ ← insertSlice i l o n; OM.ret .unit
  | .insertSub i l a b => do let _ ← insertSub i l a b; OM.ret .unit
  | .deleteRange i j => do let r ← deleteRange i j; built r
  | .deleteCharAt i => do let r ← deleteCharAt i; built r
  | .replace i j l => do let r ← replace i j l; built r
  | .reverse => do let r ← reverse; built r
  | .setCharAt i c => do let _ ← setCharAt i c; OM.ret .unit
  | .setLength n => do let _ ← setLength n; OM.ret .unit
  | .ensureCapacity n => do let _ ← ensureCapacity n; OM.ret .unit
  | .trimToSize => do let _ ← trimToSize; OM.ret .unit
  | .charAt i => do let c ← charAt i; OM.ret (.char c)
  | .codePointAt i => do let c ← codePointAt m i; OM.ret (.int c.toInt)
  | .codePointBefore i => do let c ← codePointBefore m i; OM.ret (.int c.toInt)
  | .codePointCount i j => do let n ← codePointCount i j; OM.ret (.int n)
  | .length => do let n ← length; OM.ret (.int n)
  | .toString => do let l ← toString; OM.ret (.text l)
  | .substring i j => do let l ← substring i j; OM.ret (.text l)
  | .substringFrom i => do let l ← substringFrom i; OM.ret (.text l)

end Verif.StringBuilder
