import Verif.StringBuffer.Model
/-!
# `java.lang.StringBuffer` shared by threads

`/repo/library/Java/Lang/StringBuffer/StringBuffer.cpp:665-985`: most methods of
`StringBuffer` take the object's `mutex` (StringBuffer.hpp:656) with a
`std::lock_guard` and call the method of `StringBufferUnSafe` (32-662).

A method is a program whose steps are the accesses to the shared fields
`original`, `currentLength`, `currentCapacity`, to the block `original` points to,
and to the mutexes.  Between two steps of a thread other threads may run.

Simplifications: memory is sequentially consistent (whether two threads race is a
separate question, see `Race`); a `memmove`, a `realloc`, reading a C string and
the loops over the block in `reverse`, `setLength` and `codePointCount` are one
step each, and that of `operator=` is one read and one write; a field read twice within one statement is read once; allocation
succeeds; the arguments belong to the caller and are not shared, except where the
argument is another `StringBuffer`.
-/
namespace Verif.StringBuffer.Sync

open Verif.StringBuilder (SB reverseLoop fixPairs)
open Verif.StringBuffer (Op Ans)

/-- StringBuffer.hpp:38-40, the fields of an object.  `s.mem` is the block in use,
`live` tells which block that is, and `ptr` is the field `original`: any other
value than `live` points to freed memory. -/
structure Obj where
  s : SB
  ptr : Nat
  live : Nat

/-- What two threads can collide on. -/
inductive Loc
  | len
  | cap
  | ptr
  | block
  deriving DecidableEq, Repr

/-- A program of a thread. `none` as the result of an access is undefined. -/
inductive Prog (α : Type) : Type 1
  | out (x : Outcome α)
  | acc {β : Type} (o : Nat) (l : Loc) (w : Bool) (f : Obj → Option (Obj × β)) (k : β → Prog α)
  | lock (o : Nat) (k : Prog α)
  | unlock (o : Nat) (k : Prog α)

namespace Prog

/-- Goes on with `g` when the program ends, normally or by an exception. -/
def after {α β : Type} : Prog α → (Outcome α → Prog β) → Prog β
  | out x, g => g x
  | acc o l w f k, g => acc o l w f fun v => (k v).after g
  | lock o k, g => lock o (k.after g)
  | unlock o k, g => unlock o (k.after g)

/-- What follows the normal end of a program. -/
def onOk {α β : Type} (g : α → Prog β) : Outcome α → Prog β
  | .ok v => g v
  | .throw e => out (.throw e)
  | .ub => out .ub
  | .diverge => out .diverge

/-- Sequence. -/
def bind {α β : Type} (p : Prog α) (g : α → Prog β) : Prog β := p.after (onOk g)

instance : Monad Prog where
  pure v := out (.ok v)
  bind := bind

/-- What follows the end of a block with a `std::lock_guard`: the mutex is released
on every way out. -/
def release {α : Type} (o : Nat) : Outcome α → Prog α
  | .ok v => unlock o (out (.ok v))
  | .throw e => unlock o (out (.throw e))
  | .ub => out .ub
  | .diverge => out .diverge

/-- `std::lock_guard<std::mutex> guard(o.mutex); p`. -/
def guard {α : Type} (o : Nat) (p : Prog α) : Prog α := lock o (p.after (release o))

end Prog

open Prog (guard)

/-! ## Accesses -/

/-- Local computation. -/
def give {α : Type} (x : Outcome α) : Prog α := .out x

/-- `throw`. -/
def raise {α : Type} (e : Exc) : Prog α := .out (.throw e)

/-- Read `currentLength`. -/
def getLen (o : Nat) : Prog Int := .acc o .len false (fun b => some (b, b.s.len)) fun v => .out (.ok v)

/-- Write `currentLength`. -/
def setLen (o : Nat) (n : Int) : Prog Unit :=
  .acc o .len true (fun b => some ({ b with s := { b.s with len := n } }, ())) fun v => .out (.ok v)

/-- Read `currentCapacity`. -/
def getCap (o : Nat) : Prog Int := .acc o .cap false (fun b => some (b, b.s.cap)) fun v => .out (.ok v)

/-- Write `currentCapacity`. -/
def setCap (o : Nat) (n : Int) : Prog Unit :=
  .acc o .cap true (fun b => some ({ b with s := { b.s with cap := n } }, ())) fun v => .out (.ok v)

/-- Read `original`. -/
def getPtr (o : Nat) : Prog Nat := .acc o .ptr false (fun b => some (b, b.ptr)) fun v => .out (.ok v)

/-- Write `original`. -/
def setPtr (o : Nat) (p : Nat) : Prog Unit :=
  .acc o .ptr true (fun b => some ({ b with ptr := p }, ())) fun v => .out (.ok v)

/-- Read from the block at `p`; undefined if it was freed. -/
def look {α : Type} (o p : Nat) (f : Block → Outcome α) : Prog α :=
  .acc o .block false (fun b => if p = b.live then some (b, f b.s.mem) else none) fun x => .out x

/-- What writing leaves. -/
def written (b : Obj) : Outcome Block → Obj × Outcome Unit
  | .ok m => ({ b with s := { b.s with mem := m } }, .ok ())
  | .throw e => (b, .throw e)
  | .ub => (b, .ub)
  | .diverge => (b, .diverge)

/-- Change the block at `p`; undefined if it was freed. -/
def change (o p : Nat) (f : Block → Outcome Block) : Prog Unit :=
  .acc o .block true (fun b => if p = b.live then some (written b (f b.s.mem)) else none) fun x => .out x

/-- `realloc(p, n)`: another block with the old content; the old one is freed. -/
def reallocate (o p : Nat) (n : Nat) : Prog Nat :=
  .acc o .block true
    (fun b => if p = b.live then some ({ b with s := { b.s with mem := b.s.mem.realloc n }, live := b.live + 1 }, b.live + 1) else none)
    fun v => .out (.ok v)

/-! ## The methods of `StringBufferUnSafe` -/

/-- StringBuffer.cpp:100-104: the loop of `ensureCapacity`, which stores every
capacity it tries. It ends or overflows within 32 turns. -/
def growLoop (o : Nat) (minimumCapacity : Int) : Nat → Prog Int
  | 0 => give .diverge
  | n + 1 => do
    let c ← getCap o
    let c ← give (chk32 (c * 2 + 2))
    let _ ← setCap o c
    if c < minimumCapacity then growLoop o minimumCapacity n else give (.ok c)

/-- StringBuffer.cpp:106-107: moving the text to a larger block. -/
def moveTo (o : Nat) (n : Int) : Prog Unit := do
  let p ← getPtr o
  let q ← reallocate o p n.toNat
  setPtr o q

/-- StringBuffer.cpp:91-108 `ensureCapacity`. -/
def ensureCapacity (o : Nat) (minimumCapacity : Int) : Prog Unit :=
  if minimumCapacity ≤ 0 then give (.ok ())
  else do
    let c ← getCap o
    if minimumCapacity ≤ c then give (.ok ())
    else do
      let n ← growLoop o minimumCapacity 33
      moveTo o n

/-- StringBuffer.cpp:129, 149: `currentLength += len`. -/
def addLen (o : Nat) (len : Int) : Prog Unit := do
  let v ← getLen o
  let v ← give (chk32 (v + len))
  setLen o v

/-- StringBuffer.cpp:124-130: `append(String, int, int)` after the checks. -/
def appendAt (o : Nat) (l : List Byte) (offset len : Int) : Prog Unit := do
  let n ← getLen o
  let n ← give (chk32 (n + len))
  let _ ← ensureCapacity o n
  let p ← getPtr o
  let i ← getLen o
  let _ ← change o p fun m => m.copyIn i (l.drop offset.toNat) len
  addLen o len

/-- StringBuffer.cpp:118-131 `append(String, int, int)`. -/
def appendSlice (o : Nat) (l : List Byte) (offset len : Int) : Prog Unit :=
  if offset < 0 ∨ len < 0 then raise .indexOutOfBounds
  else do
    let stop ← give (chk32 (offset + len))
    if stop > l.length then raise .indexOutOfBounds else appendAt o l offset len

/-- StringBuffer.cpp:110-112 `append(String)` and the overloads that convert their
argument to a `String` first. -/
def append (o : Nat) (l : List Byte) : Prog Unit := appendSlice o l 0 l.length

/-- StringBuffer.cpp:200-202 `append(char)`. -/
def appendChar (o : Nat) (c : Byte) : Prog Unit := append o (if c = 0 then [] else [c])

/-- StringBuffer.cpp:80-89 `append(CharSequence, int, int)` for a sequence that is
not a `StringBuffer`. -/
def appendSub (o : Nat) (l : List Byte) (start endIndex : Int) : Prog Unit :=
  if start < 0 ∨ start > endIndex ∨ start > l.length then raise .indexOutOfBounds
  else appendSlice o l start (endIndex - start)

/-- StringBuffer.cpp:209-233 `appendCodePoint`: one or two appends. -/
def appendCodePoint (o : Nat) (cp : BitVec 32) : Prog Unit :=
  if (cp >>> 16).toNat = 0 then appendChar o (cp.setWidth 8)
  else if (cp >>> 16).toNat < 17 then do
    let _ ← appendChar o (highByte cp)
    appendChar o (lowByte cp)
  else raise .interrupted

/-- StringBuffer.cpp:141-150: `insert(int, String, int, int)` after the checks. -/
def insertAt (o : Nat) (index : Int) (l : List Byte) (offset len : Int) : Prog Unit := do
  let n ← getLen o
  let n ← give (chk32 (n + len))
  let _ ← ensureCapacity o n
  let p ← getPtr o
  let i ← getLen o
  let _ ← change o p fun m => m.move (index + len) index (i - index)
  let _ ← change o p fun m => m.copyIn index (l.drop offset.toNat) len
  addLen o len

/-- StringBuffer.cpp:133-151 `insert(int, String, int, int)`. -/
def insertSlice (o : Nat) (index : Int) (l : List Byte) (offset len : Int) : Prog Unit := do
  let n ← getLen o
  if index < 0 ∨ index > n ∨ offset < 0 ∨ len < 0 then raise .stringIndexOutOfBounds
  else do
    let stop ← give (chk32 (offset + len))
    if stop > l.length then raise .stringIndexOutOfBounds else insertAt o index l offset len

/-- StringBuffer.cpp:430-434 `insert(int, String)` and the overloads that convert
their argument to a `String` first. -/
def insert (o : Nat) (offset : Int) (l : List Byte) : Prog Unit := insertSlice o offset l 0 l.length

/-- StringBuffer.cpp:425-428 `insert(int, char)`. -/
def insertChar (o : Nat) (offset : Int) (c : Byte) : Prog Unit := insert o offset (if c = 0 then [] else [c])

/-- StringBuffer.cpp:451-469 `insert(int, CharSequence, int, int)` for a sequence
that is not a `StringBuffer`. -/
def insertSub (o : Nat) (offset : Int) (l : List Byte) (start endIndex : Int) : Prog Unit := do
  let n ← getLen o
  if offset < 0 then raise .indexOutOfBounds
  else if offset > n ∨ start < 0 ∨ endIndex < 0 ∨ start > endIndex ∨ endIndex > l.length then raise .indexOutOfBounds
  else insertSlice o offset l start (endIndex - start)

/-- StringBuffer.cpp:322-334: the two cases of `deletes`, which store the length
before they move the tail. -/
def deleteMove (o : Nat) (start endIndex : Int) : Prog Unit := do
  let n ← getLen o
  if endIndex > n then do
    let p ← getPtr o
    let i ← getLen o
    let _ ← setLen o start
    change o p fun m => m.move start i i
  else do
    let p ← getPtr o
    let i ← getLen o
    let _ ← setLen o (i - (endIndex - start))
    change o p fun m => m.move start endIndex (i - start)

/-- StringBuffer.cpp:306-335 `deletes`. -/
def deletes (o : Nat) (start endIndex : Int) : Prog Unit :=
  if start < 0 then raise .stringIndexOutOfBounds
  else do
    let n ← getLen o
    if start > endIndex ∨ start > n then raise .stringIndexOutOfBounds
    else do
      let n ← getLen o
      if start = endIndex ∨ start = n then give (.ok ()) else deleteMove o start endIndex

/-- StringBuffer.cpp:337-353 `deleteCharAt`. -/
def deleteCharAt (o : Nat) (index : Int) : Prog Unit :=
  if index < 0 then raise .stringIndexOutOfBounds
  else do
    let n ← getLen o
    if index ≥ n then raise .stringIndexOutOfBounds
    else do
      let p ← getPtr o
      let i ← getLen o
      let _ ← change o p fun m => m.move index (index + 1) (i - index)
      let i ← getLen o
      setLen o (i - 1)

/-- StringBuffer.cpp:515-529: `replace` after the checks; the length is stored before
the bytes are moved. -/
def replaceTail (o : Nat) (start endIndex : Int) (l : List Byte) : Prog Unit := do
  let n ← getLen o
  let n ← give (chk32 (n + l.length))
  let _ ← ensureCapacity o (n - endIndex + start)
  let _ ← setLen o (n - endIndex + start)
  let p ← getPtr o
  let _ ← change o p fun m => m.move (start + l.length) endIndex l.length
  change o p fun m => m.copyIn start l l.length

/-- StringBuffer.cpp:503-530 `replace`. -/
def replace (o : Nat) (start endIndex : Int) (l : List Byte) : Prog Unit :=
  if start < 0 then raise .stringIndexOutOfBounds
  else do
    let n ← getLen o
    if start > n ∨ start > endIndex then raise .stringIndexOutOfBounds
    else do
      let n ← getLen o
      replaceTail o start (if endIndex > n then n else endIndex) l

/-- StringBuffer.cpp:535-564: the loops of `reverse` over a block. -/
def reversed (n : Int) (m : Block) : Outcome Block :=
  (reverseLoop n (n.tdiv 2).toNat 0 (m, false)).bind fun r => if r.2 then fixPairs (n - 1) n.toNat 0 r.1 else .ok r.1

/-- StringBuffer.cpp:532-567 `reverse`. -/
def reverse (o : Nat) : Prog Unit := do
  let n ← getLen o
  let p ← getPtr o
  change o p (reversed n)

/-- StringBuffer.cpp:569-578 `setCharAt`. -/
def setCharAt (o : Nat) (index : Int) (c : Byte) : Prog Unit :=
  if index < 0 then raise .indexOutOfBounds
  else do
    let n ← getLen o
    if index ≥ n then raise .indexOutOfBounds
    else do
      let p ← getPtr o
      change o p fun m => m.wr index c

/-- StringBuffer.cpp:580-597 `setLength`. -/
def setLength (o : Nat) (newLength : Int) : Prog Unit :=
  if newLength < 0 then raise .indexOutOfBounds
  else do
    let i ← getLen o
    let n ← getLen o
    if newLength > n then do
      let _ ← ensureCapacity o newLength
      let p ← getPtr o
      let _ ← change o p fun m => m.store i (List.replicate (newLength - i + 1).toNat 0#8)
      setLen o newLength
    else do
      let p ← getPtr o
      let _ ← change o p fun m => wipeDown m i (i - newLength + 1).toNat
      setLen o newLength

/-- StringBuffer.cpp:235-245 `charAt`. -/
def charAt (o : Nat) (index : Int) : Prog Byte :=
  if index < 0 then raise .indexOutOfBounds
  else do
    let n ← getLen o
    if index ≥ n then raise .indexOutOfBounds
    else do
      let p ← getPtr o
      look o p fun m => m.rd index

/-- StringBuffer.cpp:247-267 `codePointAt`. -/
def codePointAt (sem : Sem) (o : Nat) (index : Int) : Prog (BitVec 32) :=
  if index < 0 then raise .indexOutOfBounds
  else do
    let n ← getLen o
    if index ≥ n then raise .indexOutOfBounds
    else do
      let p ← getPtr o
      let c ← look o p fun m => m.rd index
      if Character.isHighSurrogate (Character.widen c) then do
        let n ← getLen o
        look o p fun m => pairAt sem ⟨m, n, 0⟩ c (index + 1)
      else give (.ok (Character.widen c))

/-- StringBuffer.cpp:269-285 `codePointBefore`. -/
def codePointBefore (sem : Sem) (o : Nat) (index : Int) : Prog (BitVec 32) :=
  if index < 0 ∨ index = 0 then raise .indexOutOfBounds
  else do
    let n ← getLen o
    if index > n then raise .indexOutOfBounds
    else do
      let p ← getPtr o
      let c ← look o p fun m => m.rd (index - 1)
      if Character.isLowSurrogate (Character.widen c) ∧ index > 1 then look o p fun m => pairBefore sem ⟨m, 0, 0⟩ c index
      else give (.ok (Character.widen c))

/-- StringBuffer.cpp:287-304 `codePointCount`. -/
def codePointCount (o : Nat) (beginIndex endIndex : Int) : Prog Int := do
  let n ← getLen o
  if beginIndex < 0 ∨ endIndex > n ∨ beginIndex > endIndex then raise .indexOutOfBounds
  else do
    let p ← getPtr o
    look o p fun m => countLoop m endIndex (endIndex - beginIndex).toNat beginIndex (endIndex - beginIndex)

/-- StringBuffer.cpp:636-638 `toString`, 805-807 `getValue`: a `String` from the C
string at `original`. -/
def toString (o : Nat) : Prog (List Byte) := do
  let p ← getPtr o
  look o p Block.cstring

/-- StringBuffer.cpp:616-634 `subString(start, end)`. -/
def subString (o : Nat) (start endIndex : Int) : Prog (List Byte) :=
  if start < 0 ∨ endIndex < 0 then raise .stringIndexOutOfBounds
  else do
    let n ← getLen o
    if start ≥ n ∨ endIndex > n ∨ start > endIndex then raise .stringIndexOutOfBounds
    else do
      let p ← getPtr o
      let l ← look o p fun m => m.load start (endIndex - start).toNat
      give (.ok (cstr l))

/-- StringBuffer.cpp:612-614 `subString(start)`. -/
def subStringFrom (o : Nat) (start : Int) : Prog (List Byte) := do
  let n ← getLen o
  subString o start n

/-- StringBuffer.cpp:640-647 `trimToSize`. -/
def trimToSize (o : Nat) : Prog Unit := do
  let c ← getCap o
  let n ← getLen o
  if c ≤ n then give (.ok ())
  else do
    let n ← getLen o
    let _ ← moveTo o n
    let n ← getLen o
    setCap o n

/-! ## Calls -/

/-- A call that involves one `StringBuffer`; an answer that is `*this` counts as
`unit`. -/
def body (sem : Sem) (o : Nat) : Op → Prog Ans
  | .append l => do let _ ← append o l; give (.ok .unit)
  | .appendSlice l i n => do let _ ← appendSlice o l i n; give (.ok .unit)
  | .appendSub l i j => do let _ ← appendSub o l i j; give (.ok .unit)
  | .appendChar c => do let _ ← appendChar o c; give (.ok .unit)
  | .appendCodePoint c => do let _ ← appendCodePoint o c; give (.ok .unit)
  | .insert i l => do let _ ← insert o i l; give (.ok .unit)
  | .insertSlice i l k n => do let _ ← insertSlice o i l k n; give (.ok .unit)
  | .insertSub i l a b => do let _ ← insertSub o i l a b; give (.ok .unit)
  | .insertChar i c => do let _ ← insertChar o i c; give (.ok .unit)
  | .deletes i j => do let _ ← deletes o i j; give (.ok .unit)
  | .deleteCharAt i => do let _ ← deleteCharAt o i; give (.ok .unit)
  | .replace i j l => do let _ ← replace o i j l; give (.ok .unit)
  | .reverse => do let _ ← reverse o; give (.ok .unit)
  | .setCharAt i c => do let _ ← setCharAt o i c; give (.ok .unit)
  | .setLength n => do let _ ← setLength o n; give (.ok .unit)
  | .ensureCapacity n => do let _ ← ensureCapacity o n; give (.ok .unit)
  | .trimToSize => do let _ ← trimToSize o; give (.ok .unit)
  | .charAt i => do let c ← charAt o i; give (.ok (.char c))
  | .codePointAt i => do let c ← codePointAt sem o i; give (.ok (.int c.toInt))
  | .codePointBefore i => do let c ← codePointBefore sem o i; give (.ok (.int c.toInt))
  | .codePointCount i j => do let n ← codePointCount o i j; give (.ok (.int n))
  | .length => do let n ← getLen o; give (.ok (.int n))
  | .capacity => do let n ← getCap o; give (.ok (.int n))
  | .toString => do let l ← toString o; give (.ok (.text l))
  | .subString i j => do let l ← subString o i j; give (.ok (.text l))
  | .subStringFrom i => do let l ← subStringFrom o i; give (.ok (.text l))

/-- The methods that take the mutex: 698-803, 809-819, 832-971. `ensureCapacity`
(801-803) and `length` (821-823) do not. -/
def locks : Op → Bool
  | .ensureCapacity _ => false
  | .length => false
  | _ => true

/-- A call by a thread. -/
inductive Call
  /-- a method of object `o` -/
  | op (o : Nat) (c : Op)
  /-- `o.getValue()` -/
  | getValue (o : Nat)
  /-- `o.append(other)` -/
  | appendBuffer (o other : Nat)
  /-- `o.append(other, start, end)` -/
  | appendRange (o other : Nat) (start endIndex : Int)
  /-- `o.insert(offset, other, start, end)` -/
  | insertRange (o : Nat) (offset : Int) (other : Nat) (start endIndex : Int)
  /-- `o = other` -/
  | assign (o other : Nat)

/-- StringBuffer.cpp:968-971 `StringBuffer::toString`, which the calls through
`CharSequence` (CharSequence.hpp) reach. -/
def lockedToString (o : Nat) : Prog (List Byte) := guard o (toString o)

/-- StringBuffer.cpp:204-207 `append(StringBuffer)`: reads the other object's block
without its mutex. -/
def appendBuffer (o other : Nat) : Prog Unit := do
  let l ← toString other
  append o l

/-- StringBuffer.cpp:80-89 `append(CharSequence, int, int)` with a `StringBuffer` as
the sequence: `length()` takes no mutex, `toString()` takes that of the sequence. -/
def appendRange (o other : Nat) (start endIndex : Int) : Prog Unit := do
  let n ← getLen other
  if start < 0 ∨ start > endIndex ∨ start > n then raise .indexOutOfBounds
  else do
    let l ← lockedToString other
    appendSlice o l start (endIndex - start)

/-- StringBuffer.cpp:451-469 `insert(int, CharSequence, int, int)` with a
`StringBuffer` as the sequence. -/
def insertRange (o : Nat) (offset : Int) (other : Nat) (start endIndex : Int) : Prog Unit :=
  if offset < 0 then raise .indexOutOfBounds
  else do
    let k ← getLen o
    let n ← getLen other
    if offset > k ∨ start < 0 ∨ endIndex < 0 ∨ start > endIndex ∨ endIndex > n then raise .indexOutOfBounds
    else do
      let l ← lockedToString other
      insertSlice o offset l start (endIndex - start)

/-- `free(p)`: no block is in use until the next one is allocated. -/
def release (o p : Nat) : Prog Unit :=
  .acc o .block true (fun b => if p = b.live then some ({ b with s := { b.s with mem := [] }, live := b.live + 1 }, ()) else none)
    fun v => .out (.ok v)

/-- `calloc(n, 1)` for object `o`. -/
def allocate (o : Nat) (n : Nat) : Prog Nat :=
  .acc o .block true (fun b => some ({ b with s := { b.s with mem := Block.calloc n } }, b.live)) fun v => .out (.ok v)

/-- StringBuffer.cpp:973-985 `operator=` under the mutex of `o`: the fields of the
other object are read without its mutex, the capacity and the length twice. The
loop (978-981) reads the length and the characters once, then writes. -/
def assign (o other : Nat) : Prog Unit := do
  let p ← getPtr o
  let _ ← release o p
  let c ← getCap other
  let q ← allocate o c.toNat
  let _ ← setPtr o q
  let n ← getLen other
  let r ← getPtr other
  let l ← look other r fun m => m.load 0 n.toNat
  let q ← getPtr o
  let _ ← change o q fun m => m.store 0 l
  let n ← getLen other
  let _ ← setLen o n
  let c ← getCap other
  setCap o c

/-- StringBuffer.cpp:698-985: what a call executes. -/
def code (sem : Sem) : Call → Prog Ans
  | .op o c => if locks c then guard o (body sem o c) else body sem o c
  | .getValue o => body sem o .toString
  | .appendBuffer o other => guard o do let _ ← appendBuffer o other; give (.ok .unit)
  | .appendRange o other i j => guard o do let _ ← appendRange o other i j; give (.ok .unit)
  | .insertRange o k other i j => guard o do let _ ← insertRange o k other i j; give (.ok .unit)
  | .assign o other => guard o do let _ ← assign o other; give (.ok .unit)

/-! ## Threads -/

/-- What a call returned or threw. -/
abbrev Answer := Except Exc Ans

/-- Events of a run: a call begins, takes effect, ends. -/
inductive Ev
  | inv (t : Nat) (c : Call)
  | lin (t : Nat) (c : Call) (r : Answer)
  | res (t : Nat) (c : Call) (r : Answer)

/-- All threads, objects and mutexes. -/
structure St where
  /-- the objects -/
  objs : Nat → Obj
  /-- who holds the mutex of an object -/
  owner : Nat → Option Nat
  /-- the calls a thread still has to make -/
  todo : Nat → List Call
  /-- the call a thread is in, with what is left of it -/
  cur : Nat → Option (Call × Prog Ans)
  /-- something undefined happened -/
  ub : Bool

/-- Pointwise change. -/
def set {α : Type u} (f : Nat → α) (i : Nat) (v : α) : Nat → α := fun j => if j = i then v else f j

/-- The event of releasing a mutex: the last one of a call is where it takes effect. -/
def releaseEv (t : Nat) (c : Call) : Prog Ans → Option Ev
  | .out (.ok a) => some (.lin t c (.ok a))
  | .out (.throw e) => some (.lin t c (.error e))
  | _ => none

/-- One step of thread `t` in a call. `none`: the thread has to wait. -/
def advance (t : Nat) (s : St) (c : Call) : Prog Ans → Option (St × Option Ev)
  | .out (.ok a) => some ({ s with cur := set s.cur t none }, some (.res t c (.ok a)))
  | .out (.throw e) => some ({ s with cur := set s.cur t none }, some (.res t c (.error e)))
  | .out .ub => some ({ s with ub := true }, none)
  | .out .diverge => none
  | .acc o _ _ f k =>
    match f (s.objs o) with
    | some (b, v) => some ({ s with objs := set s.objs o b, cur := set s.cur t (some (c, k v)) }, none)
    | none => some ({ s with ub := true }, none)
  | .lock o k =>
    if s.owner o = none then some ({ s with owner := set s.owner o (some t), cur := set s.cur t (some (c, k)) }, none) else none
  | .unlock o k => some ({ s with owner := set s.owner o none, cur := set s.cur t (some (c, k)) }, releaseEv t c k)

/-- One step of thread `t`. -/
def step (sem : Sem) (t : Nat) (s : St) : Option (St × Option Ev) :=
  if s.ub then none
  else match s.cur t with
    | some (c, q) => advance t s c q
    | none => match s.todo t with
      | [] => none
      | c :: cs => some ({ s with todo := set s.todo t cs, cur := set s.cur t (some (c, code sem c)) }, some (.inv t c))

/-- Runs: the threads of `sched` make a step one after the other. -/
def runs (sem : Sem) : List Nat → St → Option (St × List Ev)
  | [], s => some (s, [])
  | t :: ts, s =>
    match step sem t s with
    | some (s', e) => (runs sem ts s').map fun r => (r.1, e.toList ++ r.2)
    | none => none

/-- An object holding `s`. -/
def Obj.of (s : SB) : Obj := ⟨s, 0, 0⟩

/-- All threads before their first call. -/
def start (objs : Nat → SB) (todo : Nat → List Call) : St :=
  ⟨fun o => Obj.of (objs o), fun _ => none, todo, fun _ => none, false⟩

end Verif.StringBuffer.Sync
