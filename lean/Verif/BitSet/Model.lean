import Verif.Bits.Model
import Verif.NumText.Model
/-!
# `BitSet`

`/repo/library/Java/Util/BitSet/BitSet.cpp` and `BitSet.hpp`.  `words` is the
`Array<long>`, `inUse` is `wordsInUse` (an `int` that never becomes negative),
`sticky` is `sizeIsSticky`.  Every access to `words` goes through
`std::vector::at`.  The cached text `backupForToString` is modelled apart, in
`Verif.BitSet.Backup`.

Word numbers are `Nat`: `bitIndex >> 6` of a non-negative index is `i / 64`.
Where the argument of a binary operation is the receiver itself the words are
read and written at the same position in the same turn, so passing a copy, as
the model does, gives the same result.
-/
namespace Verif.BitSet
open Verif.CInt Verif.Bits

abbrev Word := BitVec 64

/-- BitSet.hpp:46-50, the three fields. -/
structure BS where
  words : List Word
  inUse : Nat
  sticky : Bool
  deriving DecidableEq, Repr

/-- BitSet.hpp:43 `WORD_MASK`. -/
def WORD_MASK : Word := 0xffffffffffffffff#64

/-- `this->words[k]` (Kernel/Java.hpp `Array::operator[]`). -/
def rd (ws : List Word) (k : Nat) : Outcome Word := Arr.get ws k
/-- `this->words[k] = v`. -/
def wr (ws : List Word) (k : Nat) (v : Word) : Outcome (List Word) := Arr.set ws k v

/-- `for (k = i; k < i + n; ++k) words[k] = f(k, words[k])`, the shape of all
word loops below. -/
def updLoop (f : Nat → Word → Outcome Word) : (i n : Nat) → List Word → Outcome (List Word)
  | _, 0, ws => .ok ws
  | i, n + 1, ws => do
    let w ← rd ws i
    let v ← f i w
    let ws ← wr ws i v
    updLoop f (i + 1) n ws

/-- `words[k] = f(words[k])`. -/
def upd (ws : List Word) (k : Nat) (f : Word → Word) : Outcome (List Word) :=
  updLoop (fun _ w => .ok (f w)) k 1 ws

/-- Arrays.hpp:580-597 `copyOfOrigin` with the padding `0`. -/
def copyOf (ws : List Word) (n : Nat) : List Word := ws.take n ++ List.replicate (n - ws.length) 0

/-- BitSet.cpp:41-55 `checkRange`. -/
def checkRange (from_ to : Int) : Outcome Unit :=
  if from_ < 0 then .throw .indexOutOfBounds
  else if to < 0 then .throw .indexOutOfBounds
  else if to < from_ then .throw .indexOutOfBounds
  else .ok ()

/-- BitSet.cpp:57-68 `initializeWords`: `wordIndex(n - 1) + 1` zero words
(`>> 6` rounds towards minus infinity, so `n = 0` gives none). -/
def initWords (n : Int) : List Word := List.replicate ((n - 1) / 64 + 1).toNat 0

/-- BitSet.cpp:78-93 `ensureCapacity`. The doubled length is below `2^31` for
every set whose words all have `int` indices, so it is not checked here. -/
def ensureCapacity (b : BS) (req : Nat) : BS :=
  if req ≤ b.words.length then b
  else { b with words := copyOf b.words (max (2 * b.words.length) req), sticky := false }

/-- BitSet.cpp:70-76 `expandTo`. -/
def expandTo (b : BS) (w : Nat) : BS :=
  if b.inUse < w + 1 then { ensureCapacity b (w + 1) with inUse := w + 1 } else b

/-- BitSet.cpp:95-106 `recalculateWordsInUse`, the loop. -/
def recalcFrom (ws : List Word) : Nat → Outcome Nat
  | 0 => .ok 0
  | k + 1 => do
    let w ← rd ws k
    if w ≠ 0 then .ok (k + 1) else recalcFrom ws k

/-- BitSet.cpp:95-106 `recalculateWordsInUse`. -/
def recalc (b : BS) : Outcome BS := do
  let n ← recalcFrom b.words b.inUse
  .ok { b with inUse := n }

/-- BitSet.cpp:108-112 `trimToSize`. -/
def trimToSize (b : BS) : BS :=
  if b.inUse ≠ b.words.length then { b with words := copyOf b.words b.inUse } else b

/-- BitSet.cpp:120-123 `BitSet()`. -/
def mk0 : BS := ⟨initWords 64, 0, false⟩

/-- BitSet.cpp:125-132 `BitSet(int)`. -/
def mkSize (n : Int) : Outcome BS :=
  if n < 0 then .throw .negativeArraySize else .ok ⟨initWords n, 0, true⟩

/-- BitSet.cpp:134-137 `BitSet(const Array<long> &)`. -/
def mkWords (ws : List Word) : BS := ⟨ws, ws.length, false⟩

/-- BitSet.hpp:257-277 `equals`, the loop over the words in use. -/
def eqLoop (a b : List Word) : (k n : Nat) → Outcome Bool
  | _, 0 => .ok true
  | k, n + 1 => do
    let x ← rd a k
    let y ← rd b k
    if x ≠ y then .ok false else eqLoop a b (k + 1) n

/-- BitSet.hpp:257-277 `equals`, BitSet.cpp:769-771 `operator==`. -/
def equals (a b : BS) : Outcome Bool :=
  if a.inUse ≠ b.inUse then .ok false else eqLoop a.words b.words 0 a.inUse

/-- `while (wordsInUse > n) { wordsInUse--; words[wordsInUse] = 0; }`
(BitSet.cpp:155-159 with `n = set.wordsInUse`, 245-249 with `n = 0`). -/
def shrinkTo (n : Nat) : (k : Nat) → List Word → Outcome (List Word)
  | 0, ws => .ok ws
  | k + 1, ws => if k + 1 > n then do
      let ws ← wr ws k 0
      shrinkTo n k ws
    else .ok ws

/-- BitSet.cpp:155-167 `bitAnd` after the equality test. -/
def bitAndTail (a s : BS) : Outcome BS := do
  let ws ← shrinkTo s.inUse a.inUse a.words
  let n := min a.inUse s.inUse
  let ws ← updLoop (fun k w => do let v ← rd s.words k; .ok (w &&& v)) 0 n ws
  recalc { a with words := ws, inUse := n }

/-- BitSet.cpp:149-168 `bitAnd`. -/
def bitAnd (a s : BS) : Outcome BS := do
  let e ← equals a s
  if e then .ok a else bitAndTail a s

/-- BitSet.cpp:175-194, 198-217: common part of `bitOr` and `bitXor`. -/
def mergeWords (op : Word → Word → Word) (a s : BS) : Outcome BS := do
  let common := min a.inUse s.inUse
  let a' := if a.inUse < s.inUse then { ensureCapacity a s.inUse with inUse := s.inUse } else a
  let ws ← updLoop (fun k w => do let v ← rd s.words k; .ok (op w v)) 0 common a'.words
  let ws ← updLoop (fun k _ => rd s.words k) common (s.inUse - common) ws
  .ok { a' with words := ws }

/-- BitSet.cpp:170-195 `bitOr`. -/
def bitOr (a s : BS) : Outcome BS := do
  let e ← equals a s
  if e then .ok a else mergeWords (· ||| ·) a s

/-- BitSet.cpp:197-220 `bitXor`. -/
def bitXor (a s : BS) : Outcome BS := do
  let r ← mergeWords (· ^^^ ·) a s
  recalc r

/-- BitSet.cpp:222-232 `andNot`. -/
def andNot (a s : BS) : Outcome BS := do
  let ws ← updLoop (fun k w => do let v ← rd s.words k; .ok (w &&& ~~~v)) 0 (min a.inUse s.inUse) a.words
  recalc { a with words := ws }

/-- BitSet.cpp:234-242 `cardinality`, the loop; the running total is an `int`. -/
def cardLoop (m : Sem) (ws : List Word) : (k n : Nat) → (acc : Int) → Outcome Int
  | _, 0, acc => .ok acc
  | k, n + 1, acc => do
    let w ← rd ws k
    let c ← longBitCount m w
    let acc ← chk32 (acc + c)
    cardLoop m ws (k + 1) n acc

/-- BitSet.cpp:234-242 `cardinality`. -/
def cardinality (m : Sem) (b : BS) : Outcome Int := cardLoop m b.words 0 b.inUse 0

/-- BitSet.cpp:244-250 `clear()`. -/
def clearAll (b : BS) : Outcome BS := do
  let ws ← shrinkTo 0 b.inUse b.words
  .ok { b with words := ws, inUse := 0 }

/-- BitSet.cpp:258-264 `clear(int)` for a non-negative index. -/
def clearBitAt (m : Sem) (b : BS) (i : Nat) : Outcome BS :=
  if b.inUse ≤ i / 64 then .ok b
  else do
    let msk ← shl m 1#64 i
    let ws ← upd b.words (i / 64) (· &&& ~~~msk)
    recalc { b with words := ws }

/-- BitSet.cpp:252-265 `clear(int)`. -/
def clearBit (m : Sem) (b : BS) (i : Int) : Outcome BS :=
  if i < 0 then .throw .indexOutOfBounds else clearBitAt m b i.toNat

/-- BitSet.cpp:322-325 `flip(int)` for a non-negative index. -/
def flipBitAt (m : Sem) (b : BS) (i : Nat) : Outcome BS := do
  let e := expandTo b (i / 64)
  let msk ← shl m 1#64 i
  let ws ← upd e.words (i / 64) (· ^^^ msk)
  recalc { e with words := ws }

/-- BitSet.cpp:317-326 `flip(int)`. -/
def flipBit (m : Sem) (b : BS) (i : Int) : Outcome BS :=
  if i < 0 then .throw .indexOutOfBounds else flipBitAt m b i.toNat

/-- BitSet.cpp:592-594 `set(int)` for a non-negative index. -/
def setBitAt (m : Sem) (b : BS) (i : Nat) : Outcome BS := do
  let e := expandTo b (i / 64)
  let msk ← shl m 1#64 i
  let ws ← upd e.words (i / 64) (· ||| msk)
  .ok { e with words := ws }

/-- BitSet.cpp:586-595 `set(int)`. -/
def setBit (m : Sem) (b : BS) (i : Int) : Outcome BS :=
  if i < 0 then .throw .indexOutOfBounds else setBitAt m b i.toNat

/-- BitSet.cpp:597-603 `set(int, boolean)`. -/
def setBitTo (m : Sem) (b : BS) (i : Int) (v : Bool) : Outcome BS :=
  if v then setBit m b i else clearBit m b i

/-- BitSet.cpp:362-377 `get(int)`. -/
def getBit (m : Sem) (b : BS) (i : Int) : Outcome Bool :=
  if i < 0 then .throw .indexOutOfBounds
  else if b.inUse ≤ i.toNat / 64 then .ok false
  else do
    let w ← rd b.words (i.toNat / 64)
    let msk ← shl m 1#64 i.toNat
    .ok (w &&& msk != 0)

/-- `WORD_MASK << fromIndex`. -/
def firstMask (m : Sem) (f : Nat) : Outcome Word := shl m WORD_MASK f
/-- `static_cast<unsigned long>(WORD_MASK) >> (-toIndex & 0b111111)`. -/
def lastMask (m : Sem) (t : Nat) : Outcome Word := shr m WORD_MASK (-(t : Int) % 64)

/-- BitSet.cpp:290-305, 342-357 and 620-635: first, intermediate and last
words of a range; `op word mask` is the compound assignment, `mid` what
happens to an intermediate word. -/
def rangeWords (op : Word → Word → Word) (mid : Word → Word) (fm lm : Word) (s e : Nat) (ws : List Word) :
    Outcome (List Word) :=
  if s = e then upd ws s (op · (fm &&& lm))
  else do
    let ws ← upd ws s (op · fm)
    let ws ← updLoop (fun _ w => .ok (mid w)) (s + 1) (e - (s + 1)) ws
    upd ws e (op · lm)

/-- BitSet.cpp:452-461 `length`. -/
def length (b : BS) : Outcome Int :=
  if b.inUse = 0 then .ok 0
  else do
    let w ← rd b.words (b.inUse - 1)
    chk32 (64 * (b.inUse - 1 : Nat) + (64 - longNumberOfLeadingZeros w))

/-- BitSet.cpp:286-307 `clear(int, int)` once the end is known. -/
def clearRangeTail (m : Sem) (b : BS) (f t s e : Nat) : Outcome BS := do
  let fm ← firstMask m f
  let lm ← lastMask m t
  let ws ← rangeWords (fun w k => w &&& ~~~k) (fun _ => 0) fm lm s e b.words
  recalc { b with words := ws }

/-- BitSet.cpp:270-307 `clear(int, int)` for a valid range. -/
def clearRangeAt (m : Sem) (b : BS) (f t : Nat) : Outcome BS :=
  if f = t then .ok b
  else if b.inUse ≤ f / 64 then .ok b
  else if b.inUse ≤ (t - 1) / 64 then do
    let l ← length b
    clearRangeTail m b f l.toNat (f / 64) (b.inUse - 1)
  else clearRangeTail m b f t (f / 64) ((t - 1) / 64)

/-- BitSet.cpp:267-308 `clear(int, int)`. -/
def clearRange (m : Sem) (b : BS) (f t : Int) : Outcome BS := do
  checkRange f t
  clearRangeAt m b f.toNat t.toNat

/-- BitSet.cpp:331-359 `flip(int, int)` for a valid range (the end word is
`wordIndex(toIndex)`, not `wordIndex(toIndex - 1)`). -/
def flipRangeAt (m : Sem) (b : BS) (f t : Nat) : Outcome BS :=
  if f = t then .ok b
  else do
    let x := expandTo b (t / 64)
    let fm ← firstMask m f
    let lm ← lastMask m t
    let ws ← rangeWords (· ^^^ ·) (· ^^^ WORD_MASK) fm lm (f / 64) (t / 64) x.words
    recalc { x with words := ws }

/-- BitSet.cpp:328-360 `flip(int, int)`. -/
def flipRange (m : Sem) (b : BS) (f t : Int) : Outcome BS := do
  checkRange f t
  flipRangeAt m b f.toNat t.toNat

/-- BitSet.cpp:608-635 `set(int, int)` for a valid range. -/
def setRangeAt (m : Sem) (b : BS) (f t : Nat) : Outcome BS :=
  if f = t then .ok b
  else do
    let x := expandTo b ((t - 1) / 64)
    let fm ← firstMask m f
    let lm ← lastMask m t
    let ws ← rangeWords (· ||| ·) (fun _ => WORD_MASK) fm lm (f / 64) ((t - 1) / 64) x.words
    .ok { x with words := ws }

/-- BitSet.cpp:605-636 `set(int, int)`. -/
def setRange (m : Sem) (b : BS) (f t : Int) : Outcome BS := do
  checkRange f t
  setRangeAt m b f.toNat t.toNat

/-- BitSet.cpp:638-644 `set(int, int, boolean)`. -/
def setRangeTo (m : Sem) (b : BS) (f t : Int) (v : Bool) : Outcome BS :=
  if v then setRange m b f t else clearRange m b f t

/-- BitSet.cpp:310-315 `clone`: the receiver (trimmed unless sticky) and the
copy. -/
def clone (b : BS) : BS × BS :=
  let b' := if b.sticky then b else trimToSize b
  (b', { b' with words := copyOf b'.words b'.words.length })

/-- `(unsigned) words[src] >> fromIndex | (hi << (-fromIndex & 63))`. -/
def joinWords (m : Sem) (lo hi : Word) (f : Nat) : Outcome Word := do
  let x ← shr m lo f
  let y ← shl m hi (-(f : Int) % 64)
  .ok (x ||| y)

/-- BitSet.cpp:401-407 `get(int, int)`, one word before the last. -/
def getWord (m : Sem) (ws : List Word) (f src : Nat) : Outcome Word := do
  let lo ← rd ws src
  if f % 64 = 0 then .ok lo
  else do
    let hi ← rd ws (src + 1)
    joinWords m lo hi f

/-- BitSet.cpp:411-420 `get(int, int)`, the last word. -/
def getLastWord (m : Sem) (ws : List Word) (f t src : Nat) : Outcome Word := do
  let lm ← lastMask m t
  let lo ← rd ws src
  if (t - 1) % 64 < f % 64 then do
    let hi ← rd ws (src + 1)
    joinWords m lo (hi &&& lm) f
  else shr m (lo &&& lm) f

/-- BitSet.cpp:392-426 `get(int, int)` for `f < t ≤ length()`. -/
def getRangeTail (m : Sem) (b : BS) (f t : Nat) : Outcome BS := do
  let n := t - f
  let tw := (n - 1) / 64 + 1
  let ws ← updLoop (fun k _ => getWord m b.words f (f / 64 + k)) 0 (tw - 1) (initWords n)
  let last ← getLastWord m b.words f t (f / 64 + (tw - 1))
  let ws ← wr ws (tw - 1) last
  recalc ⟨ws, tw, true⟩

/-- BitSet.cpp:379-427 `get(int, int)`. -/
def getRange (m : Sem) (b : BS) (f t : Int) : Outcome BS := do
  checkRange f t
  let l ← length b
  if l ≤ f ∨ f = t then mkSize 0
  else getRangeTail m b f.toNat (if l < t then l.toNat else t.toNat)

/-- BitSet.cpp:432-433 `hashCode`, the loop; `k` is `i` before the decrement. -/
def hashLoop (m : Sem) (ws : List Word) : (k : Nat) → (h : Word) → Outcome Word
  | 0, h => .ok h
  | k + 1, h => do
    let w ← rd ws k
    let p ← mul m w (BitVec.ofNat 64 (k + 1))
    hashLoop m ws k (h ^^^ p)

/-- BitSet.cpp:429-435 `hashCode`: the loop runs over all words, not only the
used ones. -/
def hashCode (m : Sem) (b : BS) : Outcome (BitVec 32) := do
  let h ← hashLoop m b.words b.words.length 1234#64
  .ok ((h.sshiftRight 32 ^^^ h).setWidth 32)

/-- BitSet.cpp:440-445 `intersects`, the loop. -/
def intersectsLoop (a b : List Word) : (k n : Nat) → Outcome Bool
  | _, 0 => .ok false
  | k, n + 1 => do
    let x ← rd a k
    let y ← rd b k
    if x &&& y ≠ 0 then .ok true else intersectsLoop a b (k + 1) n

/-- BitSet.cpp:437-446 `intersects`; the bound is `index <= endWordIndex`. -/
def intersects (a s : BS) : Outcome Bool :=
  intersectsLoop a.words s.words 0 (min a.inUse s.inUse + 1)

/-- BitSet.cpp:448-450 `isEmpty`. -/
def isEmpty (b : BS) : Bool := b.inUse = 0

/-- BitSet.cpp:646-648 `size`. -/
def size (b : BS) : Int := b.words.length * 64

/-- BitSet.cpp:476-489 and 505-518: the upward scan, over the words (`neg =
false`) or their complements, with the result when the words run out. -/
def scanUp (b : BS) (neg : Bool) (atEnd : Outcome Int) : (fuel k : Nat) → (word : Word) → Outcome Int
  | 0, _, _ => .diverge
  | n + 1, k, word =>
    if b.inUse < k then .ok 0
    else if word ≠ 0 then chk32 (k * 64 + longNumberOfTrailingZeros word)
    else if k + 1 = b.inUse then atEnd
    else do
      let w ← rd b.words (k + 1)
      scanUp b neg atEnd n (k + 1) (if neg then ~~~w else w)

/-- BitSet.cpp:469-489 `nextClearBit` for a non-negative index. -/
def nextClearBitAt (m : Sem) (b : BS) (f : Nat) : Outcome Int :=
  if b.inUse ≤ f / 64 then .ok f
  else do
    let w ← rd b.words (f / 64)
    let fm ← firstMask m f
    scanUp b true (chk32 (b.inUse * 64)) (b.inUse + 1) (f / 64) (~~~w &&& fm)

/-- BitSet.cpp:463-490 `nextClearBit`. -/
def nextClearBit (m : Sem) (b : BS) (f : Int) : Outcome Int :=
  if f < 0 then .throw .indexOutOfBounds else nextClearBitAt m b f.toNat

/-- BitSet.cpp:498-518 `nextSetBit` for a non-negative index. -/
def nextSetBitAt (m : Sem) (b : BS) (f : Nat) : Outcome Int :=
  if b.inUse ≤ f / 64 then .ok (-1)
  else do
    let w ← rd b.words (f / 64)
    let fm ← firstMask m f
    scanUp b false (.ok (-1)) (b.inUse + 1) (f / 64) (w &&& fm)

/-- BitSet.cpp:492-519 `nextSetBit`. -/
def nextSetBit (m : Sem) (b : BS) (f : Int) : Outcome Int :=
  if f < 0 then .throw .indexOutOfBounds else nextSetBitAt m b f.toNat

/-- BitSet.cpp:538-549 and 571-582: the downward scan. The product
`(indexOfWord + 1) * 64` is an `int`. -/
def scanDown (ws : List Word) (neg : Bool) : (k : Nat) → (word : Word) → Outcome Int
  | 0, word => if word ≠ 0 then .ok (63 - longNumberOfLeadingZeros word) else .ok (-1)
  | k + 1, word =>
    if word ≠ 0 then do
      let p ← chk32 ((k + 2) * 64)
      .ok (p - 1 - longNumberOfLeadingZeros word)
    else do
      let w ← rd ws k
      scanDown ws neg k (if neg then ~~~w else w)

/-- BitSet.cpp:530-551, 563-583 for a non-negative index, once it is known to
lie in a used word. -/
def previousBitAt (m : Sem) (b : BS) (neg : Bool) (f : Nat) : Outcome Int := do
  let w ← rd b.words (f / 64)
  let f1 ← chk32 (f + 1)
  let lm ← lastMask m f1.toNat
  scanDown b.words neg (f / 64) ((if neg then ~~~w else w) &&& lm)

/-- BitSet.cpp:521-552 `previousClearBit`. -/
def previousClearBit (m : Sem) (b : BS) (f : Int) : Outcome Int :=
  if f < 0 then (if f = -1 then .ok (-1) else .throw .indexOutOfBounds)
  else if b.inUse ≤ f.toNat / 64 then .ok f
  else previousBitAt m b true f.toNat

/-- BitSet.cpp:554-584 `previousSetBit`. -/
def previousSetBit (m : Sem) (b : BS) (f : Int) : Outcome Int :=
  if f < 0 then (if f = -1 then .ok (-1) else .throw .indexOutOfBounds)
  else if b.inUse ≤ f.toNat / 64 then do
    let l ← length b
    .ok (l - 1)
  else previousBitAt m b false f.toNat

/-- The bytes of an `unsigned long` in memory on x86-64. -/
def bytesOf (w : Word) : List Byte := (List.range 8).map fun k => (w >>> (8 * k)).setWidth 8

/-- Position after the last non-zero element (BitSet.cpp:681-692, 741-745 and
761-765): counts down from `k`. -/
def headLen {n : Nat} (l : List (BitVec n)) : Nat → Nat
  | 0 => 0
  | k + 1 => if l.getD k 0 ≠ 0 then k + 1 else headLen l k

/-- BitSet.cpp:666-675: the bytes of the first `n` words. -/
def bytesLoop (ws : List Word) : Nat → Outcome (List Byte)
  | 0 => .ok []
  | n + 1 => do
    let l ← bytesLoop ws n
    let w ← rd ws n
    .ok (l ++ bytesOf w)

/-- BitSet.cpp:650-700 `toByteArray`. -/
def toByteArray (b : BS) : Outcome (List Byte) :=
  if b.inUse = 0 then .ok []
  else do
    let l ← bytesLoop b.words (b.inUse - 1)
    let w ← rd b.words (b.inUse - 1)
    .ok (l ++ (bytesOf w).take (headLen (bytesOf w) 8))

/-- BitSet.cpp:702-704 `toLongArray`. -/
def toLongArray (b : BS) : List Word := copyOf b.words b.inUse

/-- `((byte *) &w)[k] = v`. -/
def putByte (w : Word) (k : Nat) (v : Byte) : Word :=
  (w &&& ~~~(0xff#64 <<< (8 * k))) ||| (v.setWidth 64 <<< (8 * k))

/-- BitSet.cpp:749-755 `valueOf(const Array<byte> &)`, the loop over the bytes. -/
def storeBytes (bs : List Byte) : (i n : Nat) → List Word → Outcome (List Word)
  | _, 0, ws => .ok ws
  | i, n + 1, ws => do
    let v ← Arr.get bs i
    let ws ← upd ws (i / 8) (putByte · (i % 8) v)
    storeBytes bs (i + 1) n ws

/-- BitSet.cpp:736-758 `valueOf(const Array<byte> &)`. -/
def valueOfBytes (bs : List Byte) : Outcome BS := do
  let n := headLen bs bs.length
  let ws ← storeBytes bs 0 n (List.replicate ((n + 7) / 8) 0)
  .ok (mkWords ws)

/-- BitSet.cpp:760-767 `valueOf(const Array<long> &)`. -/
def valueOfLongs (ls : List Word) : BS := mkWords (copyOf ls (headLen ls ls.length))

/-- BitSet.cpp:718-727 `toString`, the loop: `i` is `indexOfNextSetBit`.
`StringBuilder::append(int)` appends the decimal text (StringBuilder.cpp:200-206). -/
def textLoop (m : Sem) (b : BS) : (fuel : Nat) → (i : Int) → List Byte → Outcome (List Byte)
  | 0, _, _ => .diverge
  | n + 1, i, acc =>
    if i = -1 then .ok acc
    else do
      let acc := acc ++ NumText.digits 10 64 i.toNat
      let i1 ← chk32 (i + 1)
      let j ← nextSetBit m b i1
      if j = -1 then .ok acc else textLoop m b n j (acc ++ txt ", ")

/-- BitSet.cpp:708-715: the capacity requested from the `StringBuilder`. -/
def textCapacity (m : Sem) (b : BS) : Outcome Int := do
  let n ← if 128 < b.inUse then cardinality m b else chk32 (b.inUse * 64)
  chk32 (6 * n + 2)

/-- BitSet.cpp:706-734 `toString`, the text. The `StringBuilder` is the list
of characters appended so far. -/
def toText (m : Sem) (b : BS) : Outcome (List Byte) := do
  let _ ← textCapacity m b
  let i ← nextSetBit m b 0
  let t ← textLoop m b (64 * b.inUse + 1) i (txt "{")
  .ok (t ++ txt "}")

/-- BitSet.cpp:139-143 copy constructor and 773-779 `operator=` (the words
assigned; `backupForToString` apart). -/
def copy (b : BS) : BS := { b with words := copyOf b.words b.words.length }

/-! ## The cached text

`backupForToString` is a `malloc`ed buffer or null (BitSet.hpp:148). Freeing a
buffer that was freed before is undefined behaviour. -/

/-- State of the pointer. -/
inductive Backup
  | null
  | owned
  | dangling
  deriving DecidableEq, Repr

/-- BitSet.cpp:114-118 `cleanUp`: frees, and leaves the pointer as it is. -/
def cleanUp : Backup → Outcome Backup
  | .null => .ok .null
  | .owned => .ok .dangling
  | .dangling => .ub

/-- What a caller does with one object that matters to the buffer. -/
inductive Use
  | toString     -- BitSet.cpp:730-731: `free`, then a new buffer
  | assign       -- BitSet.cpp:773-779 `operator=`: `cleanUp()` first
  deriving DecidableEq, Repr

def useStep (p : Backup) : Use → Outcome Backup
  | .toString => match p with
    | .dangling => .ub
    | _ => .ok .owned
  | .assign => cleanUp p

/-- The life of an object: construction (null), uses, destruction
(BitSet.cpp:145-147). -/
def life (us : List Use) : Outcome Backup := do
  let p ← us.foldlM useStep Backup.null
  cleanUp p

end Verif.BitSet
