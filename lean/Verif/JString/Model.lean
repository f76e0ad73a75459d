import Verif.CStr
/-!
# java.lang.String (library/Java/Lang/String/String.cpp, String.hpp)

A `String` is modelled by the bytes of its `std::string original`; the hash
cache is modelled separately (`HStr`).  Sizes are natural numbers: the model
describes strings whose length fits in an `int`.  A C++ call that returns a
position returns an `Int`, `-1` for "absent".
-/
namespace Verif.JString

abbrev Str := List Byte

/-! ## Standard library -/

/-- Is `p` a prefix of `s`? -/
def prefixB : (p s : Str) → Bool
  | [], _ => true
  | _ :: _, [] => false
  | a :: p, b :: s => a == b && prefixB p s

/-- Scan of `std::string::find`: `k` is the position of the head of `s`. -/
def findAux (p : Str) : (s : Str) → (k : Nat) → Option Nat
  | [], k => if prefixB p [] then some k else none
  | a :: s, k => if prefixB p (a :: s) then some k else findAux p s (k + 1)

/-- `std::string::find(p, pos)`; `none` is `npos`. -/
def find (s p : Str) (pos : Nat) : Option Nat :=
  if pos ≤ s.length then findAux p (s.drop pos) pos else none

/-- `(int) found`, with `npos` giving -1. -/
def posOrNeg : Option Nat → Int
  | some i => (i : Int)
  | none => -1

/-- `strcmp` on the NUL-terminated views: only the sign is used.  Bytes
compare as `unsigned char`. -/
def strcmpL : Str → Str → Int
  | [], [] => 0
  | [], _ :: _ => -1
  | _ :: _, [] => 1
  | a :: s, b :: t => if a = b then strcmpL s t else if a.toNat < b.toNat then -1 else 1
def strcmp (a b : Str) : Int := strcmpL (cstr a) (cstr b)

/-- `strcasecmp`, "C" locale. -/
def strcasecmp (a b : Str) : Int := strcmpL ((cstr a).map toLowerB) ((cstr b).map toLowerB)

/-- `std::string::substr(pos, n)`. -/
def substr (s : Str) (pos n : Nat) : Outcome Str :=
  if pos ≤ s.length then .ok ((s.drop pos).take n) else .throw .outOfRange

/-! ## Loops over positions -/

/-- `for (i = start; i < start + count; i++) if (!P(i)) return false; return true;` -/
def allM (P : Nat → Outcome Bool) : (start count : Nat) → Outcome Bool
  | _, 0 => .ok true
  | i, n + 1 => do
    let b ← P i
    if b then allM P (i + 1) n else .ok false

/-- `for (i = start; i < start + count; i++) if (P(i)) return i; return -1;` -/
def firstM (P : Nat → Outcome Bool) : (start count : Nat) → Outcome Int
  | _, 0 => .ok (-1)
  | i, n + 1 => do
    let b ← P i
    if b then .ok (i : Int) else firstM P (i + 1) n

/-- `for (i = count - 1; i >= 0; i--) if (P(i)) return i; return -1;` -/
def lastM (P : Nat → Outcome Bool) : (count : Nat) → Outcome Int
  | 0 => .ok (-1)
  | n + 1 => do
    let b ← P n
    if b then .ok (n : Int) else lastM P n

/-! ## Indexing and slicing -/

/-- The test `index > this->original.size() - 1` for `index >= 0`: the
subtraction is done in `size_t`, so on an empty string nothing is past the
end. -/
def pastEnd (s : Str) (i : Int) : Bool := s.length ≠ 0 && decide (i > (s.length : Int) - 1)

/-- String.cpp:157-162 `charAt`. -/
def charAt (s : Str) (i : Int) : Outcome Byte :=
  if i < 0 ∨ pastEnd s i then .throw .stringIndexOutOfBounds else Str.at s i.toNat

/-- String.cpp:203-208 `getStringFromIndex`. -/
def getStringFromIndex (s : Str) (i : Int) : Outcome Str :=
  if i < 0 ∨ pastEnd s i then .throw .stringIndexOutOfBounds else substr s i.toNat s.length

/-- String.cpp:554-565 `subString(begin, end)`. -/
def subString (s : Str) (b e : Int) : Outcome Str :=
  if b > e ∨ b < 0 ∨ b > s.length ∨ e < 0 ∨ e > s.length then .ok []
  else substr s b.toNat (e - b).toNat

/-- String.cpp:550-552 `subString(begin)`. -/
def subStringFrom (s : Str) (b : Int) : Outcome Str := subString s b s.length

/-- String.cpp:172-174 `concat`, String.hpp:1023, 1245 `operator+`. -/
def concat (s t : Str) : Str := s ++ t

/-- String.cpp:471-478 `trim`: `find_first_not_of(' ')`,
`find_last_not_of(' ')`, `substr`. -/
def trim (s : Str) : Outcome Str :=
  match (s.findIdx? (· ≠ chr ' ')) with
  | none => .ok []
  | some first =>
    let last := s.length - 1 - (s.reverse.findIdx (· ≠ chr ' '))
    substr s first (last - first + 1)

/-- String.cpp:57-67, 463-469 `toLowerCase`/`toUpperCase`, restricted to
ASCII texts: the conversion to wide characters starts from `c_str()`, so it
stops at the first NUL; `towlower`/`towupper` act on ASCII letters only. -/
def toLowerCase (s : Str) : Str := (cstr s).map toLowerB
def toUpperCase (s : Str) : Str := (cstr s).map toUpperB

/-- String.cpp:195-201 `getBytes`, 443-449 `toCharArray`. -/
def getBytes (s : Str) : List Byte := s
/-- String.cpp:81-97 constructors from arrays. -/
def ofArray (a : List Byte) : Str := a
/-- String.cpp:111-147 constructors from a slice of an array.
`array.length - length` cannot overflow as both are non-negative. -/
def ofSlice (a : List Byte) (offset length : Int) : Outcome Str :=
  if offset < 0 then .throw .stringIndexOutOfBounds
  else if length < 0 then .throw .stringIndexOutOfBounds
  else if offset > (a.length : Int) - length then .throw .stringIndexOutOfBounds
  else .ok ((a.drop offset.toNat).take length.toNat)

/-! ## Search -/

/-- String.cpp:176-183 `contains(CharSequence)`: the argument is seen as a C string. -/
def containsSeq (s p : Str) : Bool := (find s (cstr p) 0).isSome
/-- String.cpp:185-192 `contains(String)`. -/
def contains (s p : Str) : Bool := (find s p 0).isSome

/-- String.cpp:210-223 `endsWith` (the loop runs downwards; the order is
unobservable). -/
def endsWith (s p : Str) : Outcome Bool :=
  if s.length < p.length then .ok false
  else allM (fun i => do
    let a ← Str.at p (p.length - 1 - i)
    let b ← Str.at s (s.length - p.length + (p.length - 1 - i))
    .ok (a == b)) 0 p.length

/-- String.cpp:406-421 `startsWith(prefix)`. -/
def startsWith (s p : Str) : Outcome Bool :=
  if s.length < p.length then .ok false
  else allM (fun i => do
    let a ← Str.at s i
    let b ← Str.at p i
    .ok (a == b)) 0 p.length

/-- String.cpp:423-441 `startsWith(prefix, offset)`. -/
def startsWithAt (s p : Str) (off : Int) : Outcome Bool :=
  if off < 0 then .ok false
  else if s.length < p.length ∨ off > (s.length : Int) - p.length then .ok false
  else allM (fun i => do
    let a ← Str.at p i
    let b ← Str.at s (off.toNat + i)
    .ok (a == b)) 0 p.length

/-- String.cpp:229-246 `indexOf(character)`; `(char) character` keeps the low
byte. -/
def indexOfChar (s : Str) (c : BitVec 32) : Int :=
  let target : Byte := c.setWidth 8
  posOrNeg (find s (if target = 0 then [] else [target]) 0)

/-- String.cpp:248-263 `indexOf(character, fromIndex)`. -/
def indexOfCharFrom (s : Str) (c : BitVec 32) (frm : Int) : Outcome Int :=
  if frm > s.length then .ok (-1)
  else if frm < 0 then .ok (indexOfChar s c)
  else firstM (fun i => do
    let a ← Str.at s i
    .ok (a == c.setWidth 8)) frm.toNat (s.length - frm.toNat)

/-- String.cpp:265-274 `indexOf(subString)`. -/
def indexOf (s p : Str) : Int :=
  if s.length = 0 ∨ p = [] then -1 else posOrNeg (find s p 0)

/-- String.cpp:276-292 `indexOf(subString, fromIndex)`. -/
def indexOfFrom (s p : Str) (frm : Int) : Outcome Int :=
  if frm < 0 then .ok (indexOf s p)
  else if s.length = 0 ∨ p = [] then .ok (-1)
  else if pastEnd s frm ∨ s.length < p.length then .ok (-1)
  else do
    let t ← substr s frm.toNat s.length
    match find t p 0 with
    | some i => .ok ((i : Int) + frm)
    | none => .ok (-1)

/-- String.cpp:298-306 `lastIndexOf(character)`. -/
def lastIndexOfChar (s : Str) (c : BitVec 32) : Outcome Int :=
  lastM (fun i => do
    let a ← charAt s i
    .ok (a == c.setWidth 8)) s.length

/-- String.cpp:308-323 `lastIndexOf(character, fromIndex)`: the loop starts at
`fromIndex - 1`. -/
def lastIndexOfCharFrom (s : Str) (c : BitVec 32) (frm : Int) : Outcome Int :=
  if frm < 0 then .ok (-1)
  else if pastEnd s frm then lastIndexOfChar s c
  else lastM (fun i => do
    let a ← charAt s i
    .ok (a == c.setWidth 8)) frm.toNat

/-- String.cpp:325-335 `lastIndexOf(subString)`. -/
def lastIndexOf (s p : Str) : Int :=
  match find s.reverse p.reverse 0 with
  | none => -1
  | some f => (s.length : Int) - ((f : Int) + p.length)

/-- String.cpp:337-362 `lastIndexOf(subString, fromIndex)`.  A negative
`indexToCreatSubString` compares as a huge `size_t`. -/
def lastIndexOfFrom (s p : Str) (frm : Int) : Outcome Int :=
  if frm < 0 then .ok (-1)
  else if pastEnd s frm then .ok (lastIndexOf s p)
  else
    let idx := (s.length : Int) - frm - p.length
    if idx < 0 ∨ idx > s.length then .ok (-1)
    else do
      let t ← substr s.reverse idx.toNat s.length
      match find t (cstr p).reverse 0 with
      | none => .ok (-1)
      | some r => .ok (frm - r)

/-- String.cpp:598-611 `regionMatches(ignoreCase, ...)`; the additions
`offset + len` are `int` additions. -/
def regionMatches (ignoreCase : Bool) (s : Str) (off : Int) (t : Str) (toff len : Int) : Outcome Bool := do
  let e1 ← chk32 (off + len)
  let a ← subString s off e1
  let e2 ← chk32 (toff + len)
  let b ← subString t toff e2
  if ignoreCase then .ok (strcasecmp a b == 0) else .ok (strcmp a b == 0)

/-! ## Comparison -/

/-- String.cpp:579-581 `equals`, String.hpp:1066 `operator==`. -/
def equals (a b : Str) : Bool := a == b
/-- String.cpp:164-166 `compareTo`; the ordering operators (String.hpp:1097-1135)
use the same `strcmp`. -/
def compareTo (a b : Str) : Int := strcmp a b
/-- String.cpp:168-170 `compareToIgnoreCase`. -/
def compareToIgnoreCase (a b : Str) : Int := strcasecmp a b
/-- String.cpp:583-585 `equalsIgnoreCase`. -/
def equalsIgnoreCase (a b : Str) : Bool := strcasecmp a b == 0
/-- String.cpp:567-569 `contentEquals`. -/
def contentEquals (a b : Str) : Bool := strcmp a b == 0

/-! ## Splitting, joining, replacing -/

/-- `for (; pre < pos; pre++) result += this->original[pre];` -/
def slice (s : Str) (pre pos : Nat) : Str := (s.take pos).drop pre

structure SplitSt where
  pos : Nat
  pre : Nat
  out : List Str

/-- One turn of the `while` of String.cpp:389-399, and its exit. -/
def splitBody (s d : Str) (st : SplitSt) : Outcome (Step SplitSt (List Str)) :=
  match find s d st.pos with
  | none => .ok (.done (st.out ++ [slice s st.pre s.length]))
  | some pos =>
    let pre := max st.pre pos
    .ok (.next ⟨pos + d.length, pre + d.length, st.out ++ [slice s st.pre pos]⟩)

/-- String.cpp:379-404 `split(regex)`; `fuel` bounds the number of turns. -/
def split (fuel : Nat) (s d : Str) : Outcome (List Str) :=
  iter (splitBody s d) fuel ⟨0, 0, []⟩

/-- String.hpp:600-614 `join` (the variadic pack as a list; `i` counts the
elements). -/
def joinFrom (d : Str) : List Str → Str
  | [] => []
  | [p] => p
  | p :: ps => p ++ d ++ joinFrom d ps
def join (d : Str) (ps : List Str) : Str := joinFrom d ps

/-- String.cpp:676-699 `split(regex, limit)`. -/
def splitLimit (fuel : Nat) (s d : Str) (limit : Int) : Outcome (List Str) := do
  let parts ← split fuel s d
  if limit = 1 then .ok [s]
  else if limit > parts.length ∨ limit ≤ 0 then .ok parts
  else
    let k := limit.toNat - 1
    let tail := parts.drop k
    let support := ((tail.take (tail.length - 1)).map (· ++ d)).flatten
    let last ← Arr.get parts ((parts.length : Int) - 1)
    .ok (parts.take k ++ [support ++ last])

structure ReplSt where
  pos : Nat
  pre : Nat
  out : Str

/-- One turn of the `while` of String.cpp:654-661, and its exit. -/
def replBody (s a b : Str) (st : ReplSt) : Outcome (Step ReplSt Str) :=
  match find s a st.pos with
  | none => .ok (.done (st.out ++ slice s st.pre s.length))
  | some pos =>
    let pre := max st.pre pos
    .ok (.next ⟨pos + a.length, pre + a.length, st.out ++ slice s st.pre pos ++ b⟩)

/-- String.cpp:642-665 `replace(target, replacement)`; `replaceAll` (374-377)
is the same function. -/
def replace (fuel : Nat) (s a b : Str) : Outcome Str :=
  iter (replBody s a b) fuel ⟨0, 0, []⟩

/-- String.cpp:364-372 `replace(oldChar, newChar)`. -/
def replaceChar (s : Str) (o n : Byte) : Str := s.map (fun c => if c = o then n else c)

/-- String.cpp:667-674 `replaceFirst`. -/
def replaceFirst (fuel : Nat) (s a b : Str) : Outcome Str := do
  let len := indexOf s a + a.length
  let head ← subString s 0 len
  let remain ← getStringFromIndex s len
  let head' ← replace fuel head a b
  .ok (head' ++ remain)

/-! ## Hash -/

/-- A `String` object together with its mutable hash cache (String.hpp, members
`original` and `hash`). -/
structure HStr where
  original : Str
  hash : BitVec 32
  deriving DecidableEq

/-- A freshly constructed string. -/
def HStr.new (s : Str) : HStr := ⟨s, 0⟩

/-- The loop of String.cpp:590-592: `hashCode = 31 * hashCode + (signed char) c`
in `int` arithmetic. -/
def hashLoop (m : Sem) : BitVec 32 → Str → Outcome (BitVec 32)
  | h, [] => .ok h
  | h, c :: s =>
    let p := 31 * h.toInt
    let v := p + c.toInt
    if m = .strict ∧ (p < INT_MIN ∨ p > INT_MAX ∨ v < INT_MIN ∨ v > INT_MAX) then .ub
    else hashLoop m (BitVec.ofInt 32 v) s

/-- String.cpp:587-596 `hashCode`. -/
def hashCode (m : Sem) (s : HStr) : Outcome (BitVec 32 × HStr) :=
  if s.hash = 0 ∧ s.original.length > 0 then do
    let h ← hashLoop m 0 s.original
    .ok (h, { s with hash := h })
  else .ok (s.hash, s)

/-- Mutators of a `String` object: `+=` (String.hpp:1033-1058), `=`
(String.hpp:1076-1079) and writing through `operator[]` (String.hpp:303-305). -/
inductive HOp
  | append (t : Str)
  | assign (t : Str)
  | poke (i : Nat) (c : Byte)
  | hash
/-- None of the mutators resets the cache; `poke` outside the string is
undefined. -/
def HOp.run (m : Sem) (s : HStr) : HOp → Outcome HStr
  | .append t => .ok { s with original := s.original ++ t }
  | .assign t => .ok { s with original := t }
  | .poke i c => if i < s.original.length then .ok { s with original := s.original.set i c } else .ub
  | .hash => do
    let r ← hashCode m s
    .ok r.2

end Verif.JString
