import Verif.Obj
/-!
# `java.util.ArrayList`

`/repo/library/Java/Util/ArrayList/ArrayList.hpp`.  The state is the contents of
`std::vector<E> original`.  `==` of the element type is equality.

Simplifications: memory allocation succeeds; the address `&original[size()]` of
`end()` (ArrayList.hpp:79-85) is taken as the past-the-end pointer it is on the
platform; the exception's message is not kept.
-/
namespace Verif.ArrayList

variable {α : Type}

/-- ArrayList.hpp:450-452 `size`. -/
def size : OM (List α) Int := do
  let v ← OM.read
  OM.ret (v.length : Int)

/-- ArrayList.hpp:145-148 `add(element)`. -/
def add (e : α) : OM (List α) Bool := do
  let v ← OM.read
  OM.write (v ++ [e])
  OM.ret true

/-- `original.insert(original.begin() + index, element)`: undefined unless
`begin() + index` is a position of the vector. -/
def insert (i : Nat) (e : α) : OM (List α) Unit := do
  let v ← OM.read
  if i ≤ v.length then OM.write (v.take i ++ e :: v.drop i) else OM.undef

/-- `this->original.size() - 1`, an unsigned 64-bit number. -/
def sizeMinusOne (n : Nat) : Nat := if n = 0 then 2 ^ 64 - 1 else n - 1

/-- ArrayList.hpp:156-161 `add(index, element)`. -/
def addAt (index : Int) (e : α) : OM (List α) Unit := do
  let v ← OM.read
  if index < 0 ∨ index > sizeMinusOne v.length then OM.ret () else insert index.toNat e

/-- ArrayList.hpp:192-194 `clear`. -/
def clear : OM (List α) Unit := OM.write []

/-- `index < 0 || index >= this->size()`, the test of `get`, `remove`, `set`. -/
def outside (v : List α) (index : Int) : Bool := decide (index < 0 ∨ index ≥ v.length)

/-- ArrayList.hpp:263-270 `get`; `original.at(index)`. -/
def get (index : Int) : OM (List α) α := do
  let v ← OM.read
  if outside v index then OM.raise .indexOutOfBounds else OM.lift (Arr.get v index)

/-- ArrayList.hpp:212-219 `contains`: the loop over the remaining items. -/
def containsLoop [DecidableEq α] (e : α) : List α → Bool
  | [] => false
  | x :: r => if x = e then true else containsLoop e r

/-- ArrayList.hpp:212-219 `contains`. -/
def contains [DecidableEq α] (e : α) : OM (List α) Bool := do
  let v ← OM.read
  OM.ret (containsLoop e v)

/-- ArrayList.hpp:281-285: the loop of `indexOf` from `index` on, `n` turns left. -/
def indexOfLoop [DecidableEq α] (e : α) : Nat → Nat → OM (List α) Int
  | 0, _ => OM.ret (-1)
  | n + 1, index => do
    let x ← get index
    if x = e then OM.ret index else indexOfLoop e n (index + 1)

/-- ArrayList.hpp:279-287 `indexOf`. -/
def indexOf [DecidableEq α] (e : α) : OM (List α) Int := do
  let v ← OM.read
  indexOfLoop e v.length 0

/-- ArrayList.hpp:318-322: the loop of `lastIndexOf`, `index = n - 1`. -/
def lastIndexOfLoop [DecidableEq α] (e : α) : Nat → OM (List α) Int
  | 0 => OM.ret (-1)
  | n + 1 => do
    let x ← get n
    if x = e then OM.ret n else lastIndexOfLoop e n

/-- ArrayList.hpp:316-324 `lastIndexOf`. -/
def lastIndexOf [DecidableEq α] (e : α) : OM (List α) Int := do
  let v ← OM.read
  lastIndexOfLoop e v.length

/-- ArrayList.hpp:294-296 `isEmpty`. -/
def isEmpty : OM (List α) Bool := do
  let v ← OM.read
  OM.ret v.isEmpty

/-- `original.erase(original.begin() + index)`. -/
def erase (i : Nat) : OM (List α) Unit := do
  let v ← OM.read
  if i < v.length then OM.write (v.eraseIdx i) else OM.undef

/-- ArrayList.hpp:354-364 `remove(index)`. -/
def removeAt (index : Int) : OM (List α) α := do
  let v ← OM.read
  if outside v index then OM.raise .indexOutOfBounds
  else do
    let holder ← get index
    erase index.toNat
    OM.ret holder

/-- ArrayList.hpp:373-380 `remove(element)`. -/
def removeElem [DecidableEq α] (e : α) : OM (List α) Bool := do
  let position ← indexOf e
  if position = -1 then OM.ret false
  else do
    let _ ← removeAt position
    OM.ret true

/-- ArrayList.hpp:435-443 `set`. -/
def set (index : Int) (e : α) : OM (List α) α := do
  let v ← OM.read
  if outside v index then OM.raise .indexOutOfBounds
  else do
    OM.write (v.set index.toNat e)
    let w ← OM.read
    OM.lift (Arr.get w index)

/-- ArrayList.hpp:486-492 `toArray`; also the order in which `forEach`
(250-256) and iteration visit the elements. -/
def toArray : OM (List α) (List α) := do
  let v ← OM.read
  OM.ret v

/-- ArrayList.hpp:610-613 `removeRange`. -/
def removeRange (fromIndex toIndex : Int) : OM (List α) Unit := do
  let v ← OM.read
  if 0 ≤ fromIndex ∧ fromIndex ≤ toIndex ∧ toIndex ≤ v.length then
    OM.write (v.take fromIndex.toNat ++ v.drop toIndex.toNat)
  else OM.undef

/-- ArrayList.hpp:126-128 `ArrayList(initialCapacity)`: `resize`, which throws
`std::length_error` for a negative argument; `dflt` is `E()`. -/
def ofCapacity (dflt : α) (n : Int) : Outcome (List α) :=
  if n < 0 then .throw .lengthError else .ok (List.replicate n.toNat dflt)

/-- ArrayList.hpp:95-99, 106-110: constructors from an initializer list or
array. -/
def ofListLoop : List α → OM (List α) Unit
  | [] => OM.ret ()
  | x :: r => do
    let _ ← add x
    ofListLoop r

/-- ArrayList.hpp:542-546: quotation marks around a string unless it starts with
`[` or `{`. -/
def quote (isString : Bool) (text : List Byte) : List Byte :=
  if isString ∧ (text.length = 0 ∨ (text[0]? ≠ some 91#8 ∧ text[0]? ≠ some 123#8)) then 34#8 :: text ++ [34#8] else text

/-- ArrayList.hpp:535-555: the loop of `toString`; `left` elements remain. -/
def toStringLoop (isString : Bool) (text : α → List Byte) : List α → List Byte → List Byte
  | [], backup => backup
  | [x], backup => backup ++ quote isString (text x)
  | x :: r, backup => toStringLoop isString text r (backup ++ (quote isString (text x) ++ [44#8, 32#8]))

/-- ArrayList.hpp:520-559 `toString`; `text` is the element's `toString`. -/
def toString (isString : Bool) (text : α → List Byte) : OM (List α) (List Byte) := do
  let v ← OM.read
  if v.length = 0 then OM.ret [91#8, 93#8]
  else OM.ret (toStringLoop isString text v [91#8] ++ [93#8])

/-! ## Histories -/

/-- Calls on an `ArrayList`. -/
inductive Op (α : Type)
  | add (e : α)
  | addAt (i : Int) (e : α)
  | set (i : Int) (e : α)
  | removeAt (i : Int)
  | removeElem (e : α)
  | clear
  | removeRange (i j : Int)
  | get (i : Int)
  | size
  | isEmpty
  | contains (e : α)
  | indexOf (e : α)
  | lastIndexOf (e : α)
  | toArray

/-- What a call returns. -/
inductive Ans (α : Type)
  | unit
  | bool (b : Bool)
  | int (i : Int)
  | elem (e : α)
  | elems (l : List α)
  deriving DecidableEq, Repr

/-- Dispatch. -/
def step [DecidableEq α] : Op α → OM (List α) (Ans α)
  | .add e => do let b ← add e; OM.ret (.bool b)
  | .addAt i e => do let _ ← addAt i e; OM.ret .unit
  | .set i e => do let x ← set i e; OM.ret (.elem x)
  | .removeAt i => do let x ← removeAt i; OM.ret (.elem x)
  | .removeElem e => do let b ← removeElem e; OM.ret (.bool b)
  | .clear => do let _ ← clear; OM.ret .unit
  | .removeRange i j => do let _ ← removeRange i j; OM.ret .unit
  | .get i => do let x ← get i; OM.ret (.elem x)
  | .size => do let n ← size; OM.ret (.int n)
  | .isEmpty => do let b ← isEmpty; OM.ret (.bool b)
  | .contains e => do let b ← contains e; OM.ret (.bool b)
  | .indexOf e => do let n ← indexOf e; OM.ret (.int n)
  | .lastIndexOf e => do let n ← lastIndexOf e; OM.ret (.int n)
  | .toArray => do let l ← toArray; OM.ret (.elems l)

end Verif.ArrayList
