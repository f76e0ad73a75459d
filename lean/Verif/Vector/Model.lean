import Verif.Obj
/-!
# `java.util.Vector`

`/repo/library/Java/Util/Vector/Vector.hpp`.  The state is the contents and the
capacity of `std::vector<E> original` and the field `capacityIncrement`.  `==`
and `!=` of the element type are equality.

Simplifications: memory allocation succeeds; `reserve(n)` makes the capacity
exactly `n` and `push_back` doubles it (libstdc++); exception messages are not
kept; `std::invalid_argument` of the constructor and `IllegalArgumentException`
stay distinct.
-/
namespace Verif.Vector

variable {α : Type}

/-- Vector.hpp:49-50. -/
structure Vec (α : Type) where
  elems : List α
  cap : Nat
  inc : Int
  deriving DecidableEq, Repr

/-- What an iterator at the position of an erased element means: undefined by
ISO C++, the following element in libstdc++. -/
inductive Iters
  | iso
  | libstd
  deriving DecidableEq, Repr

/-- `(int) n` for a `size_t n`. -/
def toInt (n : Nat) : Int := (BitVec.ofNat 32 n).toInt

/-- `original.reserve(n)`, `n` not negative. -/
def reserve (n : Int) : OM (Vec α) Unit := do
  let v ← OM.read
  OM.write { v with cap := if v.cap < n.toNat then n.toNat else v.cap }

/-- `original.push_back(e)`. -/
def pushBack (e : α) : OM (Vec α) Unit := do
  let v ← OM.read
  OM.write { v with elems := v.elems ++ [e], cap := if v.elems.length < v.cap then v.cap else if v.cap = 0 then 1 else 2 * v.cap }

/-- Vector.hpp:296-300: the new capacity before the comparison with
`minCapacity`. -/
def grown (oldCapacity inc : Int) : Outcome Int :=
  if inc > 0 then chk32 (oldCapacity + inc) else chk32 (oldCapacity * 2)

/-- Vector.hpp:289-307 `ensureCapacity`. -/
def ensureCapacity (minCapacity : Int) : OM (Vec α) Unit := do
  let v ← OM.read
  if minCapacity > 0 ∧ minCapacity > toInt v.cap then do
    let newCapacity ← OM.lift (grown (toInt v.cap) v.inc)
    reserve (if newCapacity < minCapacity then minCapacity else newCapacity)
  else OM.ret ()

/-- `oldSize != original.size()`: the `int` is converted to 64 unsigned bits. -/
def sizeDiffers (oldSize : Int) (n : Nat) : Bool := decide (oldSize % 2 ^ 64 ≠ (n : Int))

/-- Vector.hpp:128-133 `add(element)`; also `addElement` (184-186). -/
def add (e : α) : OM (Vec α) Bool := do
  let v ← OM.read
  let n ← OM.lift (chk32 (toInt v.elems.length + 1))
  ensureCapacity n
  pushBack e
  let w ← OM.read
  OM.ret (sizeDiffers (toInt v.elems.length) w.elems.length)

/-- `v.add(v[k])`: the argument is a reference to an element of the vector
itself. It dangles when `ensureCapacity` has moved the elements. -/
def addOwn (k : Nat) : OM (Vec α) Bool := do
  let v ← OM.read
  match v.elems[k]? with
  | none => OM.undef
  | some e => do
    let n ← OM.lift (chk32 (toInt v.elems.length + 1))
    ensureCapacity n
    let u ← OM.read
    if u.cap = v.cap then do
      pushBack e
      OM.ret true
    else OM.undef

/-- `original.insert(original.begin() + i, e)` with room for one more. -/
def insert (i : Nat) (e : α) : OM (Vec α) Unit := do
  let v ← OM.read
  if i ≤ v.elems.length then OM.write { v with elems := v.elems.take i ++ e :: v.elems.drop i } else OM.undef

/-- Vector.hpp:141-148 `add(index, element)`; also `insertElementAt` (400-402). -/
def addAt (index : Int) (e : α) : OM (Vec α) Unit := do
  let v ← OM.read
  if index < 0 ∨ index > toInt v.elems.length then OM.raise .illegalArgument
  else do
    let n ← OM.lift (chk32 (toInt v.elems.length + 1))
    ensureCapacity n
    insert index.toNat e

/-- Vector.hpp:169-175, the loop. -/
def addAllLoop : List α → Int → OM (Vec α) Unit
  | [], _ => OM.ret ()
  | x :: r, index => do
    addAt index x
    let i ← OM.lift (chk32 (index + 1))
    addAllLoop r i

/-- Vector.hpp:167-177 `addAll(index, list)`. -/
def addAllAt (index : Int) (l : List α) : OM (Vec α) Bool := do
  addAllLoop l index
  OM.ret (decide (l.length ≠ 0))

/-- Vector.hpp:156-158 `addAll(list)`. -/
def addAll (l : List α) : OM (Vec α) Bool := addAllAt 0 l

/-- Vector.hpp:200-202 `clear`; also `removeAllElements` (550-552). -/
def clear : OM (Vec α) Unit := do
  let v ← OM.read
  OM.write { v with elems := [] }

/-- `index < 0 || index >= original.size()`. -/
def outside (v : Vec α) (index : Int) : Bool := decide (index < 0 ∨ index ≥ v.elems.length)

/-- Vector.hpp:349-354 `get`; also `elementAt` (272-274) and reading through
`operator[]` (865-871). -/
def get (index : Int) : OM (Vec α) α := do
  let v ← OM.read
  if outside v index then OM.raise .illegalArgument else OM.lift (Arr.get v.elems index)

/-- Vector.hpp:362-371 `indexOf`, 381-394 `indexOf(element, index)`: the loop
from `i` on, over the elements left. -/
def indexOfLoop [DecidableEq α] (e : α) : List α → Nat → Int
  | [], _ => -1
  | x :: r, i => if e = x then i else indexOfLoop e r (i + 1)

/-- Vector.hpp:362-371 `indexOf(element)`. -/
def indexOf [DecidableEq α] (e : α) : OM (Vec α) Int := do
  let v ← OM.read
  OM.ret (indexOfLoop e v.elems 0)

/-- Vector.hpp:381-394 `indexOf(element, index)`. -/
def indexOfFrom [DecidableEq α] (e : α) (index : Int) : OM (Vec α) Int := do
  let v ← OM.read
  if index < 0 ∨ index ≥ toInt v.elems.length then OM.raise .illegalArgument
  else OM.ret (indexOfLoop e (v.elems.drop index.toNat) index.toNat)

/-- Vector.hpp:461-466: the loop of `lastIndexOf`, at position `n - 1`. -/
def lastIndexOfLoop [DecidableEq α] (e : α) (l : List α) : Nat → Int
  | 0 => -1
  | n + 1 => if l[n]? = some e then n else lastIndexOfLoop e l n

/-- Vector.hpp:456-469 `lastIndexOf(element, index)`. -/
def lastIndexOfFrom [DecidableEq α] (e : α) (index : Int) : OM (Vec α) Int := do
  let v ← OM.read
  if index < 0 ∨ index ≥ v.elems.length then OM.raise .illegalArgument
  else OM.ret (lastIndexOfLoop e v.elems (index.toNat + 1))

/-- Vector.hpp:443-446 `lastIndexOf(element)`. -/
def lastIndexOf [DecidableEq α] (e : α) : OM (Vec α) Int := do
  let v ← OM.read
  lastIndexOfFrom e (toInt v.elems.length - 1)

/-- Vector.hpp:225-227 `contains`. -/
def contains [DecidableEq α] (e : α) : OM (Vec α) Bool := do
  let i ← indexOf e
  OM.ret (decide (i ≠ -1))

/-- Vector.hpp:235-249 `containsAll`. -/
def containsAll [DecidableEq α] : List α → OM (Vec α) Bool
  | [] => OM.ret true
  | x :: r => do
    let v ← OM.read
    if v.elems.contains x then containsAll r else OM.ret false

/-- Vector.hpp:336-341 `firstElement`. -/
def firstElement : OM (Vec α) α := do
  let v ← OM.read
  match v.elems with
  | [] => OM.raise .exception
  | x :: _ => OM.ret x

/-- Vector.hpp:425-430 `lastElement`. -/
def lastElement : OM (Vec α) α := do
  let v ← OM.read
  match v.elems.getLast? with
  | none => OM.raise .exception
  | some x => OM.ret x

/-- `original.erase(original.begin() + i)`. -/
def erase (i : Nat) : OM (Vec α) Unit := do
  let v ← OM.read
  if i < v.elems.length then OM.write { v with elems := v.elems.eraseIdx i } else OM.undef

/-- Vector.hpp:497-504 `remove(index)`; also `removeElementAt` (569-571). -/
def removeAt (index : Int) : OM (Vec α) α := do
  let v ← OM.read
  if outside v index then OM.raise .illegalArgument
  else do
    let x ← OM.lift (Arr.get v.elems index)
    erase index.toNat
    OM.ret x

/-- Vector.hpp:515-520, the loop of `remove(element)`; `n` elements are left. -/
def removeElemLoop [DecidableEq α] (e : α) : Nat → Nat → OM (Vec α) Bool
  | 0, _ => OM.ret false
  | n + 1, index => do
    let v ← OM.read
    if v.elems[index]? = some e then do
      let _ ← removeAt index
      OM.ret true
    else removeElemLoop e n (index + 1)

/-- Vector.hpp:512-522 `remove(const Object &)`, `removeElement` (560-562).
`none` is an object that is not an `E`: `dynamic_cast` gives a null pointer,
which the loop dereferences. -/
def removeObj [DecidableEq α] (e : Option α) : OM (Vec α) Bool := do
  let v ← OM.read
  match e with
  | some e => removeElemLoop e v.elems.length 0
  | none => if v.elems = [] then OM.ret false else OM.undef

/-- Vector.hpp:534-543, 649-658: the loop of `removeAll` and `retainAll` at
position `k`; `n` elements are left. After `erase(vectorIterator)` the iterator
is used again. -/
def removeLoop (it : Iters) (p : α → Bool) : Nat → Nat → OM (Vec α) Unit
  | 0, _ => OM.ret ()
  | n + 1, k => do
    let v ← OM.read
    match v.elems[k]? with
    | none => OM.undef
    | some x =>
      if p x then do
        erase k
        if it = .iso then OM.undef else removeLoop it p n k
      else removeLoop it p n (k + 1)

/-- Vector.hpp:530-545 `removeAll`. -/
def removeAll [DecidableEq α] (it : Iters) (l : List α) : OM (Vec α) Bool := do
  let v ← OM.read
  removeLoop it (fun x => l.contains x) v.elems.length 0
  let w ← OM.read
  OM.ret (sizeDiffers (toInt v.elems.length) w.elems.length)

/-- Vector.hpp:645-660 `retainAll`. -/
def retainAll [DecidableEq α] (it : Iters) (l : List α) : OM (Vec α) Bool := do
  let v ← OM.read
  removeLoop it (fun x => !l.contains x) v.elems.length 0
  let w ← OM.read
  OM.ret (sizeDiffers (toInt v.elems.length) w.elems.length)

/-- Vector.hpp:613-616, the loop of `removeRange`. -/
def removeRangeLoop (fromIndex : Int) : Nat → OM (Vec α) Unit
  | 0 => OM.ret ()
  | n + 1 => do
    let _ ← removeAt fromIndex
    removeRangeLoop fromIndex n

/-- Vector.hpp:590-617 `removeRange`. -/
def removeRange (fromIndex toIndex : Int) : OM (Vec α) Unit := do
  let v ← OM.read
  if fromIndex < 0 ∨ fromIndex ≥ toInt v.elems.length ∨ toIndex < 0 ∨ toIndex ≥ toInt v.elems.length then
    OM.raise .illegalArgument
  else if fromIndex > toIndex then OM.raise .illegalArgument
  else if fromIndex = toIndex then do
    let _ ← removeAt fromIndex
    OM.ret ()
  else removeRangeLoop fromIndex (toIndex - fromIndex).toNat

/-- Vector.hpp:669-676 `set`; also `setElementAt` (684-686). -/
def set (index : Int) (e : α) : OM (Vec α) α := do
  let v ← OM.read
  if outside v index then OM.raise .illegalArgument
  else do
    let x ← get index
    OM.write { v with elems := v.elems.set index.toNat e }
    OM.ret x

/-- Vector.hpp:693-701 `setSize`; `dflt` is `E()`. -/
def setSize (dflt : α) (newSize : Int) : OM (Vec α) Unit := do
  if newSize < 0 then OM.raise .illegalArgument
  else do
    let v ← OM.read
    if newSize > v.elems.length then ensureCapacity newSize else OM.ret ()
    let w ← OM.read
    OM.write { w with elems := w.elems.take newSize.toNat ++ List.replicate (newSize.toNat - w.elems.length) dflt
                      cap := if w.cap < newSize.toNat then newSize.toNat else w.cap }

/-- Vector.hpp:708-710 `size`. -/
def size : OM (Vec α) Int := do
  let v ← OM.read
  OM.ret (toInt v.elems.length)

/-- Vector.hpp:409-411 `isEmpty`. -/
def isEmpty : OM (Vec α) Bool := do
  let v ← OM.read
  OM.ret v.elems.isEmpty

/-- Vector.hpp:746-754 `toArray`. -/
def toArray : OM (Vec α) (List α) := do
  let v ← OM.read
  OM.ret v.elems

/-- Vector.hpp:784-786 `trimToSize`. -/
def trimToSize : OM (Vec α) Unit := do
  let v ← OM.read
  OM.write { v with cap := v.elems.length }

/-- Vector.hpp:320-327: the loop of `equals`. -/
def equalsLoop [DecidableEq α] : List α → List α → Bool
  | x :: r, y :: q => if x ≠ y then false else equalsLoop r q
  | _, _ => true

/-- Vector.hpp:313-329 `equals`. -/
def equals [DecidableEq α] (target : Vec α) : OM (Vec α) Bool := do
  let v ← OM.read
  if toInt v.elems.length ≠ toInt target.elems.length then OM.ret false
  else OM.ret (equalsLoop v.elems target.elems)

/-! ## Construction and copying -/

/-- Vector.hpp:77-83 `Vector(initialCapacity, capacityIncrement)`. -/
def new (initialCapacity capacityIncrement : Int) : Outcome (Vec α) :=
  if initialCapacity < 0 then .throw .invalidArgument else .ok ⟨[], initialCapacity.toNat, capacityIncrement⟩

/-- The loop `for (…) original.push_back(item)`. -/
def pushAll : List α → OM (Vec α) Unit
  | [] => OM.ret ()
  | x :: r => do
    pushBack x
    pushAll r

/-- Vector.hpp:107-113: the copy constructor. `garbage` is the indeterminate
value of the field `capacityIncrement`, which it does not set. -/
def copy (garbage : Int) (target : Vec α) : Res (Vec α) Unit := pushAll target.elems ⟨[], 0, garbage⟩

/-- Vector.hpp:92-99: constructor from an initializer list; the same field is
not set. -/
def ofList (garbage : Int) (l : List α) : Res (Vec α) Unit := pushAll l ⟨[], l.length, garbage⟩

/-- Vector.hpp:209-217 `clone`. -/
def cloneLoop : List α → OM (Vec α) Unit
  | [] => OM.ret ()
  | x :: r => do
    let _ ← add x
    cloneLoop r

/-- Vector.hpp:209-217 `clone`. -/
def clone (v : Vec α) : Res (Vec α) Unit := cloneLoop v.elems ⟨[], 10, 0⟩

/-- Vector.hpp:889-898 `operator=(const Vector &)`; `none` is assignment of the
vector to itself: the elements are read after `clear`. -/
def assign (target : Option (Vec α)) : OM (Vec α) Unit := do
  clear
  match target with
  | some t => do
    ensureCapacity (toInt t.elems.length)
    pushAll t.elems
  | none => do
    let v ← OM.read
    ensureCapacity (toInt v.elems.length)
    pushAll v.elems

/-! ## Histories -/

/-- Calls on a `Vector`. -/
inductive Op (α : Type)
  | add (e : α)
  | addAt (i : Int) (e : α)
  | addAll (l : List α)
  | addAllAt (i : Int) (l : List α)
  | clear
  | get (i : Int)
  | indexOf (e : α)
  | indexOfFrom (e : α) (i : Int)
  | lastIndexOf (e : α)
  | lastIndexOfFrom (e : α) (i : Int)
  | contains (e : α)
  | containsAll (l : List α)
  | firstElement
  | lastElement
  | removeAt (i : Int)
  | removeObj (e : Option α)
  | removeAll (l : List α)
  | retainAll (l : List α)
  | removeRange (i j : Int)
  | set (i : Int) (e : α)
  | setSize (n : Int)
  | size
  | isEmpty
  | toArray
  | trimToSize

/-- What a call returns. -/
inductive Ans (α : Type)
  | unit
  | bool (b : Bool)
  | int (i : Int)
  | elem (e : α)
  | elems (l : List α)
  deriving DecidableEq, Repr

/-- Dispatch. -/
def step [DecidableEq α] (it : Iters) (dflt : α) : Op α → OM (Vec α) (Ans α)
  | .add e => do let b ← add e; OM.ret (.bool b)
  | .addAt i e => do let _ ← addAt i e; OM.ret .unit
  | .addAll l => do let b ← addAll l; OM.ret (.bool b)
  | .addAllAt i l => do let b ← addAllAt i l; OM.ret (.bool b)
  | .clear => do let _ ← clear; OM.ret .unit
  | .get i => do let x ← get i; OM.ret (.elem x)
  | .indexOf e => do let n ← indexOf e; OM.ret (.int n)
  | .indexOfFrom e i => do let n ← indexOfFrom e i; OM.ret (.int n)
  | .lastIndexOf e => do let n ← lastIndexOf e; OM.ret (.int n)
  | .lastIndexOfFrom e i => do let n ← lastIndexOfFrom e i; OM.ret (.int n)
  | .contains e => do let b ← contains e; OM.ret (.bool b)
  | .containsAll l => do let b ← containsAll l; OM.ret (.bool b)
  | .firstElement => do let x ← firstElement; OM.ret (.elem x)
  | .lastElement => do let x ← lastElement; OM.ret (.elem x)
  | .removeAt i => do let x ← removeAt i; OM.ret (.elem x)
  | .removeObj e => do let b ← removeObj e; OM.ret (.bool b)
  | .removeAll l => do let b ← removeAll it l; OM.ret (.bool b)
  | .retainAll l => do let b ← retainAll it l; OM.ret (.bool b)
  | .removeRange i j => do let _ ← removeRange i j; OM.ret .unit
  | .set i e => do let x ← set i e; OM.ret (.elem x)
  | .setSize n => do let _ ← setSize dflt n; OM.ret .unit
  | .size => do let n ← size; OM.ret (.int n)
  | .isEmpty => do let b ← isEmpty; OM.ret (.bool b)
  | .toArray => do let l ← toArray; OM.ret (.elems l)
  | .trimToSize => do let _ ← trimToSize; OM.ret .unit

end Verif.Vector
