import Verif.Obj
/-!
# `java.util.HashMap`

`/repo/library/Java/Util/HashMap/HashMap.hpp`: a wrapper around
`std::unordered_map`.  The container is modelled as the list of its bindings in
iteration order.  The C++ standard leaves the order open: `Lib.ins` is the
order after an insertion, any rearrangement of the old bindings and the new one.

Simplifications: `==` on keys is equality and `std::hash` respects it; fewer than
2^63 bindings; allocation succeeds.
-/
namespace Verif.HashMap

variable {K V : Type}

/-- What the C++ library and the value type leave open: the iteration order after
an insertion, and the value of `V value;`, which is `none` when it is
indeterminate (a primitive type). -/
structure Lib (K V : Type) where
  ins : List (K × V) → K × V → List (K × V)
  ins_perm : ∀ l e, (ins l e).Perm (e :: l)
  dflt : Option V

/-- `original.find(key)`. -/
def find [DecidableEq K] (l : List (K × V)) (k : K) : Option V :=
  (l.find? fun e => decide (e.1 = k)).map (·.2)

/-- `original.erase(key)`. -/
def erase [DecidableEq K] (l : List (K × V)) (k : K) : List (K × V) := l.filter fun e => decide (e.1 ≠ k)

/-- `original[key] = value` for a present key. -/
def assign [DecidableEq K] (l : List (K × V)) (k : K) (v : V) : List (K × V) :=
  l.map fun e => if e.1 = k then (e.1, v) else e

/-- Returning `V value;`. -/
def defaultValue (L : Lib K V) : OM (List (K × V)) V :=
  match L.dflt with
  | some d => OM.ret d
  | none => OM.undef

/-- HashMap.hpp:402-404 `put`: `unordered_map::insert` does nothing when the key
is present. -/
def put [DecidableEq K] (L : Lib K V) (k : K) (v : V) : OM (List (K × V)) Unit := do
  let l ← OM.read
  match find l k with
  | some _ => OM.ret ()
  | none => OM.write (L.ins l (k, v))

/-- HashMap.hpp:411-415 `putAll`, over the bindings of the other map. -/
def putAll [DecidableEq K] (L : Lib K V) : List (K × V) → OM (List (K × V)) Unit
  | [] => OM.ret ()
  | e :: r => do
    put L e.1 e.2
    putAll L r

/-- HashMap.hpp:349-358 `get`. -/
def get [DecidableEq K] (L : Lib K V) (k : K) : OM (List (K × V)) V := do
  let l ← OM.read
  match find l k with
  | some v => OM.ret v
  | none => defaultValue L

/-- HashMap.hpp:372-383 `getOrDefault`. -/
def getOrDefault [DecidableEq K] (k : K) (d : V) : OM (List (K × V)) V := do
  let l ← OM.read
  match find l k with
  | some v => OM.ret v
  | none => OM.ret d

/-- HashMap.hpp:288-290 `containsKey`. -/
def containsKey [DecidableEq K] (k : K) : OM (List (K × V)) Bool := do
  let l ← OM.read
  OM.ret (find l k).isSome

/-- HashMap.hpp:300-307 `containsValue`. -/
def containsValue [DecidableEq V] (v : V) : OM (List (K × V)) Bool := do
  let l ← OM.read
  OM.ret (l.any fun e => decide (e.2 = v))

/-- HashMap.hpp:391-393 `isEmpty`. -/
def isEmpty : OM (List (K × V)) Bool := do
  let l ← OM.read
  OM.ret (decide (l.length = 0))

/-- HashMap.hpp:552-554 `size`. -/
def size : OM (List (K × V)) Int := do
  let l ← OM.read
  OM.ret (l.length : Int)

/-- HashMap.hpp:148-150 `clear`; also `reinitialize` (139-142). -/
def clear : OM (List (K × V)) Unit := OM.write []

/-- HashMap.hpp:431-443 `putIfAbsent`. -/
def putIfAbsent [DecidableEq K] (L : Lib K V) (k : K) (v : V) : OM (List (K × V)) V := do
  let l ← OM.read
  match find l k with
  | none => do
    OM.write (L.ins l (k, v))
    defaultValue L
  | some w => OM.ret w

/-- HashMap.hpp:455-467 `remove(key)`. -/
def remove [DecidableEq K] (L : Lib K V) (k : K) : OM (List (K × V)) V := do
  let l ← OM.read
  match find l k with
  | none => defaultValue L
  | some w => do
    OM.write (erase l k)
    OM.ret w

/-- HashMap.hpp:479-490 `remove(key, value)`. -/
def removePair [DecidableEq K] [DecidableEq V] (k : K) (v : V) : OM (List (K × V)) Bool := do
  let l ← OM.read
  match find l k with
  | none => OM.ret false
  | some w =>
    if w ≠ v then OM.ret false
    else do
      OM.write (erase l k)
      OM.ret true

/-- HashMap.hpp:505-517 `replace(key, value)`. -/
def replace [DecidableEq K] (L : Lib K V) (k : K) (v : V) : OM (List (K × V)) V := do
  let l ← OM.read
  match find l k with
  | none => defaultValue L
  | some w => do
    OM.write (assign l k v)
    OM.ret w

/-- HashMap.hpp:531-545 `replace(key, oldValue, newValue)`. -/
def replacePair [DecidableEq K] [DecidableEq V] (k : K) (old new : V) : OM (List (K × V)) Bool := do
  let l ← OM.read
  match find l k with
  | none => OM.ret false
  | some w =>
    if w ≠ old then OM.ret false
    else do
      OM.write (assign l k new)
      OM.ret true

/-- HashMap.hpp:125-130, the loop of `equals` over this map's bindings. -/
def equalsLoop [DecidableEq K] [DecidableEq V] (L : Lib K V) (other : List (K × V)) : List (K × V) → Outcome Bool
  | [] => .ok true
  | e :: r =>
    match get L e.1 other with
    | .ret _ w => if e.2 ≠ w then .ok false else equalsLoop L other r
    | .exc _ x => .throw x
    | .ub => .ub
    | .diverge => .diverge

/-- HashMap.hpp:120-133 `equals`. -/
def equals [DecidableEq K] [DecidableEq V] (L : Lib K V) (l other : List (K × V)) : Outcome Bool :=
  if l.length ≠ other.length then .ok false else equalsLoop L other l

/-- HashMap.hpp:64-66, copy constructor, and 164-170 `clone`. -/
def copy [DecidableEq K] (L : Lib K V) (l : List (K × V)) : Res (List (K × V)) Unit := putAll L l []

/-- HashMap.hpp:71-75, the constructor from a list of pairs. -/
def ofPairs [DecidableEq K] (L : Lib K V) (l : List (K × V)) : Res (List (K × V)) Unit := putAll L l []

/-- HashMap.hpp:593-607: the text of one binding. -/
def entryText (keyIsString valueIsString : Bool) (k v : List Byte) : List Byte :=
  (if keyIsString then [34#8] ++ k ++ [34#8] else k) ++ [58#8, 32#8] ++
    (if valueIsString ∧ (v.length = 0 ∨ (v[0]? ≠ some 91#8 ∧ v[0]? ≠ some 123#8)) then [34#8] ++ v ++ [34#8] else v)

/-- HashMap.hpp:588-615, the loop of `toString`; `n` bindings of `size` seen. -/
def toStringLoop (keyIsString valueIsString : Bool) (kt : K → List Byte) (vt : V → List Byte) (size : Nat) :
    List (K × V) → Nat → List Byte → List Byte
  | [], _, backup => backup
  | e :: r, n, backup => toStringLoop keyIsString valueIsString kt vt size r (n + 1)
      (backup ++ (entryText keyIsString valueIsString (kt e.1) (vt e.2) ++ if n + 1 ≠ size then [44#8, 32#8] else []))

/-- HashMap.hpp:561-619 `toString`. -/
def toString (keyIsString valueIsString : Bool) (kt : K → List Byte) (vt : V → List Byte) : OM (List (K × V)) (List Byte) := do
  let l ← OM.read
  if l.length = 0 then OM.ret [123#8, 125#8]
  else OM.ret (toStringLoop keyIsString valueIsString kt vt l.length l 0 [123#8] ++ [125#8])

/-- Calls on a `HashMap`. -/
inductive Op (K V : Type)
  | put (k : K) (v : V)
  | putAll (other : List (K × V))
  | putIfAbsent (k : K) (v : V)
  | get (k : K)
  | getOrDefault (k : K) (d : V)
  | containsKey (k : K)
  | containsValue (v : V)
  | remove (k : K)
  | removePair (k : K) (v : V)
  | replace (k : K) (v : V)
  | replacePair (k : K) (old new : V)
  | isEmpty
  | size
  | clear

/-- What a call returns. -/
inductive Ans (V : Type)
  | unit
  | bool (b : Bool)
  | int (i : Int)
  | val (v : V)
  deriving DecidableEq, Repr

/-- Dispatch. -/
def step [DecidableEq K] [DecidableEq V] (L : Lib K V) : Op K V → OM (List (K × V)) (Ans V)
  | .put k v => do let _ ← put L k v; OM.ret .unit
  | .putAll o => do let _ ← putAll L o; OM.ret .unit
  | .putIfAbsent k v => do let x ← putIfAbsent L k v; OM.ret (.val x)
  | .get k => do let x ← get L k; OM.ret (.val x)
  | .getOrDefault k d => do let x ← getOrDefault k d; OM.ret (.val x)
  | .containsKey k => do let b ← containsKey k; OM.ret (.bool b)
  | .containsValue v => do let b ← containsValue v; OM.ret (.bool b)
  | .remove k => do let x ← remove L k; OM.ret (.val x)
  | .removePair k v => do let b ← removePair k v; OM.ret (.bool b)
  | .replace k v => do let x ← replace L k v; OM.ret (.val x)
  | .replacePair k o n => do let b ← replacePair k o n; OM.ret (.bool b)
  | .isEmpty => do let b ← isEmpty; OM.ret (.bool b)
  | .size => do let n ← size; OM.ret (.int n)
  | .clear => do let _ ← clear; OM.ret .unit

end Verif.HashMap
