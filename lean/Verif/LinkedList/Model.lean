import Verif.Obj
/-!
# `java.util.LinkedList`

`/repo/library/Java/Util/LinkedList/LinkedList.hpp`.  A list holds pointers to
nodes on the heap, which it allocates and deletes itself.  The state is the heap
(which nodes are alive, and their elements) and the list's pointers.

Simplifications: allocation succeeds and never reuses an address.  `offer`
(`push_back()` without argument) and `set` do not compile when instantiated and
are not modelled.
-/
namespace Verif.LinkedList

variable {α : Type}

/-- The heap and one list (LinkedList.hpp:65 `std::list<Node<E>*> original`). -/
structure LL (α : Type) where
  heap : Nat → Option α
  fresh : Nat
  nodes : List Nat

/-- `new Node<E>(element)` (45-54). -/
def alloc (e : α) : OM (LL α) Nat := do
  let s ← OM.read
  OM.write { s with heap := fun a => if a = s.fresh then some e else s.heap a, fresh := s.fresh + 1 }
  OM.ret s.fresh

/-- `delete node`; deleting a node that is not alive is undefined. -/
def free (a : Nat) : OM (LL α) Unit := do
  let s ← OM.read
  match s.heap a with
  | none => OM.undef
  | some _ => OM.write { s with heap := fun b => if b = a then none else s.heap b }

/-- `node->element`. -/
def elementOf (a : Nat) : OM (LL α) α := do
  let s ← OM.read
  match s.heap a with
  | none => OM.undef
  | some e => OM.ret e

/-- LinkedList.hpp:110-113 `add`, 129-131 `addLast`, 232-235 `offerLast`. -/
def addLast (e : α) : OM (LL α) Unit := do
  let a ← alloc e
  let s ← OM.read
  OM.write { s with nodes := s.nodes ++ [a] }

/-- LinkedList.hpp:120-122 `addFirst`, 221-224 `offerFirst`, 312-314 `push`. -/
def addFirst (e : α) : OM (LL α) Unit := do
  let a ← alloc e
  let s ← OM.read
  OM.write { s with nodes := a :: s.nodes }

/-- LinkedList.hpp:137-140, 149-155: `delete` every node of a list of pointers. -/
def freeAll : List Nat → OM (LL α) Unit
  | [] => OM.ret ()
  | a :: r => do
    free a
    freeAll r

/-- LinkedList.hpp:136-142 `clear`; also the destructor (83-85). -/
def clear : OM (LL α) Unit := do
  let s ← OM.read
  freeAll s.nodes
  let s ← OM.read
  OM.write { s with nodes := [] }

/-- `this->original.size() - 1`, an unsigned 64-bit number. -/
def sizeMinusOne (n : Nat) : Nat := if n = 0 then 2 ^ 64 - 1 else n - 1

/-- LinkedList.hpp:177-183 `get`. -/
def get (index : Int) : OM (LL α) α := do
  let s ← OM.read
  if index < 0 ∨ index > sizeMinusOne s.nodes.length then OM.raise .indexOutOfBounds
  else match s.nodes[index.toNat]? with
    | none => OM.undef
    | some a => elementOf a

/-- LinkedList.hpp:190-192 `getFirst`; also `peek`, `peekFirst`. `front()` of an
empty list is undefined. -/
def getFirst : OM (LL α) α := do
  let s ← OM.read
  match s.nodes with
  | [] => OM.undef
  | a :: _ => elementOf a

/-- LinkedList.hpp:199-202 `getLast`; also `peekLast`. -/
def getLast : OM (LL α) α := do
  let s ← OM.read
  match s.nodes.getLast? with
  | none => OM.undef
  | some a => elementOf a

/-- LinkedList.hpp:167-169 `element`: flows off the end of a function that
returns a value. -/
def element : OM (LL α) α := OM.undef

/-- LinkedList.hpp:277-283 `pollFirst`; also `poll`, `pop`, `remove()`. -/
def pollFirst : OM (LL α) α := do
  let s ← OM.read
  match s.nodes with
  | [] => OM.undef
  | a :: r => do
    OM.write { s with nodes := r }
    let e ← elementOf a
    free a
    OM.ret e

/-- LinkedList.hpp:290-296 `pollLast`, 363-369 `removeLast`. -/
def pollLast : OM (LL α) α := do
  let s ← OM.read
  match s.nodes.getLast? with
  | none => OM.undef
  | some a => do
    OM.write { s with nodes := s.nodes.dropLast }
    let e ← elementOf a
    free a
    OM.ret e

/-- LinkedList.hpp:333-341, the loop of `remove(index)` at position `pos` over
the nodes left. -/
def removeLoop (index : Int) : List Nat → Nat → OM (LL α) Unit
  | [], _ => OM.ret ()
  | a :: r, pos =>
    if (pos : Int) = index then do
      let s ← OM.read
      OM.write { s with nodes := s.nodes.eraseIdx pos }
      free a
    else removeLoop index r (pos + 1)

/-- LinkedList.hpp:331-343 `remove(index)`. -/
def removeAt (index : Int) : OM (LL α) Bool := do
  let s ← OM.read
  removeLoop index s.nodes 0
  OM.ret true

/-- LinkedList.hpp:352-359, the loop of `remove(node)`; a node's `id` is its
address. -/
def removeNodeLoop (id : Nat) : List Nat → Nat → OM (LL α) Unit
  | [], _ => OM.ret ()
  | a :: r, pos =>
    if a = id then do
      let s ← OM.read
      OM.write { s with nodes := s.nodes.eraseIdx pos }
      free a
    else removeNodeLoop id r (pos + 1)

/-- LinkedList.hpp:351-361 `remove(node)`. -/
def removeNode (id : Nat) : OM (LL α) Bool := do
  let s ← OM.read
  removeNodeLoop id s.nodes 0
  OM.ret true

/-- LinkedList.hpp:389-391 `size`. -/
def size : OM (LL α) Int := do
  let s ← OM.read
  OM.ret (s.nodes.length : Int)

/-- `{ LinkedList b = a; }`: the implicitly defined copy constructor copies the
pointers, and at the end of the block `b`'s destructor deletes the nodes. -/
def copyAndDrop : OM (LL α) Unit := do
  let s ← OM.read
  freeAll s.nodes

/-- Calls on a `LinkedList`. -/
inductive Op (α : Type)
  | addFirst (e : α)
  | addLast (e : α)
  | get (i : Int)
  | getFirst
  | getLast
  | pollFirst
  | pollLast
  | removeAt (i : Int)
  | clear
  | size

/-- What a call returns. -/
inductive Ans (α : Type)
  | unit
  | bool (b : Bool)
  | int (i : Int)
  | elem (e : α)
  deriving DecidableEq, Repr

/-- Dispatch. -/
def step : Op α → OM (LL α) (Ans α)
  | .addFirst e => do let _ ← addFirst e; OM.ret .unit
  | .addLast e => do let _ ← addLast e; OM.ret .unit
  | .get i => do let x ← get i; OM.ret (.elem x)
  | .getFirst => do let x ← getFirst; OM.ret (.elem x)
  | .getLast => do let x ← getLast; OM.ret (.elem x)
  | .pollFirst => do let x ← pollFirst; OM.ret (.elem x)
  | .pollLast => do let x ← pollLast; OM.ret (.elem x)
  | .removeAt i => do let b ← removeAt i; OM.ret (.bool b)
  | .clear => do let _ ← clear; OM.ret .unit
  | .size => do let n ← size; OM.ret (.int n)

end Verif.LinkedList
