import Verif.Obj
/-!
# `java.util.PriorityQueue`

`/repo/library/Java/Util/PriorityQueue/PriorityQueue.hpp`: a `std::vector` kept
as a heap with `std::make_heap` and `std::pop_heap`.  The two library functions
are modelled as libstdc++ implements them (bits/stl_heap.h), with reads and
writes outside the vector undefined.  `lt` is `operator<` of the element type.
-/
namespace Verif.PriorityQueue

variable {α : Type}

/-- `*(first + i)`. -/
def rd (l : List α) (i : Nat) : Outcome α :=
  match l[i]? with
  | some x => .ok x
  | none => .ub

/-- `*(first + i) = v`. -/
def wr (l : List α) (i : Nat) (v : α) : Outcome (List α) :=
  if i < l.length then .ok (l.set i v) else .ub

/-- bits/stl_heap.h `__push_heap`: move the hole at `h` up to `top` at most, as
long as its parent is less than `v`, then put `v` there. -/
def pushHeap (lt : α → α → Bool) (v : α) (top : Nat) : Nat → List α → Nat → Outcome (List α)
  | 0, _, _ => .diverge
  | f + 1, l, h =>
    if h > top then
      (rd l ((h - 1) / 2)).bind fun p =>
        if lt p v then (wr l h p).bind fun l' => pushHeap lt v top f l' ((h - 1) / 2)
        else wr l h v
    else wr l h v

/-- bits/stl_heap.h, first loop of `__adjust_heap`: fill the hole with the
greater child while it has two. -/
def sinkHole (lt : α → α → Bool) (len : Nat) : Nat → List α → Nat → Outcome (List α × Nat)
  | 0, _, _ => .diverge
  | f + 1, l, h =>
    if h < (len - 1) / 2 then
      (rd l (2 * h + 2)).bind fun a => (rd l (2 * h + 1)).bind fun b =>
        let c := if lt a b then 2 * h + 1 else 2 * h + 2
        (rd l c).bind fun x => (wr l h x).bind fun l' => sinkHole lt len f l' c
    else .ok (l, h)

/-- bits/stl_heap.h, `__adjust_heap` after the first loop: an only child. -/
def lastChild (lt : α → α → Bool) (top len : Nat) (v : α) (l : List α) (h : Nat) : Outcome (List α) :=
  if len % 2 = 0 ∧ h = (len - 2) / 2 then
    (rd l (2 * h + 1)).bind fun x => (wr l h x).bind fun l' => pushHeap lt v top (2 * h + 2) l' (2 * h + 1)
  else pushHeap lt v top (h + 1) l h

/-- bits/stl_heap.h `__adjust_heap` (called with `len` ≥ 1). -/
def adjustHeap (lt : α → α → Bool) (top len : Nat) (v : α) (l : List α) : Outcome (List α) :=
  (sinkHole lt len (len + 1) l top).bind fun r => lastChild lt top len v r.1 r.2

/-- bits/stl_heap.h, loop of `__make_heap`, from parent `p` down to 0. -/
def makeFrom (lt : α → α → Bool) : Nat → List α → Outcome (List α)
  | 0, l => (rd l 0).bind fun v => adjustHeap lt 0 l.length v l
  | p + 1, l => (rd l (p + 1)).bind fun v => (adjustHeap lt (p + 1) l.length v l).bind fun l' => makeFrom lt p l'

/-- `std::make_heap`. -/
def makeHeap (lt : α → α → Bool) (l : List α) : Outcome (List α) :=
  if l.length < 2 then .ok l else makeFrom lt ((l.length - 2) / 2) l

/-- `std::pop_heap`. -/
def popHeap (lt : α → α → Bool) (l : List α) : Outcome (List α) :=
  if l.length > 1 then
    (rd l (l.length - 1)).bind fun v => (rd l 0).bind fun x => (wr l (l.length - 1) x).bind fun l' =>
      adjustHeap lt 0 (l.length - 1) v l'
  else .ok l

/-- `vector::pop_back`; undefined when empty. -/
def popBack (l : List α) : Outcome (List α) := if l = [] then .ub else .ok l.dropLast

/-- `(int) newSize != (int) oldSize` (PriorityQueue.hpp:186, 189-190). -/
def sizeDiffers (n m : Nat) : Bool := decide (BitVec.ofNat 32 n ≠ BitVec.ofNat 32 m)

/-- PriorityQueue.hpp:79-84, the constructor with a capacity; `reserve` does not
change the contents. -/
def ofCapacity (c : Int) : Outcome (List α) := if c < 1 then .throw .interrupted else .ok []

/-- PriorityQueue.hpp:101-107, the copy constructor. -/
def copy (target : List α) : List α := target

/-- PriorityQueue.hpp:123-129, the constructor from a list. -/
def ofList (lt : α → α → Bool) (l : List α) : Outcome (List α) := makeHeap lt l

/-- PriorityQueue.hpp:185-191 `offer`; also `add` (142-144). -/
def offer (lt : α → α → Bool) (e : α) : OM (List α) Bool := do
  let q ← OM.read
  let q' ← OM.lift (makeHeap lt (q ++ [e]))
  OM.write q'
  OM.ret (sizeDiffers q'.length q.length)

/-- PriorityQueue.hpp:149-151 `clear`. -/
def clear : OM (List α) Unit := OM.write []

/-- PriorityQueue.hpp:166-170 `contains`. -/
def contains [DecidableEq α] (e : α) : OM (List α) Bool := do
  let q ← OM.read
  OM.ret (q.any fun x => decide (x = e))

/-- PriorityQueue.hpp:198-204 `peek`. `dflt` is the value of `E defaultOfE;`:
`none` for a primitive type, whose default value is indeterminate and may not be
read. -/
def peek (dflt : Option α) : OM (List α) α := do
  let q ← OM.read
  match q with
  | [] => match dflt with
    | some d => OM.ret d
    | none => OM.undef
  | x :: _ => OM.ret x

/-- PriorityQueue.hpp:211-216 `poll`. -/
def poll (lt : α → α → Bool) (dflt : Option α) : OM (List α) α := do
  let result ← peek dflt
  let q ← OM.read
  let q' ← OM.lift (popHeap lt q)
  OM.write q'
  let q'' ← OM.lift (popBack q')
  OM.write q''
  OM.ret result

/-- PriorityQueue.hpp:224-232 `remove`. -/
def remove [DecidableEq α] (e : α) : OM (List α) Bool := do
  let q ← OM.read
  match q.findIdx? (fun x => decide (x = e)) with
  | some i => do
    OM.write (q.eraseIdx i)
    OM.ret true
  | none => OM.ret false

/-- PriorityQueue.hpp:239-241 `size`. -/
def size : OM (List α) Int := do
  let q ← OM.read
  OM.ret (BitVec.ofNat 32 q.length).toInt

/-- PriorityQueue.hpp:255-262 `toArray`. -/
def toArray : OM (List α) (List α) := OM.read

/-- Calls on a `PriorityQueue`. -/
inductive Op (α : Type)
  | offer (e : α)
  | poll
  | peek
  | contains (e : α)
  | size
  | toArray
  | clear

/-- What a call returns. -/
inductive Ans (α : Type)
  | unit
  | bool (b : Bool)
  | int (i : Int)
  | elem (e : α)
  | elems (l : List α)
  deriving DecidableEq, Repr

/-- Dispatch. -/
def step [DecidableEq α] (lt : α → α → Bool) (dflt : Option α) : Op α → OM (List α) (Ans α)
  | .offer e => do let b ← offer lt e; OM.ret (.bool b)
  | .poll => do let x ← poll lt dflt; OM.ret (.elem x)
  | .peek => do let x ← peek dflt; OM.ret (.elem x)
  | .contains e => do let b ← contains e; OM.ret (.bool b)
  | .size => do let n ← size; OM.ret (.int n)
  | .toArray => do let l ← toArray; OM.ret (.elems l)
  | .clear => do let _ ← clear; OM.ret .unit

end Verif.PriorityQueue
