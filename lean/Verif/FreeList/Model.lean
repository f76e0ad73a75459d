import Verif.Common
/-!
# The free list of the lock-free queue

`FreeList` of `/repo/library/Java/Util/Concurrent/ConcurrentLinkedQueue/concurrentqueue.hpp`
(1377-1490), which keeps the blocks of elements that are not in use. Any number of threads; each
step is one access to shared memory.

Simplifications: sequentially consistent memory; blocks are numbers and are never freed (the
comment at 1386-1388 asks for that); a block is only given back by whoever owns it.
-/
namespace Verif.FreeList

/-- `freeListRefs` and `freeListNext` (1382-1383). -/
structure Node where
  refs : Nat
  next : Option Nat
  deriving DecidableEq, Repr

/-- `freeListHead` (1482) and the blocks. -/
structure Shared where
  head : Option Nat
  nodes : Nat → Node

/-- `SHOULD_BE_ON_FREELIST` (1485). -/
def flag : Nat := 0x80000000

/-- `refs & REFS_MASK` (1422, 1484). -/
def count (r : Nat) : Nat := r % 0x80000000

/-- `fetch_add` on 32 bits (1406, 1472). -/
def plus (r d : Nat) : Nat := (r + d) % 2 ^ 32

/-- `fetch_sub` on 32 bits (1436, 1443). -/
def minus (r d : Nat) : Nat := (r + (2 ^ 32 - d)) % 2 ^ 32

/-- Where `add_knowing_refcount_is_zero` returns to: the end of `add` (1409), or the loop of
`try_get` with the head it has seen (1445). -/
inductive Cont
  | done
  | loop (head : Option Nat)
  deriving DecidableEq, Repr

/-- Positions inside a call. -/
inductive Pos
  /-- before `fetch_add` in `add` (1406) -/
  | addRef (x : Nat)
  /-- in `add_knowing_refcount_is_zero`: before the load of the head (1466), the store of the next
  (1468), the store of the count (1469), the exchange of the head (1470), `fetch_add` (1472) -/
  | akHead (x : Nat) (k : Cont)
  | akNext (x : Nat) (h : Option Nat) (k : Cont)
  | akRefs (x : Nat) (h : Option Nat) (k : Cont)
  | akCas (x : Nat) (h : Option Nat) (k : Cont)
  | akBack (x : Nat) (h : Option Nat) (k : Cont)
  /-- in `try_get`: before the load of the head (1418, 1423), the load of the count (1421), the
  exchange of the count (1422), the load of the next (1429), the exchange of the head (1430), the
  `assert` (1433), `fetch_sub(2)` (1436), `fetch_sub(1)` (1443) with the head that was seen -/
  | getHead
  | getRefs (x : Nat)
  | getInc (x : Nat) (r : Nat)
  | getNext (x : Nat)
  | getCas (x : Nat) (next : Option Nat)
  | getCheck (x : Nat)
  | getTake (x : Nat)
  | getDrop (x : Nat) (h : Option Nat)
  deriving DecidableEq, Repr

/-- What comes next: a position, the end of `add`, the result of `try_get`, or a failed `assert`. -/
inductive Next
  | at (p : Pos)
  | added
  | got (x : Option Nat)
  | failed
  deriving DecidableEq, Repr

/-- `while (head != nullptr)` (1419, 1449). -/
def loopAt : Option Nat → Next
  | none => .got none
  | some x => .at (.getRefs x)

/-- The return of `add_knowing_refcount_is_zero` (1476). -/
def Cont.next : Cont → Next
  | .done => .added
  | .loop h => loopAt h

/-- A write to `freeListRefs` (1406, 1422, 1436, 1443, 1469, 1472). -/
def setRefs (sh : Shared) (x r : Nat) : Shared :=
  { sh with nodes := fun y => if y = x then { sh.nodes y with refs := r } else sh.nodes y }

/-- A write to `freeListNext` (1468). -/
def setNext (sh : Shared) (x : Nat) (h : Option Nat) : Shared :=
  { sh with nodes := fun y => if y = x then { sh.nodes y with next := h } else sh.nodes y }

/-- One step (1399-1478). -/
def step (sh : Shared) : Pos → Shared × Next
  | .addRef x =>
    (setRefs sh x (plus (sh.nodes x).refs flag),
      if (sh.nodes x).refs = 0 then .at (.akHead x .done) else .added)
  | .akHead x k => (sh, .at (.akNext x sh.head k))
  | .akNext x h k => (setNext sh x h, .at (.akRefs x h k))
  | .akRefs x h k => (setRefs sh x 1, .at (.akCas x h k))
  | .akCas x h k =>
    if sh.head = h then ({ sh with head := some x }, k.next) else (sh, .at (.akBack x sh.head k))
  | .akBack x h k =>
    (setRefs sh x (plus (sh.nodes x).refs (flag - 1)),
      if (sh.nodes x).refs = 1 then .at (.akNext x h k) else k.next)
  | .getHead => (sh, loopAt sh.head)
  | .getRefs x =>
    (sh, if count (sh.nodes x).refs = 0 then .at .getHead else .at (.getInc x (sh.nodes x).refs))
  | .getInc x r =>
    if (sh.nodes x).refs = r then (setRefs sh x (plus r 1), .at (.getNext x)) else (sh, .at .getHead)
  | .getNext x => (sh, .at (.getCas x (sh.nodes x).next))
  | .getCas x next =>
    if sh.head = some x then ({ sh with head := next }, .at (.getCheck x))
    else (sh, .at (.getDrop x sh.head))
  | .getCheck x => (sh, if flag ≤ (sh.nodes x).refs then .failed else .at (.getTake x))
  | .getTake x => (setRefs sh x (minus (sh.nodes x).refs 2), .got (some x))
  | .getDrop x h =>
    (setRefs sh x (minus (sh.nodes x).refs 1),
      if (sh.nodes x).refs = flag + 1 then .at (.akHead x (.loop h)) else loopAt h)

/-- The list, its threads, the number of blocks made so far, the blocks that are owned by users,
whether an `assert` failed, and the results of `try_get`, newest first, with the thread. -/
structure Sys where
  sh : Shared
  threads : List (Option Pos)
  created : Nat
  owned : List Nat
  failed : Bool
  log : List (Nat × Option Nat)

/-- An empty list (1392) and `k` threads; a new block has count 0 and no next (1502). -/
def init (k : Nat) : Sys := ⟨⟨none, fun _ => ⟨0, none⟩⟩, List.replicate k none, 0, [], false, []⟩

/-- What is done: a block is made (`create<Block>()`, 3039), an owner calls `add` (3007), a thread
calls `try_get` (3021), a thread in a call takes a step. -/
inductive Move
  | create
  | add (i : Nat) (x : Nat)
  | get (i : Nat)
  | go (i : Nat)
  deriving DecidableEq, Repr

/-- A thread moves on. -/
def put (s : Sys) (i : Nat) (sh : Shared) : Next → Sys
  | .at p => { s with sh := sh, threads := s.threads.set i (some p) }
  | .added => { s with sh := sh, threads := s.threads.set i none }
  | .got none => { s with sh := sh, threads := s.threads.set i none, log := (i, none) :: s.log }
  | .got (some x) =>
    { s with sh := sh, threads := s.threads.set i none, owned := x :: s.owned, log := (i, some x) :: s.log }
  | .failed => { s with sh := sh, threads := s.threads.set i none, failed := true }

/-- One move; `none`: it cannot be made. -/
def move (s : Sys) : Move → Option Sys
  | .create => some { s with created := s.created + 1, owned := s.created :: s.owned }
  | .add i x =>
    match s.threads[i]? with
    | some none =>
      if x ∈ s.owned then
        some { s with owned := s.owned.erase x, threads := s.threads.set i (some (.addRef x)) }
      else none
    | _ => none
  | .get i =>
    match s.threads[i]? with
    | some none => some { s with threads := s.threads.set i (some .getHead) }
    | _ => none
  | .go i =>
    match s.threads[i]? with
    | some (some p) => some (put s i (step s.sh p).1 (step s.sh p).2)
    | _ => none

/-- A schedule. -/
def run (s : Sys) : List Move → Option Sys
  | [] => some s
  | m :: ms => (move s m).bind fun s' => run s' ms

end Verif.FreeList
