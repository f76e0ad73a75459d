import Verif.Weak.Memory
/-!
# The queue on the memory of C++, with blocks that are used again

`ImplicitProducer::enqueue` and `dequeue` of
`/repo/library/Java/Util/Concurrent/ConcurrentLinkedQueue/concurrentqueue.hpp` (lines 2431-2569) with the memory
orders of the code, and all that brings a block from its last element back to the adding thread:
`Block::set_empty` and `reset_empty` (1535-1600), `FreeList` (1388-1490), `requisition_block` and the pools
(2985-3042). `ConcurrentLinkedQueue.add` and `poll` come down to these for every adding thread.

Simplifications. One adding thread, number 0. The table of blocks has an entry for every block that was begun
(its own reuse and growth, 2838-2940, are not here). Indexes and reference counts do not wrap around.
Taking an element, `element = std::move(el); el.~T()` (2541-2542), is one access to its place that reads and
writes it. Moving and constructing do not throw. A `store` goes to the end of the modification order, a
failed `compare_exchange_strong` reads any write that may be read and differs from what was expected.
-/
namespace Verif.WeakReuse
open Verif.Weak (View TView Mem Msg join bot upto msgAt newest push load store rmw fence write)

/-- `BLOCK_SIZE` (309). -/
def B : Nat := 32

/-- The blocks of the initial pool: `capacity / BLOCK_SIZE` for the default `capacity` of `6 * BLOCK_SIZE`
(753-762, 2985-3000). -/
def poolSize : Nat := 6

/-- `SHOULD_BE_ON_FREELIST` (1484); `REFS_MASK` (1483) is one less. -/
def flag : Nat := 2147483648

/-- What is in memory. Producer: `tailIndex`, `headIndex`, `dequeueOptimisticCount`, `dequeueOvercommit`
(1686-1691) and the `value` of the entry of every block begun (2822-2826). Block: `elementsCompletelyDequeued`,
`freeListRefs`, `freeListNext` and the places (1607-1616). Queue: `initialBlockPoolIndex`, `freeListHead`.
A pointer to block `b` is the number `b + 1`, `nullptr` is 0. -/
inductive Loc
  | tail
  | head
  | count
  | over
  | entry (j : Nat)
  | done (b : Nat)
  | refs (b : Nat)
  | next (b : Nat)
  | slot (b i : Nat)
  | pool
  | free
  deriving DecidableEq

/-- `compare_exchange_strong`: with `n` the newest write and the value expected, an `rmw`; else, if write `n` has
another value, a relaxed `load`, which gives that value. -/
def cas (acq rel : Bool) (old new : Nat) (mem : Mem Loc) (tv : TView Loc) (l : Loc) (n : Nat) : Option (Option Nat × Mem Loc × TView Loc) :=
  if n = (mem l).length ∧ (newest (mem l)).val = old then
    let r := rmw acq rel (fun _ => new) mem tv l
    some (none, r.2.1, r.2.2)
  else
    match load false mem tv l n with
    | some (v, tv') => if v = old then none else some (some v, mem, tv')
    | none => none

/-- What to do after `add_knowing_refcount_is_zero`: return from `dequeue`, or go on with `try_get` of `enqueue`. -/
inductive Next
  | done
  | loop (v t h : Nat)

/-- Where a thread is: in `enqueue` with the element `v` and, after the first step, the tail `t`; in `dequeue`; in
`add_knowing_refcount_is_zero`. Blocks are given as pointers. -/
inductive Pos
  | out
  | aTail (v : Nat)
  | aPool (v t : Nat)
  | aPoolAdd (v t : Nat)
  | aFree (v t : Nat)
  | aRefs (v t h : Nat)
  | aRefsCas (v t h r : Nat)
  | aNext (v t h : Nat)
  | aFreeCas (v t h x : Nat)
  | aGot (v t h : Nat)
  | aLost (v t h h' : Nat)
  | aNew (v t : Nat)
  | aReset (v t b : Nat)
  | aEntry (v t b : Nat)
  | aWrite (v t : Nat)
  | aStore (v t : Nat)
  | pTail
  | pOver (t : Nat)
  | pCount (t o : Nat)
  | pFence (o : Nat)
  | pTicket (o : Nat)
  | pAgain (o m : Nat)
  | pHead
  | pEntry (i : Nat)
  | pSlot (i b : Nat)
  | pDone (i b : Nat)
  | pNull (i b : Nat)
  | pFree (b : Nat)
  | pFail
  | kHead (b : Nat) (k : Next)
  | kNext (b h : Nat) (k : Next)
  | kRefs (b h : Nat) (k : Next)
  | kCas (b h : Nat) (k : Next)
  | kBack (b h : Nat) (k : Next)

/-- A thread. -/
structure Th where
  tv : TView Loc
  pos : Pos

/-- Memory, threads, `tailBlock` of the adding thread (1693) and the number of blocks that were made. For the
specification: what was added, what was taken (by whom, the index and the value, newest first), and the accesses to
places of elements that raced: thread and place, newest first. -/
structure Sys where
  mem : Mem Loc
  threads : List Th
  tailBlock : Nat
  made : Nat
  added : List Nat
  taken : List (Nat × Nat × Nat)
  races : List (Nat × Nat × Nat)

/-- A new queue and `k` threads (753-775, 1641-1652, 2985-3000). -/
def init (k : Nat) : Sys := ⟨fun _ => [], List.replicate k ⟨⟨bot, bot⟩, .out⟩, 0, poolSize, [], [], []⟩

/-- The thread is at `p` and knows `tv`. -/
def put (s : Sys) (i : Nat) (tv : TView Loc) (p : Pos) : Sys := { s with threads := s.threads.set i ⟨tv, p⟩ }

/-- A `load` and what to do with the value. -/
def loads (s : Sys) (i : Nat) (acq : Bool) (tv : TView Loc) (l : Loc) (n : Nat) (k : Nat → Pos) : Option Sys :=
  match load acq s.mem tv l n with
  | some (v, tv') => some (put s i tv' (k v))
  | none => none

/-- A `store` and where the thread is then. -/
def stores (s : Sys) (i : Nat) (rel : Bool) (tv : TView Loc) (l : Loc) (v : Nat) (p : Pos) : Sys :=
  let r := store rel s.mem tv l v
  put { s with mem := r.1 } i r.2.1 p

/-- An `rmw` and what to do with the value that was there. -/
def changes (s : Sys) (i : Nat) (acq rel : Bool) (tv : TView Loc) (l : Loc) (f : Nat → Nat) (k : Nat → Pos) : Sys :=
  let r := rmw acq rel f s.mem tv l
  put { s with mem := r.2.1 } i r.2.2 (k r.1)

/-- A `compare_exchange_strong`: where to go if it succeeds, and what to do with the other value. -/
def tries (s : Sys) (i : Nat) (acq rel : Bool) (tv : TView Loc) (l : Loc) (old new n : Nat) (p : Pos) (k : Nat → Pos) : Option Sys :=
  match cas acq rel old new s.mem tv l n with
  | some (none, mem, tv') => some (put { s with mem := mem } i tv' p)
  | some (some v, mem, tv') => some (put { s with mem := mem } i tv' (k v))
  | none => none

/-- An access to the place of an element: changes it, and notes a race if the thread does not know the last access. -/
def touches (s : Sys) (i : Nat) (tv : TView Loc) (b j v : Nat) (p : Pos) : Sys :=
  let r := write s.mem tv (.slot b j) v
  put { s with mem := r.1, races := if r.2.2 then s.races else (i, b, j) :: s.races } i r.2.1 p

/-- The loop of `try_get` (1417): `h` is the head of the free list. -/
def loopAt (v t h : Nat) : Pos := if h = 0 then .aNew v t else .aRefs v t h

/-- Where a thread goes on after `add_knowing_refcount_is_zero`. -/
def Next.pos : Next → Pos
  | .done => .out
  | .loop v t h => loopAt v t h

/-- One step of thread `i`, at `th`; `n` is the write that a `load` or `compare_exchange_strong` reads. -/
def step (s : Sys) (i : Nat) (th : Th) (n : Nat) : Option Sys :=
  match th.pos with
  | .out => none
  -- 2434-2436: tailIndex.load(relaxed), the end of a block
  | .aTail v => loads s i false th.tv .tail n fun t => if t % B = 0 then .aPool v t else .aWrite v t
  -- 2991: initialBlockPoolIndex.load(relaxed)
  | .aPool v t => loads s i false th.tv .pool n fun x => if poolSize ≤ x then .aFree v t else .aPoolAdd v t
  -- 2995-2997: initialBlockPoolIndex.fetch_add(1, relaxed)
  | .aPoolAdd v t => some (changes s i false false th.tv .pool (· + 1) fun x => if x < poolSize then .aReset v t (x + 1) else .aFree v t)
  -- 1416: freeListHead.load(acquire)
  | .aFree v t => loads s i true th.tv .free n (loopAt v t)
  -- 1419-1420: freeListRefs.load(relaxed)
  | .aRefs v t h => loads s i false th.tv (.refs (h - 1)) n fun r => if r % flag = 0 then .aFree v t else .aRefsCas v t h r
  -- 1420: freeListRefs.compare_exchange_strong(refs, refs + 1, acquire, relaxed)
  | .aRefsCas v t h r => tries s i true false th.tv (.refs (h - 1)) r (r + 1) n (.aNext v t h) fun _ => .aFree v t
  -- 1427: freeListNext.load(relaxed)
  | .aNext v t h => loads s i false th.tv (.next (h - 1)) n fun x => .aFreeCas v t h x
  -- 1428: freeListHead.compare_exchange_strong(head, next, acquire, relaxed)
  | .aFreeCas v t h x => tries s i true false th.tv .free h x n (.aGot v t h) fun h' => .aLost v t h h'
  -- 1434: freeListRefs.fetch_sub(2, release)
  | .aGot v t h => some (changes s i false true th.tv (.refs (h - 1)) (· - 2) fun _ => .aReset v t h)
  -- 1441-1444: freeListRefs.fetch_sub(1, acq_rel)
  | .aLost v t h h' =>
    some (changes s i true true th.tv (.refs (h - 1)) (· - 1) fun r => if r = flag + 1 then .kHead h (.loop v t h') else loopAt v t h')
  -- 3038: create<Block>()
  | .aNew v t => some (put { s with made := s.made + 1 } i th.tv (.aReset v t (s.made + 1)))
  -- 2462: reset_empty: elementsCompletelyDequeued.store(0, relaxed) (1598)
  | .aReset v t b => some (stores s i false th.tv (.done (b - 1)) 0 (.aEntry v t b))
  -- 2478-2480: idxEntry->value.store(newBlock, relaxed), tailBlock = newBlock
  | .aEntry v t b => some (stores { s with tailBlock := b - 1 } i false th.tv (.entry (t / B)) b (.aWrite v t))
  -- 2488: new ((*tailBlock)[currentTailIndex]) T(...)
  | .aWrite v t => some (touches s i th.tv s.tailBlock (t % B) v (.aStore v t))
  -- 2490: tailIndex.store(newTailIndex, release)
  | .aStore v t => some { stores s i true th.tv .tail (t + 1) .out with added := s.added ++ [v] }
  -- 2499: tailIndex.load(relaxed)
  | .pTail => loads s i false th.tv .tail n .pOver
  -- 2500: dequeueOvercommit.load(relaxed)
  | .pOver t => loads s i false th.tv .over n (.pCount t)
  -- 2501: dequeueOptimisticCount.load(relaxed) - overcommit < tail
  | .pCount t o => loads s i false th.tv .count n fun c => if (c : Int) - o < t then .pFence o else .out
  -- 2502: atomic_thread_fence(acquire)
  | .pFence o => some (put s i (fence th.tv) (.pTicket o))
  -- 2504: dequeueOptimisticCount.fetch_add(1, relaxed)
  | .pTicket o => some (changes s i false false th.tv .count (· + 1) (.pAgain o))
  -- 2505-2506: tailIndex.load(acquire), myDequeueCount - overcommit < tail
  | .pAgain o m => loads s i true th.tv .tail n fun t => if (m : Int) - o < t then .pHead else .pFail
  -- 2507: headIndex.fetch_add(1, acq_rel)
  | .pHead => some (changes s i true true th.tv .head (· + 1) .pEntry)
  -- 2510-2513: entry->value.load(relaxed)
  | .pEntry x => loads s i false th.tv (.entry (x / B)) n (.pSlot x)
  -- 2541-2542: element = std::move(el); el.~T()
  | .pSlot x b =>
    some { touches s i th.tv (b - 1) (x % B) 0 (.pDone x b) with taken := (i, x, (newest (s.mem (.slot (b - 1) (x % B)))).val) :: s.taken }
  -- 2544: set_empty: elementsCompletelyDequeued.fetch_add(1, release) == BLOCK_SIZE - 1 (1546-1548)
  | .pDone x b => some (changes s i false true th.tv (.done (b - 1)) (· + 1) fun c => if c = B - 1 then .pNull x b else .out)
  -- 2550: entry->value.store(nullptr, relaxed)
  | .pNull x b => some (stores s i false th.tv (.entry (x / B)) 0 (.pFree b))
  -- 2552, 1405: add: freeListRefs.fetch_add(SHOULD_BE_ON_FREELIST, acq_rel) == 0
  | .pFree b => some (changes s i true true th.tv (.refs (b - 1)) (· + flag) fun r => if r = 0 then .kHead b .done else .out)
  -- 2560: dequeueOvercommit.fetch_add(1, release)
  | .pFail => some (changes s i false true th.tv .over (· + 1) fun _ => .out)
  -- 1465: freeListHead.load(relaxed)
  | .kHead b k => loads s i false th.tv .free n fun h => .kNext b h k
  -- 1467: freeListNext.store(head, relaxed)
  | .kNext b h k => some (stores s i false th.tv (.next (b - 1)) h (.kRefs b h k))
  -- 1468: freeListRefs.store(1, release)
  | .kRefs b h k => some (stores s i true th.tv (.refs (b - 1)) 1 (.kCas b h k))
  -- 1469: freeListHead.compare_exchange_strong(head, node, release, relaxed)
  | .kCas b h k => tries s i false true th.tv .free h b n k.pos fun h' => .kBack b h' k
  -- 1471: freeListRefs.fetch_add(SHOULD_BE_ON_FREELIST - 1, release) == 1
  | .kBack b h k => some (changes s i false true th.tv (.refs (b - 1)) (· + (flag - 1)) fun r => if r = 1 then .kNext b h k else k.pos)

/-- What may happen: the adding thread, number 0, calls `enqueue`; a thread calls `dequeue`; a thread takes a step. -/
inductive Move
  | add (v : Nat)
  | poll (i : Nat)
  | go (i n : Nat)

/-- What thread `i` knows, if it is not inside a call. -/
def outside (s : Sys) (i : Nat) : Option (TView Loc) :=
  match s.threads[i]? with
  | some (Th.mk tv .out) => some tv
  | _ => none

/-- One move; `none`: it cannot be made. -/
def move (s : Sys) : Move → Option Sys
  | .add v => (outside s 0).map fun tv => put s 0 tv (.aTail v)
  | .poll i => (outside s i).map fun tv => put s i tv .pTail
  | .go i n => s.threads[i]?.bind fun th => step s i th n

/-- A schedule. -/
def run (s : Sys) : List Move → Option Sys
  | [] => some s
  | m :: ms => (move s m).bind fun s' => run s' ms

end Verif.WeakReuse
