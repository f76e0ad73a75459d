import Verif.Weak.Memory
/-!
# The queue of one producer on the memory of C++

`enqueue` and `dequeue` of the producers in
`/repo/library/Java/Util/Concurrent/ConcurrentLinkedQueue/concurrentqueue.hpp` (implicit: lines 2431-2569,
explicit: 1794-1995) with the memory orders of the code: one thread adds elements, any number of threads,
also that one, take them. `ConcurrentLinkedQueue.add` and `poll` come down to these two for every adding
thread.

Simplifications. Every index has a slot of its own: the table of blocks, and the reuse of blocks, are in
`LinkedQueue` and `TokenQueue` (with sequentially consistent memory), not here. Indexes do not wrap around.
Taking an element, `element = std::move(el); el.~T()` (2541-2542), is one access to the slot that reads and
writes it. The rest of the program reads and writes other locations with `load` and `store`, so that it may
synchronise threads in ways of its own.
-/
namespace Verif.Weak

/-- What is in memory: `tailIndex`, `headIndex`, `dequeueOptimisticCount`, `dequeueOvercommit`
(1691-1695), the places of the elements (1607), and all that is not part of it, with names of any kind. -/
inductive Loc
  | tail
  | head
  | count
  | over
  | slot (i : Nat)
  | user (x : List Nat)
  deriving DecidableEq

/-- Where a thread is. In `enqueue`, the element `v` and, for the specification only, what the thread knew
when it called. -/
inductive Pos
  | out
  /-- at line 2434 -/
  | addLoad (v : Nat) (w : View Loc)
  /-- at 2488 -/
  | addWrite (v : Nat) (w : View Loc) (t : Nat)
  /-- at 2490 -/
  | addStore (v : Nat) (w : View Loc) (t : Nat)
  /-- in `dequeue`, at 2499 -/
  | pTail
  /-- at 2500 -/
  | pOver (t : Nat)
  /-- at 2501 -/
  | pCount (t o : Nat)
  /-- at 2502 -/
  | pFence (o : Nat)
  /-- at 2504 -/
  | pTicket (o : Nat)
  /-- at 2505 -/
  | pAgain (o m : Nat)
  /-- at 2507, with the ticket -/
  | pHead (m : Nat)
  /-- at 2541 -/
  | pSlot (i : Nat)
  /-- at 2560, with the ticket -/
  | pFail (m : Nat)

/-- A thread. -/
structure Th where
  tv : TView Loc
  pos : Pos

/-- What was taken: by whom, its index and value, and what the taker knows then. -/
structure Took where
  thread : Nat
  index : Nat
  val : Nat
  view : View Loc

/-- Memory, threads and which of them adds. For the specification: whether no race and no store out of order happened, what
was added, in order, with what the adding thread knew at the call, what was taken, newest first, and how
many polls came back without an element. -/
structure Sys where
  mem : Mem Loc
  threads : List Th
  adder : Nat
  ok : Bool
  added : List (Nat × View Loc)
  taken : List Took
  empty : Nat

/-- A new queue and `k` threads, of which number `a` adds (1641-1652). -/
def init (k a : Nat) : Sys := ⟨fun _ => [], List.replicate k ⟨⟨bot, bot⟩, .out⟩, a, true, [], [], 0⟩

/-- One step of thread `i`, at `th`; `n` is the write that a `load` reads. -/
def step (s : Sys) (i : Nat) (th : Th) (n : Nat) : Option Sys :=
  match th.pos with
  | .out => none
  | .addLoad v w =>
    -- 2434: tailIndex.load(relaxed)
    match load false s.mem th.tv .tail n with
    | some (t, tv) => some { s with threads := s.threads.set i ⟨tv, .addWrite v w t⟩ }
    | none => none
  | .addWrite v w t =>
    -- 2488: new ((*tailBlock)[currentTailIndex]) T(...)
    let r := write s.mem th.tv (.slot t) v
    some { s with mem := r.1, threads := s.threads.set i ⟨r.2.1, .addStore v w t⟩, ok := s.ok && r.2.2 }
  | .addStore v w t =>
    -- 2490: tailIndex.store(newTailIndex, release)
    let r := store true s.mem th.tv .tail (t + 1)
    some { s with mem := r.1, threads := s.threads.set i ⟨r.2.1, .out⟩, ok := s.ok && r.2.2, added := s.added ++ [(v, w)] }
  | .pTail =>
    -- 2499: tailIndex.load(relaxed)
    match load false s.mem th.tv .tail n with
    | some (t, tv) => some { s with threads := s.threads.set i ⟨tv, .pOver t⟩ }
    | none => none
  | .pOver t =>
    -- 2500: dequeueOvercommit.load(relaxed)
    match load false s.mem th.tv .over n with
    | some (o, tv) => some { s with threads := s.threads.set i ⟨tv, .pCount t o⟩ }
    | none => none
  | .pCount t o =>
    -- 2501: dequeueOptimisticCount.load(relaxed) - overcommit < tail
    match load false s.mem th.tv .count n with
    | some (c, tv) =>
      if (c : Int) - o < t then some { s with threads := s.threads.set i ⟨tv, .pFence o⟩ }
      else some { s with threads := s.threads.set i ⟨tv, .out⟩, empty := s.empty + 1 }
    | none => none
  | .pFence o =>
    -- 2502: atomic_thread_fence(acquire)
    some { s with threads := s.threads.set i ⟨fence th.tv, .pTicket o⟩ }
  | .pTicket o =>
    -- 2504: dequeueOptimisticCount.fetch_add(1, relaxed)
    let r := fetchAdd false false s.mem th.tv .count
    some { s with mem := r.2.1, threads := s.threads.set i ⟨r.2.2, .pAgain o r.1⟩ }
  | .pAgain o m =>
    -- 2505-2506: tailIndex.load(acquire), myDequeueCount - overcommit < tail
    match load true s.mem th.tv .tail n with
    | some (t, tv) =>
      if (m : Int) - o < t then some { s with threads := s.threads.set i ⟨tv, .pHead m⟩ }
      else some { s with threads := s.threads.set i ⟨tv, .pFail m⟩ }
    | none => none
  | .pHead _ =>
    -- 2507: headIndex.fetch_add(1, acq_rel)
    let r := fetchAdd true true s.mem th.tv .head
    some { s with mem := r.2.1, threads := s.threads.set i ⟨r.2.2, .pSlot r.1⟩ }
  | .pSlot x =>
    -- 2541-2542: element = std::move(el); el.~T()
    let r := write s.mem th.tv (.slot x) 0
    some { s with mem := r.1, threads := s.threads.set i ⟨r.2.1, .out⟩, ok := s.ok && r.2.2, taken := ⟨i, x, (newest (s.mem (.slot x))).val, th.tv.cur⟩ :: s.taken }
  | .pFail _ =>
    -- 2560: dequeueOvercommit.fetch_add(1, release)
    let r := fetchAdd false true s.mem th.tv .over
    some { s with mem := r.2.1, threads := s.threads.set i ⟨r.2.2, .out⟩, empty := s.empty + 1 }

/-- What may happen: the adding thread calls `enqueue`; a thread calls `dequeue`; a thread takes a step; a thread
looks at the tail or the head, as `size_approx` (1678-1683) does; a thread does something else, also while it is inside a
call: reads, writes or replaces the value of another location, with or without acquire and release, changes one that
is not atomic, or executes a fence. -/
inductive Move
  | add (v : Nat)
  | poll (i : Nat)
  | go (i n : Nat)
  | look (i n : Nat) (tail : Bool)
  | read (i : Nat) (x : List Nat) (n : Nat) (acq : Bool)
  | write (i : Nat) (x : List Nat) (v : Nat) (rel : Bool)
  | update (i : Nat) (x : List Nat) (v : Nat) (acq rel : Bool)
  | change (i : Nat) (x : List Nat) (v : Nat)
  | fence (i : Nat)

/-- What thread `i` knows, if it is not inside a call. -/
def outside (s : Sys) (i : Nat) : Option (TView Loc) :=
  match s.threads[i]? with
  | some (Th.mk tv .out) => some tv
  | _ => none

/-- One move; `none`: it cannot be made. -/
def move (s : Sys) : Move → Option Sys
  | .add v =>
    match outside s s.adder with
    | some tv => some { s with threads := s.threads.set s.adder ⟨tv, .addLoad v tv.cur⟩ }
    | none => none
  | .poll i =>
    match outside s i with
    | some tv => some { s with threads := s.threads.set i ⟨tv, .pTail⟩ }
    | none => none
  | .go i n =>
    match s.threads[i]? with
    | some th => step s i th n
    | none => none
  | .look i n tail =>
    match outside s i with
    | some tv =>
      match load false s.mem tv (if tail then .tail else .head) n with
      | some (_, tv') => some { s with threads := s.threads.set i ⟨tv', .out⟩ }
      | none => none
    | none => none
  | .read i x n acq =>
    match s.threads[i]? with
    | some th =>
      match load acq s.mem th.tv (.user x) n with
      | some (_, tv') => some { s with threads := s.threads.set i ⟨tv', th.pos⟩ }
      | none => none
    | none => none
  | .write i x v rel =>
    match s.threads[i]? with
    | some th =>
      let r := store rel s.mem th.tv (.user x) v
      some { s with mem := r.1, threads := s.threads.set i ⟨r.2.1, th.pos⟩ }
    | none => none
  | .update i x v acq rel =>
    match s.threads[i]? with
    | some th =>
      let r := rmw acq rel (fun _ => v) s.mem th.tv (.user x)
      some { s with mem := r.2.1, threads := s.threads.set i ⟨r.2.2, th.pos⟩ }
    | none => none
  | .change i x v =>
    match s.threads[i]? with
    | some th =>
      let r := Weak.write s.mem th.tv (.user x) v
      some { s with mem := r.1, threads := s.threads.set i ⟨r.2.1, th.pos⟩ }
    | none => none
  | .fence i =>
    match s.threads[i]? with
    | some th => some { s with threads := s.threads.set i ⟨Weak.fence th.tv, th.pos⟩ }
    | none => none

/-- A schedule. -/
def run (s : Sys) : List Move → Option Sys
  | [] => some s
  | m :: ms => (move s m).bind fun s' => run s' ms

end Verif.Weak
