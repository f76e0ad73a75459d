import Verif.Weak.Memory
/-!
# The queue of many producers on the memory of C++

`ConcurrentLinkedQueue.add` and `poll` (`ConcurrentLinkedQueue.hpp` 54-75) on the memory of `Weak`: every
thread adds to a producer of its own (`concurrentqueue.hpp` 1310-1315, `inner_enqueue`), and takes from any producer,
after a look at how many elements it and others have (1065-1095, `try_dequeue`). `enqueue` and `dequeue` of a
producer are as in `Weak` (`concurrentqueue.hpp` 2431-2569), with the memory orders of the code.

Simplifications: those of `Weak`; which producers a `poll` looks at, and in which order it tries them, is left open:
it tries any, any number of times, so that every order of the code is among the executions here. The list of
producers and the table from threads to producers are in `ProdHash`, not here.
-/
namespace Verif.WeakMany
open Verif.Weak (View TView Mem Msg join bot upto msgAt newest push load store fetchAdd fence write)

/-- The parts of a producer: `tailIndex`, `headIndex`, `dequeueOptimisticCount`, `dequeueOvercommit` (1686-1691)
and the places of the elements (1607). -/
inductive Part
  | tail
  | head
  | count
  | over
  | slot (i : Nat)
  deriving DecidableEq

/-- What is in memory: the parts of producer `p`, and all that is not part of the queue. -/
inductive Loc
  | of (p : Nat) (l : Part)
  | own (x : Nat)
  deriving DecidableEq

/-- Where a thread is inside a call. In `enqueue`, the element `v` and, for the specification only, what the thread
knew when it called. -/
inductive Act
  /-- at line 2434 -/
  | addLoad (v : Nat) (w : View Loc)
  /-- at 2488 -/
  | addWrite (v : Nat) (w : View Loc) (t : Nat)
  /-- at 2490 -/
  | addStore (v : Nat) (w : View Loc) (t : Nat)
  /-- in `dequeue`, at 2499 -/
  | pTail
  /-- at 2500 -/
  | pOver (t : Nat)
  /-- at 2501 -/
  | pCount (t o : Nat)
  /-- at 2502 -/
  | pFence (o : Nat)
  /-- at 2504 -/
  | pTicket (o : Nat)
  /-- at 2505 -/
  | pAgain (o m : Nat)
  /-- at 2507, with the ticket -/
  | pHead (m : Nat)
  /-- at 2541 -/
  | pSlot (i : Nat)
  /-- at 2560, with the ticket -/
  | pFail (m : Nat)

/-- Outside, or inside a call on producer `p`. -/
inductive Pos
  | out
  | at (p : Nat) (a : Act)

/-- A thread. -/
structure Th where
  tv : TView Loc
  pos : Pos

/-- What was taken: by whom, who had added it, its index among the elements of that thread, its value, and what
the taker knows then. -/
structure Took where
  thread : Nat
  adder : Nat
  index : Nat
  val : Nat
  view : View Loc

/-- Memory and threads. For the specification: whether no race happened at the places of each producer, what each
thread added, in order, with what it knew at the call, and what was taken, newest first. -/
structure Sys where
  mem : Mem Loc
  threads : List Th
  ok : Nat → Bool
  added : Nat → List (Nat × View Loc)
  taken : List Took

/-- A new queue and `k` threads (753-775, 1641-1652). -/
def init (k : Nat) : Sys := ⟨fun _ => [], List.replicate k ⟨⟨bot, bot⟩, .out⟩, fun _ => true, fun _ => [], []⟩

/-- The value of `f` at `p` replaced. -/
def setAt {α : Type} (f : Nat → α) (p : Nat) (x : α) : Nat → α := fun q => if q = p then x else f q

/-- One step of thread `i`, inside a call on producer `p`; `n` is the write that a `load` reads. -/
def act (s : Sys) (i : Nat) (tv : TView Loc) (p : Nat) (n : Nat) : Act → Option Sys
  | .addLoad v w =>
    -- 2434: tailIndex.load(relaxed)
    match load false s.mem tv (.of p .tail) n with
    | some (t, tv) => some { s with threads := s.threads.set i ⟨tv, .at p (.addWrite v w t)⟩ }
    | none => none
  | .addWrite v w t =>
    -- 2488: new ((*tailBlock)[currentTailIndex]) T(...)
    let r := write s.mem tv (.of p (.slot t)) v
    some { s with mem := r.1, threads := s.threads.set i ⟨r.2.1, .at p (.addStore v w t)⟩, ok := setAt s.ok p (s.ok p && r.2.2) }
  | .addStore v w t =>
    -- 2490: tailIndex.store(newTailIndex, release)
    let r := store true s.mem tv (.of p .tail) (t + 1)
    some { s with mem := r.1, threads := s.threads.set i ⟨r.2.1, .out⟩, ok := setAt s.ok p (s.ok p && r.2.2), added := setAt s.added p (s.added p ++ [(v, w)]) }
  | .pTail =>
    -- 2499: tailIndex.load(relaxed)
    match load false s.mem tv (.of p .tail) n with
    | some (t, tv) => some { s with threads := s.threads.set i ⟨tv, .at p (.pOver t)⟩ }
    | none => none
  | .pOver t =>
    -- 2500: dequeueOvercommit.load(relaxed)
    match load false s.mem tv (.of p .over) n with
    | some (o, tv) => some { s with threads := s.threads.set i ⟨tv, .at p (.pCount t o)⟩ }
    | none => none
  | .pCount t o =>
    -- 2501: dequeueOptimisticCount.load(relaxed) - overcommit < tail
    match load false s.mem tv (.of p .count) n with
    | some (c, tv) =>
      if (c : Int) - o < t then some { s with threads := s.threads.set i ⟨tv, .at p (.pFence o)⟩ }
      else some { s with threads := s.threads.set i ⟨tv, .out⟩ }
    | none => none
  | .pFence o =>
    -- 2502: atomic_thread_fence(acquire)
    some { s with threads := s.threads.set i ⟨fence tv, .at p (.pTicket o)⟩ }
  | .pTicket o =>
    -- 2504: dequeueOptimisticCount.fetch_add(1, relaxed)
    let r := fetchAdd false false s.mem tv (.of p .count)
    some { s with mem := r.2.1, threads := s.threads.set i ⟨r.2.2, .at p (.pAgain o r.1)⟩ }
  | .pAgain o m =>
    -- 2505-2506: tailIndex.load(acquire), myDequeueCount - overcommit < tail
    match load true s.mem tv (.of p .tail) n with
    | some (t, tv) =>
      if (m : Int) - o < t then some { s with threads := s.threads.set i ⟨tv, .at p (.pHead m)⟩ }
      else some { s with threads := s.threads.set i ⟨tv, .at p (.pFail m)⟩ }
    | none => none
  | .pHead _ =>
    -- 2507: headIndex.fetch_add(1, acq_rel)
    let r := fetchAdd true true s.mem tv (.of p .head)
    some { s with mem := r.2.1, threads := s.threads.set i ⟨r.2.2, .at p (.pSlot r.1)⟩ }
  | .pSlot x =>
    -- 2541-2542: element = std::move(el); el.~T()
    let r := write s.mem tv (.of p (.slot x)) 0
    some { s with mem := r.1, threads := s.threads.set i ⟨r.2.1, .out⟩, ok := setAt s.ok p (s.ok p && r.2.2),
                  taken := ⟨i, p, x, (newest (s.mem (.of p (.slot x)))).val, tv.cur⟩ :: s.taken }
  | .pFail _ =>
    -- 2560: dequeueOvercommit.fetch_add(1, release)
    let r := fetchAdd false true s.mem tv (.of p .over)
    some { s with mem := r.2.1, threads := s.threads.set i ⟨r.2.2, .out⟩ }

/-- One step of thread `i`. -/
def step (s : Sys) (i : Nat) (th : Th) (n : Nat) : Option Sys :=
  match th.pos with
  | .out => none
  | .at p a => act s i th.tv p n a

/-- What may happen: thread `i` calls `enqueue` of its own producer, or `dequeue` of producer `p`; takes a step; looks
at the tail or the head of producer `p`, as `size_approx` (1678-1683) does; reads, writes or increases another
location, with or without acquire and release; executes a fence. -/
inductive Move
  | add (i v : Nat)
  | poll (i p : Nat)
  | go (i n : Nat)
  | look (i p n : Nat) (tail : Bool)
  | read (i x n : Nat) (acq : Bool)
  | write (i x v : Nat) (rel : Bool)
  | count (i x : Nat) (acq rel : Bool)
  | fence (i : Nat)

/-- What thread `i` knows, if it is not inside a call. -/
def outside (s : Sys) (i : Nat) : Option (TView Loc) :=
  match s.threads[i]? with
  | some (Th.mk tv .out) => some tv
  | _ => none

/-- One move; `none`: it cannot be made. -/
def move (s : Sys) : Move → Option Sys
  | .add i v =>
    match outside s i with
    | some tv => some { s with threads := s.threads.set i ⟨tv, .at i (.addLoad v tv.cur)⟩ }
    | none => none
  | .poll i p =>
    match outside s i with
    | some tv => some { s with threads := s.threads.set i ⟨tv, .at p .pTail⟩ }
    | none => none
  | .go i n =>
    match s.threads[i]? with
    | some th => step s i th n
    | none => none
  | .look i p n tail =>
    match outside s i with
    | some tv =>
      match load false s.mem tv (.of p (if tail then .tail else .head)) n with
      | some (_, tv') => some { s with threads := s.threads.set i ⟨tv', .out⟩ }
      | none => none
    | none => none
  | .read i x n acq =>
    match outside s i with
    | some tv =>
      match load acq s.mem tv (.own x) n with
      | some (_, tv') => some { s with threads := s.threads.set i ⟨tv', .out⟩ }
      | none => none
    | none => none
  | .write i x v rel =>
    match outside s i with
    | some tv =>
      let r := store rel s.mem tv (.own x) v
      some { s with mem := r.1, threads := s.threads.set i ⟨r.2.1, .out⟩ }
    | none => none
  | .count i x acq rel =>
    match outside s i with
    | some tv =>
      let r := fetchAdd acq rel s.mem tv (.own x)
      some { s with mem := r.2.1, threads := s.threads.set i ⟨r.2.2, .out⟩ }
    | none => none
  | .fence i =>
    match outside s i with
    | some tv => some { s with threads := s.threads.set i ⟨Weak.fence tv, .out⟩ }
    | none => none

/-- A schedule. -/
def run (s : Sys) : List Move → Option Sys
  | [] => some s
  | m :: ms => (move s m).bind fun s' => run s' ms

end Verif.WeakMany
