import Verif.Weak.Memory
/-!
# The locks of the concurrent map on the memory of C++

`cuckoohash_map.hh` and `bucket_container.hh` of `/repo/library/Java/Util/Concurrent/ConcurrentHashMap/libcuckoo`:
how calls take and give back the spinlocks, read and change the hash power, and touch the table in between, with the
memory orders of the code. Line numbers are those of `cuckoohash_map.hh` unless `bucket:` is said.

Simplifications. A bucket, a counter or a flag that belongs to lock `l` is a cell of `l`. What all locks guard together
(the pointer to the buckets, the old buckets) has one cell for each lock: to read it is to touch the cell of a lock that
is held, to change it is to touch the cells of all. Reading a cell counts as an access like writing it, so that freedom
from races here means that any two accesses to a cell are ordered. Which buckets a call needs is left open: it takes any
locks, in any order.

`test_and_set` that finds the flag set changes nothing that others could tell: it is a load of a set value. (It comes
in the modification order right after the write it reads; the flag is cleared only by the holder, after the
`test_and_set` that took it, so all that set the flag in vain come between these two, and only other `test_and_set`
calls read what they wrote.) The number of locks does not change for `ConcurrentHashMap` (1818-1833).
-/
namespace Verif.WeakLock
open Verif.Weak (View TView Mem Msg join bot upto msgAt newest push load store rmw fence write Below)

/-- Locations: `lock_` of a spinlock (837), `hashpower_` (bucket:351), cells, and the memory of the rest of the program. -/
inductive Loc
  | lock (l : Nat)
  | power
  | cell (l x : Nat)
  | user (x : Nat)
  deriving DecidableEq

/-- Where a thread is: outside; it has read the hash power `hp`, holds locks and is to take others (965-1033); it has the
first lock and is to check the hash power (911-917); it is to take all locks (1076-1091); it gives back its locks
(850-852, 876-880, 888-897). With nothing left to take it works on the table. -/
inductive Pos
  | out
  | lock (hp : Nat) (held todo : List Nat)
  | check (hp l : Nat) (todo : List Nat)
  | all (held todo : List Nat)
  | free (held : List Nat)

/-- A thread. -/
structure Th where
  tv : TView Loc
  pos : Pos

/-- Memory, threads and the number of locks. For the specification: the accesses that raced (thread, lock and cell), and
what threads knew when they gave back a lock, newest first. -/
structure Sys where
  mem : Mem Loc
  threads : List Th
  n : Nat
  races : List (Nat × Nat × Nat)
  left : List (Nat × View Loc)

/-- A new map with `n` locks (805) and `k` threads. -/
def init (k n : Nat) : Sys := ⟨fun _ => [], List.replicate k ⟨⟨bot, bot⟩, .out⟩, n, [], []⟩

/-- The locks held by a thread that works on the table. -/
def Pos.works : Pos → Option (List Nat)
  | .lock _ (l :: held) [] => some (l :: held)
  | .all held [] => some held
  | _ => none

/-- `while (lock_.test_and_set(std::memory_order_acq_rel));` (819-822): one round, which reads write `w`. -/
def tas (s : Sys) (i : Nat) (th : Th) (l w : Nat) (p : Pos) : Option Sys :=
  if w = (s.mem (.lock l)).length ∧ (newest (s.mem (.lock l))).val = 0 then
    let r := rmw true true (fun _ => 1) s.mem th.tv (.lock l)
    some { s with mem := r.2.1, threads := s.threads.set i ⟨r.2.2, p⟩ }
  else
    match load true s.mem th.tv (.lock l) w with
    | some (v, tv) => if v = 0 then none else some { s with threads := s.threads.set i ⟨tv, th.pos⟩ }
    | none => none

/-- One step of thread `i`, at `th`; `w` is the write that is read. -/
def step (s : Sys) (i : Nat) (th : Th) (w : Nat) : Option Sys :=
  match th.pos with
  -- 969, 992, 1026: the first lock, then check_hashpower
  | .lock hp [] (l :: rest) => tas s i th l w (.check hp l rest)
  -- 995, 1028-1031: the others
  | .lock hp (a :: held) (l :: rest) => tas s i th l w (.lock hp (l :: a :: held) rest)
  -- 912-915: hashpower() (bucket:187-189); if it changed, unlock and start again
  | .check hp l rest =>
    match load true s.mem th.tv .power w with
    | some (v, tv) => some { s with threads := s.threads.set i ⟨tv, if v = hp then .lock hp [l] rest else .free [l]⟩ }
    | none => none
  -- 1082-1086
  | .all held (l :: rest) => tas s i th l w (.all (l :: held) rest)
  -- 824: lock_.clear(std::memory_order_release)
  | .free (l :: rest) =>
    let r := store true s.mem th.tv (.lock l) 0
    some { s with mem := r.1, threads := s.threads.set i ⟨r.2.1, if rest = [] then .out else .free rest⟩, left := (l, th.tv.cur) :: s.left }
  | _ => none

/-- What may happen. -/
inductive Move
  /-- a call reads the hash power and chooses its locks (1054, 1178) -/
  | call (i w : Nat) (ls : List Nat)
  /-- a call that takes all locks: `lock_table`, `clear`, growth (1076) -/
  | callAll (i : Nat)
  | go (i w : Nat)
  /-- a cell of a lock that is held is read or written -/
  | touch (i l x v : Nat)
  /-- the hash power is changed by a call that has all locks (bucket:182-183, 191-193) -/
  | grow (i v : Nat)
  /-- the call is done and gives back its locks -/
  | finish (i : Nat)
  /-- `size()` reads the counter of a spinlock, without locks (336-346) -/
  | size (i l : Nat)
  /-- the rest of the program reads, writes or replaces a value of its own, or changes one that is not atomic -/
  | read (i x w : Nat) (acq : Bool)
  | write (i x v : Nat) (rel : Bool)
  | update (i x v : Nat) (acq rel : Bool)
  | change (i x v : Nat)

/-- Thread `i` is at `tv` and `p`. -/
def put (s : Sys) (i : Nat) (tv : TView Loc) (p : Pos) : Sys := { s with threads := s.threads.set i ⟨tv, p⟩ }

/-- An access to a cell; notes a race if the thread does not know the last access. -/
def access (s : Sys) (i : Nat) (th : Th) (l x v : Nat) : Sys :=
  let r := write s.mem th.tv (.cell l x) v
  put { s with mem := r.1, races := if r.2.2 then s.races else (i, l, x) :: s.races } i r.2.1 th.pos

/-- One move of thread `i`, at `th`; `none`: it cannot be made. -/
def act (s : Sys) (th : Th) : Move → Option Sys
  | .call i w ls =>
    match th.pos with
    | .out =>
      if ls ≠ [] ∧ ls.all (· < s.n) then
        match load true s.mem th.tv .power w with
        | some (hp, tv) => some (put s i tv (.lock hp [] ls))
        | none => none
      else none
    | _ => none
  | .callAll i =>
    match th.pos with
    | .out => some (put s i th.tv (.all [] (List.range s.n)))
    | _ => none
  | .go i w => step s i th w
  | .touch i l x v =>
    match th.pos.works with
    | some held => if l ∈ held then some (access s i th l x v) else none
    | none => none
  | .grow i v =>
    match th.pos with
    | .all _ [] =>
      let r := store true s.mem th.tv .power v
      some (put { s with mem := r.1 } i r.2.1 th.pos)
    | _ => none
  | .finish i =>
    match th.pos.works with
    | some held => some (put s i th.tv (.free held))
    | none => none
  | .size i l => some (access s i th l 0 (newest (s.mem (.cell l 0))).val)
  | .read i x w acq =>
    match load acq s.mem th.tv (.user x) w with
    | some (_, tv) => some (put s i tv th.pos)
    | none => none
  | .write i x v rel =>
    let r := store rel s.mem th.tv (.user x) v
    some (put { s with mem := r.1 } i r.2.1 th.pos)
  | .update i x v acq rel =>
    let r := rmw acq rel (fun _ => v) s.mem th.tv (.user x)
    some (put { s with mem := r.2.1 } i r.2.2 th.pos)
  | .change i x v =>
    let r := write s.mem th.tv (.user x) v
    some (put { s with mem := r.1 } i r.2.1 th.pos)

/-- The thread that makes a move. -/
def Move.who : Move → Nat
  | .call i .. => i
  | .callAll i => i
  | .go i _ => i
  | .touch i .. => i
  | .grow i _ => i
  | .finish i => i
  | .size i _ => i
  | .read i .. => i
  | .write i .. => i
  | .update i .. => i
  | .change i .. => i

/-- One move. -/
def move (s : Sys) (m : Move) : Option Sys := s.threads[m.who]?.bind fun th => act s th m

/-- A schedule. -/
def run (s : Sys) : List Move → Option Sys
  | [] => some s
  | m :: ms => (move s m).bind fun s' => run s' ms

end Verif.WeakLock
