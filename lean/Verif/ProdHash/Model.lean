import Verif.Common
/-!
# The table of implicit producers of the lock-free queue

`get_or_add_implicit_producer` of
`/repo/library/Java/Util/Concurrent/ConcurrentLinkedQueue/concurrentqueue.hpp` (3326-3476): every
thread that adds to the queue finds, or makes, the producer that is its own, in a chain of hash
tables keyed by thread. Any number of threads; each step is one access to shared memory.

Simplifications: sequentially consistent memory; a thread is its number and the hash of its id
(`hash_thread_id`, 422-427) is any function `hid`; an entry whose thread has ended belongs to the
next thread with the same id (149), which is the same thread here; the count does not wrap; the
code under `MOODYCAMEL_CPP11_THREAD_LOCAL_SUPPORTED` is not compiled (213), so no producer is
recycled, and making a producer and linking it (3144-3187) is one step, which may fail.
-/
namespace Verif.ProdHash

/-- `ImplicitProducerHash` and its entries (3232-3268); no key is `invalid_thread_id` (147). -/
structure Table where
  cap : Nat
  keys : Nat → Option Nat
  vals : Nat → Option Nat
  prev : Option Nat

/-- The tables in the order of their making, `implicitProducerHash`, `implicitProducerHashCount`,
`implicitProducerHashResizeInProgress` (3606-3611) and the number of producers made. -/
structure Shared where
  tables : List Table
  main : Nat
  count : Nat
  busy : Bool
  made : Nat

/-- Positions in a call. `m`: `mainHash`; `n`: `newCount`; `ix`: `index`, which is masked when it is
used. -/
inductive Pos
  /-- before the load of the main table (3345) -/
  | load
  /-- before the load of a key of table `t` (3353) -/
  | find (m t ix : Nat)
  /-- before the load (3365), the exchange (3372) of a key and the store of the value (3374) -/
  | copy (m ix v : Nat)
  | copyCas (m ix v : Nat)
  | copyVal (m ix v : Nat)
  /-- before `fetch_add` (3391) -/
  | add (m : Nat)
  /-- before `test_and_set` (3394) -/
  | tas (m n : Nat)
  /-- with the flag: before the load of the main table (3399), the store of a new one (3401-3421),
  `clear` (3422, 3426) -/
  | reload (n : Nat)
  | grow (m n : Nat)
  | unlock (m n : Nat)
  /-- no memory: before `fetch_sub` (3408), `clear` (3409) -/
  | subLocked
  | unlockFail
  /-- before the load of the main table (3474) -/
  | spin (n : Nat)
  /-- before the producer is made (3435) -/
  | make (m n : Nat)
  /-- no memory: before `fetch_sub` (3437) -/
  | sub
  /-- before the load (3453), the exchange (3461) of a key and the store of the value (3463) -/
  | ins (m ix p : Nat)
  | insCas (m ix p : Nat)
  | insVal (m ix p : Nat)
  deriving DecidableEq, Repr

/-- What comes next: a position or the result, `none` when memory ran out. -/
inductive Next
  | at (p : Pos)
  | ret (p : Option Nat)
  deriving DecidableEq, Repr

/-- `capacity` of table `m`. -/
def capOf (sh : Shared) (m : Nat) : Nat := ((sh.tables[m]?).map Table.cap).getD 0

/-- The key in slot `ix & (capacity - 1)` of table `m` (3351-3353); capacities are powers of two. -/
def keyAt (sh : Shared) (m ix : Nat) : Option Nat :=
  (sh.tables[m]?).bind fun T => T.keys (ix % T.cap)

/-- The value next to it (3360). -/
def valAt (sh : Shared) (m ix : Nat) : Option Nat :=
  (sh.tables[m]?).bind fun T => T.vals (ix % T.cap)

/-- `hash->prev` (3347). -/
def prevOf (sh : Shared) (t : Nat) : Option Nat := (sh.tables[t]?).bind Table.prev

/-- A write to a key (3372, 3461). -/
def setKey (sh : Shared) (m ix i : Nat) : Shared :=
  { sh with tables := sh.tables.modify m fun T =>
      { T with keys := fun a => if a = ix % T.cap then some i else T.keys a } }

/-- A write to a value (3374, 3463). -/
def setVal (sh : Shared) (m ix p : Nat) : Shared :=
  { sh with tables := sh.tables.modify m fun T =>
      { T with vals := fun a => if a = ix % T.cap then some p else T.vals a } }

/-- The test for three quarters (3433). -/
def room (sh : Shared) (m n : Nat) : Next :=
  if n < capOf sh m / 2 + capOf sh m / 4 then .at (.make m n) else .at (.spin n)

/-- The test for one half (3394). -/
def half (sh : Shared) (m n : Nat) : Next :=
  if capOf sh m / 2 ≤ n then .at (.tas m n) else room sh m n

/-- The doubling of the capacity (3401-3404); `fuel` rounds. -/
def doubled (n : Nat) : Nat → Nat → Nat
  | 0, c => c
  | fuel + 1, c => if c / 2 ≤ n then doubled n fuel (2 * c) else c

/-- A new table (3405-3420). -/
def fresh (c m : Nat) : Table := ⟨c, fun _ => none, fun _ => none, some m⟩

/-- One step of thread `i` (3326-3476); `c`: memory can be had. -/
def step (hid : Nat → Nat) (i : Nat) (sh : Shared) (c : Bool) : Pos → Shared × Next
  | .load => (sh, .at (.find sh.main sh.main (hid i)))
  | .find m t ix =>
    (sh,
      if keyAt sh t ix = some i then
        if t = m then .ret (valAt sh t ix)
        else .at (.copy m (hid i) ((valAt sh t ix).getD 0))
      else if keyAt sh t ix = none then
        match prevOf sh t with
        | some t' => .at (.find m t' (hid i))
        | none => .at (.add m)
      else .at (.find m t (ix + 1)))
  | .copy m ix v => (sh, if keyAt sh m ix = none then .at (.copyCas m ix v) else .at (.copy m (ix + 1) v))
  | .copyCas m ix v =>
    if keyAt sh m ix = none then (setKey sh m ix i, .at (.copyVal m ix v)) else (sh, .at (.copy m (ix + 1) v))
  | .copyVal m ix v => (setVal sh m ix v, .ret (some v))
  | .add m => ({ sh with count := sh.count + 1 }, half sh m (sh.count + 1))
  | .tas m n => if sh.busy then (sh, room sh m n) else ({ sh with busy := true }, .at (.reload n))
  | .reload n =>
    (sh, if capOf sh sh.main / 2 ≤ n then .at (.grow sh.main n) else .at (.unlock sh.main n))
  | .grow m n =>
    if c then
      ({ sh with tables := sh.tables ++ [fresh (doubled n (n + 1) (2 * capOf sh m)) m], main := sh.tables.length },
        .at (.unlock sh.tables.length n))
    else (sh, .at .subLocked)
  | .unlock m n => ({ sh with busy := false }, room sh m n)
  | .subLocked => ({ sh with count := sh.count - 1 }, .at .unlockFail)
  | .unlockFail => ({ sh with busy := false }, .ret none)
  | .spin n => (sh, half sh sh.main n)
  | .make m _ =>
    if c then ({ sh with made := sh.made + 1 }, .at (.ins m (hid i) sh.made)) else (sh, .at .sub)
  | .sub => ({ sh with count := sh.count - 1 }, .ret none)
  | .ins m ix p => (sh, if keyAt sh m ix = none then .at (.insCas m ix p) else .at (.ins m (ix + 1) p))
  | .insCas m ix p =>
    if keyAt sh m ix = none then (setKey sh m ix i, .at (.insVal m ix p)) else (sh, .at (.ins m (ix + 1) p))
  | .insVal m ix p => (setVal sh m ix p, .ret (some p))

/-- The table, the threads, and the results so far, newest first, with the thread. -/
structure Sys where
  sh : Shared
  threads : List (Option Pos)
  log : List (Nat × Option Nat)

/-- `populate_initial_implicit_producer_hash` (3270-3286) with
`INITIAL_IMPLICIT_PRODUCER_HASH_SIZE` 32 (330), and `k` threads. -/
def init (k : Nat) : Sys :=
  ⟨⟨[⟨32, fun _ => none, fun _ => none, none⟩], 0, 0, false, 0⟩, List.replicate k none, []⟩

/-- A thread begins a call, or takes a step. -/
inductive Move
  | start (i : Nat)
  | go (i : Nat) (c : Bool)
  deriving DecidableEq, Repr

/-- A thread moves on. -/
def put (s : Sys) (i : Nat) (sh : Shared) : Next → Sys
  | .at p => { s with sh := sh, threads := s.threads.set i (some p) }
  | .ret r => { s with sh := sh, threads := s.threads.set i none, log := (i, r) :: s.log }

/-- One move; `none`: it cannot be made. -/
def move (hid : Nat → Nat) (s : Sys) : Move → Option Sys
  | .start i =>
    match s.threads[i]? with
    | some none => some { s with threads := s.threads.set i (some .load) }
    | _ => none
  | .go i c =>
    match s.threads[i]? with
    | some (some p) => some (put s i (step hid i s.sh c p).1 (step hid i s.sh c p).2)
    | _ => none

/-- A schedule. -/
def run (hid : Nat → Nat) (s : Sys) : List Move → Option Sys
  | [] => some s
  | m :: ms => (move hid s m).bind fun s' => run hid s' ms

end Verif.ProdHash
