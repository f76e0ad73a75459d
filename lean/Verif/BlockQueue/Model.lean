import Verif.LightSema.Model
/-!
# The blocking queue

`/repo/library/Java/Util/Concurrent/LinkedBlockingQueue/blockingconcurrentqueue.hpp`: a queue of
`/repo/library/Java/Util/Concurrent/ConcurrentLinkedQueue/concurrentqueue.hpp` and a semaphore of
`lightweightsemaphore.hpp` (`Verif.LightSema`).

Simplifications: the inner queue is a bag: one step of the inner `enqueue` puts all its items in
or fails; one step of the inner `try_dequeue` takes any items that are there, or none even if some
are there (order and the inner steps are the subject of `Verif.LinkedQueue`). Items are numbers.
Timeouts are not negative. A failed `assert` of the semaphore stops the thread.
-/
namespace Verif.BlockQueue

/-- The calls (122-540). `size_t` parameters are natural numbers. The calls with tokens and
`try_enqueue` differ only in which inner call is made. -/
inductive Op
  | enqueue (items : List Int)
  | tryDequeue
  | waitDequeue
  | waitTimed
  | tryBulk (max : Nat)
  | waitBulk (max : Nat)
  | waitBulkTimed (max : Nat)
  | size
  deriving DecidableEq, Repr

/-- `(ssize_t)max` of a `size_t` (181, 329, 449, 467). -/
def signed (max : Nat) : Int := if max < 2 ^ 63 then max else max - 2 ^ 64

/-- The call of the semaphore that is made (125, 181, 295, 329, 360, 378, 449, 467, 539). -/
def semOp : Op → LightSema.Op
  | .enqueue items => .signal items.length
  | .tryDequeue => .tryWait
  | .waitDequeue => .wait false
  | .waitTimed => .wait true
  | .tryBulk max => .tryWaitMany (signed max)
  | .waitBulk max => .waitMany (signed max) false
  | .waitBulkTimed max => .waitMany (signed max) true
  | .size => .available

/-- Results; a call for one item that returns `false` got none (127-129, 299-301, 333, 379, 384). -/
inductive Res
  | added (ok : Bool)
  | got (items : List Int)
  | size (n : Nat)
  deriving DecidableEq, Repr

/-- Where a thread is (122-540). -/
inductive Local
  | idle
  /-- before the inner `enqueue` -/
  | adding (items : List Int)
  /-- in the call of the semaphore -/
  | calling (op : Op)
  /-- in the loop of the inner `try_dequeue`, with `left` items to go -/
  | draining (op : Op) (left : Nat) (got : List Int)
  | aborted
  deriving DecidableEq, Repr

/-- The queue. `added` is a record of all items that the inner queue took, `log` one of the calls
that returned. -/
structure Sys where
  sem : LightSema.Sys
  locals : List Local
  bag : List Int
  added : List Int
  log : List (Op × Res)
  deriving DecidableEq, Repr

/-- `sema(create<LightweightSemaphore>())`: the count begins at 0
(56-74). -/
def init (k : Nat) : Sys := ⟨LightSema.init 0 k, List.replicate k .idle, [], [], []⟩

/-- A thread goes on (bookkeeping of the model). -/
def goOn (s : Sys) (i : Nat) (l : Local) : Sys := { s with locals := s.locals.set i l }

/-- A thread returns (bookkeeping of the model). -/
def finish (s : Sys) (i : Nat) (op : Op) (r : Res) : Sys :=
  { s with locals := s.locals.set i .idle, log := (op, r) :: s.log }

/-- The loop `while (count != max)`, or `while (!inner.try_dequeue(item))` for one item
(296-298, 330-332, 363-365, 381-383, 450-452, 468-470). -/
def drain (s : Sys) (i : Nat) (op : Op) (left : Nat) (got : List Int) : Sys :=
  if left = 0 then finish s i op (.got got) else goOn s i (.draining op left got)

/-- A call of the semaphore begins; an `assert` at its start may stop the thread
(`lightweightsemaphore.hpp` 368, 382, 398). -/
def call (s : Sys) (i : Nat) (op : Op) : Option Sys :=
  (LightSema.move s.sem (.start i (semOp op))).map fun sem =>
    match sem.threads[i]? with
    | some none => goOn { s with sem := sem } i .aborted
    | _ => goOn { s with sem := sem } i (.calling op)

/-- The semaphore answered (124-129, 179-184, 295-301, 327-333, 360-365, 378-384, 447-453, 465-471,
539). -/
def answered (s : Sys) (i : Nat) (op : Op) : Option Nat → Option Sys
  | none => some (goOn s i .aborted)
  | some r =>
    match op with
    | .enqueue _ => some (finish s i op (.added true))
    | .size => some (finish s i op (.size r))
    | .tryDequeue => some (if r = 0 then finish s i op (.got []) else drain s i op 1 [])
    | .waitTimed => some (if r = 0 then finish s i op (.got []) else drain s i op 1 [])
    | .waitDequeue => if r = 0 then call s i op else some (drain s i op 1 [])
    | .tryBulk _ => some (drain s i op r [])
    | .waitBulk _ => some (drain s i op r [])
    | .waitBulkTimed _ => some (drain s i op r [])

/-- Takes items out of a bag, if they are there (the inner `try_dequeue`, not modelled here). -/
def takeOut : List Int → List Int → Option (List Int)
  | bag, [] => some bag
  | bag, x :: xs => if x ∈ bag then takeOut (bag.erase x) xs else none

/-- What is done: each step is one inner call or one step of the semaphore (122-540). -/
inductive Move
  | start (i : Nat) (op : Op)
  /-- the inner `enqueue` takes the items or not -/
  | inner (i : Nat) (ok : Bool)
  /-- one step of the semaphore -/
  | sem (i : Nat) (c : Bool)
  /-- the inner `try_dequeue` finds these -/
  | take (i : Nat) (picks : List Int)
  deriving DecidableEq, Repr

/-- One move; `none`: it cannot be made (124-129, 179-184, 295-301, 327-333, 360-365). -/
def move (s : Sys) : Move → Option Sys
  | .start i op =>
    match s.locals[i]? with
    | some .idle =>
      match op with
      | .enqueue items => some (goOn s i (.adding items))
      | op => call s i op
    | _ => none
  | .inner i ok =>
    match s.locals[i]? with
    | some (.adding items) =>
      if ok then call { s with bag := s.bag ++ items, added := s.added ++ items } i (.enqueue items)
      else some (finish s i (.enqueue items) (.added false))
    | _ => none
  | .sem i c =>
    match s.locals[i]? with
    | some (.calling op) =>
      (LightSema.move s.sem (.go i c)).bind fun sem =>
        match sem.threads[i]?, sem.log with
        | some none, (_, r) :: _ => answered { s with sem := sem } i op r
        | _, _ => some { s with sem := sem }
    | _ => none
  | .take i picks =>
    match s.locals[i]? with
    | some (.draining op left got) =>
      if picks.length ≤ left then
        (takeOut s.bag picks).map fun bag =>
          drain { s with bag := bag } i op (left - picks.length) (got ++ picks)
      else none
    | _ => none

/-- A schedule (any interleaving of the calls at 122-540). -/
def run (s : Sys) : List Move → Option Sys
  | [] => some s
  | m :: ms => (move s m).bind fun s' => run s' ms

end Verif.BlockQueue
