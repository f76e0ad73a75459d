import Verif.Semaphore.Model
/-!
# `java.lang.Thread`

`/repo/library/Java/Lang/Thread/Thread.cpp` over the semaphore of
`Verif/Semaphore/Model.lean`.  One `Thread` object, any number of calling threads
that use it, and the operating-system threads that its `start()` makes (the
workers).  All of them are agents; an agent's number is also its number in the
semaphore, and while it is in a call of the semaphore it moves there.

Simplifications.
* A section locked by `mutexObject` holds one access to `alive` and nothing that
  waits, so it is one step; so is `availablePermits()` (a locked read), which
  needs `permitMutexObject` to be free.
* `threadObject`, `detached` and `tid` are not protected at all; an access to one
  of them is one step here, so races on them (undefined in C++) are not seen.
* The function takes as long as it likes and then returns; it does not throw and
  does not use the thread object itself.
* `setName`, `getName` and `sleep` are not modelled.
-/
namespace Verif.Thread

/-- What the object was made from. -/
inductive Body
  /-- `Thread(f)` with a function `f`, or `Thread(r)` with a runnable `r` (Thread.cpp:39-45, 84-88) -/
  | func
  /-- `Thread()`, or `Thread(r)` with a null pointer: a function that calls `run` of
  the null pointer (Thread.cpp:35-37, 84-88) -/
  | null
  /-- `Thread(f)` with an empty `std::function` (Thread.cpp:43-45) -/
  | empty
  /-- an object of a class derived from `Thread` that overrides `run`, made with
  `Thread()` (Thread.hpp:70: `run` is virtual, and Thread.cpp:104 calls it through `this`) -/
  | derived
  deriving DecidableEq, Repr

/-- A call. -/
inductive Op
  | start
  /-- `join()`, `join(ms)` with `ms ≤ 0` -/
  | join
  /-- `join(ms)` with `ms > 0` -/
  | joinFor
  | isAlive
  | getId
  | currentThread
  | detach
  | run
  /-- the destructor -/
  | destroy
  deriving DecidableEq, Repr

/-- A call that returned. -/
inductive Done
  | started
  | joined
  | joinedFor
  | alive (answer : Bool)
  | id (answer : Nat)
  /-- whether the answer is this thread object; the other answer is `nullptr` -/
  | current (answer : Bool)
  | detached
  /-- `IllegalArgumentException` -/
  | illegal
  /-- `std::system_error` -/
  | systemError
  | ran
  | destroyed
  deriving DecidableEq, Repr

/-- Positions; the name says what comes next. `w` in a run: a worker. -/
inductive Pos
  | idle
  /-- a worker that has ended -/
  | ended
  -- start, Thread.cpp:102-106
  | sFunc
  | sAlive
  | sSpawn
  -- join, Thread.cpp:112-118: in the call of the semaphore
  | jEnter
  | jIn
  | jForEnter
  | jForIn
  -- isAlive, Thread.cpp:93-96
  | iRead
  -- getId, Thread.cpp:98-100
  | gRead
  -- currentThread, Thread.cpp:133-135
  | cRead
  -- detach, Thread.cpp:120-127
  | dTest
  | dDetach
  -- run, Thread.cpp:54-75
  | rTid (w : Bool)
  | rTls (w : Bool)
  | rSet (w : Bool)
  | rFunc (w : Bool)
  | rRelease (w : Bool)
  | rIn (w : Bool)
  | rClear (w : Bool)
  /-- the function of the derived class -/
  | oFunc (w : Bool)
  -- the destructor, Thread.cpp:47-52
  | xTest
  | xWait (worker : Nat)
  | xPermits
  | xAgain
  | xIn
  | xGone
  deriving DecidableEq, Repr

/-- Whether the program still runs. -/
inductive Fate
  | runs
  /-- `std::terminate` was called -/
  | terminated
  /-- the behaviour is undefined -/
  | undefined
  deriving DecidableEq, Repr

/-- The object and its agents. -/
structure Sys where
  sem : Semaphore.Sys
  alive : Bool
  detached : Bool
  tid : Nat
  /-- the worker of `threadObject` when it is joinable -/
  handle : Option Nat
  pos : List Pos
  /-- for each agent: `currentThreadPtr` is this object -/
  cur : List Bool
  /-- calls of the function that have returned -/
  finished : Nat
  /-- the calls that have returned, last first -/
  log : List Done
  /-- the object has been destroyed -/
  gone : Bool
  fate : Fate
  deriving DecidableEq, Repr

/-- A new object (Thread.hpp:41-50, Semaphore.cpp:34-36) and `k` threads that use it. -/
def init (k : Nat) : Sys :=
  ⟨Semaphore.init 0 k, false, false, 0, none, List.replicate k .idle, List.replicate k false, 0, [], false, .runs⟩

/-- Agent `t` goes to `p`. -/
def Sys.goto (s : Sys) (t : Nat) (p : Pos) : Sys := { s with pos := s.pos.set t p }

/-- The call of agent `t` returns. -/
def Sys.ret (s : Sys) (t : Nat) (d : Done) : Sys := { s.goto t .idle with log := d :: s.log }

/-- A run ends: a worker ends, a call of `run` returns. -/
def Sys.endRun (s : Sys) (t : Nat) (w : Bool) : Sys := if w then s.goto t .ended else s.ret t .ran

/-- Agent `t` makes a call of the semaphore. -/
def Sys.enterSem (s : Sys) (t : Nat) (op : Semaphore.Op) (p : Pos) : Option Sys :=
  (Semaphore.step s.sem (.call t op)).map fun sem => { s.goto t p with sem := sem }

/-- Agent `t` is not in a call of the semaphore. -/
def Sys.backFromSem (s : Sys) (t : Nat) : Bool := decide (s.sem.threads[t]? = some .idle)

/-- Where a run begins (Thread.cpp:55; the function of the derived class otherwise). -/
def entry (body : Body) (w : Bool) : Pos := match body with
  | .derived => .oFunc w
  | _ => .rTid w

/-- Where a call begins. -/
def enter (body : Body) : Op → Pos
  | .start => .sFunc
  | .join => .jEnter
  | .joinFor => .jForEnter
  | .isAlive => .iRead
  | .getId => .gRead
  | .currentThread => .cRead
  | .detach => .dTest
  | .run => entry body false
  | .destroy => .xTest

/-- `threadObject = std::move(std::thread(&Thread::run, this))` (Thread.cpp:104): the
new worker exists; assigning to a joinable `std::thread` ends the program. -/
def Sys.spawn (s : Sys) (body : Body) (t : Nat) : Sys :=
  let s := { s with pos := s.pos ++ [entry body true], cur := s.cur ++ [false],
                    sem := { s.sem with threads := s.sem.threads ++ [Semaphore.Pos.idle] } }
  match s.handle with
  | some _ => { s with fate := .terminated }
  | none => { s.ret t .started with handle := some (s.pos.length - 1) }

/-- Agent `t`, at a position, does what comes next. -/
def tick (body : Body) (s : Sys) (t : Nat) : Pos → Option Sys
  | .idle => none
  | .ended => none
  | .sFunc => some (if body = .empty then s.ret t .started else s.goto t .sAlive)     -- :103
  | .sAlive => some (if s.alive then s.ret t .started else s.goto t .sSpawn)          -- :103
  | .sSpawn => some (s.spawn body t)                                                  -- :104
  | .jEnter => s.enterSem t (.acquire 1) .jIn                                         -- :116
  | .jIn => if s.backFromSem t then some (s.ret t .joined) else none
  | .jForEnter => s.enterSem t (.tryAcquire 1) .jForIn                                -- :114
  | .jForIn => if s.backFromSem t then some (s.ret t .joinedFor) else none
  | .iRead => some (s.ret t (.alive s.alive))                                         -- :94-95
  | .gRead => some (s.ret t (.id s.tid))                                              -- :99
  | .cRead => some (s.ret t (.current (s.cur.getD t false)))                          -- :134
  | .dTest => some (if s.detached then s.ret t .illegal else s.goto t .dDetach)       -- :121-122
  | .dDetach => some (match s.handle with                                             -- :124-125
    | none => s.ret t .systemError
    | some _ => { s.ret t .detached with handle := none, detached := true })
  | .rTid w => some { s.goto t (.rTls w) with tid := t + 1 }                          -- :56
  | .rTls w => some { s.goto t (.rSet w) with cur := s.cur.set t true }               -- :59-61
  | .rSet w => some { s.goto t (if body = .empty then .rRelease w else .rFunc w) with alive := true } -- :63-67
  | .rFunc w => some (match body with                                                 -- :68
    | .null => { s with fate := .undefined }
    | _ => { s.goto t (.rRelease w) with finished := s.finished + 1 })
  | .rRelease w => s.enterSem t (.release 1) (.rIn w)                                 -- :70
  | .rIn w => if s.backFromSem t then some (s.goto t (.rClear w)) else none
  | .rClear w => some { s.endRun t w with alive := false }                            -- :72-74
  | .oFunc w => some { s.endRun t w with finished := s.finished + 1 }
  | .xTest => some (match s.handle with                                               -- :48
    | none => s.goto t .xPermits
    | some w => s.goto t (.xWait w))
  | .xWait w => if s.pos[w]? = some .ended then some { s.goto t .xPermits with handle := none } else none -- :49
  | .xPermits => if s.sem.lockP = none then                                           -- :50
      some (s.goto t (if 0 < s.sem.count then .xAgain else .xGone)) else none
  | .xAgain => if s.sem.lockP = none then s.enterSem t (.release s.sem.count) .xIn else none -- :51
  | .xIn => if s.backFromSem t then some (s.goto t .xGone) else none
  | .xGone => some { s.ret t .destroyed with gone := true }

/-- What happens next. -/
inductive Ev
  /-- agent `t` makes a call -/
  | call (t : Nat) (op : Op)
  /-- agent `t` does what comes next -/
  | tick (t : Nat)
  /-- something happens inside the semaphore -/
  | sem (e : Semaphore.Ev)
  deriving DecidableEq, Repr

/-- Something inside the semaphore is not a call by a user of it. -/
def inner : Semaphore.Ev → Bool
  | .call _ _ => false
  | _ => true

/-- The agent is doing something. -/
def busy : Option Pos → Bool
  | none => false
  | some .idle => false
  | some .ended => false
  | some _ => true

/-- One step, if it is possible. After the object is destroyed everything that an
agent does with it is undefined. -/
def step (body : Body) (s : Sys) (e : Ev) : Option Sys :=
  if s.fate ≠ .runs then none else
  match e with
  | .call t op => if s.pos[t]? = some .idle then
      some (if s.gone then { s with fate := .undefined } else s.goto t (enter body op)) else none
  | .tick t =>
    if s.gone then (if busy s.pos[t]? then some { s with fate := .undefined } else none)
    else match s.pos[t]? with
      | none => none
      | some p => tick body s t p
  | .sem e => if inner e then
      (if s.gone then (if (Semaphore.step s.sem e).isSome then some { s with fate := .undefined } else none)
       else (Semaphore.step s.sem e).map fun sem => { s with sem := sem }) else none

/-- An execution. -/
def run (body : Body) (s : Sys) : List Ev → Option Sys
  | [] => some s
  | e :: es => (step body s e).bind fun s' => run body s' es

end Verif.Thread
