import Verif.Common
/-!
# `java.util.concurrent.Semaphore`

`/repo/library/Java/Util/Concurrent/Semaphore/Semaphore.cpp`.  Any number of
threads; each is at a position of the code (`Pos`), and `act` gives the next
action at each position.  Mutexes and the condition variable are modelled as the
standard describes them: a lock is taken only when free, `wait` releases the lock
and sleeps in one step, `notify_one` wakes one sleeping thread if there is one,
sleeping threads may wake spuriously, and a timed wait may time out at any moment
(time is not modelled).  `int` overflow is undefined.

Simplifications: `acquire()`, `release()`, `tryAcquire()` and `tryAcquire(int)`
are their one-line delegations; `acquire(n)` is `tryAcquire(n, timeout)` with a
negative timeout, `tryAcquire` here has a timeout that is not negative.  The
destructor and `toString` are not modelled.
-/
namespace Verif.Semaphore

/-- A call. -/
inductive Op
  /-- `acquire(n)`, `tryAcquire(n, timeout)` with `timeout < 0` -/
  | acquire (n : Int)
  /-- `tryAcquire(n)`, `tryAcquire(n, timeout)` with `timeout ≥ 0` -/
  | tryAcquire (n : Int)
  | release (n : Int)
  | available
  deriving DecidableEq, Repr

/-- A call that returned. -/
inductive Done
  | acquire (n : Int)
  | tryAcquire (n : Int) (got : Bool)
  | release (n : Int)
  | available (v : Int)
  deriving DecidableEq, Repr

/-- Positions. The name says what comes next. -/
inductive Pos
  | idle
  -- release, Semaphore.cpp:72-78
  | rLockC (n : Int)
  | rLockP (n : Int)
  | rAdd (n : Int)
  | rUnlockP (n : Int)
  | rNotify (n : Int)
  | rUnlockC (n : Int)
  | rRet (n : Int)
  -- tryAcquire with a negative timeout, Semaphore.cpp:90-105; `k` turns are left
  -- (after this one, in the middle of a turn)
  | aTop (n : Int) (k : Nat)
  | aRead (n : Int) (k : Nat)
  | aUnlock (n : Int) (k : Nat) (current : Int)
  | aLockC (n : Int) (k : Nat)
  | aWait (n : Int) (k : Nat)
  | aAsleep (n : Int) (k : Nat)
  | aWoken (n : Int) (k : Nat)
  | aUnlockC (n : Int) (k : Nat)
  | aLockP (n : Int) (k : Nat)
  | aDec (n : Int) (k : Nat)
  | aUnlockP (n : Int) (k : Nat)
  -- tryAcquire otherwise, Semaphore.cpp:107-138
  | tLockP (n : Int)
  | tTest (n : Int)
  | tGot (n : Int)
  | tMiss (n : Int)
  | wLockC (n : Int)
  | wWait (n : Int)
  | wAsleep (n : Int)
  | wWoken (n : Int)
  | wTimedOut (n : Int)
  | wFail (n : Int)
  | wLockP (n : Int)
  | wTest (n : Int)
  | wGot (n : Int)
  | wGot2 (n : Int)
  | wMiss (n : Int)
  | wMiss2 (n : Int)
  | tRet (n : Int) (got : Bool)
  -- availablePermits, Semaphore.cpp:45-48
  | vLockP
  | vRead
  | vUnlockP (v : Int)
  | vRet (v : Int)
  deriving DecidableEq, Repr

/-- Actions; the `Pos` is where the thread is afterwards. -/
inductive Act
  | none
  | lockC (p : Pos)
  | unlockC (p : Pos)
  | lockP (p : Pos)
  | unlockP (p : Pos)
  /-- read and write `permitCounter` -/
  | access (f : Int → Int × Pos)
  /-- release the condition mutex and sleep -/
  | wait (p : Pos)
  /-- asleep: where it goes when woken, and when the time is up -/
  | sleep (woken : Pos) (late : Option Pos)
  | notify (p : Pos)
  | ret (d : Done)

/-- The code. `C` is `conditionMutexObject`, `P` is `permitMutexObject`. -/
def act : Pos → Act
  | .idle => .none
  | .rLockC n => .lockC (.rLockP n)                                    -- :73
  | .rLockP n => .lockP (.rAdd n)                                      -- :74
  | .rAdd n => .access fun c => (c + n, .rUnlockP n)                   -- :75
  | .rUnlockP n => .unlockP (.rNotify n)                               -- :76
  | .rNotify n => .notify (.rUnlockC n)                                -- :77
  | .rUnlockC n => .unlockC (.rRet n)                                  -- :78
  | .rRet n => .ret (.release n)
  | .aTop n 0 => .ret (.acquire n)                                     -- :91, 105
  | .aTop n (k + 1) => .lockP (.aRead n k)                             -- :92
  | .aRead n k => .access fun c => (c, .aUnlock n k c)                 -- :93
  | .aUnlock n k c => .unlockP (if c = 0 then .aLockC n k else .aLockP n k) -- :94, 96
  | .aLockC n k => .lockC (.aWait n k)                                 -- :97
  | .aWait n k => .wait (.aAsleep n k)                                 -- :98
  | .aAsleep n k => .sleep (.aWoken n k) Option.none
  | .aWoken n k => .lockC (.aUnlockC n k)
  | .aUnlockC n k => .unlockC (.aLockP n k)                            -- :99
  | .aLockP n k => .lockP (.aDec n k)                                  -- :101
  | .aDec n k => .access fun c => (c - 1, .aUnlockP n k)               -- :102
  | .aUnlockP n k => .unlockP (.aTop n k)                              -- :103
  | .tLockP n => .lockP (.tTest n)                                     -- :108
  | .tTest n => .access fun c => if n ≤ c then (c - n, .tGot n) else (c, .tMiss n) -- :109-110
  | .tGot n => .unlockP (.tRet n true)                                 -- :111
  | .tMiss n => .unlockP (.wLockC n)                                   -- :113
  | .wLockC n => .lockC (.wWait n)                                     -- :117
  | .wWait n => .wait (.wAsleep n)                                     -- :120
  | .wAsleep n => .sleep (.wWoken n) (some (.wTimedOut n))
  | .wWoken n => .lockC (.wLockP n)
  | .wTimedOut n => .lockC (.wFail n)
  | .wFail n => .unlockC (.tRet n false)                               -- :122-123
  | .wLockP n => .lockP (.wTest n)                                     -- :131
  | .wTest n => .access fun c => if n ≤ c then (c - n, .wGot n) else (c, .wMiss n) -- :132-133
  | .wGot n => .unlockP (.wGot2 n)                                     -- :134
  | .wGot2 n => .unlockC (.tRet n true)                                -- :134
  | .wMiss n => .unlockP (.wMiss2 n)                                   -- :136
  | .wMiss2 n => .unlockC (.wLockC n)                                  -- :137
  | .tRet n got => .ret (.tryAcquire n got)
  | .vLockP => .lockP .vRead                                           -- :46
  | .vRead => .access fun c => (c, .vUnlockP c)                        -- :47
  | .vUnlockP v => .unlockP (.vRet v)                                  -- :48
  | .vRet v => .ret (.available v)

/-- Where a call starts. -/
def enter : Op → Pos
  | .acquire n => .aTop n n.toNat
  | .tryAcquire n => .tLockP n
  | .release n => .rLockC n
  | .available => .vLockP

/-- The semaphore and the threads that use it. -/
structure Sys where
  count : Int
  lockC : Option Nat
  lockP : Option Nat
  threads : List Pos
  /-- the calls that have returned, last first -/
  log : List Done
  /-- an `int` overflowed -/
  undef : Bool
  deriving DecidableEq, Repr

/-- Semaphore.cpp:38-40, with `k` threads that do nothing yet. -/
def init (permits : Int) (k : Nat) : Sys := ⟨permits, none, none, List.replicate k .idle, [], false⟩

/-- What happens next. -/
inductive Ev
  /-- thread `t` makes a call -/
  | call (t : Nat) (op : Op)
  /-- thread `t` does its next action -/
  | tick (t : Nat)
  /-- thread `t` notifies and `u` is the thread that wakes -/
  | notify (t u : Nat)
  /-- thread `u` wakes spuriously -/
  | wake (u : Nat)
  /-- the time of thread `u` is up -/
  | late (u : Nat)
  deriving DecidableEq, Repr

def asleep (p : Pos) : Bool := match act p with
  | .sleep _ _ => true
  | _ => false

/-- Thread `t` goes to `p`. -/
def Sys.goto (s : Sys) (t : Nat) (p : Pos) : Sys := { s with threads := s.threads.set t p }

/-- Thread `t`, at a position with action `a`, does it. -/
def tick (s : Sys) (t : Nat) : Act → Option Sys
  | .lockC p => if s.lockC = none then some { s.goto t p with lockC := some t } else none
  | .unlockC p => some { s.goto t p with lockC := none }
  | .lockP p => if s.lockP = none then some { s.goto t p with lockP := some t } else none
  | .unlockP p => some { s.goto t p with lockP := none }
  | .access f => some { s.goto t (f s.count).2 with count := (f s.count).1, undef := ¬ (INT_MIN ≤ (f s.count).1 ∧ (f s.count).1 ≤ INT_MAX) }
  | .wait p => some { s.goto t p with lockC := none }
  | .notify p => if s.threads.any asleep then none else some (s.goto t p)
  | .ret d => some { s.goto t .idle with log := d :: s.log }
  | .sleep _ _ => none
  | .none => none

/-- Sleeping thread `u` goes on; `late` when its time is up. -/
def rouse (s : Sys) (u : Nat) (late : Bool) : Option Sys :=
  match s.threads[u]?.map act with
  | some (.sleep w l) => if late then l.map (s.goto u) else some (s.goto u w)
  | _ => none

/-- One step, if it is possible. -/
def step (s : Sys) (e : Ev) : Option Sys :=
  if s.undef then none else
  match e with
  | .call t op => if s.threads[t]? = some .idle then some (s.goto t (enter op)) else none
  | .tick t => match s.threads[t]? with
    | none => none
    | some p => tick s t (act p)
  | .notify t u => match s.threads[t]?.map act with
    | some (.notify p) => rouse (s.goto t p) u false
    | _ => none
  | .wake u => rouse s u false
  | .late u => rouse s u true

/-- An execution. -/
def run (s : Sys) : List Ev → Option Sys
  | [] => some s
  | e :: es => (step s e).bind fun s' => run s' es

end Verif.Semaphore
