import Verif.Common
/-!
# The semaphore of the blocking queue

`/repo/library/Java/Util/Concurrent/LinkedBlockingQueue/lightweightsemaphore.hpp`. Any number of
threads; each step is one access to `m_count` or one call of the POSIX semaphore `m_sema`.

Simplifications: sequentially consistent memory; `m_count` does not overflow; the `(int)` of the
number of posts is exact (there are fewer than `2 ^ 31` waiters, `C154` bounds the number by
them); `sem_wait`, `sem_timedwait`, `sem_trywait` and `sem_post` do not fail but for time-outs,
and interrupted calls are repeated in place. A timed wait may end at any moment (time is not
modelled). The weak exchanges may fail for no reason, the strong ones may not.
-/
namespace Verif.LightSema

/-- `m_count` and the value of `m_sema` (258-259). -/
structure Shared where
  count : Int
  sema : Nat
  deriving DecidableEq, Repr

/-- The calls. `timed` is a timeout that is not negative; `wait()` and `waitMany(max)` are not
timed. -/
inductive Op
  | tryWait
  | wait (timed : Bool)
  | tryWaitMany (max : Int)
  | waitMany (max : Int) (timed : Bool)
  | signal (n : Int)
  | available
  deriving DecidableEq, Repr

/-- Positions inside a call. -/
inductive Pos
  /-- before the load of `tryWait`, `tryWaitMany` (346, 369); `held` is 1 in the call from
  `waitManyWithPartialSpinning` (334), which has one already -/
  | load (held : Nat)
  /-- in their loops (347-351, 370-375) -/
  | test (held : Nat) (old : Int)
  /-- the spinning loops (268-274, 302-312), with the number of turns left -/
  | spinLoad (left : Nat)
  | spinTest (left : Nat) (old : Int)
  /-- before `fetch_sub` (275, 313) -/
  | sub
  /-- in `m_sema.wait()` or `m_sema.timed_wait()` (279-280, 318-321) -/
  | sleep
  /-- the loops after a time-out (287-294, 323-330) -/
  | adjLoad
  | adjTest (old : Int)
  /-- before `fetch_add` (399) -/
  | add
  /-- in `m_sema.signal(k)` (403), with `k` posts left -/
  | post (k : Nat)
  /-- before the load of `availableApprox` (409) -/
  | read
  deriving DecidableEq, Repr

/-- What comes next: a position, or the result; `none` is a failed `assert`. `true` is 1 and
`false` is 0. -/
inductive Next
  | at (p : Pos)
  | ret (r : Option Nat)
  deriving DecidableEq, Repr

/-- `int spin = 10000` (267, 301). -/
def spins : Nat := 10000

/-- The beginning of a call, with its asserts (355-363, 368, 382, 398). -/
def begin : Op → Next
  | .tryWait | .wait _ => .at (.load 0)
  | .tryWaitMany max => if 0 ≤ max then .at (.load 0) else .ret none
  | .waitMany max _ => if 0 ≤ max then .at (.load 0) else .ret none
  | .signal n => if 0 ≤ n then .at .add else .ret none
  | .available => .at .read

/-- The `assert(result > 0)` of `waitMany(max)` (392). -/
def checked : Op → Nat → Next
  | .waitMany _ false, 0 => .ret none
  | _, r => .ret (some r)

/-- The new count after taking from `old > 0` (271, 307, 349, 372); `held` is taken off `max`
(333). -/
def taken : Op → Nat → Int → Int
  | .tryWaitMany max, held, old => if max - held < old then old - (max - held) else 0
  | .waitMany max _, held, old => if max - held < old then old - (max - held) else 0
  | _, _, old => old - 1

/-- After `k` were taken in `tryWait`, `tryWaitMany` (350, 357, 374, 383-386, 333). -/
def hit (op : Op) (held k : Nat) : Next := checked op (held + k)

/-- `while (--spin >= 0)` (268, 302). -/
def spinNext : Nat → Next
  | 0 => .at .sub
  | n + 1 => .at (.spinLoad n)

/-- When there was nothing to take (352, 357, 362, 376, 384, 333). -/
def miss : Op → Nat → Next
  | .wait _, _ => spinNext spins
  | .waitMany max timed, 0 => if 0 < max then spinNext spins else checked (.waitMany max timed) 0
  | op, held => checked op held

/-- After one was taken by `fetch_sub` or from `m_sema` (276-281, 290-291, 332-334). -/
def got : Op → Next
  | .waitMany max timed => if 1 < max then .at (.load 1) else checked (.waitMany max timed) 1
  | op => checked op 1

/-- Whether the call has a timeout (278, 316). -/
def timed : Op → Bool
  | .wait t => t
  | .waitMany _ t => t
  | _ => false

/-- The parameter of `signal`. -/
def amount : Op → Int
  | .signal n => n
  | _ => 0

/-- `toRelease` (400). -/
def toRelease (old n : Int) : Int := if -old < n then -old else n

/-- `while (count-- > 0)` (234-240). -/
def posts (n : Nat) : Next := if n = 0 then .ret (some 0) else .at (.post n)

/-- One step of a call. `c = false` lets a weak exchange fail and a timed wait end; `none`: the
thread is blocked. -/
def step (op : Op) (sh : Shared) (p : Pos) (c : Bool) : Option (Shared × Next) :=
  match p with
  | .load held => some (sh, .at (.test held sh.count))
  | .test held old =>
    if old ≤ 0 then some (sh, miss op held)
    else if c = true ∧ sh.count = old then
      some ({ sh with count := taken op held old }, hit op held (old - taken op held old).toNat)
    else some (sh, .at (.test held sh.count))
  | .spinLoad left => some (sh, .at (.spinTest left sh.count))
  | .spinTest left old =>
    if 0 < old ∧ sh.count = old then
      some ({ sh with count := taken op 0 old }, hit op 0 (old - taken op 0 old).toNat)
    else some (sh, spinNext left)
  | .sub =>
    some ({ sh with count := sh.count - 1 }, if 0 < sh.count then got op else .at .sleep)
  | .sleep =>
    if c = true then
      if 0 < sh.sema then some ({ sh with sema := sh.sema - 1 }, got op) else none
    else if timed op then some (sh, .at .adjLoad) else none
  | .adjLoad => some (sh, .at (.adjTest sh.count))
  | .adjTest old =>
    if 0 ≤ old then
      if 0 < sh.sema then some ({ sh with sema := sh.sema - 1 }, got op) else some (sh, .at .adjLoad)
    else if sh.count = old then some ({ sh with count := old + 1 }, checked op 0)
    else some (sh, .at .adjLoad)
  | .add =>
    some ({ sh with count := sh.count + amount op }, posts (toRelease sh.count (amount op)).toNat)
  | .post k => some ({ sh with sema := sh.sema + 1 }, posts (k - 1))
  | .read => some (sh, .ret (some (if 0 < sh.count then sh.count.toNat else 0)))

/-- A thread: outside, or in a call. -/
abbrev Thread := Option (Op × Pos)

/-- The semaphore, its threads, and the calls that returned with their results, newest first (a
record for the theorems). -/
structure Sys where
  sh : Shared
  threads : List Thread
  log : List (Op × Option Nat)
  deriving DecidableEq, Repr

/-- `LightweightSemaphore(initialCount)` (339-342) and `n` threads. -/
def init (count : Nat) (n : Nat) : Sys := ⟨⟨count, 0⟩, List.replicate n none, []⟩

/-- What is done: a thread begins a call, or a thread in a call takes a step. -/
inductive Move
  | start (i : Nat) (op : Op)
  | go (i : Nat) (c : Bool)
  deriving DecidableEq, Repr

/-- A thread moves on. -/
def put (s : Sys) (i : Nat) (op : Op) (sh : Shared) : Next → Sys
  | .at p => { s with sh := sh, threads := s.threads.set i (some (op, p)) }
  | .ret r => { sh := sh, threads := s.threads.set i none, log := (op, r) :: s.log }

/-- One move; `none`: it cannot be made. -/
def move (s : Sys) : Move → Option Sys
  | .start i op =>
    match s.threads[i]? with
    | some none => some (put s i op s.sh (begin op))
    | _ => none
  | .go i c =>
    match s.threads[i]? with
    | some (some (op, p)) => (step op s.sh p c).map fun r => put s i op r.1 r.2
    | _ => none

/-- A schedule. -/
def run (s : Sys) : List Move → Option Sys
  | [] => some s
  | m :: ms => (move s m).bind fun s' => run s' ms

/-! ### The deadline of `timed_wait` -/

/-- `timespec` -/
structure Time where
  sec : Int
  nsec : Int
  deriving DecidableEq, Repr

/-- The deadline (207-220); `usecs` is unsigned. -/
def deadline (now : Time) (usecs : Nat) : Time :=
  let t : Time := ⟨now.sec + (usecs / 1000000 : Nat), now.nsec + (usecs % 1000000 : Nat) * 1000⟩
  if 1000000000 ≤ t.nsec then ⟨t.sec + 1, t.nsec - 1000000000⟩ else t

end Verif.LightSema
