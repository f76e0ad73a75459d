import Verif.Random.Model
/-!
# `Random` shared between threads

The shared memory is one atomic `long`.  All its accesses are sequentially
consistent (the default order of `std::atomic`), so an execution is a sequence of
accesses by the threads, with the calls and returns of the threads between them.
Arithmetic wraps.
-/
namespace Verif.Random.Conc

open Verif.Random

/-- Where a thread is. -/
inductive Pos
  | idle
  /-- in a call with this argument, before the load -/
  | start (bits : Nat)
  /-- after the load, with what it read -/
  | got (bits : Nat) (old : BitVec 64)
  /-- after its exchange succeeded, with what it stored -/
  | won (bits : Nat) (new : BitVec 64)

/-- What can be seen. -/
inductive Ev
  | call (t bits : Nat)
  | load (t : Nat)
  /-- the exchange succeeds -/
  | win (t bits : Nat) (new : BitVec 64)
  /-- the exchange fails; `compare_exchange_weak` may also fail spuriously -/
  | fail (t : Nat)
  | ret (t bits : Nat) (new : BitVec 64)
  /-- another thread's `setSeed` stores -/
  | store (seed : BitVec 64)

/-- The memory and the threads. -/
structure Sys where
  mem : BitVec 64
  pos : Nat → Pos

/-- Thread `t` moves. -/
def move (pos : Nat → Pos) (t : Nat) (p : Pos) : Nat → Pos := fun u => if u = t then p else pos u

/-- One step of `next` (Random.cpp:126-134: load 130, new value 131, exchange
132, return 133), of `seedUniquifier` (Random.cpp:87-95: 91, 92, 93, 94) or the
store of `setSeed` (Random.cpp:258). `f` computes the new value. -/
inductive Acc (f : BitVec 64 → BitVec 64) : Sys → Ev → Sys → Prop
  | call (s : Sys) (t bits : Nat) (h : s.pos t = .idle) : Acc f s (.call t bits) ⟨s.mem, move s.pos t (.start bits)⟩
  | load (s : Sys) (t bits : Nat) (h : s.pos t = .start bits) : Acc f s (.load t) ⟨s.mem, move s.pos t (.got bits s.mem)⟩
  | win (s : Sys) (t bits : Nat) (old : BitVec 64) (h : s.pos t = .got bits old) (he : s.mem = old) :
    Acc f s (.win t bits (f old)) ⟨f old, move s.pos t (.won bits (f old))⟩
  | fail (s : Sys) (t bits : Nat) (old : BitVec 64) (h : s.pos t = .got bits old) :
    Acc f s (.fail t) ⟨s.mem, move s.pos t (.start bits)⟩
  | ret (s : Sys) (t bits : Nat) (new : BitVec 64) (h : s.pos t = .won bits new) : Acc f s (.ret t bits new) ⟨s.mem, move s.pos t .idle⟩
  | store (s : Sys) (seed : BitVec 64) : Acc f s (.store seed) ⟨initialScramble seed, s.pos⟩

/-- An execution. -/
inductive Run (f : BitVec 64 → BitVec 64) : Sys → List Ev → Sys → Prop
  | nil (s : Sys) : Run f s [] s
  | cons {s s' s'' : Sys} {e : Ev} {es : List Ev} (h : Acc f s e s') (hr : Run f s' es s'') : Run f s (e :: es) s''

/-- Random.cpp:131. -/
def nextSeed (x : BitVec 64) : BitVec 64 := (x * MULTIPLIER + ADDEND) &&& MASK

/-- Random.cpp:133: what a call that stored `x` returns. -/
def output (bits : Nat) (x : BitVec 64) : BitVec 32 := (x.sshiftRight (48 - bits)).setWidth 32

/-- Random.cpp:92: the new value of the static `seedUniquifierField`. -/
def nextUniquifier (x : BitVec 64) : BitVec 64 := x * 181783497276652981#64

/-- Random.cpp:36. -/
def firstUniquifier : BitVec 64 := 8682522807148012#64

/-- Random.cpp:47, 67-69: the state of a generator created without a seed. -/
def created (uniquifier clock : BitVec 64) : BitVec 64 := initialScramble (uniquifier ^^^ clock)

/-! ## Reading an execution -/

/-- What the calls of thread `t` returned, in order. -/
def returned (t : Nat) : List Ev → List (BitVec 32)
  | [] => []
  | .ret u bits new :: es => if u = t then output bits new :: returned t es else returned t es
  | _ :: es => returned t es

/-- The calls of `next` and `setSeed` in the order of their exchanges and stores:
thread, argument. -/
inductive Did
  | next (t bits : Nat)
  | setSeed (seed : BitVec 64)

def order : List Ev → List Did
  | [] => []
  | .win t bits _ :: es => .next t bits :: order es
  | .store seed :: es => .setSeed seed :: order es
  | _ :: es => order es

/-- The values stored by exchanges, in order. -/
def stored : List Ev → List (BitVec 64)
  | [] => []
  | .win _ _ new :: es => new :: stored es
  | _ :: es => stored es

/-- Number of calls thread `t` has begun. -/
def begun (t : Nat) : List Ev → Nat
  | [] => 0
  | .call u _ :: es => (if u = t then 1 else 0) + begun t es
  | _ :: es => begun t es

/-- `setSeed` does not occur. -/
def NoStore : List Ev → Prop
  | [] => True
  | .store _ :: _ => False
  | _ :: es => NoStore es

end Verif.Random.Conc
