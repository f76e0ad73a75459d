import Verif.Weak.Memory
import Verif.LightSema.Model
/-!
# The semaphore of the blocking queue on the memory of C++

`/repo/library/Java/Util/Concurrent/LinkedBlockingQueue/lightweightsemaphore.hpp` once more, now with the memory orders of
the code. The calls, their positions and what they do next are those of `Verif.LightSema`; what is new is that `m_count` and
`m_sema` are locations of `Verif.Weak.Memory`, and that the rest of the program has locations too.

Simplifications. Those of `Verif.LightSema` but for the memory. The posts and waits of the POSIX semaphore are taken to be
operations that release and that acquire, no more (POSIX says that they synchronise memory). `sem_trywait` may find
nothing at any moment. Locations start with 0 and hold natural numbers: `m_count` is the initial count and the whole number
that the value stands for.
-/
namespace Verif.WeakSema
open Verif.Weak (View TView Mem Msg join bot upto msgAt newest push load store rmw write Below)
open Verif.LightSema (Op Pos Next begin checked taken hit spinNext miss got timed amount toRelease posts)

/-- Locations: `m_count` (258), `m_sema` (259), and the memory of the rest of the program. -/
inductive Loc
  | count
  | sema
  | user (x : Nat)
  deriving DecidableEq

/-- A whole number as a natural number: 0, -1, 1, -2, … -/
def enc (z : Int) : Nat := if 0 ≤ z then 2 * z.toNat else 2 * (-z).toNat - 1

/-- And back. -/
def dec (n : Nat) : Int := if n % 2 = 0 then (n / 2 : Nat) else -((n + 1) / 2 : Nat)

/-- A thread: what it knows, and its call. -/
structure Th where
  tv : TView Loc
  call : Option (Op × Pos)

/-- Memory, threads and the initial count. For the specification: what was known to those who put in the permits, one entry
for each permit, oldest first; what is known to those who took one, right after, oldest first; and the calls that returned, newest
first. -/
structure Sys where
  mem : Mem Loc
  threads : List Th
  base : Nat
  given : List (View Loc)
  took : List (View Loc)
  log : List (Op × Option Nat)

/-- `LightweightSemaphore(initialCount)` (339-342) and `k` threads. -/
def init (base k : Nat) : Sys := ⟨fun _ => [], List.replicate k ⟨⟨bot, bot⟩, none⟩, base, List.replicate base bot, [], []⟩

/-- The count that a value of the location stands for. -/
def Sys.cnt (s : Sys) (v : Nat) : Int := s.base + dec v

/-- The newest count. -/
def Sys.count (s : Sys) : Int := s.cnt (newest (s.mem .count)).val

/-- The permits of `m_sema`. -/
def Sys.sema (s : Sys) : Nat := (newest (s.mem .sema)).val

/-- Thread `i` goes on. -/
def to (s : Sys) (i : Nat) (op : Op) (tv : TView Loc) : Next → Sys
  | .at p => { s with threads := s.threads.set i ⟨tv, some (op, p)⟩ }
  | .ret r => { s with threads := s.threads.set i ⟨tv, none⟩, log := (op, r) :: s.log }

/-- A read-modify-write operation that adds `d` to `m_count`, with which the thread takes `k` permits. -/
def change (acq rel : Bool) (s : Sys) (i : Nat) (th : Th) (op : Op) (d : Int) (k : Nat) (nx : Next) : Sys :=
  let r := rmw acq rel (fun v => enc (dec v + d)) s.mem th.tv .count
  to { s with mem := r.2.1, took := s.took ++ List.replicate k r.2.2.cur } i op r.2.2 nx

/-- A wait on `m_sema` that finds a permit (179-188, 190-197, 217-221). -/
def pass (s : Sys) (i : Nat) (th : Th) (op : Op) : Sys :=
  let r := rmw true false (fun v => v - 1) s.mem th.tv .sema
  to { s with mem := r.2.1, took := s.took ++ [r.2.2.cur] } i op r.2.2 (got op)

/-- A load of `m_count` that reads write `w`. -/
def look (acq : Bool) (s : Sys) (i : Nat) (th : Th) (op : Op) (w : Nat) (nx : Int → Option Next) : Option Sys :=
  match load acq s.mem th.tv .count w with
  | some (v, tv) => (nx (s.cnt v)).map fun n => to s i op tv n
  | none => none

/-- One step of thread `i`, at `th`, in call `op` at position `p`. `w` is the write that is read by a load or by an exchange
that fails; `c`: an exchange is made, a wait finds a permit. A strong exchange fails only if it reads another value. -/
def step (s : Sys) (i : Nat) (th : Th) (op : Op) (p : Pos) (w : Nat) (c : Bool) : Option Sys :=
  match p with
  -- 346, 369
  | .load held => look false s i th op w fun v => some (.at (.test held v))
  -- 347-351, 370-375
  | .test held old =>
    if old ≤ 0 then some (to s i op th.tv (miss op held))
    else if c = true then
      if s.count = old then some (change true false s i th op (taken op held old - old) (old - taken op held old).toNat (hit op held (old - taken op held old).toNat))
      else none
    else look false s i th op w fun v => some (.at (.test held v))
  -- 270, 304
  | .spinLoad left => look false s i th op w fun v => some (.at (.spinTest left v))
  -- 271, 305-310
  | .spinTest left old =>
    if 0 < old then
      if c = true then
        if s.count = old then some (change true false s i th op (taken op 0 old - old) (old - taken op 0 old).toNat (hit op 0 (old - taken op 0 old).toNat))
        else none
      else look false s i th op w fun v => if v = old then none else some (spinNext left)
    else some (to s i op th.tv (spinNext left))
  -- 275-277, 313-314
  | .sub => some (change true false s i th op (-1) (if 0 < s.count then 1 else 0) (if 0 < s.count then got op else .at .sleep))
  -- 278-281, 316-321
  | .sleep =>
    if c = true then if 0 < s.sema then some (pass s i th op) else none
    else if timed op then some (to s i op th.tv (.at .adjLoad)) else none
  -- 289, 325
  | .adjLoad => look true s i th op w fun v => some (.at (.adjTest v))
  -- 290-293, 326-329
  | .adjTest old =>
    if 0 ≤ old then
      if c = true then if 0 < s.sema then some (pass s i th op) else none
      else some (to s i op th.tv (.at .adjLoad))
    else if c = true then
      if s.count = old then some (change false false s i th op 1 0 (checked op 0)) else none
    else look false s i th op w fun v => if v = old then none else some (.at .adjLoad)
  -- 399-401
  | .add =>
    let t := change false true s i th op (amount op) 0 (posts (toRelease s.count (amount op)).toNat)
    some { t with given := s.given ++ List.replicate (amount op).toNat th.tv.cur }
  -- 234-240: one sem_post
  | .post k =>
    let r := rmw false true (fun v => v + 1) s.mem th.tv .sema
    some (to { s with mem := r.2.1 } i op r.2.2 (posts (k - 1)))
  -- 409-410
  | .read => look false s i th op w fun v => some (.ret (some (if 0 < v then v.toNat else 0)))

/-- What may happen. -/
inductive Move
  /-- a call begins -/
  | start (i : Nat) (op : Op)
  /-- a call goes on -/
  | go (i w : Nat) (c : Bool)
  /-- the rest of the program reads, writes or replaces a value of its own, or changes one that is not atomic -/
  | read (i x w : Nat) (acq : Bool)
  | write (i x v : Nat) (rel : Bool)
  | update (i x v : Nat) (acq rel : Bool)
  | change (i x v : Nat)

/-- The thread that makes a move. -/
def Move.who : Move → Nat
  | .start i _ => i
  | .go i .. => i
  | .read i .. => i
  | .write i .. => i
  | .update i .. => i
  | .change i .. => i

/-- Memory and what thread `i` knows change. -/
def put (s : Sys) (i : Nat) (th : Th) (mem : Mem Loc) (tv : TView Loc) : Sys := { s with mem := mem, threads := s.threads.set i ⟨tv, th.call⟩ }

/-- One move of thread `i`, at `th`; `none`: it cannot be made. -/
def act (s : Sys) (th : Th) : Move → Option Sys
  | .start i op =>
    match th.call with
    | none => some (to s i op th.tv (begin op))
    | some _ => none
  | .go i w c =>
    match th.call with
    | some (op, p) => step s i th op p w c
    | none => none
  | .read i x w acq =>
    match load acq s.mem th.tv (.user x) w with
    | some (_, tv) => some (put s i th s.mem tv)
    | none => none
  | .write i x v rel => some (put s i th (store rel s.mem th.tv (.user x) v).1 (store rel s.mem th.tv (.user x) v).2.1)
  | .update i x v acq rel => some (put s i th (rmw acq rel (fun _ => v) s.mem th.tv (.user x)).2.1 (rmw acq rel (fun _ => v) s.mem th.tv (.user x)).2.2)
  | .change i x v => some (put s i th (write s.mem th.tv (.user x) v).1 (write s.mem th.tv (.user x) v).2.1)

/-- One move. -/
def move (s : Sys) (m : Move) : Option Sys := s.threads[m.who]?.bind fun th => act s th m

/-- A schedule. -/
def run (s : Sys) : List Move → Option Sys
  | [] => some s
  | m :: ms => (move s m).bind fun s' => run s' ms

end Verif.WeakSema
