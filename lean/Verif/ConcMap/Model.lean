import Verif.Common
/-!
# `java.util.concurrent.ConcurrentHashMap`

`/repo/library/Java/Util/Concurrent/ConcurrentHashMap/ConcurrentHashMap.hpp`: calls
made of operations of the underlying `libcuckoo::cuckoohash_map`.  Each operation
of that table on a key is one atomic step here (an assumption about the
library: each of these operations holds the locks of the key's two buckets while
it works, `snapshot_and_lock_two` in cuckoohash_map.hh); calls of any number of
threads interleave between these steps.  A call returns at its last step.

Not modelled: `size` and `isEmpty` (not atomic in libcuckoo), iterators, copies,
and the members that do not compile when used (`putIfAbsent`, `replace`, `equals`,
`clone`).  `V v;` is the value `dflt` (for class types; it is indeterminate for
built-in types).
-/
namespace Verif.ConcMap

variable {K V : Type} [DecidableEq K] [DecidableEq V]

/-- The contents of the table. -/
abbrev Table (K V : Type) := K → Option V

/-- `insert_or_assign`, `erase` (cuckoohash_map.hh). -/
def upd (m : Table K V) (k : K) (x : Option V) : Table K V := fun j => if j = k then x else m j

inductive Call (K V : Type)
  | put (k : K) (v : V)
  | get (k : K)
  | getOrDefault (k : K) (d : V)
  | containsKey (k : K)
  | remove (k : K)
  | removeIf (k : K) (v : V)
  | clear
  deriving DecidableEq, Repr

inductive Ans (V : Type)
  | unit
  | value (v : V)
  | bool (b : Bool)
  deriving DecidableEq, Repr

/-- Where a thread is. -/
inductive Pos (K V : Type)
  | idle
  /-- before the first table operation of the call -/
  | start (c : Call K V)
  /-- `remove(key)` after `find` returned `v` (ConcurrentHashMap.hpp:425-426) -/
  | erase (k : K) (v : V)
  /-- `remove(key, value)` after `find` returned `value` (:445-447) -/
  | eraseIf (k : K) (v : V)
  deriving DecidableEq, Repr

/-- What a step does: go on, or return. -/
inductive Next (K V : Type)
  | go (p : Pos K V)
  | ret (c : Call K V) (a : Ans V)

/-- The code, one table operation per step. -/
def act (dflt : V) : Pos K V → Table K V → Option (Table K V × Next K V)
  | .idle, _ => none
  -- :385-387
  | .start (.put k v), m => some (upd m k (some v), .ret (.put k v) .unit)
  -- :338-346
  | .start (.get k), m => some (m, .ret (.get k) (.value ((m k).getD dflt)))
  -- :360-366
  | .start (.getOrDefault k d), m => some (m, .ret (.getOrDefault k d) (.value ((m k).getD d)))
  -- :257-264, 320-327
  | .start (.containsKey k), m => some (m, .ret (.containsKey k) (.bool (m k).isSome))
  -- :422-431
  | .start (.remove k), m =>
    match m k with
    | none => some (m, .ret (.remove k) (.value dflt))
    | some v => some (m, .go (.erase k v))
  | .erase k v, m => some (upd m k none, .ret (.remove k) (.value v))
  -- :443-454
  | .start (.removeIf k v), m =>
    match m k with
    | none => some (m, .ret (.removeIf k v) (.bool false))
    | some w => if w = v then some (m, .go (.eraseIf k v)) else some (m, .ret (.removeIf k v) (.bool false))
  | .eraseIf k v, m => some (upd m k none, .ret (.removeIf k v) (.bool true))
  -- :117-119
  | .start .clear, _ => some (fun _ => none, .ret .clear .unit)

/-- A completed call. -/
structure Done (K V : Type) where
  thread : Nat
  call : Call K V
  ans : Ans V
  deriving DecidableEq, Repr

/-- A system of threads sharing one map. -/
structure Cfg (K V : Type) where
  table : Table K V
  pos : Nat → Pos K V
  done : List (Done K V)

/-- The scheduler's choices: a thread begins a call, or makes a step. -/
inductive Move (K V : Type)
  | call (t : Nat) (c : Call K V)
  | step (t : Nat)
  deriving DecidableEq, Repr

def setPos (p : Nat → Pos K V) (t : Nat) (x : Pos K V) : Nat → Pos K V := fun u => if u = t then x else p u

/-- One move; `none` when the thread cannot make it. -/
def move (dflt : V) (s : Cfg K V) : Move K V → Option (Cfg K V)
  | .call t c =>
    match s.pos t with
    | .idle => some { s with pos := setPos s.pos t (.start c) }
    | _ => none
  | .step t =>
    match act dflt (s.pos t) s.table with
    | none => none
    | some (m, .go p) => some { s with table := m, pos := setPos s.pos t p }
    | some (m, .ret c a) => some ⟨m, setPos s.pos t .idle, s.done ++ [⟨t, c, a⟩]⟩

/-- A schedule. -/
def run (dflt : V) : Cfg K V → List (Move K V) → Option (Cfg K V)
  | s, [] => some s
  | s, x :: xs =>
    match move dflt s x with
    | none => none
    | some s' => run dflt s' xs

/-- All threads idle. -/
def init (m : Table K V) : Cfg K V := ⟨m, fun _ => .idle, []⟩

end Verif.ConcMap
