/-!
# The memory of C++

The part of the memory model of C++11 (ISO/IEC 14882:2011, 1.10 and clause 29) that
`/repo/library/Java/Util/Concurrent/ConcurrentLinkedQueue/concurrentqueue.hpp` relies on, as an abstract
machine with views. Nothing here is code of the repository: it is the meaning of the atomic operations
that the code calls with `memory_order_relaxed`, `_acquire`, `_release` and `_acq_rel`.

Every location has the list of its writes in modification order. A thread knows, for every location, a
number of writes that happened before; it may read that write or any later one, so that two threads may
see writes to different locations in different orders. A write carries a view: what a thread that reads it
and synchronises comes to know.

Simplifications. Values are natural numbers, every location starts with 0. A write goes to the end of the
modification order: for the read-modify-write operations that is what the standard says of locations that
are only changed by them, for a `store` the machine says whether the thread knew all earlier writes, in
which case no other place is allowed. Executions are those in which every read takes its value from a
write that was made before (the standard wants no values out of thin air, 29.3).
-/
namespace Verif.Weak

/-- How many writes to each location are known. -/
abbrev View (L : Type) := L → Nat

/-- All that is known to the one or to the other. -/
def join {L : Type} (a b : View L) : View L := fun l => max (a l) (b l)

/-- Nothing. -/
def bot {L : Type} : View L := fun _ => 0

/-- The first `n` writes to `l`. -/
def upto {L : Type} [DecidableEq L] (l : L) (n : Nat) : View L := fun l' => if l' = l then n else 0

/-- The second knows all that the first knows. -/
def Below {L : Type} (a b : View L) : Prop := ∀ l, a l ≤ b l

/-- A write: its value and what it gives to those who synchronise with it. -/
structure Msg (L : Type) where
  val : Nat
  view : View L

/-- The writes to every location, oldest first, without the initial 0. -/
abbrev Mem (L : Type) := L → List (Msg L)

/-- What a thread knows (`cur`), and what it would know after an acquire fence (`acq`). -/
structure TView (L : Type) where
  cur : View L
  acq : View L

variable {L : Type} [DecidableEq L]

/-- The `n`-th write; the initial value is number 0. -/
def msgAt (h : List (Msg L)) : Nat → Option (Msg L)
  | 0 => some ⟨0, bot⟩
  | n + 1 => h[n]?

/-- The newest write. -/
def newest (h : List (Msg L)) : Msg L := (msgAt h h.length).getD ⟨0, bot⟩

/-- One more write to `l`. -/
def push (mem : Mem L) (l : L) (g : Msg L) : Mem L := fun l' => if l' = l then mem l ++ [g] else mem l'

/-- `load`: reads write number `n` (29.6.5, 1.10p15-18); `acq`: with `memory_order_acquire`. -/
def load (acq : Bool) (mem : Mem L) (tv : TView L) (l : L) (n : Nat) : Option (Nat × TView L) :=
  if tv.cur l ≤ n then
    match msgAt (mem l) n with
    | some g =>
      some (g.val, ⟨join (join tv.cur (upto l n)) (if acq then g.view else bot), join (join tv.acq (upto l n)) g.view⟩)
    | none => none
  else none

/-- `store`; `rel`: with `memory_order_release`. The last part: the thread knew all writes to `l`. -/
def store (rel : Bool) (mem : Mem L) (tv : TView L) (l : L) (v : Nat) : Mem L × TView L × Bool :=
  (push mem l ⟨v, if rel then join tv.cur (upto l ((mem l).length + 1)) else upto l ((mem l).length + 1)⟩,
    ⟨join tv.cur (upto l ((mem l).length + 1)), join tv.acq (upto l ((mem l).length + 1))⟩,
    decide (tv.cur l = (mem l).length))

/-- `fetch_add(1)`: reads the newest write (29.3p12) and goes on with its release sequence (1.10p7). -/
def fetchAdd (acq rel : Bool) (mem : Mem L) (tv : TView L) (l : L) : Nat × Mem L × TView L :=
  let g := newest (mem l)
  let own := upto l ((mem l).length + 1)
  let cur := join (join tv.cur own) (if acq then g.view else bot)
  (g.val, push mem l ⟨g.val + 1, join (if rel then cur else own) g.view⟩, ⟨cur, join (join tv.acq own) g.view⟩)

/-- Any other read-modify-write operation: changes the value with `f` (29.3p12, 1.10p7). -/
def rmw (acq rel : Bool) (f : Nat → Nat) (mem : Mem L) (tv : TView L) (l : L) : Nat × Mem L × TView L :=
  let g := newest (mem l)
  let own := upto l ((mem l).length + 1)
  let cur := join (join tv.cur own) (if acq then g.view else bot)
  (g.val, push mem l ⟨f g.val, join (if rel then cur else own) g.view⟩, ⟨cur, join (join tv.acq own) g.view⟩)

/-- `atomic_thread_fence(memory_order_acquire)` (29.8p4). -/
def fence (tv : TView L) : TView L := ⟨tv.acq, tv.acq⟩

/-- A write to an object that is not atomic; the last part: it does not race with another access, all of
which happened before (1.10p21). -/
def write (mem : Mem L) (tv : TView L) (l : L) (v : Nat) : Mem L × TView L × Bool :=
  (push mem l ⟨v, bot⟩,
    ⟨join tv.cur (upto l ((mem l).length + 1)), join tv.acq (upto l ((mem l).length + 1))⟩,
    decide (tv.cur l = (mem l).length))

end Verif.Weak
