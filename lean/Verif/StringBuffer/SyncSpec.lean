import Verif.StringBuffer.SyncModel
/-!
# What sharing a `StringBuffer` should mean

Calls that overlap in time must look as if each had happened in one moment between
its begin and its end.
-/
namespace Verif.StringBuffer.Sync

open Verif.StringBuilder (SB)
open Verif.StringBuffer (Op Ans)

/-- A method of object `o` with nobody else around, on all objects. -/
def onObj (o : Nat) (f : OM SB Ans) (m : Nat → SB) : Res (Nat → SB) Ans :=
  match f (m o) with
  | .ret s v => .ret (set m o s) v
  | .exc s e => .exc (set m o s) e
  | .ub => .ub
  | .diverge => .diverge

/-- `append(other, start, end)` alone. -/
def rangeAlone (t : SB) (i j : Int) : OM SB Unit :=
  if i < 0 ∨ i > j ∨ i > t.len then OM.raise .indexOutOfBounds
  else do
    let l ← OM.lift t.mem.cstring
    StringBuffer.appendSlice l i (j - i)

/-- `insert(offset, other, start, end)` alone. -/
def insertAlone (k : Int) (t : SB) (i j : Int) : OM SB Unit := do
  let s ← OM.read
  if k < 0 ∨ k > s.len ∨ i < 0 ∨ j < 0 ∨ i > j ∨ j > t.len then OM.raise .indexOutOfBounds
  else do
    let l ← OM.lift t.mem.cstring
    StringBuffer.insertSlice k l i (j - i)

/-- A call with nobody else around: the methods of `Model.lean`. -/
def effect (sem : Sem) : Call → (Nat → SB) → Res (Nat → SB) Ans
  | .op o c, m => onObj o (StringBuffer.step sem c) m
  | .getValue o, m => onObj o (StringBuffer.step sem .toString) m
  | .appendBuffer o other, m => onObj o (do let _ ← StringBuffer.appendBuffer (m other); OM.ret .unit) m
  | .appendRange o other i j, m => onObj o (do let _ ← rangeAlone (m other) i j; OM.ret .unit) m
  | .insertRange o k other i j, m => onObj o (do let _ ← insertAlone k (m other) i j; OM.ret .unit) m
  | .assign o other, m => onObj o (do let _ ← StringBuffer.assign (if o = other then none else some (m other)); OM.ret .unit) m

/-- The calls, made one after the other, give these answers and lead from the first
objects to the last. -/
def Replays (sem : Sem) : (Nat → SB) → List (Call × Answer) → (Nat → SB) → Prop
  | m, [], m' => m' = m
  | m, (c, r) :: l, m' => ∃ m₁, (effect sem c m).Is m₁ r ∧ Replays sem m₁ l m'

/-- Where a thread is. -/
inductive Phase
  | idle
  | busy (c : Call)
  | done (c : Call) (r : Answer)

/-- A call begins when the thread is idle, takes effect once, and then ends with the
answer it had when it took effect. -/
def Next : Ev → (Nat → Phase) → (Nat → Phase) → Prop
  | .inv t c, p, p' => p t = .idle ∧ p' = set p t (.busy c)
  | .lin t c r, p, p' => p t = .busy c ∧ p' = set p t (.done c r)
  | .res t c r, p, p' => p t = .done c r ∧ p' = set p t .idle

/-- A sequence of events is possible. -/
def Follows : (Nat → Phase) → List Ev → (Nat → Phase) → Prop
  | p, [], p' => p' = p
  | p, e :: l, p' => ∃ p₁, Next e p p₁ ∧ Follows p₁ l p'

/-- Begins and ends are what the callers see. -/
def Ev.seen : Ev → Bool
  | .lin .. => false
  | _ => true

/-- The calls in the order in which they take effect. -/
def order : List Ev → List (Call × Answer)
  | [] => []
  | .lin _ c r :: l => (c, r) :: order l
  | _ :: l => order l

/-- One can put a moment of effect between the begin and the end of every call that
has ended, and of some that have not, such that the answers are those of the calls
made one after the other; `m'` are the objects after the last of them. -/
def LinearizableTo (sem : Sem) (m : Nat → SB) (seen : List Ev) (m' : Nat → SB) : Prop :=
  ∃ l, l.filter Ev.seen = seen ∧ (∃ p, Follows (fun _ => .idle) l p) ∧ Replays sem m (order l) m'

/-- The moments of effect exist. -/
def Linearizable (sem : Sem) (m : Nat → SB) (seen : List Ev) : Prop := ∃ m', LinearizableTo sem m seen m'

/-- The calls a thread begins. -/
def begun (t : Nat) : List Ev → List Call
  | [] => []
  | .inv u c :: l => if u = t then c :: begun t l else begun t l
  | _ :: l => begun t l

/-- A call of a method that takes the mutex and involves one buffer. -/
def Guarded : Call → Prop
  | .op _ c => locks c = true
  | _ => False

/-- What the next step of a program touches. -/
def touches {α : Type} : Prog α → Option (Nat × Loc × Bool)
  | .acc o l w _ _ => some (o, l, w)
  | _ => none

/-- The next access of a thread. -/
def nextAccess (s : St) (t : Nat) : Option (Nat × Loc × Bool) := (s.cur t).bind fun x => touches x.2

/-- Two threads are about to access the same variable of the same object, one of them
to write it: a data race. -/
def Race (s : St) : Prop :=
  ∃ t u o l w w', t ≠ u ∧ nextAccess s t = some (o, l, w) ∧ nextAccess s u = some (o, l, w') ∧ (w || w') = true

/-- The mutex a program asks for next. -/
def asks {α : Type} : Prog α → Option Nat
  | .lock o _ => some o
  | _ => none

/-- The thread waits for a mutex that is taken. -/
def Waits (s : St) (t : Nat) : Prop := ∃ c q o u, s.cur t = some (c, q) ∧ asks q = some o ∧ s.owner o = some u

/-- Nobody can go on, and somebody is in the middle of a call, waiting for a mutex. -/
def Deadlock (sem : Sem) (s : St) : Prop := s.ub = false ∧ (∀ t, step sem t s = none) ∧ ∃ t, Waits s t

end Verif.StringBuffer.Sync
