import Verif.WeakMany.Model
/-!
# What the queue of many producers promises on the memory of C++
-/
namespace Verif.WeakMany
open Verif.Weak (View Below)

/-- A state of `k` threads that some schedule leads to. -/
def Reach (k : Nat) (s : Sys) : Prop := ∃ ms, run (init k) ms = some s

/-- An element was handed over: it is the one that thread `e.adder` added as its number `e.index`, and whoever takes
it knows all writes that the adding thread knew when it called `add`. -/
def HandedOver (s : Sys) (e : Took) : Prop := ∃ w, (s.added e.adder)[e.index]? = some (e.val, w) ∧ Below w e.view

/-- No thread is inside a call. -/
def Rest (s : Sys) : Prop := ∀ th ∈ s.threads, th.pos = .out

/-- The numbers of the elements of thread `p` that were taken. -/
def indexes (s : Sys) (p : Nat) : List Nat := (s.taken.filter fun e => e.adder == p).map Took.index

end Verif.WeakMany
