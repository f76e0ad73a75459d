import Verif.Weak.Model
/-!
# What the queue promises on the memory of C++
-/
namespace Verif.Weak

/-- A state of `k` threads, one of which adds, that some schedule leads to. -/
def Reach (k : Nat) (s : Sys) : Prop := ∃ a ms, run (init k a) ms = some s

/-- An element was handed over: it is the one that was added as number `e.index`, and whoever takes it
knows all writes that the adding thread knew when it called `add`. -/
def HandedOver (s : Sys) (e : Took) : Prop := ∃ w, s.added[e.index]? = some (e.val, w) ∧ Below w e.view

/-- No thread is inside a call. -/
def Rest (s : Sys) : Prop := ∀ th ∈ s.threads, th.pos = .out

/-- The moves of a call of `poll` by thread `i`, alone. -/
def Alone (i : Nat) (ms : List Move) : Prop := ∃ ns : List Nat, ms = .poll i :: ns.map (.go i)

end Verif.Weak
