import Verif.WeakLock.Model
/-!
# What the locks of the concurrent map promise on the memory of C++
-/
namespace Verif.WeakLock
open Verif.Weak (View Below newest)

/-- A state of `k` threads and a map with `n` locks that some schedule leads to. -/
def Reach (k n : Nat) (s : Sys) : Prop := ∃ ms, run (init k n) ms = some s

/-- The move is not one of `size()`. -/
def NoSize : Move → Prop
  | .size .. => False
  | _ => True

/-- The same without calls of `size()`. -/
def ReachLocked (k n : Nat) (s : Sys) : Prop := ∃ ms, run (init k n) ms = some s ∧ ∀ m ∈ ms, NoSize m

/-- No two accesses to the table raced. -/
def NoRace (s : Sys) : Prop := s.races = []

/-- Thread `i` works on the table with these locks. -/
def Works (s : Sys) (i : Nat) (held : List Nat) : Prop := ∃ th, s.threads[i]? = some th ∧ th.pos.works = some held

/-- The hash power that the call of thread `i` computed its buckets with. -/
def UsesPower (s : Sys) (i hp : Nat) : Prop := ∃ th l held, s.threads[i]? = some th ∧ th.pos = .lock hp (l :: held) []

/-- What thread `i` knows. -/
def Sees (s : Sys) (i : Nat) (v : View Loc) : Prop := ∃ th, s.threads[i]? = some th ∧ Below v th.tv.cur

/-- Calls take their locks in increasing order, each once (`lock_two` 985-995, `lock_three` 1015-1031). -/
def Ordered : Move → Prop
  | .call _ _ ls => ls.Pairwise (· < ·)
  | .size .. => False
  | _ => True

/-- States reached by calls that take their locks in order. -/
def ReachOrdered (k n : Nat) (s : Sys) : Prop := ∃ ms, run (init k n) ms = some s ∧ ∀ m ∈ ms, Ordered m

/-- Thread `i` is in a call and can go on: it takes the lock it wants, gets past the check, gives back a lock, or is done
with its work. Rounds in which it finds a lock taken do not count: they leave it where it is. -/
def GoesOn (s : Sys) (i : Nat) : Prop :=
  ∃ m s' th th', (m = .finish i ∨ ∃ w, m = .go i w) ∧ move s m = some s' ∧ s.threads[i]? = some th ∧ s'.threads[i]? = some th' ∧ th.pos ≠ .out ∧ th'.pos ≠ th.pos

end Verif.WeakLock
