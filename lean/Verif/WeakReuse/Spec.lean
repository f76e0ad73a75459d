import Verif.WeakReuse.Model
/-!
# What a queue that uses its blocks again promises on the memory of C++
-/
namespace Verif.WeakReuse

/-- A state of `k` threads that some schedule leads to. -/
def Reach (k : Nat) (s : Sys) : Prop := ∃ ms, run (init k) ms = some s

/-- No two accesses to the place of an element raced. -/
def NoRace (s : Sys) : Prop := s.races = []

/-- All elements of the `b`-th group of 32 were taken, so that the block they were in may be used again. -/
def Emptied (s : Sys) (b : Nat) : Prop := ∀ x, x / 32 = b → ∃ i v, (i, x, v) ∈ s.taken

/-- Every element that was taken is the one that was added as that number. -/
def Right (s : Sys) : Prop := ∀ i x v, (i, x, v) ∈ s.taken → s.added[x]? = some v

/-- No element was taken twice. -/
def Once (s : Sys) : Prop := (s.taken.map fun e => e.2.1).Nodup

/-- No thread is inside a call. -/
def Rest (s : Sys) : Prop := ∀ th ∈ s.threads, th.pos = .out

end Verif.WeakReuse
