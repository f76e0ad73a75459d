import Verif.FreeList.Model
/-!
# Vocabulary for the properties of the free list
-/
namespace Verif.FreeList

/-- The states `k` threads can reach. -/
def Reach (k : Nat) (s : Sys) : Prop := ∃ ms, run (init k) ms = some s

/-- `l` is the list that begins at `h`: following the next fields from `h` gives `l` and then the
end. -/
def Chain (nodes : Nat → Node) : Option Nat → List Nat → Prop
  | h, [] => h = none
  | h, x :: l => h = some x ∧ Chain nodes (nodes x).next l

/-- No thread is inside a call. -/
def Quiet (s : Sys) : Prop := ∀ t ∈ s.threads, t = none

/-- All along the schedule the list is not empty. -/
def AlwaysSome (s : Sys) (ms : List Move) : Prop :=
  ∀ ms1 ms2 s', ms = ms1 ++ ms2 → run s ms1 = some s' → s'.sh.head ≠ none

/-- A thread is in the middle of a call that works on block `x`: it gives it back, takes it, or
looks at it while it is the head. -/
def About (x : Nat) : Option Pos → Prop
  | some (.addRef y) => y = x
  | some (.akHead y _) => y = x
  | some (.akNext y _ _) => y = x
  | some (.akRefs y _ _) => y = x
  | some (.akCas y _ _) => y = x
  | some (.akBack y _ _) => y = x
  | some (.getNext y) => y = x
  | some (.getCas y _) => y = x
  | some (.getCheck y) => y = x
  | some (.getTake y) => y = x
  | some (.getDrop y _) => y = x
  | _ => False

/-- Thread `i`, running alone, is out of its call after at most `n` steps. -/
def Ends (s : Sys) (i n : Nat) : Prop :=
  ∃ j ≤ n, ∃ s', run s (List.replicate j (.go i)) = some s' ∧ s'.threads[i]? = some none

/-- Some call ends in the schedule: a thread takes a step and is out of its call. -/
def CallEnds (s : Sys) (ms : List Move) : Prop :=
  ∃ ms1 i ms2 s1 s2, ms = ms1 ++ .go i :: ms2 ∧ run s ms1 = some s1 ∧ move s1 (.go i) = some s2 ∧ s2.threads[i]? = some none

/-- The moves that belong to calls: all but the making of new blocks. -/
def inCalls (ms : List Move) : Nat := (ms.filter (· ≠ .create)).length

/-- How many steps thread `i` takes. -/
def stepsOf (i : Nat) (ms : List Move) : Nat := (ms.filter (· = .go i)).length

end Verif.FreeList
