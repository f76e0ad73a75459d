import Verif.WeakReuse.Spec
/-!
# Properties of the queue that uses its blocks again, on the memory of C++
-/
namespace Verif.WeakReuse

/-- The adding thread adds `v` as element number `t`, reading the newest writes. -/
def addOne (v t : Nat) : List Move :=
  if t % B = 0 then [.add v, .go 0 t, .go 0 (t / B), .go 0 0, .go 0 0, .go 0 0, .go 0 0, .go 0 0] else [.add v, .go 0 t, .go 0 0, .go 0 0]

/-- Thread `i` takes an element of the first block, reading the newest writes: the tail is `n`, `k` tickets were taken.
The last step counts the element in `elementsCompletelyDequeued`. -/
def pollOne (i k n : Nat) : List Move :=
  [.poll i, .go i n, .go i 0, .go i k, .go i 0, .go i 0, .go i n, .go i 0, .go i 1, .go i 0, .go i 0]

/-- Thread 0 fills the first block. Thread 1 takes the first element and stops before it is counted. Thread 2 takes the
other 31; when it has moved out the last, thread 1 counts its own, then thread 2 counts the last and puts the block on
the free list. Thread 0 adds elements until it gets the block back, and puts an element into its first place. -/
def reuse : List Move :=
  (List.range 32).flatMap (fun t => addOne t t) ++ (pollOne 1 0 32).dropLast ++ ((List.range 30).flatMap fun k => pollOne 2 (k + 1) 32) ++
    (pollOne 2 31 32).dropLast ++ [.go 1 0, .go 2 0] ++ [.go 2 0, .go 2 0, .go 2 0, .go 2 0, .go 2 0, .go 2 0] ++
    (List.range 160).flatMap (fun t => addOne (t + 32) (t + 32)) ++
    [.add 192, .go 0 192, .go 0 6, .go 0 1, .go 0 2, .go 0 2, .go 0 1, .go 0 1, .go 0 0, .go 0 0, .go 0 0, .go 0 0, .go 0 0]

def isOut : Pos → Bool
  | .out => true
  | _ => false

theorem isOut_out {p : Pos} (h : isOut p = true) : p = .out := by
  cases p <;> first | rfl | cases h

/-- What is to be seen of the state. -/
def seen (s : Sys) : List (Nat × Nat × Nat) × Nat × Nat × Bool :=
  (s.races, s.added.length, s.taken.length, s.threads.all fun th => isOut th.pos)

set_option maxRecDepth 100000 in
theorem reuse_seen : (run (init 3) reuse).map seen = some ([(0, 0, 0)], 193, 32, true) := by decide +kernel

/-- C225: refuted. Three threads, 193 elements added and 32 taken, no call under way any more: adding the last element
raced with taking the first, whose place it got: neither happened before the other. -/
theorem C225_reuse_wrong : ∃ s, Reach 3 s ∧ Rest s ∧ s.added.length = 193 ∧ s.taken.length = 32 ∧ s.races = [(0, 0, 0)] ∧ ¬ NoRace s := by
  have h := reuse_seen
  cases hr : run (init 3) reuse with
  | none => rw [hr] at h; cases h
  | some s =>
    rw [hr] at h
    have h := Option.some.inj h
    have h1 : s.races = [(0, 0, 0)] := congrArg (·.1) h
    have h2 : s.added.length = 193 := congrArg (·.2.1) h
    have h3 : s.taken.length = 32 := congrArg (·.2.2.1) h
    have h4 : (s.threads.all fun th => isOut th.pos) = true := congrArg (·.2.2.2) h
    refine ⟨s, ⟨reuse, hr⟩, fun th ht => isOut_out (List.all_eq_true.mp h4 th ht), h2, h3, h1, fun hn => ?_⟩
    rw [NoRace, h1] at hn
    cases hn

end Verif.WeakReuse
