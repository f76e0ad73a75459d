import Verif.WeakLock.Order
/-!
# Calls on a concurrent map, on the memory of C++
-/
namespace Verif.WeakLock
open Verif.Weak (View TView Mem Msg join bot upto msgAt newest push load store rmw fence write Below MemOk TvOk)

/-! ## C227: races -/

/-- Calls of a thread that puts something in: it takes a lock, checks the hash power, writes, gives the lock back. -/
def putIn (i l w : Nat) : List Move := [.call i 0 [l], .go i w, .go i 0, .touch i l 0 7, .finish i, .go i 0]

/-- `size()` races with a call that puts something in. -/
theorem C227_size_wrong : ¬ ∀ k n s, Reach k n s → NoRace s := by
  intro h
  have hs : ∃ s, run (init 2 1) (putIn 0 0 0 ++ [.size 1 0]) = some s ∧ s.races = [(1, 0, 0)] := ⟨_, rfl, by decide⟩
  obtain ⟨s, hr, he⟩ := hs
  have := h 2 1 s ⟨_, hr⟩
  rw [NoRace, he] at this
  cases this

/-- Without calls of `size()` no accesses to the table race. -/
theorem C227_race_free_partial {k n : Nat} {s : Sys} (h : ReachLocked k n s) : NoRace s := h.inv.races

/-- Two threads that put something in the same bucket, the second after a round in which it found the lock taken. -/
example : ∃ s, ReachLocked 2 1 s ∧ (s.mem (.cell 0 0)).length = 2 := by
  refine ⟨_, ⟨[.call 0 0 [0], .call 1 0 [0], .go 0 0, .go 0 0, .touch 0 0 0 7, .go 1 1, .finish 0, .go 0 0, .go 1 2, .go 1 0, .touch 1 0 0 8], rfl, ?_⟩, rfl⟩
  intro m hm
  simp only [List.mem_cons, List.not_mem_nil, or_false] at hm
  rcases hm with rfl | rfl | rfl | rfl | rfl | rfl | rfl | rfl | rfl | rfl | rfl <;> exact trivial

/-! ## C228: who works on a bucket -/

/-- No two threads work with the same lock. -/
theorem C228_exclusive {k n : Nat} {s : Sys} (h : ReachLocked k n s) {i j : Nat} {held held' : List Nat} (hi : Works s i held) (hj : Works s j held')
    {l : Nat} (hl : l ∈ held) (hl' : l ∈ held') : i = j := by
  obtain ⟨x, hx, hw⟩ := hi
  obtain ⟨y, hy, hw'⟩ := hj
  exact h.inv.one i j x y l hx hy (by rw [works_held hw]; exact hl) (by rw [works_held hw']; exact hl')

/-- A call that works on the table has computed its buckets with the hash power that the table has now. -/
theorem C228_power {k n : Nat} {s : Sys} (h : ReachLocked k n s) {i hp : Nat} (hu : UsesPower s i hp) : hp = (newest (s.mem .power)).val := by
  obtain ⟨x, l, held, hx, hq⟩ := hu
  exact h.inv.power i x hx hp _ _ hq (fun h => nomatch h)

/-- A call that works with a lock knows all that those knew that gave it back before. -/
theorem C228_known {k n : Nat} {s : Sys} (h : ReachLocked k n s) {i : Nat} {held : List Nat} (hi : Works s i held) {l : Nat} (hl : l ∈ held)
    {u : View Loc} (hu : (l, u) ∈ s.left) : Sees s i u := by
  obtain ⟨x, hx, hw⟩ := hi
  exact ⟨x, hx, (h.inv.knows i x hx l (by rw [works_held hw]; exact hl)).2.2 u hu⟩

/-- A call that works with all locks knows all that anybody knew who gave back a lock. -/
theorem C228_all_known {k n : Nat} {s : Sys} (h : ReachLocked k n s) {i : Nat} {th : Th} {held : List Nat} (hi : s.threads[i]? = some th) (hp : th.pos = .all held [])
    {l : Nat} (hl : l < n) {u : View Loc} (hu : (l, u) ∈ s.left) : Sees s i u := by
  have hn : s.n = n := by
    obtain ⟨ms, hr, _⟩ := h
    exact run_n hr
  refine ⟨th, hi, (h.inv.knows i th hi l ?_).2.2 u hu⟩
  rw [hp]
  rcases h.inv.all i th hi held [] hp l (hn ▸ hl) with hm | hm
  · exact hm
  · cases hm

/-- What a thread knows it keeps knowing. -/
theorem C228_kept {s s' : Sys} {i : Nat} {u : View Loc} (h : Sees s i u) {ms : List Move} (hr : run s ms = some s') : Sees s' i u :=
  sees_run h hr

/-- Values handed over through the map: once thread `i` has worked with a lock, it reads nothing older, of any location
of the program, than what those knew that gave the lock back before; and what nobody has changed since, it changes
without a race. -/
theorem C228_handover {k n : Nat} {s s' : Sys} (h : ReachLocked k n s) {i : Nat} {held : List Nat} (hi : Works s i held) {l : Nat} (hl : l ∈ held)
    {u : View Loc} (hu : (l, u) ∈ s.left) {ms : List Move} (hr : run s ms = some s') (hn : ∀ m ∈ ms, NoSize m) {th : Th} (hth : s'.threads[i]? = some th) (x : Nat) :
    (∀ w acq, load acq s'.mem th.tv (.user x) w ≠ none → u (.user x) ≤ w) ∧
      (u (.user x) = (s'.mem (.user x)).length → ∀ v, (write s'.mem th.tv (.user x) v).2.2 = true) := by
  obtain ⟨y, hy, hb⟩ := C228_kept (C228_known h hi hl hu) hr
  rw [hth] at hy
  cases hy
  refine ⟨fun w acq hne => ?_, fun he v => ?_⟩
  · by_cases hc : th.tv.cur (.user x) ≤ w
    · exact Nat.le_trans (hb _) hc
    · exact absurd (by unfold load; rw [if_neg hc]) hne
  · have hok := ((h.inv.run hr hn).tvOk i th hth).cur (.user x)
    have := hb (.user x)
    exact decide_eq_true (by omega)

/-- Thread 0 changes a value of its own and puts something in; then thread 1 works with the same lock. -/
def handed : List Move := .change 0 5 9 :: putIn 0 0 0 ++ [.call 1 0 [0], .go 1 2, .go 1 0]

/-- What thread 0 knew of location `x` when it gave the lock back. -/
def knew (s : Sys) (x : Nat) : List Nat := s.left.map fun p => p.2 (.user x)

example : ∃ s, ReachLocked 2 1 s ∧ Works s 1 [0] ∧ knew s 5 = [1] ∧ (s.mem (.user 5)).length = 1 ∧ UsesPower s 1 0 := by
  refine ⟨_, ⟨handed, rfl, ?_⟩, ⟨_, rfl, rfl⟩, by decide, rfl, ⟨_, _, _, rfl, rfl⟩⟩
  intro m hm
  simp only [handed, putIn, List.cons_append, List.nil_append, List.mem_cons, List.not_mem_nil, or_false] at hm
  rcases hm with rfl | rfl | rfl | rfl | rfl | rfl | rfl | rfl | rfl | rfl <;> exact trivial

/-- Thread 0 grows the table after thread 1 has read the hash power. Thread 1 finds that it changed, gives its lock back and
starts again; then it works with the hash power that the table has. -/
def grown : List Move := [.call 1 0 [1], .callAll 0, .go 0 0, .go 0 0, .grow 0 17, .finish 0, .go 0 0, .go 0 0,
  .go 1 2, .go 1 1, .go 1 0, .call 1 1 [1], .go 1 4, .go 1 1]

example : ∃ s, ReachLocked 2 2 s ∧ UsesPower s 1 17 ∧ (s.mem .power).length = 1 := by
  refine ⟨_, ⟨grown, rfl, ?_⟩, ⟨_, _, _, rfl, rfl⟩, rfl⟩
  intro m hm
  simp only [grown, List.mem_cons, List.not_mem_nil, or_false] at hm
  rcases hm with rfl | rfl | rfl | rfl | rfl | rfl | rfl | rfl | rfl | rfl | rfl | rfl | rfl | rfl <;> exact trivial

/-- All locks are held by a thread after another gave one back. -/
example : ∃ s th, ReachLocked 2 2 s ∧ s.threads[1]? = some th ∧ th.pos = .all [1, 0] [] ∧ s.left.length = 1 := by
  refine ⟨_, _, ⟨putIn 0 0 0 ++ [.callAll 1, .go 1 2, .go 1 0], rfl, ?_⟩, rfl, rfl, rfl⟩
  intro m hm
  simp only [putIn, List.cons_append, List.nil_append, List.mem_cons, List.not_mem_nil, or_false] at hm
  rcases hm with rfl | rfl | rfl | rfl | rfl | rfl | rfl | rfl | rfl <;> exact trivial

/-! ## C115 on the memory of C++: calls do not block each other for ever -/

/-- Whenever threads are in calls, one of them can go on. -/
theorem C115_memory {k n : Nat} (hn : 0 < n) {s : Sys} (h : ReachOrdered k n s) {i : Nat} {th : Th} (hi : s.threads[i]? = some th) (hout : th.pos ≠ .out) :
    ∃ j, GoesOn s j := by
  obtain ⟨ms, hr, hm⟩ := h
  have inv : Inv s := (inv_init k n).run hr (fun m h => (hm m h).noSize)
  have o : Ord s := Ord.run (inv_init k n) hn (ord_init k n) hr hm
  cases e : th.pos.next with
  | none => exact ⟨i, idle_goes inv o hi hout e⟩
  | some l => exact someone_goes inv o s.n l i th hi e (by omega)

/-- Two threads that want the locks 0 and 1; one has both, the other waits for 0. -/
example : ∃ s th, ReachOrdered 2 2 s ∧ s.threads[1]? = some th ∧ th.pos = .lock 0 [] [0, 1] ∧ Works s 0 [1, 0] := by
  refine ⟨_, _, ⟨[.call 0 0 [0, 1], .call 1 0 [0, 1], .go 0 0, .go 0 0, .go 0 0, .go 1 1], rfl, ?_⟩, rfl, rfl, ⟨_, rfl, rfl⟩⟩
  intro m hm
  simp only [List.mem_cons, List.not_mem_nil, or_false] at hm
  rcases hm with rfl | rfl | rfl | rfl | rfl | rfl <;> first | exact trivial | (show List.Pairwise (· < ·) [0, 1]; decide)

/-- Without the order, two calls may come to wait for each other. -/
example : ∃ s, ReachLocked 2 2 s ∧ (∃ th, s.threads[0]? = some th ∧ th.pos = .lock 0 [0] [1]) ∧ ∃ th, s.threads[1]? = some th ∧ th.pos = .lock 0 [1] [0] := by
  refine ⟨_, ⟨[.call 0 0 [0, 1], .call 1 0 [1, 0], .go 0 0, .go 1 0, .go 0 0, .go 1 0], rfl, ?_⟩, ⟨_, rfl, rfl⟩, ⟨_, rfl, rfl⟩⟩
  intro m hm
  simp only [List.mem_cons, List.not_mem_nil, or_false] at hm
  rcases hm with rfl | rfl | rfl | rfl | rfl | rfl <;> exact trivial

end Verif.WeakLock
