import Verif.WeakMany.Sim
import Verif.Weak.Props
/-!
# Properties of the queue of many producers on the memory of C++
-/
namespace Verif.WeakMany
open Verif.Weak (View Below)

/-- C226: whoever takes an element gets the value that its adding thread added and knows all writes, to any location,
that the adding thread knew when it called `add`. -/
theorem C226_seen {k : Nat} {s : Sys} (h : Reach k s) {e : Took} (he : e ∈ s.taken) : HandedOver s e := by
  obtain ⟨w, hw, r⟩ := reach_rel h e.adder
  obtain ⟨e', h1, _, h3, h4, h5⟩ := r.taken e he rfl
  obtain ⟨x', h6, h7⟩ := Weak.C221_seen hw h1
  rw [h3, h4] at h6
  have hl : e.index < (s.added e.adder).length := by
    rw [← r.addLen]
    exact (List.getElem?_eq_some_iff.mp h6).1
  obtain ⟨x1, h8, h9⟩ := r.added e.index _ _ (List.getElem?_eq_getElem hl)
  rw [h6] at h8
  injection h8 with h8
  injection h8 with h10 h11
  refine ⟨((s.added e.adder)[e.index]).2, ?_, ?_⟩
  · rw [List.getElem?_eq_getElem hl, h10]
    rfl
  · rw [← h11] at h9
    exact h9.below h5 h7

/-- C226: after that, a read of anything that is not part of the queue by the taker, of any kind and at any later time,
gives the write that the adding thread knew when it called `add`, or a later one. -/
theorem C226_read {k : Nat} {s s' : Sys} (h : Reach k s) {e : Took} (he : e ∈ s.taken) {x n : Nat} {acq : Bool}
    (hr : move s (.read e.thread x n acq) = some s') : ∃ w, (s.added e.adder)[e.index]? = some (e.val, w) ∧ w (.own x) ≤ n := by
  obtain ⟨v, h1, h2⟩ := C226_seen h he
  refine ⟨v, h1, ?_⟩
  obtain ⟨w, hw, r⟩ := reach_rel h e.adder
  obtain ⟨e', h3, h4, _, _, h5⟩ := r.taken e he rfl
  obtain ⟨a, ms, hms⟩ := hw
  obtain ⟨th', hth', hb⟩ := Weak.run_knows ms (Weak.inv_init k a) (fun e he => nomatch he) hms e' h3
  rw [h4] at hth'
  rw [move] at hr
  split at hr
  · rename_i tv ho
    obtain ⟨th1, h6, h7, _⟩ := r.threads _ _ (outside_some ho)
    rw [hth'] at h6
    cases h6
    split at hr
    · rename_i u tv1 hl
      have hle : tv.cur (.own x) ≤ n := by
        unfold Weak.load at hl
        split at hl
        · assumption
        · cases hl
      exact Nat.le_trans (Nat.le_trans (h2 _) (h5.below h7.1 hb _)) hle
    · cases hr
  · cases hr

/-- C226: no element is taken twice. -/
theorem C226_once {k : Nat} {s : Sys} (h : Reach k s) (p : Nat) : (indexes s p).Nodup := by
  obtain ⟨w, hw, r⟩ := reach_rel h p
  rw [← r.indexes]
  exact Weak.C222_once hw

/-- C226: when no call is under way, the elements of a thread that were taken are the first that it added: none is left out. -/
theorem C226_first {k : Nat} {s : Sys} (h : Reach k s) (hr : Rest s) (p n : Nat) : n ∈ indexes s p ↔ n < (indexes s p).length := by
  obtain ⟨w, hw, r⟩ := reach_rel h p
  have hrw : Weak.Rest w := by
    intro th' hm
    obtain ⟨j, hj⟩ := List.mem_iff_getElem?.mp hm
    have hl : j < s.threads.length := by
      rw [← r.len]
      exact (List.getElem?_eq_some_iff.mp hj).1
    obtain ⟨th1, h1, _, h3⟩ := r.threads j _ (List.getElem?_eq_getElem hl)
    rw [hj] at h1
    cases h1
    rw [hr _ (List.getElem_mem hl)] at h3
    exact h3
  rw [← r.indexes, List.length_map, ← Weak.C222_first hw hrw n, List.mem_map]

/-- C226: no two accesses to the place of an element race, and every store comes after all earlier ones. -/
theorem C226_no_race {k : Nat} {s : Sys} (h : Reach k s) (p : Nat) : s.ok p = true := by
  obtain ⟨w, hw, r⟩ := reach_rel h p
  rw [← r.ok]
  exact Weak.C223_no_race hw

/-- Thread 0 writes something and adds an element; thread 1 adds two; thread 2 takes the first of thread 1, then that of
thread 0; thread 0 takes the second of thread 1. -/
def crossing : List Move :=
  [.write 0 5 42 false, .add 0 7, .add 1 8, .go 1 0, .go 0 0, .go 1 0, .go 0 0, .go 1 0, .go 0 0,
    .add 1 9, .go 1 1, .go 1 0, .go 1 0, .look 2 1 1 true,
    .poll 2 1, .go 2 1, .go 2 0, .go 2 0, .go 2 0, .go 2 0, .go 2 1, .go 2 0, .go 2 0,
    .poll 2 0, .go 2 1, .go 2 0, .go 2 0, .go 2 0, .go 2 0, .go 2 1, .go 2 0, .go 2 0,
    .poll 0 1, .go 0 2, .go 0 0, .go 0 1, .go 0 0, .go 0 0, .go 0 2, .go 0 0, .go 0 0]

example : ∃ s s', Reach 3 s ∧ s.taken.map (fun e => (e.thread, e.adder, e.index, e.val)) = [(0, 1, 1, 9), (2, 0, 0, 7), (2, 1, 0, 8)] ∧
    (s.added 0).map (fun a => a.2 (.own 5)) = [1] ∧ move s (.read 2 5 1 false) = some s' ∧ move s (.read 2 5 0 false) = none ∧
    indexes s 1 = [1, 0] ∧ s.ok 1 = true :=
  ⟨_, _, ⟨crossing, rfl⟩, rfl, rfl, rfl, rfl, rfl, rfl⟩

example : ∃ s, Reach 3 s ∧ Rest s ∧ (indexes s 1).length = 2 ∧ (indexes s 0).length = 1 :=
  ⟨_, ⟨crossing, rfl⟩, fun th h => by
    have : th ∈ [_, _, _] := h
    rcases List.mem_cons.mp this with rfl | h
    · rfl
    · rcases List.mem_cons.mp h with rfl | h
      · rfl
      · rw [List.mem_singleton.mp h], rfl, rfl⟩

end Verif.WeakMany
