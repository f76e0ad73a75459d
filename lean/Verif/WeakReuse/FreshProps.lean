import Verif.WeakReuse.Sim
/-!
# Properties of the queue with blocks while none is used a second time, on the memory of C++
-/
namespace Verif.WeakReuse

/-- C225: what is true. While fewer than 192 elements were added, or as long as no group of 32 elements that share a
block was taken completely, no two accesses to the place of an element race. -/
theorem C225_fresh_partial {k : Nat} {s : Sys} (h : Reach k s) (hf : s.added.length < 192 ∨ ∀ b, ¬ Emptied s b) : NoRace s := by
  obtain ⟨w, tk, hd, cnt, r, inv, j⟩ := reach_sim h hf
  exact j.races

/-- C225: what is true. Until then every element that is taken is the one that was added as that number. -/
theorem C225_right_partial {k : Nat} {s : Sys} (h : Reach k s) (hf : s.added.length < 192 ∨ ∀ b, ¬ Emptied s b) : Right s := by
  obtain ⟨w, tk, hd, cnt, r, inv, j⟩ := reach_sim h hf
  intro i x v hm
  rw [← r.taken, List.mem_map] at hm
  obtain ⟨e, he, hp⟩ := hm
  obtain ⟨_, u, hu, _⟩ := inv.took e he
  have h2 : e.index = x := congrArg (·.2.1) hp
  have h3 : e.val = v := congrArg (·.2.2) hp
  rw [← r.added, List.getElem?_map, ← h2, hu, ← h3]
  rfl

/-- C225: what is true. Until then no element is taken twice. -/
theorem C225_once_partial {k : Nat} {s : Sys} (h : Reach k s) (hf : s.added.length < 192 ∨ ∀ b, ¬ Emptied s b) : Once s := by
  obtain ⟨w, tk, hd, cnt, r, inv, j⟩ := reach_sim h hf
  have := inv.once
  rw [Once, ← r.taken, List.map_map]
  exact this

/-- Fewer than 32 elements taken: no group was taken completely. -/
theorem few_taken {s : Sys} (h : s.taken.length < 32) (b : Nat) : ¬ Emptied s b := by
  intro he
  have hs : List.range' (b * 32) 32 ⊆ s.taken.map fun e => e.2.1 := by
    intro x hx
    rw [List.mem_range'_1] at hx
    obtain ⟨i, v, hm⟩ := he x (by omega)
    exact List.mem_map.mpr ⟨_, hm, rfl⟩
  have := (List.nodup_range' (s := b * 32) (n := 32)).length_le_of_subset hs
  rw [List.length_range', List.length_map] at this
  omega

/-- The adding thread adds three elements and two others take one each. -/
def few : List Move :=
  [.add 7, .go 0 0, .go 0 0, .go 0 0, .go 0 0, .go 0 0, .go 0 0, .go 0 0, .add 8, .go 0 1, .go 0 0, .go 0 0, .add 9, .go 0 2, .go 0 0, .go 0 0,
   .poll 1, .go 1 3, .go 1 0, .go 1 0, .go 1 0, .go 1 0, .go 1 3, .go 1 0, .poll 2, .go 2 2, .go 2 0, .go 2 0, .go 2 0, .go 2 0, .go 2 2, .go 2 0,
   .go 2 1, .go 2 0, .go 2 0, .go 1 1, .go 1 0, .go 1 0]

def tookOf (s : Sys) : List Nat × List (Nat × Nat × Nat) := (s.added, s.taken)

theorem few_seen : (run (init 3) few).map tookOf = some ([7, 8, 9], [(1, 0, 7), (2, 1, 8)]) := by decide +kernel

example : ∃ s, Reach 3 s ∧ (s.added.length < 192 ∨ ∀ b, ¬ Emptied s b) ∧ s.added = [7, 8, 9] ∧ s.taken = [(1, 0, 7), (2, 1, 8)] := by
  have h := few_seen
  cases hr : run (init 3) few with
  | none => rw [hr] at h; cases h
  | some s =>
    rw [hr] at h
    have h := Option.some.inj h
    have h1 : s.added = [7, 8, 9] := congrArg (·.1) h
    have h2 : s.taken = [(1, 0, 7), (2, 1, 8)] := congrArg (·.2) h
    exact ⟨s, ⟨few, hr⟩, Or.inl (by rw [h1]; decide), h1, h2⟩

/-- With few taken, any number may be added. -/
example {k : Nat} {s : Sys} (h : Reach k s) (ht : s.taken.length < 32) : NoRace s ∧ Right s ∧ Once s :=
  ⟨C225_fresh_partial h (Or.inr (few_taken ht)), C225_right_partial h (Or.inr (few_taken ht)), C225_once_partial h (Or.inr (few_taken ht))⟩

end Verif.WeakReuse
