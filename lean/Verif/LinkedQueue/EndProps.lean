import Verif.LinkedQueue.EndLemmas
import Verif.LinkedQueue.Props
/-!
# The properties of a queue's destruction
-/
namespace Verif.LinkedQueue

variable {E : Type}

/-! ### C205: every element is returned or destroyed, once -/

/-- The queue is destroyed when no thread is inside a call: the destructor runs through, and
each element ever added has been returned by one `poll`, or is destroyed now, and not both. -/
theorem C205_accounted {q : Bool} {s : Sys E} (hr : Reach q s) (hs : Still s) :
    ∃ r, endQueue s = some r ∧ ∃ src dsrc, Accounted s.log r.dead src dsrc := by
  obtain ⟨Γ, src, hit, I, L⟩ := Good.reach hr
  obtain ⟨r, e, d, _⟩ := endQueue_ok I L hs
  have hht := fun p => (I.k p).head_le
  have hlen : r.dead.length = (rests s s.count).length := by
    have := congrArg List.length d
    simpa using this
  -- the index of each destroyed element
  have hk : ∀ k, k < r.dead.length → ∃ p i, (rests s s.count)[k]? = some (p, i) ∧
      (s.prods p).head ≤ i ∧ i < (s.prods p).tail := by
    intro k h
    rw [hlen] at h
    cases hq : (rests s s.count)[k] with
    | mk p i =>
      have h1 : (rests s s.count)[k]? = some (p, i) := by rw [List.getElem?_eq_getElem h, hq]
      have h2 : (p, i) ∈ rests s s.count := List.mem_of_getElem? h1
      rw [mem_rests] at h2
      exact ⟨p, i, h1, h2.2⟩
  let dsrc : Nat → Nat := fun k =>
    match (rests s s.count)[k]? with
    | some (p, i) => src p i
    | none => 0
  have hd : ∀ {k p i}, (rests s s.count)[k]? = some (p, i) → dsrc k = src p i := by
    intro k p i h
    show (match (rests s s.count)[k]? with | some (p, i) => src p i | none => 0) = _
    rw [h]
  refine ⟨r, e, fun n => src (hit n).1 (hit n).2, dsrc, ⟨⟨?_, ?_⟩, ?_, ?_, ?_, ?_⟩⟩
  · intro n e h
    obtain ⟨_, r, g1, g2, g3⟩ := hit_src I L h
    exact ⟨(L.hits n e h).2.2, r.thr, r, g1, rfl, g3⟩
  · intro n m e e' h h' heq
    obtain ⟨h1, _⟩ := hit_src I L h
    obtain ⟨h2, _⟩ := hit_src I L h'
    obtain ⟨e1, e2⟩ := src_inj L h1 h2 heq
    exact L.inj n m e e' h h' (Prod.ext e1 e2)
  · intro k a h
    obtain ⟨hlt, _⟩ := List.getElem?_eq_some_iff.1 h
    obtain ⟨p, i, h1, h2, h3⟩ := hk k hlt
    obtain ⟨x, b, g1, g2, g3, g4⟩ := L.srcs p i h3
    have h4 := congrArg (fun l => l[k]?) d
    simp only [List.getElem?_map, h, h1, Option.map_some, Option.some_inj] at h4
    obtain ⟨c, hc⟩ := (I.c.stat p).full i h2 h3
    rw [hc] at h4 g4
    cases h4
    cases g4
    exact ⟨x.thr, x, by rw [hd h1]; exact g1, rfl, g3⟩
  · intro k k' h h' heq
    obtain ⟨p, i, h1, h2, h3⟩ := hk k h
    obtain ⟨p', i', h1', h2', h3'⟩ := hk k' h'
    rw [hd h1, hd h1'] at heq
    obtain ⟨rfl, rfl⟩ := src_inj L h3 h3' heq
    exact (List.getElem?_inj (by rw [← hlen]; exact h) (nodup_rests s s.count)).1 (h1.trans h1'.symm)
  · intro n a k h hlt heq
    obtain ⟨p, i, h1, h2, h3⟩ := hk k hlt
    obtain ⟨h4, _⟩ := hit_src I L h
    have h5 := (L.hits n a h).1
    rw [hd h1] at heq
    obtain ⟨e1, e2⟩ := src_inj L h4 h3 heq
    rw [e1, e2] at h5
    omega
  · intro n t a h
    obtain ⟨y, y1, y2, y3⟩ := h
    obtain ⟨p, i, z1, z2, z3⟩ := L.all n y a y1 y3
    rcases Nat.lt_or_ge i (s.prods p).head with h1 | h1
    · rcases L.cover p i h1 with ⟨k, e', h6, h7⟩ | ⟨t', h6⟩
      · exact .inl ⟨k, e', h6, by show src (hit k).1 (hit k).2 = n; rw [h7]; exact z3⟩
      · rw [hs t'] at h6; cases h6
    · have h2 : (p, i) ∈ rests s s.count := mem_rests.2 ⟨I.o.lt _ _ z1, h1, z2⟩
      obtain ⟨k, hlt, h3⟩ := List.getElem_of_mem h2
      exact .inr ⟨k, by rw [hlen]; exact hlt, by
        rw [hd (List.getElem?_eq_some_iff.2 ⟨hlt, h3⟩)]; exact z3⟩

/-- As many elements are destroyed with the queue as were added and not returned. -/
theorem C205_number {q : Bool} {s : Sys E} (hr : Reach q s) (hs : Still s) :
    ∃ r, endQueue s = some r ∧ r.dead.length + gets s.log = adds s.log := by
  obtain ⟨Γ, src, hit, I, L⟩ := Good.reach hr
  obtain ⟨r, e, d, _⟩ := endQueue_ok I L hs
  refine ⟨r, e, ?_⟩
  have hlen : r.dead.length = (rests s s.count).length := by
    have := congrArg List.length d
    simpa using this
  have h1 : ∀ n, (rests s n).length = total (fill s) n := by
    intro n
    induction n with
    | zero => rfl
    | succ n ih =>
      rw [rests, List.length_append, List.length_map, List.length_range', ih, total]
      unfold fill
      omega
  have := C125_no_more hr
  rw [hlen, h1, (hs.held hr).1]
  omega

example : Reach true (after two) ∧ Still (after two) ∧
    (endQueue (after two)).map Ruin.dead = some [1] ∧ Got (after two).log 2 2 :=
  ⟨after_reach rfl, still_after rfl (by decide) (by decide), rfl, ⟨_, rfl, rfl⟩⟩

/-! ### C206: every block is released, once -/

/-- The queue is destroyed when no thread is inside a call: of the blocks ever handed out,
some of the initial pool and some allocated, each is released once, and no element is left in
any of them. -/
theorem C206_released {q : Bool} {s : Sys E} (hr : Reach q s) (hs : Still s) :
    ∃ r, endQueue s = some r ∧ (∀ pool, (released pool s.made r).Perm (List.range s.made)) ∧
      ∀ y j, j < 32 → (r.heap y).slots j = none := by
  obtain ⟨Γ, src, hit, I, L⟩ := Good.reach hr
  obtain ⟨r, e, _, h1, h2, h3⟩ := endQueue_ok I L hs
  exact ⟨r, e, fun pool => released_perm pool h1 h2, h3⟩

example : Reach true (after two) ∧ Still (after two) ∧ (after two).made = 2 ∧
    (endQueue (after two)).map (released (fun b => b == 0) 2) = some [1, 0] :=
  ⟨after_reach rfl, still_after rfl (by decide) (by decide), rfl, rfl⟩

end Verif.LinkedQueue
