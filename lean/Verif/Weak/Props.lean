import Verif.Weak.Lone
/-!
# Properties of the queue on the memory of C++
-/
namespace Verif.Weak

/-- What a thread knows only grows. -/
theorem step_grows {s s' : Sys} {tk : Tk} {hd : Hd} {i : Nat} {th : Th} {n : Nat} (inv : Inv s tk hd) (hi : s.threads[i]? = some th) (h : step s i th n = some s') :
    ∃ th', s'.threads = s.threads.set i th' ∧ Below th.tv.cur th'.tv.cur ∧ (s'.taken = s.taken ∨ ∃ x v, s'.taken = ⟨i, x, v, th.tv.cur⟩ :: s.taken) := by
  have htv := inv.tvOk i th hi
  unfold step at h
  cases hp : th.pos with
  | out => rw [hp] at h; cases h
  | addLoad v w =>
    simp only [hp] at h
    split at h
    · rename_i t tv hl
      cases h
      exact ⟨_, rfl, (load_spec inv.memOk htv hl).2.2.2.1, Or.inl rfl⟩
    · cases h
  | addWrite v w t =>
    simp only [hp] at h
    cases h
    exact ⟨_, rfl, (write_spec (l := .slot t) (v := v) inv.memOk htv).2.2, Or.inl rfl⟩
  | addStore v w t =>
    simp only [hp] at h
    cases h
    exact ⟨_, rfl, (store_spec (rel := true) (l := .tail) (v := t + 1) inv.memOk htv).2.2, Or.inl rfl⟩
  | pTail =>
    simp only [hp] at h
    split at h
    · rename_i t tv hl
      cases h
      exact ⟨_, rfl, (load_spec inv.memOk htv hl).2.2.2.1, Or.inl rfl⟩
    · cases h
  | pOver t =>
    simp only [hp] at h
    split at h
    · rename_i o tv hl
      cases h
      exact ⟨_, rfl, (load_spec inv.memOk htv hl).2.2.2.1, Or.inl rfl⟩
    · cases h
  | pCount t o =>
    simp only [hp] at h
    split at h
    · rename_i c tv hl
      split at h
      · cases h
        exact ⟨_, rfl, (load_spec inv.memOk htv hl).2.2.2.1, Or.inl rfl⟩
      · cases h
        exact ⟨_, rfl, (load_spec inv.memOk htv hl).2.2.2.1, Or.inl rfl⟩
    · cases h
  | pFence o =>
    simp only [hp] at h
    cases h
    exact ⟨_, rfl, (fence_spec htv).2, Or.inl rfl⟩
  | pTicket o =>
    simp only [hp] at h
    cases h
    exact ⟨_, rfl, (fetchAdd_spec (acq := false) (rel := false) (l := .count) inv.memOk htv).2.2.1, Or.inl rfl⟩
  | pAgain o m =>
    simp only [hp] at h
    split at h
    · rename_i c tv hl
      split at h
      · cases h
        exact ⟨_, rfl, (load_spec inv.memOk htv hl).2.2.2.1, Or.inl rfl⟩
      · cases h
        exact ⟨_, rfl, (load_spec inv.memOk htv hl).2.2.2.1, Or.inl rfl⟩
    · cases h
  | pHead m =>
    simp only [hp] at h
    cases h
    exact ⟨_, rfl, (fetchAdd_spec (acq := true) (rel := true) (l := .head) inv.memOk htv).2.2.1, Or.inl rfl⟩
  | pSlot x =>
    simp only [hp] at h
    cases h
    exact ⟨_, rfl, (write_spec (l := .slot x) (v := 0) inv.memOk htv).2.2, Or.inr ⟨x, _, rfl⟩⟩
  | pFail m =>
    simp only [hp] at h
    cases h
    exact ⟨_, rfl, (fetchAdd_spec (acq := false) (rel := true) (l := .over) inv.memOk htv).2.2.1, Or.inl rfl⟩

theorem move_grows {s s' : Sys} {tk : Tk} {hd : Hd} {m : Move} (inv : Inv s tk hd) (h : move s m = some s') :
    ∃ i th th', s.threads[i]? = some th ∧ s'.threads = s.threads.set i th' ∧ Below th.tv.cur th'.tv.cur ∧
      (s'.taken = s.taken ∨ ∃ x v, s'.taken = ⟨i, x, v, th.tv.cur⟩ :: s.taken) := by
  cases m with
  | add v =>
    rw [move] at h
    split at h
    · rename_i tv e
      cases h
      exact ⟨_, _, _, outside_some e, rfl, Below.refl _, Or.inl rfl⟩
    · cases h
  | poll i =>
    rw [move] at h
    split at h
    · rename_i tv e
      cases h
      exact ⟨i, _, _, outside_some e, rfl, Below.refl _, Or.inl rfl⟩
    · cases h
  | go i n =>
    rw [move] at h
    split at h
    · rename_i th e
      obtain ⟨th', h1, h2, h3⟩ := step_grows inv e h
      exact ⟨i, th, th', e, h1, h2, h3⟩
    · cases h
  | look i n tl =>
    rw [move] at h
    split at h
    · rename_i tv e
      split at h
      · rename_i v tv' hl
        cases h
        exact ⟨i, _, _, outside_some e, rfl, (load_spec inv.memOk (inv.tvOk _ _ (outside_some e)) hl).2.2.2.1, Or.inl rfl⟩
      · cases h
    · cases h
  | read i x n acq =>
    rw [move] at h
    split at h
    · rename_i th hi
      split at h
      · rename_i v tv' hl
        cases h
        exact ⟨i, _, _, hi, rfl, (load_spec inv.memOk (inv.tvOk _ _ hi) hl).2.2.2.1, Or.inl rfl⟩
      · cases h
    · cases h
  | write i x v rel =>
    rw [move] at h
    split at h
    · rename_i th hi
      cases h
      exact ⟨i, _, _, hi, rfl, (store_spec (rel := rel) (l := .user x) (v := v) inv.memOk (inv.tvOk _ _ hi)).2.2, Or.inl rfl⟩
    · cases h
  | update i x v acq rel =>
    rw [move] at h
    split at h
    · rename_i th hi
      cases h
      exact ⟨i, _, _, hi, rfl, (rmw_spec (acq := acq) (rel := rel) (f := fun _ => v) (l := .user x) inv.memOk (inv.tvOk _ _ hi)).2.2, Or.inl rfl⟩
    · cases h
  | change i x v =>
    rw [move] at h
    split at h
    · rename_i th hi
      cases h
      exact ⟨i, _, _, hi, rfl, (write_spec (l := .user x) (v := v) inv.memOk (inv.tvOk _ _ hi)).2.2, Or.inl rfl⟩
    · cases h
  | fence i =>
    rw [move] at h
    split at h
    · rename_i th hi
      cases h
      exact ⟨i, _, _, hi, rfl, (fence_spec (inv.tvOk _ _ hi)).2, Or.inl rfl⟩
    · cases h

/-- Who has taken an element goes on knowing what it knew then. -/
def Knows (s : Sys) : Prop := ∀ e ∈ s.taken, ∃ th, s.threads[e.thread]? = some th ∧ Below e.view th.tv.cur

theorem move_knows {s s' : Sys} {tk : Tk} {hd : Hd} {m : Move} (inv : Inv s tk hd) (hk : Knows s) (h : move s m = some s') : Knows s' := by
  obtain ⟨i, th, th', hi, hs, hb, ht⟩ := move_grows inv h
  have hold : ∀ e ∈ s.taken, ∃ x, s'.threads[e.thread]? = some x ∧ Below e.view x.tv.cur := by
    intro e he
    obtain ⟨x, hx, hbx⟩ := hk e he
    rw [hs]
    by_cases hc : e.thread = i
    · rw [hc] at hx ⊢
      rw [hi] at hx
      cases hx
      exact ⟨th', set_get_self hi, hbx.trans hb⟩
    · exact ⟨x, (set_get_ne hc).trans hx, hbx⟩
  intro e he
  rcases ht with ht | ⟨x, v, ht⟩
  · rw [ht] at he
    exact hold e he
  · rw [ht] at he
    rcases List.mem_cons.mp he with rfl | he
    · refine ⟨th', ?_, hb⟩
      rw [hs]
      exact set_get_self hi
    · exact hold e he

theorem run_knows : ∀ (ms : List Move) {s s' : Sys} {tk : Tk} {hd : Hd}, Inv s tk hd → Knows s → run s ms = some s' → Knows s' := by
  intro ms
  induction ms with
  | nil => intro s s' tk hd _ hk h; cases h; exact hk
  | cons m ms ih =>
    intro s s' tk hd inv hk h
    rw [run] at h
    cases hm : move s m with
    | none => rw [hm] at h; cases h
    | some s1 =>
      rw [hm] at h
      obtain ⟨tk', hd', inv'⟩ := move_inv inv hm
      exact ih inv' (move_knows inv hk hm) h

/-- C221: whoever takes an element gets the value that was added and knows all writes, to any location, that the
adding thread knew when it called `add`. -/
theorem C221_seen {k : Nat} {s : Sys} (h : Reach k s) {e : Took} (he : e ∈ s.taken) : HandedOver s e := by
  obtain ⟨tk, hd, inv⟩ := reach_inv h
  exact (inv.took e he).2

/-- C221: after that, a read of anything else by the taker, of any kind and at any later time, gives the write that
the adding thread knew when it called `add`, or a later one. -/
theorem C221_read {k : Nat} {s s' : Sys} (h : Reach k s) {e : Took} (he : e ∈ s.taken) {x : List Nat} {n : Nat} {acq : Bool}
    (hr : move s (.read e.thread x n acq) = some s') : ∃ w, s.added[e.index]? = some (e.val, w) ∧ w (.user x) ≤ n := by
  have h' := h
  obtain ⟨tk, hd, inv⟩ := reach_inv h
  obtain ⟨w, h1, h2⟩ := (inv.took e he).2
  refine ⟨w, h1, ?_⟩
  obtain ⟨a, ms, hms⟩ := h'
  obtain ⟨th, hth, hb⟩ := run_knows ms (inv_init k a) (fun e he => nomatch he) hms e he
  rw [move] at hr
  split at hr
  · rename_i th1 hi
    rw [hth] at hi
    cases hi
    split at hr
    · rename_i v tv' hl
      obtain ⟨hle, _⟩ := load_spec inv.memOk (inv.tvOk _ _ hth) hl
      exact Nat.le_trans (Nat.le_trans (h2 _) (hb _)) hle
    · cases hr
  · cases hr

/-- The first element is added, after a write to something else; thread 1 takes it and reads the write. -/
def passing : List Move :=
  [.write 0 [5] 42 false, .add 7, .go 0 0, .go 0 0, .go 0 0, .poll 1, .go 1 1, .go 1 0, .go 1 0, .go 1 0, .go 1 0, .go 1 1, .go 1 0, .go 1 0]

example : ∃ s s', Reach 2 s ∧ s.taken.map (fun e => (e.thread, e.index, e.val)) = [(1, 0, 7)] ∧ s.added.map (fun a => a.2 (.user [5])) = [1] ∧
    move s (.read 1 [5] 1 false) = some s' ∧ move s (.read 1 [5] 0 false) = none :=
  ⟨_, _, ⟨0, passing, rfl⟩, rfl, rfl, rfl, rfl⟩

/-- C222: no element is taken twice. -/
theorem C222_once {k : Nat} {s : Sys} (h : Reach k s) : (s.taken.map Took.index).Nodup := by
  obtain ⟨tk, hd, inv⟩ := reach_inv h
  exact inv.once

/-- C222: when no call is under way, the elements that were taken are the first that were added: none is left out. -/
theorem C222_first {k : Nat} {s : Sys} (h : Reach k s) (hr : Rest s) (n : Nat) : (∃ e ∈ s.taken, e.index = n) ↔ n < s.taken.length := by
  obtain ⟨tk, hd, inv⟩ := reach_inv h
  rw [rest_length inv hr]
  exact (rest_taken inv hr n).symm

example : ∃ s, Reach 2 s ∧ Rest s ∧ s.taken.length = 1 :=
  ⟨_, ⟨0, passing, rfl⟩, fun th h => by
    have : th ∈ [_, _] := h
    rcases List.mem_cons.mp this with rfl | h
    · rfl
    · rw [List.mem_singleton.mp h], rfl⟩

/-- C223: no two accesses to the place of an element race, and every store comes after all earlier ones. -/
theorem C223_no_race {k : Nat} {s : Sys} (h : Reach k s) : s.ok = true := by
  obtain ⟨tk, hd, inv⟩ := reach_inv h
  exact inv.ok

example : ∃ s, Reach 2 s ∧ (s.mem (.slot 0)).length = 2 ∧ s.ok = true := ⟨_, ⟨0, passing, rfl⟩, rfl, rfl⟩

/-- The flag that is kept does fall when a place is touched by a thread that does not know the last access to it. -/
example : (write (write (fun _ : Loc => []) ⟨bot, bot⟩ (.slot 0) 7).1 ⟨bot, bot⟩ (.slot 0) 0).2.2 = false := rfl

/-- C224: a poll while no other call is under way takes an element, if one is left whose adding happened before the
poll, and if all earlier polls that came back without an element after taking a ticket happened before it as well. -/
theorem C224_finds_partial {k : Nat} {s s' : Sys} (h : Reach k s) (hr : Rest s) {i : Nat} {th th' : Th} (hi : s.threads[i]? = some th)
    (hleft : s.taken.length < th.tv.cur .tail) (hover : th.tv.cur .over = (s.mem .over).length)
    {ms : List Move} (ha : Alone i ms) (hrun : run s ms = some s') (hi' : s'.threads[i]? = some th') (hout : th'.pos = .out) :
    s'.taken.length = s.taken.length + 1 := by
  obtain ⟨tk, hd, inv⟩ := reach_inv h
  obtain ⟨ns, rfl⟩ := ha
  have hp := hr th (List.mem_of_getElem? hi)
  obtain ⟨tv, p⟩ := th
  dsimp only at hp
  subst hp
  have ho : outside s i = some tv := by
    unfold outside
    rw [hi]
  rw [run, move, ho] at hrun
  dsimp only [Option.bind_some] at hrun
  refine takes_poll (th := ⟨tv, .pTail⟩) (s := { s with threads := s.threads.set i ⟨tv, .pTail⟩ }) (set_get_self hi) rfl inv.memOk (inv.tvOk i ⟨tv, .out⟩ hi) inv.tailVal inv.countVal inv.overVal hover ?_ ns s' th' hrun hi' hout
  have h1 := rest_count inv hr
  have h2 := rest_length inv hr
  have h3 := inv.tkLen
  have h4 := inv.overLen
  have h5 := inv.headLen
  have h6 := inv.hdLen
  show (s.mem .count).length < tv.cur .tail + (s.mem .over).length
  have hl : s.taken.length < tv.cur .tail := hleft
  omega

example : ∃ s s' th th' ms, Reach 2 s ∧ Rest s ∧ s.threads[0]? = some th ∧ s.taken.length < th.tv.cur .tail ∧ th.tv.cur .over = (s.mem .over).length ∧
    Alone 0 ms ∧ run s ms = some s' ∧ s'.threads[0]? = some th' ∧ th'.pos = .out :=
  ⟨_, _, _, _, [.poll 0, .go 0 1, .go 0 0, .go 0 0, .go 0 0, .go 0 0, .go 0 1, .go 0 0, .go 0 0], ⟨0, [.add 7, .go 0 0, .go 0 0, .go 0 0], rfl⟩, fun th h => by
    have : th ∈ [_, _] := h
    rcases List.mem_cons.mp this with rfl | h
    · rfl
    · rw [List.mem_singleton.mp h], rfl, by decide, rfl, ⟨[1, 0, 0, 0, 0, 1, 0, 0], rfl⟩, rfl, rfl, rfl⟩

/-- Thread 0 adds an element; it and thread 1 both see it and take tickets; thread 1 comes back without an element;
thread 0 adds another. -/
def stale : List Move :=
  [.add 7, .go 0 0, .go 0 0, .go 0 0, .poll 1, .go 1 1, .go 1 0, .go 1 0,
    .poll 0, .go 0 1, .go 0 0, .go 0 0, .go 0 0, .go 0 0, .go 0 1, .go 0 0, .go 0 0,
    .go 1 0, .go 1 0, .go 1 1, .go 1 0, .add 8, .go 0 1, .go 0 0, .go 0 0]

/-- C224: refuted without the last condition: the adding thread itself polls, nobody else is inside a call, one of its
elements is left, and the poll comes back without it. -/
theorem C224_finds_wrong : ∃ s s' th th' ms, Reach 2 s ∧ Rest s ∧ s.threads[0]? = some th ∧ s.taken.length < th.tv.cur .tail ∧
    s.added.length = 2 ∧ Alone 0 ms ∧ run s ms = some s' ∧ s'.threads[0]? = some th' ∧ th'.pos = .out ∧ s'.taken.length = s.taken.length :=
  ⟨_, _, _, _, [.poll 0, .go 0 2, .go 0 0, .go 0 2], ⟨0, stale, rfl⟩, fun th h => by
    have : th ∈ [_, _] := h
    rcases List.mem_cons.mp this with rfl | h
    · rfl
    · rw [List.mem_singleton.mp h], rfl, by decide, rfl, ⟨[2, 0, 2], rfl⟩, rfl, rfl, rfl, rfl⟩

end Verif.Weak
