import Verif.Weak.Tickets
/-!
# What is always true of the queue
-/
namespace Verif.Weak

/-- What comes with having seen that `n` elements were added. -/
def pub (mem : Mem Loc) (n : Nat) : View Loc := ((msgAt (mem .tail) n).getD ⟨0, bot⟩).view

/-- The holders of the indexes that `headIndex.fetch_add` gave out, and whether they are done. -/
abbrev Hd := List (Nat × Bool)

/-- What is true of thread `j` because of where it is. -/
def PosOk (a : Nat) (mem : Mem Loc) (tk : Tk) (hd : Hd) (j : Nat) (cur : View Loc) : Pos → Prop
  | .out => True
  | .addLoad _ w => j = a ∧ Below w cur
  | .addWrite _ w t => j = a ∧ Below w cur ∧ t = (mem .tail).length
  | .addStore v w t => j = a ∧ Below w cur ∧ t = (mem .tail).length ∧ 1 ≤ cur (.slot t) ∧ ∃ g : Msg Loc, mem (.slot t) = [g] ∧ g.val = v
  | .pTail => True
  | .pOver _ => True
  | .pCount _ o => o ≤ (mem .over).length
  | .pFence o => o ≤ (mem .over).length
  | .pTicket o => o ≤ (mem .over).length
  | .pAgain o m => tk[m]? = some (j, St.und) ∧ o ≤ fails (tk.take m)
  | .pHead m => ∃ t, tk[m]? = some (j, St.pass t) ∧ Below (pub mem t) cur
  | .pSlot i => hd[i]? = some (j, false) ∧ Below (pub mem (i + 1)) cur
  | .pFail m => tk[m]? = some (j, St.fail)

/-- Where the holder of a ticket is. -/
def Holds (m : Nat) : St → Pos → Prop
  | .und, p => ∃ o, p = .pAgain o m
  | .fail, p => p = .pFail m
  | .failed, _ => True
  | .pass _, p => p = .pHead m
  | .gone _, _ => True

structure Inv (s : Sys) (tk : Tk) (hd : Hd) : Prop where
  memOk : MemOk s.mem
  tvOk : ∀ (j : Nat) (th : Th), s.threads[j]? = some th → TvOk s.mem th.tv
  ok : s.ok = true
  addLen : s.added.length = (s.mem .tail).length
  tailVal : ∀ (n : Nat) g, (s.mem .tail)[n]? = some g → g.val = n + 1
  tailSlot : ∀ (n : Nat) g, (s.mem .tail)[n]? = some g → 1 ≤ g.view (.slot n)
  tailAdd : ∀ (n : Nat) g v w, (s.mem .tail)[n]? = some g → s.added[n]? = some (v, w) → Below w g.view
  mono : ∀ n n', n ≤ n' → n' ≤ (s.mem .tail).length → Below (pub s.mem n) (pub s.mem n')
  prod : ∀ th : Th, s.threads[s.adder]? = some th → th.tv.cur .tail = (s.mem .tail).length ∧ Below (pub s.mem (s.mem .tail).length) th.tv.cur
  countVal : ∀ (n : Nat) g, (s.mem .count)[n]? = some g → g.val = n + 1
  overVal : ∀ (n : Nat) g, (s.mem .over)[n]? = some g → g.val = n + 1
  headVal : ∀ (n : Nat) g, (s.mem .head)[n]? = some g → g.val = n + 1
  tkLen : tk.length = (s.mem .count).length
  overLen : (s.mem .over).length = tk.countP isFailed
  headLen : (s.mem .head).length = tk.countP isGone
  hdLen : hd.length = (s.mem .head).length
  passed : ∀ m j t : Nat, tk[m]? = some (j, St.pass t) → m + 1 ≤ t + fails (tk.take m) ∧ t ≤ (s.mem .tail).length
  gone : ∀ m j t : Nat, tk[m]? = some (j, St.gone t) → (m + 1 ≤ t + fails (tk.take m) ∧ t ≤ (s.mem .tail).length) ∧ Below (pub s.mem t) (newest (s.mem .head)).view
  posOk : ∀ (j : Nat) (th : Th), s.threads[j]? = some th → PosOk s.adder s.mem tk hd j th.tv.cur th.pos
  holds : ∀ (m j : Nat) st, tk[m]? = some (j, st) → ∃ th, s.threads[j]? = some th ∧ Holds m st th.pos
  slotNew : ∀ i, (s.mem .tail).length < i → s.mem (.slot i) = []
  slotNext : s.mem (.slot (s.mem .tail).length) = [] ∨ ∃ th v w t, s.threads[s.adder]? = some th ∧ th.pos = .addStore v w t
  slotFull : ∀ i, i < (s.mem .tail).length → (∀ j : Nat, hd[i]? ≠ some (j, true)) → ∃ g v w, s.mem (.slot i) = [g] ∧ s.added[i]? = some (v, w) ∧ g.val = v
  hdPos : ∀ i j : Nat, hd[i]? = some (j, false) → ∃ th, s.threads[j]? = some th ∧ th.pos = .pSlot i
  hdDone : ∀ i j : Nat, hd[i]? = some (j, true) → ∃ e ∈ s.taken, e.index = i
  took : ∀ e ∈ s.taken, (∃ j, hd[e.index]? = some (j, true)) ∧ HandedOver s e
  once : (s.taken.map Took.index).Nodup

theorem pub_push (mem : Mem Loc) {l : Loc} (h : l ≠ .tail) (g : Msg Loc) (n : Nat) : pub (push mem l g) n = pub mem n := by
  unfold pub
  rw [push_other mem (Ne.symm h)]

theorem pub_get {mem : Mem Loc} {n : Nat} {g : Msg Loc} (h : msgAt (mem .tail) n = some g) : pub mem n = g.view := by
  unfold pub
  rw [h]
  rfl

/-- The newest of numbered writes. -/
theorem newest_val {h : List (Msg Loc)} (hv : ∀ n g, h[n]? = some g → g.val = n + 1) : (newest h).val = h.length := by
  unfold newest
  cases e : h.length with
  | zero => rfl
  | succ n =>
    show (h[n]?.getD _).val = _
    have : n < h.length := by omega
    rw [List.getElem?_eq_getElem this]
    exact hv n _ (List.getElem?_eq_getElem this)

theorem msgAt_val {h : List (Msg Loc)} (hv : ∀ n g, h[n]? = some g → g.val = n + 1) {n : Nat} {g : Msg Loc} (e : msgAt h n = some g) : g.val = n := by
  cases n with
  | zero => cases e; rfl
  | succ n => exact hv n g e

theorem push_val {mem : Mem Loc} {l : Loc} {x : Msg Loc} (hv : ∀ (n : Nat) g, (mem l)[n]? = some g → g.val = n + 1) (hx : x.val = (mem l).length + 1) :
    ∀ n g, (push mem l x l)[n]? = some g → g.val = n + 1 := by
  intro n g h
  rw [push_self] at h
  by_cases hn : n < (mem l).length
  · rw [List.getElem?_append_left hn] at h
    exact hv n g h
  · rw [List.getElem?_append_right (by omega)] at h
    obtain ⟨hl, hg⟩ := List.getElem?_eq_some_iff.mp h
    simp at hl
    have : n = (mem l).length := by omega
    subst this
    simp at hg
    rw [← hg, hx]

/-- The threads after one of them has changed. -/
theorem get_set {ts : List Th} {i j : Nat} {th th' x : Th} (hi : ts[i]? = some th) (h : (ts.set i th')[j]? = some x) :
    (j = i ∧ x = th') ∨ (j ≠ i ∧ ts[j]? = some x) := by
  by_cases e : j = i
  · subst e
    obtain ⟨hl, _⟩ := List.getElem?_eq_some_iff.mp hi
    rw [List.getElem?_set_self hl] at h
    exact Or.inl ⟨rfl, (Option.some.inj h).symm⟩
  · rw [List.getElem?_set_ne (Ne.symm e)] at h
    exact Or.inr ⟨e, h⟩

theorem set_get_self {ts : List Th} {i : Nat} {th th' : Th} (hi : ts[i]? = some th) : (ts.set i th')[i]? = some th' := by
  obtain ⟨hl, _⟩ := List.getElem?_eq_some_iff.mp hi
  exact List.getElem?_set_self hl

theorem set_get_ne {ts : List Th} {i j : Nat} {th' : Th} (h : j ≠ i) : (ts.set i th')[j]? = ts[j]? := List.getElem?_set_ne (Ne.symm h)

theorem inv_init (k a : Nat) : Inv (init k a) [] [] := by
  have hth : ∀ (j : Nat) (th : Th), (init k a).threads[j]? = some th → th = ⟨⟨bot, bot⟩, .out⟩ := by
    intro j th h
    exact List.eq_of_mem_replicate (List.mem_of_getElem? h)
  refine ⟨?_, ?_, rfl, rfl, ?_, ?_, ?_, ?_, ?_, ?_, ?_, ?_, rfl, rfl, rfl, rfl, ?_, ?_, ?_, ?_, ?_, Or.inl rfl, ?_, ?_, ?_, ?_, List.nodup_nil⟩
  · intro l g h; cases h
  · intro j th h; rw [hth j th h]; exact ⟨bounded_bot _, bounded_bot _, Below.refl _⟩
  · intro n g h; cases h
  · intro n g h; cases h
  · intro n g v w h; cases h
  · intro n n' h1 h2; cases n' with
    | zero => cases h1; exact Below.refl _
    | succ n' => cases h2
  · intro th h; rw [hth a th h]; exact ⟨rfl, bot_below _⟩
  · intro n g h; cases h
  · intro n g h; cases h
  · intro n g h; cases h
  · intro m j t h; cases h
  · intro m j t h; cases h
  · intro j th h; rw [hth j th h]; exact True.intro
  · intro m j st h; cases h
  · intro i _; rfl
  · intro i h; cases h
  · intro i j h; cases h
  · intro i j h; cases h
  · intro e h; cases h

/-! ## Each step -/

/-- A position without tickets and without an index, not just before a store. -/
def Plain : Pos → Bool
  | .addStore .. => false
  | .pAgain .. => false
  | .pHead _ => false
  | .pSlot _ => false
  | .pFail _ => false
  | _ => true

theorem holds_plain {m : Nat} {st : St} {p q : Pos} (hp : Plain p = true) (h : Holds m st p) : Holds m st q := by
  cases st with
  | und => obtain ⟨o, rfl⟩ := h; cases hp
  | fail => rw [Holds] at h; subst h; cases hp
  | failed => exact True.intro
  | pass t => rw [Holds] at h; subst h; cases hp
  | gone t => exact True.intro

variable {s : Sys} {tk : Tk} {hd : Hd} {i : Nat} {th : Th}

/-- Only the thread changes. -/
theorem Inv.thread (inv : Inv s tk hd) (hi : s.threads[i]? = some th) (hp : Plain th.pos = true) {th' : Th} (htv : TvOk s.mem th'.tv)
    (hb : Below th.tv.cur th'.tv.cur) (hpos : PosOk s.adder s.mem tk hd i th'.tv.cur th'.pos) (em : Nat) :
    Inv { s with threads := s.threads.set i th', empty := em } tk hd := by
  refine { inv with
    tvOk := fun j x h => ?_, prod := fun x h => ?_, posOk := fun j x h => ?_, holds := fun m j st h => ?_,
    slotNext := ?_, hdPos := fun n j h => ?_, took := inv.took }
  · rcases get_set hi h with ⟨rfl, rfl⟩ | ⟨_, h⟩
    · exact htv
    · exact inv.tvOk j x h
  · dsimp only at h ⊢
    rcases get_set hi h with ⟨rfl, rfl⟩ | ⟨_, h⟩
    · obtain ⟨h1, h2⟩ := inv.prod th hi
      refine ⟨Nat.le_antisymm (htv.cur _) ?_, h2.trans hb⟩
      rw [← h1]
      exact hb _
    · exact inv.prod x h
  · rcases get_set hi h with ⟨rfl, rfl⟩ | ⟨_, h⟩
    · exact hpos
    · exact inv.posOk j x h
  · obtain ⟨x, hx, hh⟩ := inv.holds m j st h
    by_cases e : j = i
    · subst e
      rw [hi] at hx
      cases hx
      exact ⟨th', set_get_self hi, holds_plain hp hh⟩
    · exact ⟨x, (set_get_ne e).trans hx, hh⟩
  · rcases inv.slotNext with h | ⟨x, v, w, t, hx, hpx⟩
    · exact Or.inl h
    · refine Or.inr ⟨x, v, w, t, ?_, hpx⟩
      by_cases e : s.adder = i
      · subst e
        rw [hi] at hx
        cases hx
        rw [hpx] at hp
        cases hp
      · exact (set_get_ne e).trans hx
  · obtain ⟨x, hx, hpx⟩ := inv.hdPos n j h
    by_cases e : j = i
    · subst e
      rw [hi] at hx
      cases hx
      rw [hpx] at hp
      cases hp
    · exact ⟨x, (set_get_ne e).trans hx, hpx⟩

end Verif.Weak
