import Verif.Weak.Inv
/-!
# The steps that write
-/
namespace Verif.Weak

variable {s : Sys} {tk : Tk} {hd : Hd} {i : Nat} {th : Th}

theorem lt_of_get {α : Type} {l : List α} {n : Nat} {x : α} (h : l[n]? = some x) : n < l.length := (List.getElem?_eq_some_iff.mp h).1

/-- The number of indexes given out is at most the number of elements. -/
theorem Inv.head_le (inv : Inv s tk hd) : (s.mem .head).length ≤ (s.mem .tail).length := by
  rw [inv.headLen]
  by_cases h : 0 < tk.countP isGone
  · obtain ⟨m, j, t, hm, hle⟩ := gone_le _ tk rfl h (fun m j t hm => (inv.gone m j t hm).1.1)
    exact Nat.le_trans hle (inv.gone m j t hm).1.2
  · omega

/-- What is true of a thread stays true when others move. -/
theorem PosOk.frame {a : Nat} {mem mem' : Mem Loc} {tk tk' : Tk} {hd hd' : Hd} {j : Nat} {cur : View Loc} {p : Pos} (h : PosOk a mem tk hd j cur p)
    (htail : mem' .tail = mem .tail) (hslot : ∀ t, (mem .tail).length ≤ t → mem' (.slot t) = mem (.slot t))
    (hover : (mem .over).length ≤ (mem' .over).length)
    (htk : ∀ (m : Nat) st, tk[m]? = some (j, st) → tk'[m]? = some (j, st))
    (hf : ∀ m, m < tk.length → fails (tk.take m) ≤ fails (tk'.take m))
    (hhd : ∀ n : Nat, hd[n]? = some (j, false) → hd'[n]? = some (j, false)) : PosOk a mem' tk' hd' j cur p := by
  have hpub : ∀ n, pub mem' n = pub mem n := by
    intro n
    unfold pub
    rw [htail]
  cases p with
  | out => exact h
  | addLoad v w => exact h
  | addWrite v w t => exact ⟨h.1, h.2.1, by rw [htail]; exact h.2.2⟩
  | addStore v w t =>
    obtain ⟨h1, h2, h3, h4, g, hg, hv⟩ := h
    exact ⟨h1, h2, by rw [htail]; exact h3, h4, g, by rw [hslot t (Nat.le_of_eq h3.symm)]; exact hg, hv⟩
  | pTail => exact h
  | pOver t => exact h
  | pCount t o => exact Nat.le_trans h hover
  | pFence o => exact Nat.le_trans h hover
  | pTicket o => exact Nat.le_trans h hover
  | pAgain o m => exact ⟨htk _ _ h.1, Nat.le_trans h.2 (hf m (lt_of_get h.1))⟩
  | pHead m =>
    obtain ⟨t, h1, h2⟩ := h
    exact ⟨t, htk _ _ h1, by rw [hpub]; exact h2⟩
  | pSlot n => exact ⟨hhd _ h.1, by rw [hpub]; exact h.2⟩
  | pFail m => exact htk _ _ h

/-- The producer's own knowledge grows with it. -/
theorem Inv.prod_thread (inv : Inv s tk hd) (hi : s.threads[i]? = some th) {th' : Th} {mem' : Mem Loc} (htail : mem' .tail = s.mem .tail)
    (htv : TvOk mem' th'.tv) (hb : Below th.tv.cur th'.tv.cur) :
    ∀ x : Th, (s.threads.set i th')[s.adder]? = some x → x.tv.cur .tail = (mem' .tail).length ∧ Below (pub mem' (mem' .tail).length) x.tv.cur := by
  intro x h
  have hpub : ∀ n, pub mem' n = pub s.mem n := by
    intro n
    unfold pub
    rw [htail]
  rw [hpub, htail]
  rcases get_set hi h with ⟨e, rfl⟩ | ⟨_, h⟩
  · subst e
    obtain ⟨h1, h2⟩ := inv.prod th hi
    refine ⟨Nat.le_antisymm ?_ ?_, h2.trans hb⟩
    · have := htv.cur .tail
      rw [htail] at this
      exact this
    · rw [← h1]
      exact hb _
  · exact inv.prod x h

theorem Inv.tv_push (inv : Inv s tk hd) (hi : s.threads[i]? = some th) {l : Loc} {g : Msg Loc} {th' : Th} (htv : TvOk (push s.mem l g) th'.tv) :
    ∀ (j : Nat) (x : Th), (s.threads.set i th')[j]? = some x → TvOk (push s.mem l g) x.tv := by
  intro j x h
  rcases get_set hi h with ⟨_, rfl⟩ | ⟨_, h⟩
  · exact htv
  · exact (inv.tvOk j x h).push _ _

/-- What is true of a thread stays true when it knows more. -/
theorem PosOk.more {a : Nat} {mem : Mem Loc} {tk : Tk} {hd : Hd} {j : Nat} {cur cur' : View Loc} {p : Pos} (h : PosOk a mem tk hd j cur p)
    (hb : Below cur cur') : PosOk a mem tk hd j cur' p := by
  cases p with
  | addLoad v w => exact ⟨h.1, h.2.trans hb⟩
  | addWrite v w t => exact ⟨h.1, h.2.1.trans hb, h.2.2⟩
  | addStore v w t => exact ⟨h.1, h.2.1.trans hb, h.2.2.1, Nat.le_trans h.2.2.2.1 (hb _), h.2.2.2.2⟩
  | pHead m =>
    obtain ⟨t, h1, h2⟩ := h
    exact ⟨t, h1, h2.trans hb⟩
  | pSlot n => exact ⟨h.1, h.2.trans hb⟩
  | _ => exact h

/-- A thread comes to know more. -/
theorem Inv.learn (inv : Inv s tk hd) (hi : s.threads[i]? = some th) {tv' : TView Loc} (htv : TvOk s.mem tv') (hb : Below th.tv.cur tv'.cur) :
    Inv { s with threads := s.threads.set i ⟨tv', th.pos⟩ } tk hd := by
  refine { inv with
    tvOk := fun j x h => ?_, prod := inv.prod_thread hi rfl (th' := ⟨tv', th.pos⟩) htv hb, posOk := fun j x h => ?_, holds := fun m j st h => ?_,
    slotNext := ?_, hdPos := fun n j h => ?_, took := inv.took }
  · rcases get_set hi h with ⟨rfl, rfl⟩ | ⟨_, h⟩
    · exact htv
    · exact inv.tvOk j x h
  · rcases get_set hi h with ⟨rfl, rfl⟩ | ⟨_, h⟩
    · exact (inv.posOk j th hi).more hb
    · exact inv.posOk j x h
  · obtain ⟨x, hx, hh⟩ := inv.holds m j st h
    by_cases e : j = i
    · subst e
      rw [hi] at hx
      cases hx
      exact ⟨_, set_get_self hi, hh⟩
    · exact ⟨x, (set_get_ne e).trans hx, hh⟩
  · rcases inv.slotNext with h | ⟨x, v, w, t, hx, hpx⟩
    · exact Or.inl h
    · by_cases e : s.adder = i
      · subst e
        rw [hi] at hx
        cases hx
        exact Or.inr ⟨_, v, w, t, set_get_self hi, hpx⟩
      · exact Or.inr ⟨x, v, w, t, (set_get_ne e).trans hx, hpx⟩
  · obtain ⟨x, hx, hpx⟩ := inv.hdPos n j h
    by_cases e : j = i
    · subst e
      rw [hi] at hx
      cases hx
      exact ⟨_, set_get_self hi, hpx⟩
    · exact ⟨x, (set_get_ne e).trans hx, hpx⟩

/-- Something else is written. -/
theorem Inv.user (inv : Inv s tk hd) (hi : s.threads[i]? = some th) {x : List Nat} {g : Msg Loc} {tv' : TView Loc}
    (hm : MemOk (push s.mem (.user x) g)) (htv : TvOk (push s.mem (.user x) g) tv') (hb : Below th.tv.cur tv'.cur) :
    Inv { s with mem := push s.mem (.user x) g, threads := s.threads.set i ⟨tv', th.pos⟩ } tk hd := by
  have e : ∀ l, (∀ y, l ≠ Loc.user y) → push s.mem (.user x) g l = s.mem l := fun l h => push_other _ (h x) _
  have etail := e .tail (by intro y h; cases h)
  have ehead := e .head (by intro y h; cases h)
  have ecount := e .count (by intro y h; cases h)
  have eover := e .over (by intro y h; cases h)
  have eslot : ∀ t, push s.mem (.user x) g (.slot t) = s.mem (.slot t) := fun t => e _ (by intro y h; cases h)
  have hpub : ∀ n, pub (push s.mem (.user x) g) n = pub s.mem n := fun n => pub_push _ (by intro h; cases h) _ n
  constructor
  · exact hm
  · exact inv.tv_push hi htv
  · exact inv.ok
  · show s.added.length = (push s.mem (.user x) g .tail).length
    rw [etail]; exact inv.addLen
  · show ∀ (n : Nat) g', (push s.mem (.user x) g .tail)[n]? = _ → _
    rw [etail]; exact inv.tailVal
  · show ∀ (n : Nat) g', (push s.mem (.user x) g .tail)[n]? = _ → _
    rw [etail]; exact inv.tailSlot
  · show ∀ (n : Nat) g' v w, (push s.mem (.user x) g .tail)[n]? = _ → _
    rw [etail]; exact inv.tailAdd
  · intro n n' h1 h2
    rw [hpub, hpub]
    exact inv.mono n n' h1 (by rw [← etail]; exact h2)
  · exact inv.prod_thread hi etail htv hb
  · show ∀ (n : Nat) g', (push s.mem (.user x) g .count)[n]? = _ → _
    rw [ecount]; exact inv.countVal
  · show ∀ (n : Nat) g', (push s.mem (.user x) g .over)[n]? = _ → _
    rw [eover]; exact inv.overVal
  · show ∀ (n : Nat) g', (push s.mem (.user x) g .head)[n]? = _ → _
    rw [ehead]; exact inv.headVal
  · show _ = (push s.mem (.user x) g .count).length
    rw [ecount]; exact inv.tkLen
  · show (push s.mem (.user x) g .over).length = _
    rw [eover]; exact inv.overLen
  · show (push s.mem (.user x) g .head).length = _
    rw [ehead]; exact inv.headLen
  · show _ = (push s.mem (.user x) g .head).length
    rw [ehead]; exact inv.hdLen
  · show ∀ m j t : Nat, _ → _ ∧ t ≤ (push s.mem (.user x) g .tail).length
    rw [etail]; exact inv.passed
  · intro m j t h
    show (_ ∧ t ≤ (push s.mem (.user x) g .tail).length) ∧ Below (pub (push s.mem (.user x) g) t) (newest (push s.mem (.user x) g .head)).view
    rw [etail, ehead, hpub]; exact inv.gone m j t h
  · intro j y h
    rcases get_set hi h with ⟨rfl, rfl⟩ | ⟨_, h⟩
    · exact ((inv.posOk j th hi).more hb).frame etail (fun t _ => eslot t) (Nat.le_of_eq (congrArg List.length eover.symm)) (fun _ _ h => h) (fun _ _ => Nat.le_refl _) (fun _ h => h)
    · exact (inv.posOk j y h).frame etail (fun t _ => eslot t) (Nat.le_of_eq (congrArg List.length eover.symm)) (fun _ _ h => h) (fun _ _ => Nat.le_refl _) (fun _ h => h)
  · intro m j st h
    obtain ⟨y, hy, hh⟩ := inv.holds m j st h
    by_cases e : j = i
    · subst e
      rw [hi] at hy
      cases hy
      exact ⟨_, set_get_self hi, hh⟩
    · exact ⟨y, (set_get_ne e).trans hy, hh⟩
  · intro n h
    show push s.mem (.user x) g (.slot n) = []
    rw [eslot]
    exact inv.slotNew n (by rw [← etail]; exact h)
  · show push s.mem (.user x) g (.slot (push s.mem (.user x) g .tail).length) = [] ∨ _
    rw [etail, eslot]
    rcases inv.slotNext with h | ⟨y, v, w, t, hy, hpy⟩
    · exact Or.inl h
    · by_cases e : s.adder = i
      · subst e
        rw [hi] at hy
        cases hy
        exact Or.inr ⟨_, v, w, t, set_get_self hi, hpy⟩
      · exact Or.inr ⟨y, v, w, t, (set_get_ne e).trans hy, hpy⟩
  · intro n h1 h2
    show ∃ g' v w, push s.mem (.user x) g (.slot n) = [g'] ∧ _
    rw [eslot]
    exact inv.slotFull n (by rw [← etail]; exact h1) h2
  · intro n j h
    obtain ⟨y, hy, hpy⟩ := inv.hdPos n j h
    by_cases e : j = i
    · subst e
      rw [hi] at hy
      cases hy
      exact ⟨_, set_get_self hi, hpy⟩
    · exact ⟨y, (set_get_ne e).trans hy, hpy⟩
  · exact inv.hdDone
  · exact inv.took
  · exact inv.once

/-- A ticket is taken. -/
theorem Inv.ticket (inv : Inv s tk hd) (hi : s.threads[i]? = some th) {o : Nat} (hp : th.pos = .pTicket o) {w : View Loc} {tv' : TView Loc}
    (hm : MemOk (push s.mem .count ⟨(newest (s.mem .count)).val + 1, w⟩)) (htv : TvOk (push s.mem .count ⟨(newest (s.mem .count)).val + 1, w⟩) tv')
    (hb : Below th.tv.cur tv'.cur) :
    Inv { s with mem := push s.mem .count ⟨(newest (s.mem .count)).val + 1, w⟩, threads := s.threads.set i ⟨tv', .pAgain o (newest (s.mem .count)).val⟩ }
      (tk ++ [(i, .und)]) hd := by
  have hv := newest_val inv.countVal
  have ho := inv.posOk i th hi
  rw [hp] at ho
  have htv2 := inv.tv_push hi htv (th' := ⟨tv', .pAgain o (newest (s.mem .count)).val⟩)
  have hcv := push_val (x := ⟨(newest (s.mem .count)).val + 1, w⟩) inv.countVal (congrArg (· + 1) hv)
  generalize hg : (⟨(newest (s.mem .count)).val + 1, w⟩ : Msg Loc) = g at *
  have e : ∀ l, l ≠ Loc.count → push s.mem .count g l = s.mem l := fun l h => push_other _ h _
  have etail := e .tail (by intro h; cases h)
  have ehead := e .head (by intro h; cases h)
  have eover := e .over (by intro h; cases h)
  have eslot : ∀ t, push s.mem .count g (.slot t) = s.mem (.slot t) := fun t => e _ (by intro h; cases h)
  have hpub : ∀ n, pub (push s.mem .count g) n = pub s.mem n := fun n => pub_push _ (by intro h; cases h) _ n
  have hprod := inv.prod_thread hi (th' := ⟨tv', .pAgain o (newest (s.mem .count)).val⟩) etail htv hb
  have hnew : ∀ (m j : Nat) st, (tk ++ [(i, St.und)])[m]? = some (j, st) → tk[m]? = some (j, st) ∨ (m = tk.length ∧ j = i ∧ st = .und) := by
    intro m j st h
    by_cases hl : m < tk.length
    · rw [List.getElem?_append_left hl] at h
      exact Or.inl h
    · rw [List.getElem?_append_right (by omega)] at h
      have h1 := lt_of_get h
      simp at h1
      have : m = tk.length := by omega
      subst this
      simp at h
      exact Or.inr ⟨rfl, h.1.symm, h.2.symm⟩
  have htake : ∀ m, m < tk.length → (tk ++ [(i, St.und)]).take m = tk.take m := fun m h => List.take_append_of_le_length (by omega)
  constructor
  case ok => exact inv.ok
  case tvOk => exact htv2
  case prod => exact hprod
  case memOk => exact hm
  case countVal => exact hcv
  all_goals dsimp only
  all_goals try simp only [etail, ehead, eover, eslot, hpub]
  case addLen => exact inv.addLen
  case tailVal => exact inv.tailVal
  case tailSlot => exact inv.tailSlot
  case tailAdd => exact inv.tailAdd
  case mono => exact inv.mono
  case overVal => exact inv.overVal
  case headVal => exact inv.headVal
  case tkLen => rw [push_self, List.length_append, List.length_append, inv.tkLen]; rfl
  case overLen => rw [List.countP_append, inv.overLen]; rfl
  case headLen => rw [List.countP_append, inv.headLen]; rfl
  case hdLen => exact inv.hdLen
  case passed =>
    intro m j t h
    rcases hnew m j _ h with h | ⟨_, _, h⟩
    · rw [htake m (lt_of_get h)]
      exact inv.passed m j t h
    · cases h
  case gone =>
    intro m j t h
    rcases hnew m j _ h with h | ⟨_, _, h⟩
    · rw [htake m (lt_of_get h)]
      exact inv.gone m j t h
    · cases h
  case posOk =>
    intro j y h
    rcases get_set hi h with ⟨rfl, rfl⟩ | ⟨_, h⟩
    · rw [hv]
      refine ⟨?_, ?_⟩
      · rw [← inv.tkLen, List.getElem?_append_right (Nat.le_refl _)]
        simp
      · rw [← inv.tkLen, List.take_append_of_le_length (Nat.le_refl _), List.take_of_length_le (Nat.le_refl _)]
        refine Nat.le_trans ho ?_
        rw [inv.overLen]
        exact failed_fails tk
    · refine (inv.posOk j y h).frame etail (fun t _ => eslot t) (Nat.le_of_eq (congrArg List.length eover.symm)) (fun m st h => ?_) (fun m h => ?_) (fun _ h => h)
      · rw [List.getElem?_append_left (lt_of_get h)]
        exact h
      · rw [htake m h]
        exact Nat.le_refl _
  case holds =>
    intro m j st h
    rcases hnew m j st h with h | ⟨rfl, rfl, rfl⟩
    · obtain ⟨y, hy, hh⟩ := inv.holds m j st h
      by_cases e : j = i
      · subst e
        rw [hi] at hy
        cases hy
        exact ⟨_, set_get_self hi, holds_plain (by rw [hp]; rfl) hh⟩
      · exact ⟨y, (set_get_ne e).trans hy, hh⟩
    · exact ⟨_, set_get_self hi, o, by rw [hv, inv.tkLen]⟩
  case slotNew => exact inv.slotNew
  case slotNext =>
    rcases inv.slotNext with h | ⟨y, v, w, t, hy, hpy⟩
    · exact Or.inl h
    · refine Or.inr ⟨y, v, w, t, ?_, hpy⟩
      by_cases e : s.adder = i
      · subst e
        rw [hi] at hy
        cases hy
        rw [hpy] at hp
        cases hp
      · exact (set_get_ne e).trans hy
  case slotFull => exact inv.slotFull
  case hdPos =>
    intro n j h
    obtain ⟨y, hy, hpy⟩ := inv.hdPos n j h
    by_cases e : j = i
    · subst e
      rw [hi] at hy
      cases hy
      rw [hpy] at hp
      cases hp
    · exact ⟨y, (set_get_ne e).trans hy, hpy⟩
  case hdDone => exact inv.hdDone
  case took => exact inv.took
  case once => exact inv.once

theorem set_get {α : Type} {l : List α} {m m' : Nat} {x y : α} (h : (l.set m x)[m']? = some y) : (m' = m ∧ y = x) ∨ (m' ≠ m ∧ l[m']? = some y) := by
  by_cases e : m' = m
  · subst e
    have hl := lt_of_get h
    rw [List.length_set] at hl
    rw [List.getElem?_set_self hl] at h
    exact Or.inl ⟨rfl, (Option.some.inj h).symm⟩
  · rw [List.getElem?_set_ne (Ne.symm e)] at h
    exact Or.inr ⟨e, h⟩

theorem Inv.slotNext_thread (inv : Inv s tk hd) (hi : s.threads[i]? = some th) (hp : ∀ v w t, th.pos ≠ .addStore v w t) (th' : Th) :
    s.mem (.slot (s.mem .tail).length) = [] ∨ ∃ x v w t, (s.threads.set i th')[s.adder]? = some x ∧ x.pos = .addStore v w t := by
  rcases inv.slotNext with h | ⟨y, v, w, t, hy, hpy⟩
  · exact Or.inl h
  · refine Or.inr ⟨y, v, w, t, ?_, hpy⟩
    by_cases e : s.adder = i
    · subst e
      rw [hi] at hy
      cases hy
      exact absurd hpy (hp v w t)
    · exact (set_get_ne e).trans hy

theorem Inv.hdPos_thread (inv : Inv s tk hd) (hi : s.threads[i]? = some th) (hp : ∀ n, th.pos ≠ .pSlot n) (th' : Th) :
    ∀ n j : Nat, hd[n]? = some (j, false) → ∃ x, (s.threads.set i th')[j]? = some x ∧ x.pos = .pSlot n := by
  intro n j h
  obtain ⟨y, hy, hpy⟩ := inv.hdPos n j h
  by_cases e : j = i
  · subst e
    rw [hi] at hy
    cases hy
    exact absurd hpy (hp n)
  · exact ⟨y, (set_get_ne e).trans hy, hpy⟩

theorem Inv.holds_thread (inv : Inv s tk hd) (hi : s.threads[i]? = some th) (th' : Th) {m j : Nat} {st : St} (h : tk[m]? = some (j, st))
    (hq : Holds m st th.pos → Holds m st th'.pos) : ∃ x, (s.threads.set i th')[j]? = some x ∧ Holds m st x.pos := by
  obtain ⟨y, hy, hh⟩ := inv.holds m j st h
  by_cases e : j = i
  · subst e
    rw [hi] at hy
    cases hy
    exact ⟨th', set_get_self hi, hq hh⟩
  · exact ⟨y, (set_get_ne e).trans hy, hh⟩

/-- A thread holds one ticket at a time. -/
theorem holds_other {m m' o : Nat} {st : St} {p q : Pos} (hp : p = .pAgain o m ∨ p = .pHead m ∨ p = .pFail m) (hne : m' ≠ m) (h : Holds m' st p) :
    Holds m' st q := by
  cases st with
  | und =>
    obtain ⟨o', e⟩ := h
    rcases hp with hp | hp | hp <;> rw [hp] at e <;> cases e
    exact absurd rfl hne
  | fail =>
    rw [Holds] at h
    rcases hp with hp | hp | hp <;> rw [hp] at h <;> cases h
    exact absurd rfl hne
  | failed => exact True.intro
  | pass t =>
    rw [Holds] at h
    rcases hp with hp | hp | hp <;> rw [hp] at h <;> cases h
    exact absurd rfl hne
  | gone t => exact True.intro

/-- The ticket is decided. -/
theorem Inv.again (inv : Inv s tk hd) (hi : s.threads[i]? = some th) {o m : Nat} (hp : th.pos = .pAgain o m) {st : St} {th' : Th}
    (htv : TvOk s.mem th'.tv) (hb : Below th.tv.cur th'.tv.cur)
    (hst : (st = .fail ∧ th'.pos = .pFail m) ∨ ∃ t, st = .pass t ∧ th'.pos = .pHead m ∧ m < t + o ∧ t ≤ (s.mem .tail).length ∧ Below (pub s.mem t) th'.tv.cur) :
    Inv { s with threads := s.threads.set i th' } (tk.set m (i, st)) hd := by
  have ho := inv.posOk i th hi
  rw [hp] at ho
  obtain ⟨hm, hof⟩ := ho
  have hml := lt_of_get hm
  have hng : isGone (i, st) = false := by
    rcases hst with ⟨rfl, _⟩ | ⟨t, rfl, _⟩ <;> rfl
  have hnf : isFailed (i, st) = false := by
    rcases hst with ⟨rfl, _⟩ | ⟨t, rfl, _⟩ <;> rfl
  have hcg : (tk.set m (i, st)).countP isGone = tk.countP isGone := by
    have := count_set isGone tk m (i, st) (i, .und) hm
    rw [hng] at this
    exact this
  have hcf : (tk.set m (i, st)).countP isFailed = tk.countP isFailed := by
    have := count_set isFailed tk m (i, st) (i, .und) hm
    rw [hnf] at this
    exact this
  have hfm : ∀ n, fails (tk.take n) ≤ fails ((tk.set m (i, st)).take n) := fun n => fails_set tk m n _ _ hm (fun h => nomatch h)
  refine { inv with
    tvOk := fun j x h => ?_, prod := inv.prod_thread hi rfl htv hb, tkLen := by rw [List.length_set]; exact inv.tkLen,
    overLen := by rw [hcf]; exact inv.overLen, headLen := by rw [hcg]; exact inv.headLen,
    passed := fun m' j t h => ?_, gone := fun m' j t h => ?_, posOk := fun j x h => ?_, holds := fun m' j st' h => ?_,
    slotNext := inv.slotNext_thread hi (by rw [hp]; intro v w t h; cases h) th',
    hdPos := inv.hdPos_thread hi (by rw [hp]; intro n h; cases h) th', took := inv.took }
  · rcases get_set hi h with ⟨rfl, rfl⟩ | ⟨_, h⟩
    · exact htv
    · exact inv.tvOk j x h
  · rcases set_get h with ⟨rfl, e⟩ | ⟨_, h⟩
    · rcases hst with ⟨rfl, _⟩ | ⟨t', rfl, _, h1, h2, _⟩
      · cases e
      · cases e
        have := hfm m'
        exact ⟨by omega, h2⟩
    · have := hfm m'
      obtain ⟨h1, h2⟩ := inv.passed m' j t h
      exact ⟨by omega, h2⟩
  · rcases set_get h with ⟨rfl, e⟩ | ⟨_, h⟩
    · rw [← e] at hng
      cases hng
    · have := hfm m'
      obtain ⟨⟨h1, h2⟩, h3⟩ := inv.gone m' j t h
      exact ⟨⟨by omega, h2⟩, h3⟩
  · rcases get_set hi h with ⟨rfl, rfl⟩ | ⟨hne, h⟩
    · rcases hst with ⟨rfl, hx⟩ | ⟨t', rfl, hx, h1, h2, h3⟩
      · rw [hx]
        exact List.getElem?_set_self hml
      · rw [hx]
        exact ⟨t', List.getElem?_set_self hml, h3⟩
    · refine (inv.posOk j x h).frame rfl (fun _ _ => rfl) (Nat.le_refl _) (fun m' st' h' => ?_) (fun m' _ => hfm m') (fun _ h => h)
      by_cases e : m' = m
      · subst e
        rw [hm] at h'
        cases h'
        exact absurd rfl hne
      · rw [List.getElem?_set_ne (Ne.symm e)]
        exact h'
  · rcases set_get h with ⟨rfl, e⟩ | ⟨hne, h⟩
    · cases e
      refine ⟨th', set_get_self hi, ?_⟩
      rcases hst with ⟨rfl, hx⟩ | ⟨t', rfl, hx, _⟩
      · exact hx
      · exact hx
    · exact inv.holds_thread hi th' h (holds_other (Or.inl hp) hne)

/-- A ticket that was too many is counted. -/
theorem Inv.count (inv : Inv s tk hd) (hi : s.threads[i]? = some th) {m : Nat} (hp : th.pos = .pFail m) {w : View Loc} {tv' : TView Loc}
    (hm : MemOk (push s.mem .over ⟨(newest (s.mem .over)).val + 1, w⟩)) (htv : TvOk (push s.mem .over ⟨(newest (s.mem .over)).val + 1, w⟩) tv')
    (hb : Below th.tv.cur tv'.cur) (em : Nat) :
    Inv { s with mem := push s.mem .over ⟨(newest (s.mem .over)).val + 1, w⟩, threads := s.threads.set i ⟨tv', .out⟩, empty := em } (tk.set m (i, .failed)) hd := by
  have hv := newest_val inv.overVal
  have ho := inv.posOk i th hi
  rw [hp] at ho
  have htv2 := inv.tv_push hi htv (th' := ⟨tv', .out⟩)
  have hcv := push_val (x := ⟨(newest (s.mem .over)).val + 1, w⟩) inv.overVal (congrArg (· + 1) hv)
  generalize hg : (⟨(newest (s.mem .over)).val + 1, w⟩ : Msg Loc) = g at *
  have e : ∀ l, l ≠ Loc.over → push s.mem .over g l = s.mem l := fun l h => push_other _ h _
  have etail := e .tail (by intro h; cases h)
  have ehead := e .head (by intro h; cases h)
  have ecount := e .count (by intro h; cases h)
  have eslot : ∀ t, push s.mem .over g (.slot t) = s.mem (.slot t) := fun t => e _ (by intro h; cases h)
  have hpub : ∀ n, pub (push s.mem .over g) n = pub s.mem n := fun n => pub_push _ (by intro h; cases h) _ n
  have hprod := inv.prod_thread hi (th' := ⟨tv', .out⟩) etail htv hb
  have hcg : (tk.set m (i, .failed)).countP isGone = tk.countP isGone := count_set isGone tk m (i, .failed) (i, .fail) ho
  have hcf : (tk.set m (i, .failed)).countP isFailed = tk.countP isFailed + 1 := count_set isFailed tk m (i, .failed) (i, .fail) ho
  have hfm : ∀ n, fails (tk.take n) ≤ fails ((tk.set m (i, .failed)).take n) := fun n => fails_set tk m n _ _ ho (fun _ => rfl)
  constructor
  case ok => exact inv.ok
  case tvOk => exact htv2
  case prod => exact hprod
  case memOk => exact hm
  case overVal => exact hcv
  all_goals dsimp only
  all_goals try simp only [etail, ehead, ecount, eslot, hpub]
  case addLen => exact inv.addLen
  case tailVal => exact inv.tailVal
  case tailSlot => exact inv.tailSlot
  case tailAdd => exact inv.tailAdd
  case mono => exact inv.mono
  case countVal => exact inv.countVal
  case headVal => exact inv.headVal
  case tkLen => rw [List.length_set]; exact inv.tkLen
  case overLen => rw [push_self, List.length_append, hcf, inv.overLen]; rfl
  case headLen => rw [hcg]; exact inv.headLen
  case hdLen => exact inv.hdLen
  case passed =>
    intro m' j t h
    rcases set_get h with ⟨_, h⟩ | ⟨_, h⟩
    · cases h
    · have := hfm m'
      obtain ⟨h1, h2⟩ := inv.passed m' j t h
      exact ⟨by omega, h2⟩
  case gone =>
    intro m' j t h
    rcases set_get h with ⟨_, h⟩ | ⟨_, h⟩
    · cases h
    · have := hfm m'
      obtain ⟨⟨h1, h2⟩, h3⟩ := inv.gone m' j t h
      exact ⟨⟨by omega, h2⟩, h3⟩
  case posOk =>
    intro j y h
    rcases get_set hi h with ⟨rfl, rfl⟩ | ⟨hne, h⟩
    · exact True.intro
    · refine (inv.posOk j y h).frame etail (fun t _ => eslot t) (push_length _ _ _ _) (fun m' st' h' => ?_) (fun m' _ => hfm m') (fun _ h => h)
      by_cases e : m' = m
      · subst e
        rw [ho] at h'
        cases h'
        exact absurd rfl hne
      · rw [List.getElem?_set_ne (Ne.symm e)]
        exact h'
  case holds =>
    intro m' j st h
    rcases set_get h with ⟨rfl, e⟩ | ⟨hne, h⟩
    · cases e
      exact ⟨_, set_get_self hi, True.intro⟩
    · exact inv.holds_thread hi _ h (holds_other (o := 0) (Or.inr (Or.inr hp)) hne)
  case slotNew => exact inv.slotNew
  case slotNext => exact inv.slotNext_thread hi (by rw [hp]; intro v w t h; cases h) _
  case slotFull => exact inv.slotFull
  case hdPos => exact inv.hdPos_thread hi (by rw [hp]; intro n h; cases h) _
  case hdDone => exact inv.hdDone
  case took => exact inv.took
  case once => exact inv.once

/-- An index is taken. The thread then knows the element. -/
theorem Inv.index (inv : Inv s tk hd) (hi : s.threads[i]? = some th) {m : Nat} (hp : th.pos = .pHead m) {w : View Loc} {tv' : TView Loc}
    (hm : MemOk (push s.mem .head ⟨(newest (s.mem .head)).val + 1, w⟩)) (htv : TvOk (push s.mem .head ⟨(newest (s.mem .head)).val + 1, w⟩) tv')
    (hb : Below th.tv.cur tv'.cur) (hacq : Below (newest (s.mem .head)).view tv'.cur) (hw : Below tv'.cur w) :
    ∃ t, Inv { s with mem := push s.mem .head ⟨(newest (s.mem .head)).val + 1, w⟩, threads := s.threads.set i ⟨tv', .pSlot (newest (s.mem .head)).val⟩ }
      (tk.set m (i, .gone t)) (hd ++ [(i, false)]) := by
  have hv := newest_val inv.headVal
  have ho := inv.posOk i th hi
  rw [hp] at ho
  obtain ⟨t, ho, hbt⟩ := ho
  refine ⟨t, ?_⟩
  have htv2 := inv.tv_push hi htv (th' := ⟨tv', .pSlot (newest (s.mem .head)).val⟩)
  have hcv := push_val (x := ⟨(newest (s.mem .head)).val + 1, w⟩) inv.headVal (congrArg (· + 1) hv)
  have hnv : (newest (push s.mem .head ⟨(newest (s.mem .head)).val + 1, w⟩ .head)).view = w := by
    rw [push_self, newest_append]
  generalize hg : (⟨(newest (s.mem .head)).val + 1, w⟩ : Msg Loc) = g at *
  have e : ∀ l, l ≠ Loc.head → push s.mem .head g l = s.mem l := fun l h => push_other _ h _
  have etail := e .tail (by intro h; cases h)
  have ecount := e .count (by intro h; cases h)
  have eover := e .over (by intro h; cases h)
  have eslot : ∀ t, push s.mem .head g (.slot t) = s.mem (.slot t) := fun t => e _ (by intro h; cases h)
  have hpub : ∀ n, pub (push s.mem .head g) n = pub s.mem n := fun n => pub_push _ (by intro h; cases h) _ n
  have hprod := inv.prod_thread hi (th' := ⟨tv', .pSlot (newest (s.mem .head)).val⟩) etail htv hb
  have hcg : (tk.set m (i, .gone t)).countP isGone = tk.countP isGone + 1 := count_set isGone tk m (i, .gone t) (i, .pass t) ho
  have hcf : (tk.set m (i, .gone t)).countP isFailed = tk.countP isFailed := count_set isFailed tk m (i, .gone t) (i, .pass t) ho
  have hfm : ∀ n, fails (tk.take n) ≤ fails ((tk.set m (i, .gone t)).take n) := fun n => fails_set tk m n _ _ ho (fun h => nomatch h)
  -- every ticket that has gone to the head: enough elements, and this thread knows them
  have hall : ∀ m' j t' : Nat, (tk.set m (i, St.gone t))[m']? = some (j, St.gone t') →
      (m' + 1 ≤ t' + fails ((tk.set m (i, .gone t)).take m') ∧ t' ≤ (s.mem .tail).length) ∧ Below (pub s.mem t') tv'.cur := by
    intro m' j t' h
    have := hfm m'
    rcases set_get h with ⟨rfl, e⟩ | ⟨_, h⟩
    · cases e
      obtain ⟨h1, h2⟩ := inv.passed m' i t ho
      exact ⟨⟨by omega, h2⟩, hbt.trans hb⟩
    · obtain ⟨⟨h1, h2⟩, h3⟩ := inv.gone m' j t' h
      exact ⟨⟨by omega, h2⟩, h3.trans hacq⟩
  have hknow : Below (pub s.mem ((s.mem .head).length + 1)) tv'.cur := by
    obtain ⟨m', j, t', h1, h2⟩ := gone_le _ (tk.set m (i, .gone t)) rfl (by rw [hcg]; omega) (fun m' j t' h => (hall m' j t' h).1.1)
    obtain ⟨⟨_, h3⟩, h4⟩ := hall m' j t' h1
    rw [hcg, ← inv.headLen] at h2
    exact (inv.mono _ _ h2 h3).trans h4
  constructor
  case ok => exact inv.ok
  case tvOk => exact htv2
  case prod => exact hprod
  case memOk => exact hm
  case headVal => exact hcv
  all_goals dsimp only
  all_goals try simp only [etail, eover, ecount, eslot, hpub]
  case addLen => exact inv.addLen
  case tailVal => exact inv.tailVal
  case tailSlot => exact inv.tailSlot
  case tailAdd => exact inv.tailAdd
  case mono => exact inv.mono
  case countVal => exact inv.countVal
  case overVal => exact inv.overVal
  case tkLen => rw [List.length_set]; exact inv.tkLen
  case overLen => rw [hcf]; exact inv.overLen
  case headLen => rw [push_self, List.length_append, hcg, inv.headLen]; rfl
  case hdLen => rw [push_self, List.length_append, List.length_append, inv.hdLen]; rfl
  case passed =>
    intro m' j t' h
    rcases set_get h with ⟨_, h⟩ | ⟨_, h⟩
    · cases h
    · have := hfm m'
      obtain ⟨h1, h2⟩ := inv.passed m' j t' h
      exact ⟨by omega, h2⟩
  case gone =>
    intro m' j t' h
    obtain ⟨h1, h2⟩ := hall m' j t' h
    exact ⟨h1, by rw [hnv]; exact h2.trans hw⟩
  case posOk =>
    intro j y h
    rcases get_set hi h with ⟨rfl, rfl⟩ | ⟨hne, h⟩
    · rw [hv]
      refine ⟨?_, by rw [hpub]; exact hknow⟩
      rw [← inv.hdLen, List.getElem?_append_right (Nat.le_refl _)]
      simp
    · refine (inv.posOk j y h).frame etail (fun t _ => eslot t) (push_length _ _ _ _) (fun m' st' h' => ?_) (fun m' _ => hfm m') (fun n h => ?_)
      · by_cases e : m' = m
        · subst e
          rw [ho] at h'
          cases h'
          exact absurd rfl hne
        · rw [List.getElem?_set_ne (Ne.symm e)]
          exact h'
      · rw [List.getElem?_append_left (lt_of_get h)]
        exact h
  case holds =>
    intro m' j st h
    rcases set_get h with ⟨rfl, e⟩ | ⟨hne, h⟩
    · cases e
      exact ⟨_, set_get_self hi, True.intro⟩
    · exact inv.holds_thread hi _ h (holds_other (o := 0) (Or.inr (Or.inl hp)) hne)
  case slotNew => exact inv.slotNew
  case slotNext => exact inv.slotNext_thread hi (by rw [hp]; intro v w t h; cases h) _
  case slotFull =>
    intro n h1 h2
    refine inv.slotFull n h1 (fun j h => h2 j ?_)
    rw [List.getElem?_append_left (lt_of_get h)]
    exact h
  case hdPos =>
    intro n j h
    by_cases hl : n < hd.length
    · rw [List.getElem?_append_left hl] at h
      exact inv.hdPos_thread hi (by rw [hp]; intro n h; cases h) _ n j h
    · rw [List.getElem?_append_right (by omega)] at h
      have h1 := lt_of_get h
      simp at h1
      have : n = hd.length := by omega
      subst this
      simp at h
      subst h
      exact ⟨_, set_get_self hi, by rw [hv, inv.hdLen]⟩
  case hdDone =>
    intro n j h
    by_cases hl : n < hd.length
    · rw [List.getElem?_append_left hl] at h
      exact inv.hdDone n j h
    · rw [List.getElem?_append_right (by omega)] at h
      have h1 := lt_of_get h
      simp at h1
      have : n = hd.length := by omega
      subst this
      simp at h
  case took =>
    intro x hx
    obtain ⟨⟨j, h⟩, h2⟩ := inv.took x hx
    exact ⟨⟨j, by rw [List.getElem?_append_left (lt_of_get h)]; exact h⟩, h2⟩
  case once => exact inv.once

/-- An element is taken out of its slot. -/
theorem Inv.take (inv : Inv s tk hd) (hi : s.threads[i]? = some th) {n : Nat} (hp : th.pos = .pSlot n) {g : Msg Loc} {tv' : TView Loc}
    (hm : MemOk (push s.mem (.slot n) g)) (htv : TvOk (push s.mem (.slot n) g) tv') (hb : Below th.tv.cur tv'.cur) :
    th.tv.cur (.slot n) = (s.mem (.slot n)).length ∧
    Inv { s with mem := push s.mem (.slot n) g, threads := s.threads.set i ⟨tv', .out⟩, taken := ⟨i, n, (newest (s.mem (.slot n))).val, th.tv.cur⟩ :: s.taken }
      tk (hd.set n (i, true)) := by
  have ho := inv.posOk i th hi
  rw [hp] at ho
  obtain ⟨ho, hknow⟩ := ho
  have hnl := lt_of_get ho
  have hnT : n < (s.mem .tail).length := by
    have h1 := inv.head_le
    have h2 := inv.hdLen
    omega
  have hnd : ∀ j, hd[n]? ≠ some (j, true) := by
    intro j h
    rw [ho] at h
    cases h
  obtain ⟨g0, v0, w0, hs0, ha0, hv0⟩ := inv.slotFull n hnT hnd
  have hmsg : msgAt (s.mem .tail) (n + 1) = some (s.mem .tail)[n] := List.getElem?_eq_getElem hnT
  have hget : (s.mem .tail)[n]? = some (s.mem .tail)[n] := List.getElem?_eq_getElem hnT
  rw [pub_get hmsg] at hknow
  have hone : th.tv.cur (.slot n) = (s.mem (.slot n)).length := by
    refine Nat.le_antisymm ((inv.tvOk i th hi).cur _) ?_
    rw [hs0]
    exact Nat.le_trans (inv.tailSlot n _ hget) (hknow _)
  refine ⟨hone, ?_⟩
  have hnew : (newest (s.mem (.slot n))).val = v0 := by
    rw [hs0]
    exact hv0
  have hov : HandedOver s ⟨i, n, (newest (s.mem (.slot n))).val, th.tv.cur⟩ := by
    refine ⟨w0, by rw [hnew]; exact ha0, (inv.tailAdd n _ v0 w0 hget ha0).trans hknow⟩
  have e : ∀ l, l ≠ Loc.slot n → push s.mem (.slot n) g l = s.mem l := fun l h => push_other _ h _
  have etail := e .tail (by intro h; cases h)
  have ehead := e .head (by intro h; cases h)
  have ecount := e .count (by intro h; cases h)
  have eover := e .over (by intro h; cases h)
  have eslot : ∀ t, t ≠ n → push s.mem (.slot n) g (.slot t) = s.mem (.slot t) := fun t ht => e _ (by intro h; cases h; exact ht rfl)
  have hpub : ∀ k, pub (push s.mem (.slot n) g) k = pub s.mem k := fun k => pub_push _ (by intro h; cases h) _ k
  constructor
  case ok => exact inv.ok
  case tvOk => exact inv.tv_push hi htv
  case prod => exact inv.prod_thread hi etail htv hb
  case memOk => exact hm
  all_goals dsimp only
  all_goals try simp only [etail, ehead, eover, ecount, hpub]
  case addLen => exact inv.addLen
  case tailVal => exact inv.tailVal
  case tailSlot => exact inv.tailSlot
  case tailAdd => exact inv.tailAdd
  case mono => exact inv.mono
  case countVal => exact inv.countVal
  case overVal => exact inv.overVal
  case headVal => exact inv.headVal
  case tkLen => exact inv.tkLen
  case overLen => exact inv.overLen
  case headLen => exact inv.headLen
  case hdLen => rw [List.length_set]; exact inv.hdLen
  case passed => exact inv.passed
  case gone => exact inv.gone
  case posOk =>
    intro j y h
    rcases get_set hi h with ⟨rfl, rfl⟩ | ⟨hne, h⟩
    · exact True.intro
    · refine (inv.posOk j y h).frame etail (fun t ht => eslot t (by omega)) (push_length _ _ _ _) (fun _ _ h => h) (fun _ _ => Nat.le_refl _) (fun k h => ?_)
      by_cases e : k = n
      · subst e
        rw [ho] at h
        cases h
        exact absurd rfl hne
      · rw [List.getElem?_set_ne (Ne.symm e)]
        exact h
  case holds =>
    intro m j st h
    refine inv.holds_thread hi _ h (fun hh => ?_)
    cases st with
    | und => obtain ⟨o, e⟩ := hh; rw [hp] at e; cases e
    | fail => rw [Holds, hp] at hh; cases hh
    | failed => exact True.intro
    | pass t => rw [Holds, hp] at hh; cases hh
    | gone t => exact True.intro
  case slotNew =>
    intro k hk
    rw [eslot k (by omega)]
    exact inv.slotNew k hk
  case slotNext =>
    rw [eslot _ (by omega)]
    exact inv.slotNext_thread hi (by rw [hp]; intro v w t h; cases h) _
  case slotFull =>
    intro k h1 h2
    by_cases e : k = n
    · subst e
      exact absurd (List.getElem?_set_self hnl) (h2 i)
    · rw [eslot k e]
      refine inv.slotFull k h1 (fun j h => h2 j ?_)
      rw [List.getElem?_set_ne (Ne.symm e)]
      exact h
  case hdPos =>
    intro k j h
    rcases set_get h with ⟨_, h⟩ | ⟨hne, h⟩
    · cases h
    · obtain ⟨y, hy, hpy⟩ := inv.hdPos k j h
      by_cases e : j = i
      · subst e
        rw [hi] at hy
        cases hy
        rw [hp] at hpy
        cases hpy
        exact absurd rfl hne
      · exact ⟨y, (set_get_ne e).trans hy, hpy⟩
  case hdDone =>
    intro k j h
    rcases set_get h with ⟨rfl, _⟩ | ⟨_, h⟩
    · exact ⟨_, List.mem_cons_self, rfl⟩
    · obtain ⟨x, hx, hk⟩ := inv.hdDone k j h
      exact ⟨x, List.mem_cons_of_mem _ hx, hk⟩
  case took =>
    intro x hx
    rcases List.mem_cons.mp hx with rfl | hx
    · exact ⟨⟨i, List.getElem?_set_self hnl⟩, hov⟩
    · obtain ⟨⟨j, h⟩, h2⟩ := inv.took x hx
      refine ⟨⟨j, ?_⟩, h2⟩
      rw [List.getElem?_set_ne]
      · exact h
      · intro e
        rw [← e] at h
        exact hnd j h
  case once =>
    rw [List.map_cons, List.nodup_cons]
    refine ⟨fun h => ?_, inv.once⟩
    obtain ⟨x, hx, hk⟩ := List.mem_map.mp h
    obtain ⟨⟨j, h1⟩, _⟩ := inv.took x hx
    rw [hk] at h1
    exact hnd j h1

/-- An element is written to the next slot. -/
theorem Inv.put (inv : Inv s tk hd) (hi : s.threads[i]? = some th) {v t : Nat} {w : View Loc} (hp : th.pos = .addWrite v w t) {tv' : TView Loc} {w' : View Loc}
    (hm : MemOk (push s.mem (.slot t) ⟨v, w'⟩)) (htv : TvOk (push s.mem (.slot t) ⟨v, w'⟩) tv') (hb : Below th.tv.cur tv'.cur)
    (hown : 1 ≤ tv'.cur (.slot t)) :
    th.tv.cur (.slot t) = (s.mem (.slot t)).length ∧
    Inv { s with mem := push s.mem (.slot t) ⟨v, w'⟩, threads := s.threads.set i ⟨tv', .addStore v w t⟩ } tk hd := by
  have ho := inv.posOk i th hi
  rw [hp] at ho
  obtain ⟨rfl, hbw, rfl⟩ := ho
  have hs0 : s.mem (.slot (s.mem .tail).length) = [] := by
    rcases inv.slotNext with h | ⟨y, v', w', t', hy, hpy⟩
    · exact h
    · rw [hi] at hy
      cases hy
      rw [hp] at hpy
      cases hpy
  have hone : th.tv.cur (.slot (s.mem .tail).length) = (s.mem (.slot (s.mem .tail).length)).length := by
    have := (inv.tvOk _ th hi).cur (.slot (s.mem .tail).length)
    rw [hs0] at this ⊢
    exact Nat.le_antisymm this (Nat.zero_le _)
  refine ⟨hone, ?_⟩
  generalize hT : (s.mem .tail).length = T at *
  have e : ∀ l, l ≠ Loc.slot T → push s.mem (.slot T) ⟨v, w'⟩ l = s.mem l := fun l h => push_other _ h _
  have etail := e .tail (by intro h; cases h)
  have ehead := e .head (by intro h; cases h)
  have ecount := e .count (by intro h; cases h)
  have eover := e .over (by intro h; cases h)
  have eslot : ∀ t, t ≠ T → push s.mem (.slot T) ⟨v, w'⟩ (.slot t) = s.mem (.slot t) := fun t ht => e _ (by intro h; cases h; exact ht rfl)
  have hpub : ∀ k, pub (push s.mem (.slot T) ⟨v, w'⟩) k = pub s.mem k := fun k => pub_push _ (by intro h; cases h) _ k
  have hprod := inv.prod_thread hi (th' := ⟨tv', .addStore v w T⟩) etail htv hb
  constructor
  case ok => exact inv.ok
  case tvOk => exact inv.tv_push hi htv
  case prod => exact hprod
  case memOk => exact hm
  all_goals dsimp only
  all_goals try simp only [etail, ehead, eover, ecount, hpub]
  case addLen => exact inv.addLen
  case tailVal => exact inv.tailVal
  case tailSlot => exact inv.tailSlot
  case tailAdd => exact inv.tailAdd
  case mono => exact inv.mono
  case countVal => exact inv.countVal
  case overVal => exact inv.overVal
  case headVal => exact inv.headVal
  case tkLen => exact inv.tkLen
  case overLen => exact inv.overLen
  case headLen => exact inv.headLen
  case hdLen => exact inv.hdLen
  case passed => exact inv.passed
  case gone => exact inv.gone
  case posOk =>
    intro j y h
    rcases get_set hi h with ⟨rfl, rfl⟩ | ⟨hne, h⟩
    · refine ⟨rfl, hbw.trans hb, by rw [etail, hT], hown, ⟨v, w'⟩, ?_, rfl⟩
      rw [push_self, hs0]
      rfl
    · have hpo := inv.posOk j y h
      cases hy : y.pos with
      | addStore v' w' t' =>
        rw [hy] at hpo
        exact absurd hpo.1 hne
      | addWrite v' w' t' =>
        rw [hy] at hpo
        exact absurd hpo.1 hne
      | addLoad v' w' =>
        rw [hy] at hpo
        exact absurd hpo.1 hne
      | pHead m =>
        rw [hy] at hpo
        obtain ⟨t', h1, h2⟩ := hpo
        exact ⟨t', h1, by rw [hpub]; exact h2⟩
      | pSlot m =>
        rw [hy] at hpo
        exact ⟨hpo.1, by rw [hpub]; exact hpo.2⟩
      | pCount t' o => rw [hy] at hpo; exact Nat.le_trans hpo (push_length _ _ _ _)
      | pFence o => rw [hy] at hpo; exact Nat.le_trans hpo (push_length _ _ _ _)
      | pTicket o => rw [hy] at hpo; exact Nat.le_trans hpo (push_length _ _ _ _)
      | pAgain o m => rw [hy] at hpo; exact hpo
      | pFail m => rw [hy] at hpo; exact hpo
      | out => exact True.intro
      | pTail => exact True.intro
      | pOver t' => exact True.intro
  case holds =>
    intro m j st h
    exact inv.holds_thread hi _ h (holds_plain (by rw [hp]; rfl))
  case slotNew =>
    intro k hk
    rw [eslot k (by omega)]
    exact inv.slotNew k hk
  case slotNext => exact Or.inr ⟨_, v, w, T, set_get_self hi, rfl⟩
  case slotFull =>
    intro k h1 h2
    rw [eslot k (by omega)]
    exact inv.slotFull k h1 h2
  case hdPos => exact inv.hdPos_thread hi (by rw [hp]; intro n h; cases h) _
  case hdDone => exact inv.hdDone
  case took => exact inv.took
  case once => exact inv.once

end Verif.Weak
