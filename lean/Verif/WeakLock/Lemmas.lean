import Verif.WeakLock.Inv
/-!
# Every move keeps what is always true of the locks
-/
namespace Verif.WeakLock
open Verif.Weak (View TView Mem Msg join bot upto msgAt newest push load store rmw fence write Below MemOk TvOk)

variable {s s' : Sys} {i : Nat} {th : Th}

theorem works_held {p : Pos} {held : List Nat} (h : p.works = some held) : p.held = held := by
  unfold Pos.works at h
  split at h
  · exact Option.some.inj h
  · exact Option.some.inj h
  · cases h

/-- A thread only learns. -/
theorem Inv.learn (inv : Inv s) (hi : s.threads[i]? = some th) {tv : TView Loc} {p : Pos} (ht : TvOk s.mem tv) (hb : Below th.tv.cur tv.cur)
    (hh : p.held = th.pos.held) (htd : ∀ l ∈ p.todo, l < s.n)
    (hall : ∀ held todo, p = .all held todo → ∀ l < s.n, l ∈ held ∨ l ∈ todo)
    (hpw : ∀ hp held todo, p = .lock hp held todo → held ≠ [] → hp = (newest (s.mem .power)).val) :
    Inv (put s i tv p) :=
  inv.frame hi inv.memOk (fun _ h => h) ht hb (fun _ => rfl) (fun _ _ => rfl) rfl hh htd hall hpw

theorem Inv.same (inv : Inv s) (hi : s.threads[i]? = some th) {tv : TView Loc} (ht : TvOk s.mem tv) (hb : Below th.tv.cur tv.cur) : Inv (put s i tv th.pos) :=
  inv.learn hi ht hb rfl (fun l hl => inv.lt i th hi l (Or.inr hl)) (inv.all i th hi) (inv.power i th hi)

theorem Inv.tas (inv : Inv s) (hi : s.threads[i]? = some th) {l w : Nat} {p : Pos} (h : tas s i th l w p = some s')
    (hh : p.held = l :: th.pos.held) (hlt : l < s.n) (htd : ∀ l' ∈ p.todo, l' < s.n)
    (hall : ∀ held todo, p = .all held todo → ∀ l < s.n, l ∈ held ∨ l ∈ todo)
    (hpw : ∀ hp held todo, p = .lock hp held todo → held ≠ [] → hp = (newest (s.mem .power)).val) : Inv s' := by
  unfold WeakLock.tas at h
  split at h
  · next hc =>
    cases h
    refine inv.take hi hc.2 (fun l' => ?_) (fun hn => ?_) hlt htd hall hpw
    · rw [hh]; exact List.mem_cons
    · rw [hh]; exact List.nodup_cons.mpr ⟨hn, inv.nodup i th hi⟩
  · split at h
    · next v tv hl =>
      split at h
      · cases h
      · cases h
        obtain ⟨_, _, h1, h2, _⟩ := Weak.load_spec inv.memOk (inv.tvOk i th hi) hl
        exact inv.same hi h1 h2
    · cases h

theorem Inv.step (inv : Inv s) (hi : s.threads[i]? = some th) {w : Nat} (h : step s i th w = some s') : Inv s' := by
  have hlt := inv.lt i th hi
  have hpw := inv.power i th hi
  have hall := inv.all i th hi
  unfold WeakLock.step at h
  split at h
  · next hp l rest e =>
    rw [e] at hlt
    exact inv.tas hi h (by rw [e]; rfl) (hlt l (Or.inr List.mem_cons_self)) (fun l' hl' => hlt l' (Or.inr (List.mem_cons_of_mem _ hl')))
      (fun _ _ hq => nomatch hq) (fun _ _ _ hq => nomatch hq)
  · next hp a held l rest e =>
    rw [e] at hlt
    refine inv.tas hi h (by rw [e]; rfl) (hlt l (Or.inr List.mem_cons_self)) (fun l' hl' => hlt l' (Or.inr (List.mem_cons_of_mem _ hl')))
      (fun _ _ hq => nomatch hq) (fun hp' held' todo' hq _ => ?_)
    cases hq
    exact hpw _ _ _ e (fun h => nomatch h)
  · next hp l rest e =>
    split at h
    · next v tv hl =>
      cases h
      obtain ⟨h0, h3, h1, h2, _⟩ := Weak.load_spec inv.memOk (inv.tvOk i th hi) hl
      rw [e] at hlt
      have hkn := inv.knows i th hi l (by rw [e]; exact List.mem_cons_self)
      have hv : v = (newest (s.mem .power)).val := by
        obtain ⟨g, hg1, hg2, hg3⟩ := h3
        have hcur : (s.mem .power).length ≤ th.tv.cur .power := hkn.2.1 (hlt l (Or.inl List.mem_cons_self))
        have hw : w = (s.mem .power).length := by
          have := Weak.msgAt_le hg1
          omega
        unfold newest
        rw [← hw, hg1]
        exact hg2.symm
      refine inv.learn hi h1 h2 ?_ ?_ ?_ ?_
      · rw [e]; split <;> rfl
      · intro l' hl'
        split at hl'
        · exact hlt l' (Or.inr hl')
        · cases hl'
      · intro held todo hq
        split at hq <;> cases hq
      · intro hp' held todo hq _
        split at hq
        · next ev =>
          cases hq
          rw [← ev, hv]
        · cases hq
    · cases h
  · next held l rest e =>
    rw [e] at hlt
    refine inv.tas hi h (by rw [e]; rfl) (hlt l (Or.inr List.mem_cons_self)) (fun l' hl' => hlt l' (Or.inr (List.mem_cons_of_mem _ hl')))
      (fun held' todo' hq l' hl' => ?_) (fun _ _ _ hq => nomatch hq)
    cases hq
    rcases hall _ _ e l' hl' with hm | hm
    · exact Or.inl (List.mem_cons_of_mem _ hm)
    · rcases List.mem_cons.mp hm with rfl | hm
      · exact Or.inl List.mem_cons_self
      · exact Or.inr hm
  · next l rest e =>
    cases h
    exact inv.give hi e
  · cases h

theorem Inv.act (inv : Inv s) {m : Move} (hi : s.threads[m.who]? = some th) (hm : NoSize m) (h : act s th m = some s') : Inv s' := by
  have htv := inv.tvOk _ th hi
  cases m with
  | call i w ls =>
    have hi : s.threads[i]? = some th := hi
    unfold WeakLock.act at h
    dsimp only at h
    split at h
    · next e =>
      split at h
      · next hls =>
        split at h
        · next hp tv hl =>
          cases h
          obtain ⟨_, _, h1, h2, _⟩ := Weak.load_spec inv.memOk htv hl
          refine inv.learn hi h1 h2 (by rw [e]; rfl) (fun l hl' => ?_) (fun _ _ hq => nomatch hq) (fun _ _ _ hq hne => ?_)
          · exact of_decide_eq_true (List.all_eq_true.mp hls.2 l hl')
          · cases hq
            exact absurd rfl hne
        · cases h
      · cases h
    · cases h
  | callAll i =>
    have hi : s.threads[i]? = some th := hi
    unfold WeakLock.act at h
    dsimp only at h
    split at h
    · next e =>
      cases h
      refine inv.learn hi htv (Weak.Below.refl _) (by rw [e]; rfl) (fun l hl' => List.mem_range.mp hl') (fun _ _ hq l hl => ?_) (fun _ _ _ hq => nomatch hq)
      cases hq
      exact Or.inr (List.mem_range.mpr hl)
    · cases h
  | go i w => exact inv.step hi h
  | touch i l x v =>
    have hi : s.threads[i]? = some th := hi
    unfold WeakLock.act at h
    dsimp only at h
    split at h
    · next held e =>
      split at h
      · next hl =>
        cases h
        exact inv.touch hi (by rw [works_held e]; exact hl)
      · cases h
    · cases h
  | grow i v =>
    have hi : s.threads[i]? = some th := hi
    unfold WeakLock.act at h
    dsimp only at h
    split at h
    · next held e =>
      cases h
      exact inv.grow hi e v
    · cases h
  | finish i =>
    have hi : s.threads[i]? = some th := hi
    unfold WeakLock.act at h
    dsimp only at h
    split at h
    · next held e =>
      cases h
      exact inv.learn hi htv (Weak.Below.refl _) (works_held e).symm (fun l hl' => nomatch hl') (fun _ _ hq => nomatch hq) (fun _ _ _ hq => nomatch hq)
    · cases h
  | size i l => exact absurd hm (fun h => h)
  | read i x w acq =>
    have hi : s.threads[i]? = some th := hi
    unfold WeakLock.act at h
    dsimp only at h
    split at h
    · next v tv hl =>
      cases h
      obtain ⟨_, _, h1, h2, _⟩ := Weak.load_spec inv.memOk htv hl
      exact inv.same hi h1 h2
    · cases h
  | write i x v rel =>
    have hi : s.threads[i]? = some th := hi
    cases h
    obtain ⟨h1, h2, h3⟩ := Weak.store_spec (rel := rel) (l := Loc.user x) (v := v) inv.memOk htv
    obtain ⟨g, hg⟩ : ∃ g, (store rel s.mem th.tv (Loc.user x) v).1 = push s.mem (.user x) g := ⟨_, rfl⟩
    refine inv.frame (mem := (store rel s.mem th.tv (Loc.user x) v).1) hi h1 (fun tv h => ?_) h2 h3 (fun a => ?_) (fun a y => ?_) ?_
      rfl (fun l hl => inv.lt i th hi l (Or.inr hl)) (inv.all i th hi) (inv.power i th hi)
    · rw [hg]; exact h.push _ _
    · rw [hg]; exact Weak.push_other s.mem (l := .user x) (l' := .lock a) (fun h => nomatch h) _
    · rw [hg]; exact Weak.push_other s.mem (l := .user x) (l' := .cell a y) (fun h => nomatch h) _
    · rw [hg]; exact Weak.push_other s.mem (l := .user x) (l' := .power) (fun h => nomatch h) _
  | update i x v acq rel =>
    have hi : s.threads[i]? = some th := hi
    cases h
    obtain ⟨h1, h2, h3⟩ := Weak.rmw_spec (acq := acq) (rel := rel) (f := fun _ => v) (l := Loc.user x) inv.memOk htv
    obtain ⟨g, hg⟩ : ∃ g, (rmw acq rel (fun _ => v) s.mem th.tv (Loc.user x)).2.1 = push s.mem (.user x) g := ⟨_, rfl⟩
    refine inv.frame (mem := (rmw acq rel (fun _ => v) s.mem th.tv (Loc.user x)).2.1) hi h1 (fun tv h => ?_) h2 h3 (fun a => ?_) (fun a y => ?_) ?_
      rfl (fun l hl => inv.lt i th hi l (Or.inr hl)) (inv.all i th hi) (inv.power i th hi)
    · rw [hg]; exact h.push _ _
    · rw [hg]; exact Weak.push_other s.mem (l := .user x) (l' := .lock a) (fun h => nomatch h) _
    · rw [hg]; exact Weak.push_other s.mem (l := .user x) (l' := .cell a y) (fun h => nomatch h) _
    · rw [hg]; exact Weak.push_other s.mem (l := .user x) (l' := .power) (fun h => nomatch h) _
  | change i x v =>
    have hi : s.threads[i]? = some th := hi
    cases h
    obtain ⟨h1, h2, h3⟩ := Weak.write_spec (l := Loc.user x) (v := v) inv.memOk htv
    obtain ⟨g, hg⟩ : ∃ g, (write s.mem th.tv (Loc.user x) v).1 = push s.mem (.user x) g := ⟨_, rfl⟩
    refine inv.frame (mem := (write s.mem th.tv (Loc.user x) v).1) hi h1 (fun tv h => ?_) h2 h3 (fun a => ?_) (fun a y => ?_) ?_
      rfl (fun l hl => inv.lt i th hi l (Or.inr hl)) (inv.all i th hi) (inv.power i th hi)
    · rw [hg]; exact h.push _ _
    · rw [hg]; exact Weak.push_other s.mem (l := .user x) (l' := .lock a) (fun h => nomatch h) _
    · rw [hg]; exact Weak.push_other s.mem (l := .user x) (l' := .cell a y) (fun h => nomatch h) _
    · rw [hg]; exact Weak.push_other s.mem (l := .user x) (l' := .power) (fun h => nomatch h) _

theorem Inv.run {ms : List Move} : ∀ {s s' : Sys}, Inv s → run s ms = some s' → (∀ m ∈ ms, NoSize m) → Inv s' := by
  induction ms with
  | nil =>
    intro s s' inv h _
    cases h
    exact inv
  | cons m ms ih =>
    intro s s' inv h hn
    unfold WeakLock.run at h
    obtain ⟨s1, h1, h2⟩ := Option.bind_eq_some_iff.mp h
    unfold move at h1
    obtain ⟨th, hi, ha⟩ := Option.bind_eq_some_iff.mp h1
    exact ih (inv.act hi (hn m List.mem_cons_self) ha) h2 (fun m' hm' => hn m' (List.mem_cons_of_mem _ hm'))

theorem ReachLocked.inv {k n : Nat} (h : ReachLocked k n s) : Inv s := by
  obtain ⟨ms, hr, hn⟩ := h
  exact (inv_init k n).run hr hn

/-- What a move changes: it keeps the number of locks, and threads only learn. -/
def Grows (s s' : Sys) : Prop :=
  s'.n = s.n ∧ ∀ (j : Nat) (x : Th), s.threads[j]? = some x → ∃ x', s'.threads[j]? = some x' ∧ Below x.tv.cur x'.tv.cur

theorem grows_set (hi : s.threads[i]? = some th) {th' : Th} (hb : Below th.tv.cur th'.tv.cur) {mem : Mem Loc} {races : List (Nat × Nat × Nat)} {left : List (Nat × View Loc)} :
    Grows s ⟨mem, s.threads.set i th', s.n, races, left⟩ := by
  refine ⟨rfl, fun j x h => ?_⟩
  by_cases e : j = i
  · subst e
    rw [hi] at h
    cases h
    obtain ⟨hl, _⟩ := List.getElem?_eq_some_iff.mp hi
    exact ⟨th', List.getElem?_set_self hl, hb⟩
  · exact ⟨x, by rw [List.getElem?_set_ne (Ne.symm e)]; exact h, Weak.Below.refl _⟩

theorem load_below {acq : Bool} {mem : Mem Loc} {tv tv' : TView Loc} {l : Loc} {w v : Nat} (h : load acq mem tv l w = some (v, tv')) : Below tv.cur tv'.cur := by
  unfold load at h
  split at h
  · split at h
    · cases h
      exact (Weak.below_join_left _ _).trans (Weak.below_join_left _ _)
    · cases h
  · cases h

theorem tas_grows (hi : s.threads[i]? = some th) {l w : Nat} {p : Pos} (h : tas s i th l w p = some s') : Grows s s' := by
  unfold tas at h
  split at h
  · cases h
    refine grows_set hi ?_
    exact Weak.Below.trans (Weak.below_join_left _ _) (Weak.below_join_left _ _)
  · split at h
    · next v tv hl =>
      split at h
      · cases h
      · cases h
        exact grows_set hi (load_below hl)
    · cases h

theorem step_grows (hi : s.threads[i]? = some th) {w : Nat} (h : step s i th w = some s') : Grows s s' := by
  unfold step at h
  split at h
  · exact tas_grows hi h
  · exact tas_grows hi h
  · split at h
    · next v tv hl =>
      cases h
      exact grows_set hi (load_below hl)
    · cases h
  · exact tas_grows hi h
  · cases h
    refine grows_set hi ?_
    exact Weak.below_join_left _ _
  · cases h

theorem act_grows {m : Move} (hi : s.threads[m.who]? = some th) (h : act s th m = some s') : Grows s s' := by
  cases m with
  | call i w ls =>
    unfold act at h
    dsimp only at h
    split at h
    · split at h
      · split at h
        · next hp tv hl =>
          cases h
          exact grows_set hi (load_below hl)
        · cases h
      · cases h
    · cases h
  | callAll i =>
    unfold act at h
    dsimp only at h
    split at h
    · cases h
      refine grows_set hi ?_
      exact Weak.Below.refl _
    · cases h
  | go i w => exact step_grows hi h
  | touch i l x v =>
    unfold act at h
    dsimp only at h
    split at h
    · split at h
      · cases h
        refine grows_set hi ?_
        exact Weak.below_join_left _ _
      · cases h
    · cases h
  | grow i v =>
    unfold act at h
    dsimp only at h
    split at h
    · cases h
      refine grows_set hi ?_
      exact Weak.below_join_left _ _
    · cases h
  | finish i =>
    unfold act at h
    dsimp only at h
    split at h
    · cases h
      refine grows_set hi ?_
      exact Weak.Below.refl _
    · cases h
  | size i l =>
    cases h
    refine grows_set hi ?_
    exact Weak.below_join_left _ _
  | read i x w acq =>
    unfold act at h
    dsimp only at h
    split at h
    · next v tv hl =>
      cases h
      exact grows_set hi (load_below hl)
    · cases h
  | write i x v rel =>
    cases h
    refine grows_set hi ?_
    exact Weak.below_join_left _ _
  | update i x v acq rel =>
    cases h
    refine grows_set hi ?_
    exact Weak.Below.trans (Weak.below_join_left _ _) (Weak.below_join_left _ _)
  | change i x v =>
    cases h
    refine grows_set hi ?_
    exact Weak.below_join_left _ _

theorem run_grows {ms : List Move} : ∀ {s s' : Sys}, run s ms = some s' → Grows s s' := by
  induction ms with
  | nil =>
    intro s s' h
    cases h
    exact ⟨rfl, fun j x h => ⟨x, h, Weak.Below.refl _⟩⟩
  | cons m ms ih =>
    intro s s' h
    unfold run at h
    obtain ⟨s1, h1, h2⟩ := Option.bind_eq_some_iff.mp h
    unfold move at h1
    obtain ⟨th, hi, ha⟩ := Option.bind_eq_some_iff.mp h1
    obtain ⟨a1, a2⟩ := act_grows hi ha
    obtain ⟨b1, b2⟩ := ih h2
    refine ⟨b1.trans a1, fun j x h => ?_⟩
    obtain ⟨x1, hx1, hb1⟩ := a2 j x h
    obtain ⟨x2, hx2, hb2⟩ := b2 j x1 hx1
    exact ⟨x2, hx2, hb1.trans hb2⟩

theorem run_n {k n : Nat} {ms : List Move} (h : run (init k n) ms = some s) : s.n = n := (run_grows h).1

theorem sees_run {u : View Loc} (h : Sees s i u) {ms : List Move} (hr : run s ms = some s') : Sees s' i u := by
  obtain ⟨th, hi, hb⟩ := h
  obtain ⟨x, hx, hb'⟩ := (run_grows hr).2 i th hi
  exact ⟨x, hx, hb.trans hb'⟩

end Verif.WeakLock
