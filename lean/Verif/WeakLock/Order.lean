import Verif.WeakLock.Lemmas
/-!
# Locks taken in order
-/
namespace Verif.WeakLock
open Verif.Weak (View TView Mem Msg join bot upto msgAt newest push load store rmw fence write Below MemOk TvOk)

/-- A position that is not stuck, with the locks still to take in order and above those held. -/
structure Pos.Good (p : Pos) : Prop where
  sorted : p.todo.Pairwise (· < ·)
  above : ∀ a ∈ p.held, ∀ b ∈ p.todo, a < b
  wants : ∀ hp, p ≠ .lock hp [] []
  gives : p ≠ .free []

structure Ord (s : Sys) : Prop where
  good : ∀ (j : Nat) (x : Th), s.threads[j]? = some x → x.pos.Good
  busy : ∀ l, (newest (s.mem (.lock l))).val ≠ 0 → ∃ (j : Nat) (x : Th), s.threads[j]? = some x ∧ l ∈ x.pos.held

theorem ord_init (k n : Nat) : Ord (init k n) := by
  constructor
  · intro j x h
    rw [List.eq_of_mem_replicate (List.mem_of_getElem? h)]
    exact ⟨List.Pairwise.nil, fun _ h => (nomatch h), fun _ h => (nomatch h), fun h => nomatch h⟩
  · intro l h
    exact absurd rfl h

variable {s s' : Sys} {i : Nat} {th : Th}

theorem Ord.upd (o : Ord s) (hi : s.threads[i]? = some th) {mem : Mem Loc} {th' : Th} {races : List (Nat × Nat × Nat)} {left : List (Nat × View Loc)}
    (hg : th'.pos.Good)
    (hb : ∀ l, (newest (mem (.lock l))).val ≠ 0 → l ∈ th'.pos.held ∨ ((newest (s.mem (.lock l))).val ≠ 0 ∧ (l ∈ th.pos.held → l ∈ th'.pos.held))) :
    Ord ⟨mem, s.threads.set i th', s.n, races, left⟩ := by
  obtain ⟨hl, _⟩ := List.getElem?_eq_some_iff.mp hi
  constructor
  · intro j x h
    rcases get_set hi h with ⟨_, rfl⟩ | ⟨_, h⟩
    · exact hg
    · exact o.good j x h
  · intro l hv
    rcases hb l hv with h | ⟨h, hh⟩
    · exact ⟨i, th', List.getElem?_set_self hl, h⟩
    · obtain ⟨j, x, hx, hm⟩ := o.busy l h
      by_cases e : j = i
      · subst e
        rw [hi] at hx
        cases hx
        exact ⟨j, th', List.getElem?_set_self hl, hh hm⟩
      · exact ⟨j, x, by rw [List.getElem?_set_ne (Ne.symm e)]; exact hx, hm⟩

theorem Ord.frame (o : Ord s) (hi : s.threads[i]? = some th) {mem : Mem Loc} {th' : Th} {races : List (Nat × Nat × Nat)} {left : List (Nat × View Loc)}
    (hg : th'.pos.Good) (hm : ∀ l, mem (.lock l) = s.mem (.lock l)) (hh : th'.pos.held = th.pos.held) : Ord ⟨mem, s.threads.set i th', s.n, races, left⟩ := by
  refine o.upd hi hg (fun l hv => Or.inr ⟨?_, fun h => ?_⟩)
  · rw [hm] at hv; exact hv
  · rw [hh]; exact h

theorem Ord.tas (o : Ord s) (hi : s.threads[i]? = some th) {l w : Nat} {p : Pos} (h : tas s i th l w p = some s')
    (hg : p.Good) (hh : p.held = l :: th.pos.held) : Ord s' := by
  unfold WeakLock.tas at h
  split at h
  · cases h
    refine o.upd hi hg (fun l' hv => ?_)
    by_cases e : l' = l
    · exact Or.inl (by dsimp only; rw [hh, e]; exact List.mem_cons_self)
    · refine Or.inr ⟨?_, fun h => by dsimp only; rw [hh]; exact List.mem_cons_of_mem _ h⟩
      obtain ⟨g, hw⟩ : ∃ g, (rmw true true (fun _ => 1) s.mem th.tv (Loc.lock l)).2.1 = push s.mem (.lock l) g := ⟨_, rfl⟩
      rw [hw, Weak.push_other s.mem (l := .lock l) (l' := .lock l') (fun h => e (by injection h)) g] at hv
      exact hv
  · split at h
    · split at h
      · cases h
      · cases h
        exact o.frame hi (o.good i th hi) (fun _ => rfl) rfl
    · cases h

theorem good_next {held todo : List Nat} {l : Nat} {p q : Pos} (g : p.Good) (hp : p.todo = l :: todo) (hph : p.held = held) (hqt : q.todo = todo) (hqh : q.held = l :: held)
    (hw : ∀ hp, q ≠ .lock hp [] []) (hf : q ≠ .free []) : q.Good := by
  have hs := g.sorted
  rw [hp] at hs
  refine ⟨?_, ?_, hw, hf⟩
  · rw [hqt]; exact (List.pairwise_cons.mp hs).2
  · intro a ha b hb
    rw [hqh] at ha
    rw [hqt] at hb
    rcases List.mem_cons.mp ha with rfl | ha
    · exact (List.pairwise_cons.mp hs).1 b hb
    · exact g.above a (by rw [hph]; exact ha) b (by rw [hp]; exact List.mem_cons_of_mem _ hb)

theorem good_free {held : List Nat} (h : held ≠ []) : (Pos.free held).Good :=
  ⟨List.Pairwise.nil, fun _ _ _ hb => (nomatch hb), fun _ h => (nomatch h), fun e => h (by injection e)⟩

theorem good_out : Pos.out.Good := ⟨List.Pairwise.nil, fun _ h => (nomatch h), fun _ h => (nomatch h), fun h => nomatch h⟩

theorem Ord.step (o : Ord s) (hi : s.threads[i]? = some th) {w : Nat} (h : step s i th w = some s') : Ord s' := by
  have g := o.good i th hi
  unfold WeakLock.step at h
  split at h
  · next hp l rest e =>
    rw [e] at g
    exact o.tas hi h (good_next g rfl rfl rfl rfl (fun _ h => nomatch h) (fun h => nomatch h)) (by rw [e]; rfl)
  · next hp a held l rest e =>
    rw [e] at g
    exact o.tas hi h (good_next g rfl rfl rfl rfl (fun _ h => nomatch h) (fun h => nomatch h)) (by rw [e]; rfl)
  · next hp l rest e =>
    split at h
    · next v tv hl =>
      cases h
      rw [e] at g
      refine o.frame hi ?_ (fun _ => rfl) ?_
      · dsimp only
        split
        · exact ⟨g.sorted, g.above, fun _ h => (nomatch h), fun h => nomatch h⟩
        · exact good_free (fun h => nomatch h)
      · dsimp only
        rw [e]
        split <;> rfl
    · cases h
  · next held l rest e =>
    rw [e] at g
    exact o.tas hi h (good_next g rfl rfl rfl rfl (fun _ h => nomatch h) (fun h => nomatch h)) (by rw [e]; rfl)
  · next l rest e =>
    cases h
    have hh : (if rest = [] then Pos.out else .free rest).held = rest := by
      by_cases e : rest = []
      · rw [if_pos e, e]; rfl
      · rw [if_neg e]; rfl
    refine o.upd hi ?_ (fun l' hv => ?_)
    · dsimp only
      split
      · exact good_out
      · next hne => exact good_free hne
    · obtain ⟨w, hw⟩ : ∃ w, (store true s.mem th.tv (Loc.lock l) 0).1 = push s.mem (.lock l) ⟨0, w⟩ := ⟨_, rfl⟩
      rw [hw] at hv
      by_cases el : l' = l
      · subst el
        rw [Weak.push_self, Weak.newest_append] at hv
        exact absurd rfl hv
      · rw [Weak.push_other s.mem (l := .lock l) (l' := .lock l') (fun h => el (by injection h))] at hv
        refine Or.inr ⟨hv, fun hm => ?_⟩
        dsimp only
        rw [hh]
        rw [e] at hm
        rcases List.mem_cons.mp hm with hm | hm
        · exact absurd hm el
        · exact hm
  · cases h

theorem Ord.act (inv : Inv s) (hn : 0 < s.n) (o : Ord s) {m : Move} (hi : s.threads[m.who]? = some th) (hm : Ordered m) (h : act s th m = some s') : Ord s' := by
  have g := o.good _ th hi
  cases m with
  | call i w ls =>
    have hi : s.threads[i]? = some th := hi
    unfold WeakLock.act at h
    dsimp only at h
    split at h
    · next e =>
      split at h
      · next hls =>
        split at h
        · next hp tv hl =>
          cases h
          exact o.frame hi ⟨hm, fun _ h => (nomatch h), fun _ h => hls.1 (by injection h), fun h => nomatch h⟩ (fun _ => rfl) (by rw [e]; rfl)
        · cases h
      · cases h
    · cases h
  | callAll i =>
    have hi : s.threads[i]? = some th := hi
    unfold WeakLock.act at h
    dsimp only at h
    split at h
    · next e =>
      cases h
      exact o.frame hi ⟨List.pairwise_lt_range, fun _ h => (nomatch h), fun _ h => (nomatch h), fun h => nomatch h⟩ (fun _ => rfl) (by rw [e]; rfl)
    · cases h
  | go i w => exact o.step hi h
  | touch i l x v =>
    have hi : s.threads[i]? = some th := hi
    unfold WeakLock.act at h
    dsimp only at h
    split at h
    · split at h
      · cases h
        obtain ⟨w, hw⟩ : ∃ w, (write s.mem th.tv (Loc.cell l x) v).1 = push s.mem (.cell l x) w := ⟨_, rfl⟩
        exact o.frame hi g (fun a => (congrFun hw (.lock a)).trans (Weak.push_other s.mem (l := .cell l x) (l' := .lock a) (fun h => nomatch h) _)) rfl
      · cases h
    · cases h
  | grow i v =>
    have hi : s.threads[i]? = some th := hi
    unfold WeakLock.act at h
    dsimp only at h
    split at h
    · cases h
      obtain ⟨w, hw⟩ : ∃ w, (store true s.mem th.tv Loc.power v).1 = push s.mem .power w := ⟨_, rfl⟩
      exact o.frame hi g (fun a => (congrFun hw (.lock a)).trans (Weak.push_other s.mem (l := .power) (l' := .lock a) (fun h => nomatch h) _)) rfl
    · cases h
  | finish i =>
    have hi : s.threads[i]? = some th := hi
    unfold WeakLock.act at h
    dsimp only at h
    split at h
    · next held e =>
      cases h
      refine o.frame hi (good_free ?_) (fun _ => rfl) (works_held e).symm
      unfold Pos.works at e
      split at e
      · cases e
        exact fun h => nomatch h
      · next held' ep =>
        cases e
        intro he
        rcases inv.all i th hi _ _ ep 0 hn with hm | hm
        · rw [he] at hm; cases hm
        · cases hm
      · cases e
    · cases h
  | size i l => exact absurd hm (fun h => h)
  | read i x w acq =>
    have hi : s.threads[i]? = some th := hi
    unfold WeakLock.act at h
    dsimp only at h
    split at h
    · cases h
      exact o.frame hi g (fun _ => rfl) rfl
    · cases h
  | write i x v rel =>
    have hi : s.threads[i]? = some th := hi
    cases h
    obtain ⟨w, hw⟩ : ∃ w, (store rel s.mem th.tv (Loc.user x) v).1 = push s.mem (.user x) w := ⟨_, rfl⟩
    exact o.frame hi g (fun a => (congrFun hw (.lock a)).trans (Weak.push_other s.mem (l := .user x) (l' := .lock a) (fun h => nomatch h) _)) rfl
  | update i x v acq rel =>
    have hi : s.threads[i]? = some th := hi
    cases h
    obtain ⟨w, hw⟩ : ∃ w, (rmw acq rel (fun _ => v) s.mem th.tv (Loc.user x)).2.1 = push s.mem (.user x) w := ⟨_, rfl⟩
    exact o.frame hi g (fun a => (congrFun hw (.lock a)).trans (Weak.push_other s.mem (l := .user x) (l' := .lock a) (fun h => nomatch h) _)) rfl
  | change i x v =>
    have hi : s.threads[i]? = some th := hi
    cases h
    obtain ⟨w, hw⟩ : ∃ w, (write s.mem th.tv (Loc.user x) v).1 = push s.mem (.user x) w := ⟨_, rfl⟩
    exact o.frame hi g (fun a => (congrFun hw (.lock a)).trans (Weak.push_other s.mem (l := .user x) (l' := .lock a) (fun h => nomatch h) _)) rfl

theorem Ordered.noSize {m : Move} (h : Ordered m) : NoSize m := by
  cases m <;> first | exact trivial | exact h

theorem Ord.run {ms : List Move} : ∀ {s s' : Sys}, Inv s → 0 < s.n → Ord s → run s ms = some s' → (∀ m ∈ ms, Ordered m) → Ord s' := by
  induction ms with
  | nil =>
    intro s s' _ _ o h _
    cases h
    exact o
  | cons m ms ih =>
    intro s s' inv hn o h hm
    unfold WeakLock.run at h
    obtain ⟨s1, h1, h2⟩ := Option.bind_eq_some_iff.mp h
    unfold move at h1
    obtain ⟨th, hi, ha⟩ := Option.bind_eq_some_iff.mp h1
    have hm1 := hm m List.mem_cons_self
    exact ih (inv.act hi hm1.noSize ha) ((act_grows hi ha).1 ▸ hn) (o.act inv hn hi hm1 ha) h2 (fun m' hm' => hm m' (List.mem_cons_of_mem _ hm'))

/-- The lock that a thread waits for. -/
def Pos.next : Pos → Option Nat
  | .lock _ _ (l :: _) => some l
  | .all _ (l :: _) => some l
  | _ => none

theorem next_todo {p : Pos} {l : Nat} (h : p.next = some l) : l ∈ p.todo := by
  unfold Pos.next at h
  split at h <;> cases h <;> exact List.mem_cons_self

/-- A thread that waits for no lock can go on. -/
theorem idle_goes (inv : Inv s) (o : Ord s) (hi : s.threads[i]? = some th) (hout : th.pos ≠ .out) (hnext : th.pos.next = none) : GoesOn s i := by
  obtain ⟨hl, _⟩ := List.getElem?_eq_some_iff.mp hi
  have hset : ∀ x : Th, (s.threads.set i x)[i]? = some x := fun x => List.getElem?_set_self hl
  have hmv : ∀ m, m.who = i → move s m = act s th m := by
    intro m hm
    unfold move
    rw [hm, hi]
    rfl
  have g := o.good i th hi
  cases e : th.pos with
  | out => exact absurd e hout
  | lock hp held todo =>
    cases todo with
    | cons l t => rw [e] at hnext; cases hnext
    | nil =>
      cases held with
      | nil => exact absurd e (g.wants hp)
      | cons a t =>
        refine ⟨.finish i, put s i th.tv (.free (a :: t)), th, ⟨th.tv, .free (a :: t)⟩, Or.inl rfl, ?_, hi, ?_, hout, ?_⟩
        · rw [hmv _ rfl]
          unfold WeakLock.act
          dsimp only
          rw [e]
          rfl
        · exact hset _
        · rw [e]; exact fun h => nomatch h
  | check hp l rest =>
    have hlen := (inv.tvOk i th hi).cur .power
    have hmsg : ∃ g, msgAt (s.mem .power) (s.mem .power).length = some g := by
      cases em : s.mem .power with
      | nil => exact ⟨_, rfl⟩
      | cons a t => exact ⟨_, List.getElem?_eq_getElem (Nat.lt_succ_self t.length)⟩
    obtain ⟨gm, hgm⟩ := hmsg
    have hld : ∃ v tv, load true s.mem th.tv .power (s.mem .power).length = some (v, tv) := by
      unfold load
      rw [if_pos hlen, hgm]
      exact ⟨_, _, rfl⟩
    obtain ⟨v, tv, hld⟩ := hld
    refine ⟨.go i (s.mem .power).length, put s i tv (if v = hp then .lock hp [l] rest else .free [l]), th, ⟨tv, if v = hp then .lock hp [l] rest else .free [l]⟩, Or.inr ⟨_, rfl⟩, ?_, hi, ?_, hout, ?_⟩
    · rw [hmv _ rfl]
      show WeakLock.step s i th _ = _
      unfold WeakLock.step
      rw [e]
      dsimp only
      rw [hld]
      rfl
    · exact hset _
    · rw [e]
      dsimp only
      split <;> exact fun h => nomatch h
  | all held todo =>
    cases todo with
    | cons l t => rw [e] at hnext; cases hnext
    | nil =>
      refine ⟨.finish i, put s i th.tv (.free held), th, ⟨th.tv, .free held⟩, Or.inl rfl, ?_, hi, ?_, hout, ?_⟩
      · rw [hmv _ rfl]
        unfold WeakLock.act
        dsimp only
        rw [e]
        rfl
      · exact hset _
      · rw [e]; exact fun h => nomatch h
  | free held =>
    cases held with
    | nil => exact absurd e g.gives
    | cons l rest =>
      refine ⟨.go i 0, { s with mem := (store true s.mem th.tv (.lock l) 0).1, threads := s.threads.set i ⟨(store true s.mem th.tv (.lock l) 0).2.1, if rest = [] then .out else .free rest⟩, left := (l, th.tv.cur) :: s.left }, th, ⟨(store true s.mem th.tv (.lock l) 0).2.1, if rest = [] then .out else .free rest⟩, Or.inr ⟨_, rfl⟩, ?_, hi, ?_, hout, ?_⟩
      · rw [hmv _ rfl]
        show WeakLock.step s i th _ = _
        unfold WeakLock.step
        rw [e]
      · exact hset _
      · rw [e]
        dsimp only
        split
        · exact fun h => nomatch h
        · intro h
          injection h with h
          have := congrArg List.length h
          rw [List.length_cons] at this
          omega

/-- A thread that waits for a free lock can go on. -/
theorem waits_goes (hi : s.threads[i]? = some th) {l : Nat} (hnext : th.pos.next = some l) (hz : (newest (s.mem (.lock l))).val = 0) : GoesOn s i := by
  obtain ⟨hl, _⟩ := List.getElem?_eq_some_iff.mp hi
  have hset : ∀ x : Th, (s.threads.set i x)[i]? = some x := fun x => List.getElem?_set_self hl
  have hmv : ∀ w, move s (.go i w) = WeakLock.step s i th w := by
    intro w
    show s.threads[i]?.bind _ = _
    rw [hi]
    rfl
  have htas : ∀ p, WeakLock.tas s i th l (s.mem (.lock l)).length p =
      some { s with mem := (rmw true true (fun _ => 1) s.mem th.tv (.lock l)).2.1, threads := s.threads.set i ⟨(rmw true true (fun _ => 1) s.mem th.tv (.lock l)).2.2, p⟩ } := by
    intro p
    unfold WeakLock.tas
    rw [if_pos ⟨rfl, hz⟩]
  have hout : th.pos ≠ .out := by
    intro e
    rw [e] at hnext
    cases hnext
  have fin : ∀ p, p ≠ th.pos → WeakLock.step s i th (s.mem (.lock l)).length = WeakLock.tas s i th l (s.mem (.lock l)).length p → GoesOn s i := by
    intro p hp hst
    refine ⟨.go i (s.mem (.lock l)).length, { s with mem := (rmw true true (fun _ => 1) s.mem th.tv (.lock l)).2.1, threads := s.threads.set i ⟨(rmw true true (fun _ => 1) s.mem th.tv (.lock l)).2.2, p⟩ }, th, ⟨(rmw true true (fun _ => 1) s.mem th.tv (.lock l)).2.2, p⟩, Or.inr ⟨_, rfl⟩, ?_, hi, ?_, hout, hp⟩
    · rw [hmv, hst, htas]
    · exact hset _
  unfold Pos.next at hnext
  split at hnext
  · next hp held a rest e =>
    cases hnext
    cases held with
    | nil =>
      refine fin (.check hp l rest) (by rw [e]; exact fun h => nomatch h) ?_
      unfold WeakLock.step
      rw [e]
    | cons b t =>
      refine fin (.lock hp (l :: b :: t) rest) ?_ ?_
      · rw [e]
        intro h
        injection h with _ h _
        have := congrArg List.length h
        rw [List.length_cons, List.length_cons] at this
        omega
      · unfold WeakLock.step
        rw [e]
  · next held a rest e =>
    cases hnext
    refine fin (.all (l :: held) rest) ?_ ?_
    · rw [e]
      intro h
      injection h with h _
      have := congrArg List.length h
      rw [List.length_cons] at this
      omega
    · unfold WeakLock.step
      rw [e]
  · cases hnext

theorem someone_goes (inv : Inv s) (o : Ord s) : ∀ (d l i : Nat) (th : Th), s.threads[i]? = some th → th.pos.next = some l → s.n ≤ l + d → ∃ j, GoesOn s j := by
  intro d
  induction d with
  | zero =>
    intro l i th hi hnext hd
    have := inv.lt i th hi l (Or.inr (next_todo hnext))
    omega
  | succ d ih =>
    intro l i th hi hnext hd
    by_cases hz : (newest (s.mem (.lock l))).val = 0
    · exact ⟨i, waits_goes hi hnext hz⟩
    · obtain ⟨j, x, hx, hm⟩ := o.busy l hz
      cases hxn : x.pos.next with
      | none =>
        refine ⟨j, idle_goes inv o hx ?_ hxn⟩
        intro e
        rw [e] at hm
        cases hm
      | some l' =>
        have := (o.good j x hx).above l hm l' (next_todo hxn)
        exact ih l' j x hx hxn (by omega)

end Verif.WeakLock
