import Verif.WeakMany.Rel
/-!
# Every step is a step of one producer seen alone
-/
namespace Verif.WeakMany
open Verif.Weak (View TView Mem Msg join bot upto msgAt newest push load store fetchAdd fence write Below)

variable {p : Nat}

theorem setAt_self {α : Type} (f : Nat → α) (p : Nat) (x : α) : setAt f p x p = x := if_pos rfl

theorem setAt_ne {α : Type} (f : Nat → α) {p q : Nat} (h : q ≠ p) (x : α) : setAt f q x p = f p := if_neg (Ne.symm h)

/-- What is not about `p` may change. -/
theorem Rel.other {s s2 : Sys} {w : Weak.Sys} (r : Rel p s w) (hm : s2.mem = s.mem) (ht : s2.threads = s.threads) (ho : s2.ok p = s.ok p)
    (ha : s2.added p = s.added p) (hk : ∀ e ∈ s2.taken, e.adder = p → e ∈ s.taken) (hx : WeakMany.indexes s2 p = WeakMany.indexes s p) : Rel p s2 w where
  mem := by rw [hm]; exact r.mem
  len := by rw [ht]; exact r.len
  threads := by rw [ht]; exact r.threads
  adder := r.adder
  ok := by rw [ho]; exact r.ok
  addLen := by rw [ha]; exact r.addLen
  added := by rw [ha]; exact r.added
  taken := fun e he hp => r.taken e (hk e he hp) hp
  indexes := by rw [hx]; exact r.indexes

theorem out_of {w : Weak.Sys} {i : Nat} {th' : Weak.Th} (hi : w.threads[i]? = some th') (hp : th'.pos = .out) : Weak.outside w i = some th'.tv := by
  obtain ⟨tv, q⟩ := th'
  dsimp only at hp
  subst hp
  unfold Weak.outside
  rw [hi]

theorem outside_some {s : Sys} {i : Nat} {tv : TView Loc} (h : outside s i = some tv) : s.threads[i]? = some ⟨tv, .out⟩ := by
  unfold outside at h
  split at h
  · rename_i tv' e
    cases h
    exact e
  · cases h

theorem set_same {α : Type} {l : List α} {i : Nat} {x : α} (h : l[i]? = some x) : l.set i x = l := by
  obtain ⟨hl, e⟩ := List.getElem?_eq_some_iff.mp h
  rw [← e]
  exact List.set_getElem_self hl

/-- There is a move after which the states are related. -/
def Goes (p : Nat) (w : Weak.Sys) (s' : Sys) : Prop := ∃ m w', Weak.move w m = some w' ∧ Rel p s' w'

section
variable {s : Sys} {w : Weak.Sys} {i : Nat} {th : Th} {tv' : TView Weak.Loc}

theorem goes_read (r : Rel p s w) (hi : s.threads[i]? = some th) (ho : Weak.outside w i = some tv') (ht : TR p th.tv tv') {acq : Bool} {l : Loc} {x : List Nat}
    (hx : psi p l = .user x) {n v : Nat} {tv1 : TView Loc} (h : load acq s.mem th.tv l n = some (v, tv1)) {q1 : Pos} (hq : PR p q1 .out) :
    Goes p w { s with threads := s.threads.set i ⟨tv1, q1⟩ } := by
  obtain ⟨tv1', h1, h2⟩ := load_rel r.mem ht h
  rw [hx] at h1
  refine ⟨.read i x n acq, _, ?_, r.upd hi (m1' := w.mem) r.mem h2 hq w.empty⟩
  rw [Weak.move, Weak.outside_some ho]
  dsimp only
  rw [h1]

theorem goes_store (r : Rel p s w) (hi : s.threads[i]? = some th) (ho : Weak.outside w i = some tv') (ht : TR p th.tv tv') (rel : Bool) {l : Loc} {x : List Nat}
    (hx : psi p l = .user x) (v : Nat) {q1 : Pos} (hq : PR p q1 .out) :
    Goes p w { s with mem := (store rel s.mem th.tv l v).1, threads := s.threads.set i ⟨(store rel s.mem th.tv l v).2.1, q1⟩ } := by
  obtain ⟨h1, h2, _⟩ := store_rel r.mem ht rel l v
  rw [hx] at h1 h2
  refine ⟨.write i x v rel, _, ?_, r.upd hi h1 h2 hq w.empty⟩
  rw [Weak.move, Weak.outside_some ho]

theorem goes_write (r : Rel p s w) (hi : s.threads[i]? = some th) (ho : Weak.outside w i = some tv') (ht : TR p th.tv tv') {l : Loc} {x : List Nat}
    (hx : psi p l = .user x) (v : Nat) {q1 : Pos} (hq : PR p q1 .out) :
    Goes p w { s with mem := (write s.mem th.tv l v).1, threads := s.threads.set i ⟨(write s.mem th.tv l v).2.1, q1⟩ } := by
  obtain ⟨h1, h2, _⟩ := write_rel r.mem ht l v
  rw [hx] at h1 h2
  refine ⟨.change i x v, _, ?_, r.upd hi h1 h2 hq w.empty⟩
  rw [Weak.move, Weak.outside_some ho]

theorem goes_count (r : Rel p s w) (hi : s.threads[i]? = some th) (ho : Weak.outside w i = some tv') (ht : TR p th.tv tv') (acq rel : Bool) {l : Loc} {x : List Nat}
    (hx : psi p l = .user x) {q1 : Pos} (hq : PR p q1 .out) :
    Goes p w { s with mem := (fetchAdd acq rel s.mem th.tv l).2.1, threads := s.threads.set i ⟨(fetchAdd acq rel s.mem th.tv l).2.2, q1⟩ } := by
  obtain ⟨_, h1, h2⟩ := fetchAdd_rel r.mem ht acq rel l
  rw [hx] at h1 h2
  refine ⟨.update i x ((newest (w.mem (.user x))).val + 1) acq rel, _, ?_, r.upd hi h1 h2 hq w.empty⟩
  rw [Weak.move, Weak.outside_some ho]
  rfl

theorem goes_fence (r : Rel p s w) (hi : s.threads[i]? = some th) (ho : Weak.outside w i = some tv') (ht : TR p th.tv tv') {q1 : Pos} (hq : PR p q1 .out) :
    Goes p w { s with threads := s.threads.set i ⟨fence th.tv, q1⟩ } := by
  refine ⟨.fence i, _, ?_, r.upd hi (m1' := w.mem) r.mem (fence_rel ht) hq w.empty⟩
  rw [Weak.move, Weak.outside_some ho]

theorem Goes.other {s1 s2 : Sys} (h : Goes p w s1) (hm : s2.mem = s1.mem) (ht : s2.threads = s1.threads) (ho : s2.ok p = s1.ok p)
    (ha : s2.added p = s1.added p) (hk : ∀ e ∈ s2.taken, e.adder = p → e ∈ s1.taken) (hx : indexes s2 p = indexes s1 p) : Goes p w s2 := by
  obtain ⟨m, w', h1, h2⟩ := h
  exact ⟨m, w', h1, h2.other hm ht ho ha hk hx⟩

/-- A step on another producer. -/
theorem act_other (r : Rel p s w) (hi : s.threads[i]? = some th) (ho : Weak.outside w i = some tv') (ht : TR p th.tv tv') {q : Nat} (hq : q ≠ p) {n : Nat} {a : Act} {s' : Sys}
    (h : act s i th.tv q n a = some s') : Goes p w s' := by
  have hat : ∀ b, PR p (.at q b) .out := fun b => by
    rw [PR, if_neg hq]
  have hout : PR p .out .out := rfl
  cases a with
  | addLoad v x =>
    simp only [act] at h
    split at h
    · rename_i t tv hl
      cases h
      exact goes_read r hi ho ht (psi_other hq _) hl (hat _)
    · cases h
  | addWrite v x t =>
    simp only [act] at h
    cases h
    exact (goes_write r hi ho ht (psi_other hq (.slot t)) v (hat (.addStore v x t))).other rfl rfl (setAt_ne _ hq _) rfl (fun e h _ => h) rfl
  | addStore v x t =>
    simp only [act] at h
    cases h
    exact (goes_store r hi ho ht true (psi_other hq .tail) (t + 1) hout).other rfl rfl (setAt_ne _ hq _) (setAt_ne _ hq _) (fun e h _ => h) rfl
  | pTail =>
    simp only [act] at h
    split at h
    · rename_i t tv hl
      cases h
      exact goes_read r hi ho ht (psi_other hq _) hl (hat _)
    · cases h
  | pOver t =>
    simp only [act] at h
    split at h
    · rename_i o tv hl
      cases h
      exact goes_read r hi ho ht (psi_other hq _) hl (hat _)
    · cases h
  | pCount t o =>
    simp only [act] at h
    split at h
    · rename_i c tv hl
      split at h
      · cases h
        exact goes_read r hi ho ht (psi_other hq _) hl (hat _)
      · cases h
        exact goes_read r hi ho ht (psi_other hq _) hl hout
    · cases h
  | pFence o =>
    simp only [act] at h
    cases h
    exact goes_fence r hi ho ht (hat _)
  | pTicket o =>
    simp only [act] at h
    cases h
    exact goes_count r hi ho ht false false (psi_other hq .count) (hat _)
  | pAgain o m =>
    simp only [act] at h
    split at h
    · rename_i c tv hl
      split at h
      · cases h
        exact goes_read r hi ho ht (psi_other hq _) hl (hat _)
      · cases h
        exact goes_read r hi ho ht (psi_other hq _) hl (hat _)
    · cases h
  | pHead m =>
    simp only [act] at h
    cases h
    exact goes_count r hi ho ht true true (psi_other hq .head) (hat _)
  | pSlot x =>
    simp only [act] at h
    cases h
    refine (goes_write r hi ho ht (psi_other hq (.slot x)) 0 hout).other rfl rfl (setAt_ne _ hq _) rfl (fun e h he => ?_) ?_
    · rcases List.mem_cons.mp h with rfl | h
      · exact absurd he hq
      · exact h
    · unfold indexes
      dsimp only
      rw [List.filter_cons_of_neg (by simpa using hq)]
  | pFail m =>
    simp only [act] at h
    cases h
    exact goes_count r hi ho ht false true (psi_other hq .over) hout

theorem goes_step {th' : Weak.Th} {n : Nat} {s' : Sys} {w' : Weak.Sys} (hi' : w.threads[i]? = some th') (h : Weak.step w i th' n = some w') (r : Rel p s' w') : Goes p w s' := by
  refine ⟨.go i n, w', ?_, r⟩
  rw [Weak.move, hi']
  exact h

theorem at_self {a : Act} {q : Weak.Pos} (h : AR p a q) : PR p (.at p a) q := by
  rw [PR, if_pos rfl]
  exact h

/-- A step on the producer itself. -/
theorem act_self (r : Rel p s w) (hi : s.threads[i]? = some th) {th' : Weak.Th} (hi' : w.threads[i]? = some th') (ht : TR p th.tv th'.tv) {a : Act} (ha : AR p a th'.pos) {n : Nat} {s' : Sys}
    (h : act s i th.tv p n a = some s') : Goes p w s' := by
  obtain ⟨tv', q⟩ := th'
  dsimp only at ht ha
  cases a with
  | addLoad v x =>
    obtain ⟨x', rfl, hx⟩ := ha
    simp only [act] at h
    split at h
    · rename_i t tv hl
      cases h
      obtain ⟨tv1', h1, h2⟩ := load_rel r.mem ht hl
      rw [psi_mine] at h1
      have hs : Weak.step w i ⟨tv', .addLoad v x'⟩ n = some { w with threads := w.threads.set i ⟨tv1', .addWrite v x' t⟩ } := by
        rw [Weak.step]
        dsimp only
        have h1 : load false w.mem tv' Weak.Loc.tail n = some (t, tv1') := h1
        rw [h1]
      exact goes_step hi' hs (r.upd hi (m1' := w.mem) r.mem h2 (at_self (a := .addWrite v x t) ⟨x', rfl, hx⟩) w.empty)
    · cases h
  | addWrite v x t =>
    obtain ⟨x', rfl, hx⟩ := ha
    simp only [act] at h
    cases h
    obtain ⟨h1, h2, h3⟩ := write_rel r.mem ht (.of p (.slot t)) v
    rw [psi_mine] at h1 h2 h3
    have ru := r.upd hi h1 h2 (at_self (a := .addStore v x t) ⟨x', rfl, hx⟩) w.empty
    refine goes_step (n := n) hi' rfl { ru with ok := ?_, mem := ru.mem, threads := ru.threads }
    show (w.ok && _) = setAt s.ok p _ p
    rw [setAt_self, r.ok, ← h3]
    rfl
  | addStore v x t =>
    obtain ⟨x', rfl, hx⟩ := ha
    simp only [act] at h
    cases h
    obtain ⟨h1, h2, h3⟩ := store_rel r.mem ht true (.of p .tail) (t + 1)
    rw [psi_mine] at h1 h2 h3
    have ru := r.upd hi h1 h2 (q1 := .out) (q1' := .out) rfl w.empty
    refine goes_step (n := n) hi' rfl { ru with ok := ?_, mem := ru.mem, threads := ru.threads, addLen := ?_, added := ?_ }
    · show (w.ok && _) = setAt s.ok p _ p
      rw [setAt_self, r.ok, ← h3]
      rfl
    · show (w.added ++ [(v, x')]).length = (setAt s.added p _ p).length
      rw [setAt_self, List.length_append, List.length_append, r.addLen]
      rfl
    · show ∀ (m u : Nat) (y : View Loc), (setAt s.added p (s.added p ++ [(v, x)]) p)[m]? = some (u, y) → ∃ y', (w.added ++ [(v, x')])[m]? = some (u, y') ∧ VR p y y'
      rw [setAt_self]
      intro m u y hy
      by_cases hm : m < (s.added p).length
      · rw [List.getElem?_append_left hm] at hy
        rw [List.getElem?_append_left (by rw [r.addLen]; exact hm)]
        exact r.added m u y hy
      · rw [List.getElem?_append_right (by omega)] at hy
        rw [List.getElem?_append_right (by rw [r.addLen]; omega), r.addLen]
        cases hk : m - (s.added p).length with
        | zero =>
          rw [hk] at hy
          cases hy
          exact ⟨x', rfl, hx⟩
        | succ k =>
          rw [hk] at hy
          cases hy
  | pTail =>
    have ha : q = .pTail := ha
    subst ha
    simp only [act] at h
    split at h
    · rename_i t tv hl
      cases h
      obtain ⟨tv1', h1, h2⟩ := load_rel r.mem ht hl
      rw [psi_mine] at h1
      have hs : Weak.step w i ⟨tv', .pTail⟩ n = some { w with threads := w.threads.set i ⟨tv1', .pOver t⟩ } := by
        rw [Weak.step]
        dsimp only
        have h1 : load false w.mem tv' Weak.Loc.tail n = some (t, tv1') := h1
        rw [h1]
      exact goes_step hi' hs (r.upd hi (m1' := w.mem) r.mem h2 (at_self (a := .pOver t) rfl) w.empty)
    · cases h
  | pOver t =>
    have ha : q = .pOver t := ha
    subst ha
    simp only [act] at h
    split at h
    · rename_i o tv hl
      cases h
      obtain ⟨tv1', h1, h2⟩ := load_rel r.mem ht hl
      rw [psi_mine] at h1
      have hs : Weak.step w i ⟨tv', .pOver t⟩ n = some { w with threads := w.threads.set i ⟨tv1', .pCount t o⟩ } := by
        rw [Weak.step]
        dsimp only
        have h1 : load false w.mem tv' Weak.Loc.over n = some (o, tv1') := h1
        rw [h1]
      exact goes_step hi' hs (r.upd hi (m1' := w.mem) r.mem h2 (at_self (a := .pCount t o) rfl) w.empty)
    · cases h
  | pCount t o =>
    have ha : q = .pCount t o := ha
    subst ha
    simp only [act] at h
    split at h
    · rename_i c tv hl
      obtain ⟨tv1', h1, h2⟩ := load_rel r.mem ht hl
      rw [psi_mine] at h1
      have h1 : load false w.mem tv' Weak.Loc.count n = some (c, tv1') := h1
      by_cases hc : (c : Int) - o < t
      · rw [if_pos hc] at h
        cases h
        have hs : Weak.step w i ⟨tv', .pCount t o⟩ n = some { w with threads := w.threads.set i ⟨tv1', .pFence o⟩ } := by
          rw [Weak.step]
          dsimp only
          rw [h1]
          exact if_pos hc
        exact goes_step hi' hs (r.upd hi (m1' := w.mem) r.mem h2 (at_self (a := .pFence o) rfl) w.empty)
      · rw [if_neg hc] at h
        cases h
        have hs : Weak.step w i ⟨tv', .pCount t o⟩ n = some { w with threads := w.threads.set i ⟨tv1', .out⟩, empty := w.empty + 1 } := by
          rw [Weak.step]
          dsimp only
          rw [h1]
          exact if_neg hc
        exact goes_step hi' hs (r.upd hi (m1' := w.mem) r.mem h2 (q1 := .out) rfl (w.empty + 1))
    · cases h
  | pFence o =>
    have ha : q = .pFence o := ha
    subst ha
    simp only [act] at h
    cases h
    exact goes_step (n := n) hi' rfl (r.upd hi (m1' := w.mem) r.mem (fence_rel ht) (at_self (a := .pTicket o) rfl) w.empty)
  | pTicket o =>
    have ha : q = .pTicket o := ha
    subst ha
    simp only [act] at h
    cases h
    obtain ⟨h3, h1, h2⟩ := fetchAdd_rel r.mem ht false false (.of p .count)
    rw [psi_mine] at h1 h2 h3
    exact goes_step (n := n) hi' rfl (r.upd hi h1 h2 (at_self (show AR p (.pAgain o _) _ from congrArg (Weak.Pos.pAgain o) h3)) w.empty)
  | pAgain o m =>
    have ha : q = .pAgain o m := ha
    subst ha
    simp only [act] at h
    split at h
    · rename_i t tv hl
      obtain ⟨tv1', h1, h2⟩ := load_rel r.mem ht hl
      rw [psi_mine] at h1
      have h1 : load true w.mem tv' Weak.Loc.tail n = some (t, tv1') := h1
      by_cases hc : (m : Int) - o < t
      · rw [if_pos hc] at h
        cases h
        have hs : Weak.step w i ⟨tv', .pAgain o m⟩ n = some { w with threads := w.threads.set i ⟨tv1', .pHead m⟩ } := by
          rw [Weak.step]
          dsimp only
          rw [h1]
          exact if_pos hc
        exact goes_step hi' hs (r.upd hi (m1' := w.mem) r.mem h2 (at_self (a := .pHead m) rfl) w.empty)
      · rw [if_neg hc] at h
        cases h
        have hs : Weak.step w i ⟨tv', .pAgain o m⟩ n = some { w with threads := w.threads.set i ⟨tv1', .pFail m⟩ } := by
          rw [Weak.step]
          dsimp only
          rw [h1]
          exact if_neg hc
        exact goes_step hi' hs (r.upd hi (m1' := w.mem) r.mem h2 (at_self (a := .pFail m) rfl) w.empty)
    · cases h
  | pHead m =>
    have ha : q = .pHead m := ha
    subst ha
    simp only [act] at h
    cases h
    obtain ⟨h3, h1, h2⟩ := fetchAdd_rel r.mem ht true true (.of p .head)
    rw [psi_mine] at h1 h2 h3
    exact goes_step (n := n) hi' rfl (r.upd hi h1 h2 (at_self (show AR p (.pSlot _) _ from congrArg Weak.Pos.pSlot h3)) w.empty)
  | pSlot x =>
    have ha : q = .pSlot x := ha
    subst ha
    simp only [act] at h
    cases h
    obtain ⟨h1, h2, h3⟩ := write_rel r.mem ht (.of p (.slot x)) 0
    have h4 := (r.mem (.of p (.slot x))).newest.1
    rw [psi_mine] at h1 h2 h3 h4
    have ru := r.upd hi h1 h2 (q1 := .out) (q1' := .out) rfl w.empty
    refine goes_step (n := n) hi' rfl { ru with ok := ?_, mem := ru.mem, threads := ru.threads, taken := ?_, indexes := ?_ }
    · show (w.ok && _) = setAt s.ok p _ p
      rw [setAt_self, r.ok, ← h3]
      rfl
    · intro e he hep
      rcases List.mem_cons.mp he with rfl | he
      · exact ⟨_, List.mem_cons_self, rfl, rfl, h4, ht.1⟩
      · obtain ⟨e', h5, h6⟩ := r.taken e he hep
        exact ⟨e', List.mem_cons_of_mem _ h5, h6⟩
    · unfold indexes
      dsimp only
      rw [List.filter_cons_of_pos (by simp), List.map_cons, List.map_cons]
      exact congrArg (x :: ·) r.indexes
  | pFail m =>
    have ha : q = .pFail m := ha
    subst ha
    simp only [act] at h
    cases h
    obtain ⟨h3, h1, h2⟩ := fetchAdd_rel r.mem ht false true (.of p .over)
    rw [psi_mine] at h1 h2 h3
    exact goes_step (n := n) hi' rfl (r.upd hi h1 h2 (q1 := .out) rfl (w.empty + 1))

end

/-- Every move is a move of the producer seen alone, or none. -/
theorem move_rel {s s' : Sys} {w : Weak.Sys} (r : Rel p s w) {m : Move} (h : move s m = some s') : Rel p s' w ∨ Goes p w s' := by
  have hout : ∀ {i : Nat} {tv : TView Loc}, outside s i = some tv → ∃ tv', Weak.outside w i = some tv' ∧ TR p tv tv' := by
    intro i tv ho
    obtain ⟨th', h1, h2, h3⟩ := r.threads i _ (outside_some ho)
    exact ⟨th'.tv, out_of h1 h3, h2⟩
  have hat : ∀ {i q : Nat} {tv : TView Loc} {a : Act}, outside s i = some tv → q ≠ p → Rel p { s with threads := s.threads.set i ⟨tv, .at q a⟩ } w := by
    intro i q tv a ho hq
    obtain ⟨th', h1, h2, h3⟩ := r.threads i _ (outside_some ho)
    have hp : PR p (.at q a) th'.pos := by
      rw [PR, if_neg hq]
      exact h3
    have := threads_set r (outside_some ho) (th1 := ⟨tv, .at q a⟩) (th1' := th') h2 hp
    rw [set_same h1] at this
    exact { r with
      mem := r.mem
      len := by dsimp only; rw [List.length_set]; exact r.len
      threads := this }
  cases m with
  | add i v =>
    rw [move] at h
    split at h
    · rename_i tv ho
      cases h
      by_cases hq : i = p
      · obtain ⟨tv', h1, h2⟩ := hout ho
        refine Or.inr ⟨.add v, _, ?_, r.upd (outside_some ho) (m1' := w.mem) r.mem h2 (q1' := .addLoad v tv'.cur) ?_ w.empty⟩
        · rw [Weak.move, r.adder, ← hq, h1]
        · rw [hq]
          exact at_self ⟨_, rfl, h2.1⟩
      · exact Or.inl (hat ho hq)
    · cases h
  | poll i q =>
    rw [move] at h
    split at h
    · rename_i tv ho
      cases h
      by_cases hq : q = p
      · obtain ⟨tv', h1, h2⟩ := hout ho
        refine Or.inr ⟨.poll i, _, ?_, r.upd (outside_some ho) (m1' := w.mem) r.mem h2 (q1' := .pTail) ?_ w.empty⟩
        · rw [Weak.move, h1]
        · rw [hq]
          exact at_self (a := .pTail) rfl
      · exact Or.inl (hat ho hq)
    · cases h
  | go i n =>
    rw [move] at h
    split at h
    · rename_i th hi
      obtain ⟨th', h1, h2, h3⟩ := r.threads i th hi
      unfold step at h
      split at h
      · cases h
      · rename_i q a hp
        rw [hp, PR] at h3
        by_cases hq : q = p
        · rw [if_pos hq] at h3
          rw [hq] at h
          exact Or.inr (act_self r hi h1 h2 h3 h)
        · rw [if_neg hq] at h3
          exact Or.inr (act_other r hi (out_of h1 h3) h2 hq h)
    · cases h
  | look i q n tl =>
    rw [move] at h
    split at h
    · rename_i tv ho
      obtain ⟨tv', h1, h2⟩ := hout ho
      split at h
      · rename_i v tv1 hl
        cases h
        by_cases hq : q = p
        · rw [hq] at hl
          obtain ⟨tv1', h3, h4⟩ := load_rel r.mem h2 hl
          refine Or.inr ⟨.look i n tl, _, ?_, r.upd (outside_some ho) (m1' := w.mem) r.mem h4 (q1 := .out) rfl w.empty⟩
          have hm : psi p (.of p (if tl = true then .tail else .head)) = if tl = true then Weak.Loc.tail else Weak.Loc.head := by
            rw [psi_mine]
            cases tl <;> rfl
          rw [hm] at h3
          rw [Weak.move, h1]
          dsimp only
          rw [h3]
        · exact Or.inr (goes_read r (outside_some ho) h1 h2 (psi_other hq _) hl rfl)
      · cases h
    · cases h
  | read i x n acq =>
    rw [move] at h
    split at h
    · rename_i tv ho
      obtain ⟨tv', h1, h2⟩ := hout ho
      split at h
      · rename_i v tv1 hl
        cases h
        exact Or.inr (goes_read r (outside_some ho) h1 h2 (l := .own x) rfl hl rfl)
      · cases h
    · cases h
  | write i x v rel =>
    rw [move] at h
    split at h
    · rename_i tv ho
      obtain ⟨tv', h1, h2⟩ := hout ho
      cases h
      exact Or.inr (goes_store r (outside_some ho) h1 h2 rel (l := .own x) rfl v rfl)
    · cases h
  | count i x acq rel =>
    rw [move] at h
    split at h
    · rename_i tv ho
      obtain ⟨tv', h1, h2⟩ := hout ho
      cases h
      exact Or.inr (goes_count r (outside_some ho) h1 h2 acq rel (l := .own x) rfl rfl)
    · cases h
  | fence i =>
    rw [move] at h
    split at h
    · rename_i tv ho
      obtain ⟨tv', h1, h2⟩ := hout ho
      cases h
      exact Or.inr (goes_fence r (outside_some ho) h1 h2 rfl)
    · cases h

theorem run_snoc : ∀ (ms : List Weak.Move) {w w1 w2 : Weak.Sys} {m : Weak.Move}, Weak.run w ms = some w1 → Weak.move w1 m = some w2 → Weak.run w (ms ++ [m]) = some w2 := by
  intro ms
  induction ms with
  | nil =>
    intro w w1 w2 m h hm
    cases h
    rw [List.nil_append, Weak.run, hm]
    rfl
  | cons a ms ih =>
    intro w w1 w2 m h hm
    rw [List.cons_append]
    rw [Weak.run] at h ⊢
    cases ha : Weak.move w a with
    | none => rw [ha] at h; cases h
    | some w' =>
      rw [ha] at h
      exact ih h hm

theorem run_rel (k : Nat) : ∀ (ms : List Move) {s s' : Sys} {w : Weak.Sys}, Weak.Reach k w → Rel p s w → run s ms = some s' → ∃ w', Weak.Reach k w' ∧ Rel p s' w' := by
  intro ms
  induction ms with
  | nil => intro s s' w hw r h; cases h; exact ⟨w, hw, r⟩
  | cons m ms ih =>
    intro s s' w hw r h
    rw [run] at h
    cases hm : move s m with
    | none => rw [hm] at h; cases h
    | some s1 =>
      rw [hm] at h
      rcases move_rel r hm with r1 | ⟨m', w1, h1, r1⟩
      · exact ih hw r1 h
      · obtain ⟨a, ns, hn⟩ := hw
        exact ih ⟨a, ns ++ [m'], run_snoc ns hn h1⟩ r1 h

/-- Every producer, seen alone, is in a state that one producer alone reaches. -/
theorem reach_rel {k : Nat} {s : Sys} (h : Reach k s) (p : Nat) : ∃ w, Weak.Reach k w ∧ Rel p s w := by
  obtain ⟨ms, hms⟩ := h
  exact run_rel k ms ⟨p, [], rfl⟩ (rel_init k p) hms

end Verif.WeakMany
