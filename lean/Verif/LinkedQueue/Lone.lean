import Verif.LinkedQueue.Count
/-!
# A poll no other poll overlaps, and a count nothing overlaps
-/
namespace Verif.LinkedQueue

variable {E : Type}

theorem Reach.during {q : Bool} {t : Nat} {ok : Call E → Prop} {s s' : Sys E} (hr : Reach q s)
    (h : During t ok s s') : Reach q s' := by
  induction h with
  | refl => exact hr
  | call t' c _ _ hi _ ih => exact .step ih (.call t' c hi)
  | tick t' c _ h ih => exact .step ih (.tick t' c h)

/-- Nobody holds a ticket of any producer. -/
def NoTicket (s : Sys E) : Prop := ∀ p, (s.prods p).opt = (s.prods p).head + (s.prods p).over

/-- A producer with something in it. -/
def Full (s : Sys E) (p : Nat) : Prop := (s.prods p).head < (s.prods p).tail

/-- What the lone poll knows on its way. -/
def PollOk (s : Sys E) : Pos E → Prop
  | .idle => True
  | .poll => NoTicket s ∧ ∃ p, p < s.count ∧ Full s p
  | .scan n cnt best _ => NoTicket s ∧ (0 < cnt → Full s best) ∧
      (0 < cnt ∨ ∃ p, p < n ∧ Full s p)
  | .scanH n cnt best _ tl => NoTicket s ∧ tl ≤ (s.prods (n - 1)).tail ∧
      (0 < cnt → Full s best) ∧ (0 < cnt ∨ (∃ p, p < n - 1 ∧ Full s p) ∨ (s.prods (n - 1)).head < tl)
  | .deq .first p .tail => NoTicket s ∧ Full s p
  | .deq .first p (.over tl) => NoTicket s ∧ (s.prods p).head < tl ∧ tl ≤ (s.prods p).tail
  | .deq .first p (.opt tl oc) => NoTicket s ∧ (s.prods p).head < tl ∧ tl ≤ (s.prods p).tail ∧
      oc = (s.prods p).over
  | .deq .first p (.inc oc) => NoTicket s ∧ Full s p ∧ oc = (s.prods p).over
  | .deq .first p (.again m oc) => Full s p ∧ m = (s.prods p).head + (s.prods p).over ∧
      oc = (s.prods p).over
  | .deq .first _ (.miss _) => False
  | .deq .first _ _ => True
  | _ => False

/-- Other threads only add. -/
theorem PollOk.grow {s s' : Sys E} (hc : s.count ≤ s'.count)
    (hp : ∀ p, (s.prods p).tail ≤ (s'.prods p).tail ∧ (s'.prods p).head = (s.prods p).head ∧
      (s'.prods p).opt = (s.prods p).opt ∧ (s'.prods p).over = (s.prods p).over) {y : Pos E}
    (h : PollOk s y) : PollOk s' y := by
  have hq : NoTicket s → NoTicket s' := by
    intro h p
    obtain ⟨_, h2, h3, h4⟩ := hp p
    rw [h2, h3, h4]; exact h p
  have hf : ∀ p, Full s p → Full s' p := by
    intro p h
    obtain ⟨h1, h2, _, _⟩ := hp p
    unfold Full at h ⊢
    omega
  cases y with
  | idle => trivial
  | poll => exact ⟨hq h.1, h.2.elim fun p h => ⟨p, Nat.lt_of_lt_of_le h.1 hc, hf p h.2⟩⟩
  | scan n cnt best bsz =>
    refine ⟨hq h.1, fun h0 => hf _ (h.2.1 h0), ?_⟩
    rcases h.2.2 with h | ⟨p, h1, h2⟩
    · exact .inl h
    · exact .inr ⟨p, h1, hf _ h2⟩
  | scanH n cnt best bsz tl =>
    refine ⟨hq h.1, Nat.le_trans h.2.1 (hp _).1, fun h0 => hf _ (h.2.2.1 h0), ?_⟩
    rcases h.2.2.2 with h | ⟨p, h1, h2⟩ | h
    · exact .inl h
    · exact .inr (.inl ⟨p, h1, hf _ h2⟩)
    · exact .inr (.inr (by rw [(hp _).2.1]; exact h))
  | deq k p d =>
    obtain ⟨h1, h2, h3, h4⟩ := hp p
    cases k with
    | rest best n => exact h
    | first =>
      cases d with
      | tail => exact ⟨hq h.1, hf _ h.2⟩
      | over tl => exact ⟨hq h.1, by rw [h2]; exact h.2.1, Nat.le_trans h.2.2 h1⟩
      | opt tl oc =>
        exact ⟨hq h.1, by rw [h2]; exact h.2.1, Nat.le_trans h.2.2.1 h1, by rw [h4]; exact h.2.2.2⟩
      | inc oc => exact ⟨hq h.1, hf _ h.2.1, by rw [h4]; exact h.2.2⟩
      | again m oc => exact ⟨hf _ h.1, by rw [h2, h4]; exact h.2.1, by rw [h4]; exact h.2.2⟩
      | miss m => exact h
      | _ => trivial
  | _ => exact h

/-- A step outside `poll` stays outside. -/
theorem tick_notPoll {s s' : Sys E} {t c : Nat} (hn : ¬ InPoll (s.pos t))
    (h : tick s t c = some s') : ¬ InPoll (s'.pos t) := by
  unfold tick at h
  cases hp : s.pos t with
  | idle => rw [hp] at h; cases h
  | find e =>
    rw [hp] at h
    simp only at h
    split at h <;> cases h <;> (rw [go_pos, upd_same]; exact id)
  | add p e a =>
    rw [hp] at h
    cases a <;> simp only [addStep, requisition] at h
    case head ct => split at h <;> cases h <;> simp [InPoll]
    case test ct =>
      split at h <;> first | cases h | skip
      all_goals simp [InPoll]
    case get ct en => split at h <;> cases h <;> simp [InPoll]
    case cons1 ct en b => split at h <;> cases h; simp [InPoll]
    case cons ct =>
      split at h
      · cases h
      · split at h <;> cases h; simp [InPoll]
    all_goals (cases h; simp [InPoll])
  | count z =>
    rw [hp] at h; cases h
    unfold countNext
    split <;> simp [InPoll]
  | countT z n acc => rw [hp] at h; cases h; simp [InPoll]
  | countH z n acc tl =>
    rw [hp] at h; cases h
    unfold countNext
    split <;> simp [InPoll]
  | _ => rw [hp] at hn; exact absurd trivial hn

theorem posIx_inPoll {y : Pos E} (h : posIx y ≠ none) : InPoll y := by
  cases y <;> first | trivial | exact absurd rfl h

/-- The answers thread `t` got since there were `n` calls in the log are elements. -/
def Fine (l : List (Rec E)) (n t : Nat) : Prop :=
  ∀ (m : Nat) r, l[m]? = some r → n ≤ m → r.thr = t → ∃ e, r.res = .polled (some e)

theorem Fine.push {l : List (Rec E)} {n t : Nat} {r : Rec E} (h : Fine l n t)
    (hr : r.thr = t → ∃ e, r.res = .polled (some e)) : Fine (l ++ [r]) n t := by
  intro m x hx hm ht
  rcases getElem?_push hx with ⟨h1, _⟩ | ⟨_, h1⟩
  · exact h m x h1 hm ht
  · subst h1; exact hr ht

theorem scanNext_ok {s : Sys E} {t n cnt best bsz N : Nat} (hq : NoTicket s)
    (hok : 0 < cnt ∨ ∃ p, p < n ∧ Full s p) (hb : 0 < cnt → Full s best)
    (hl : Fine s.log N t) :
    PollOk (scanNext s t n cnt best bsz) ((scanNext s t n cnt best bsz).pos t) ∧
      Fine (scanNext s t n cnt best bsz).log N t := by
  unfold scanNext
  split
  · rw [go_pos, upd_same]; exact ⟨⟨hq, hb, hok⟩, hl⟩
  · next h =>
    split
    · next h0 =>
      exfalso
      rcases hok with h1 | ⟨p, h1, _⟩
      · omega
      · exact h ⟨by omega, by omega⟩
    · next h0 => rw [go_pos, upd_same]; exact ⟨⟨hq, hb (by omega)⟩, hl⟩

/-- One step of the poll itself. -/
theorem PollOk.own {s s' : Sys E} {t c N : Nat} (hr : Ranged s.count (s.pos t))
    (h : PollOk s (s.pos t)) (hl : Fine s.log N t) (ht : tick s t c = some s') :
    PollOk s' (s'.pos t) ∧ Fine s'.log N t := by
  unfold tick at ht
  cases hp : s.pos t with
  | idle => rw [hp] at ht; cases ht
  | poll =>
    rw [hp] at ht h; cases ht
    exact scanNext_ok h.1 (.inr h.2) (fun h => by omega) hl
  | scan n cnt best bsz =>
    rw [hp] at ht h hr; cases ht
    rw [go_pos, upd_same]
    refine ⟨⟨h.1, Nat.le_refl _, h.2.1, ?_⟩, hl⟩
    rcases h.2.2 with h1 | ⟨p, h1, h2⟩
    · exact .inl h1
    · by_cases e : p = n - 1
      · subst e; exact .inr (.inr h2)
      · exact .inr (.inl ⟨p, by omega, h2⟩)
  | scanH n cnt best bsz tl =>
    rw [hp] at ht h hr
    obtain ⟨h1, h2, h3, h4⟩ := h
    obtain ⟨r1, r2, r3, r4⟩ := hr
    simp only at ht
    split at ht
    · next hz =>
      cases ht
      refine scanNext_ok h1 ?_ h3 hl
      rcases h4 with h4 | h4 | h4
      · exact .inl h4
      · exact .inr h4
      · omega
    · next hz =>
      split at ht <;> cases ht
      · refine scanNext_ok h1 (.inl (by omega)) (fun _ => ?_) hl
        unfold Full
        omega
      · next hlt =>
        refine scanNext_ok h1 (.inl (by omega)) (fun _ => ?_) hl
        rcases Nat.eq_zero_or_pos cnt with h0 | h0
        · have := r4 h0; omega
        · exact h3 h0
  | deq k p d =>
    rw [hp] at ht h
    simp only at ht
    cases k with
    | rest best n => exact h.elim
    | first =>
      cases d with
      | tail => cases ht; rw [go_pos, upd_same]; exact ⟨⟨h.1, h.2, Nat.le_refl _⟩, hl⟩
      | over tl => cases ht; rw [go_pos, upd_same]; exact ⟨⟨h.1, h.2.1, h.2.2, rfl⟩, hl⟩
      | opt tl oc =>
        obtain ⟨h1, h2, h3, h4⟩ := h
        have := h1 p
        simp only [deqStep] at ht
        split at ht
        · cases ht
          rw [go_pos, upd_same]
          exact ⟨⟨h1, Nat.lt_of_lt_of_le h2 h3, h4⟩, hl⟩
        · omega
      | inc oc =>
        obtain ⟨h1, h2, h3⟩ := h
        cases ht
        rw [go_pos, upd_same]
        refine ⟨⟨?_, ?_, ?_⟩, hl⟩
        · show Full (s.prod p _) p
          unfold Full
          simp only [Sys.prod, upd_same]
          exact h2
        · simp only [Sys.prod, Sys.go, upd_same]; exact h1 p
        · simp only [Sys.prod, Sys.go, upd_same]; exact h3
      | again m oc =>
        obtain ⟨h1, h2, h3⟩ := h
        unfold Full at h1
        simp only [deqStep] at ht
        split at ht
        · cases ht; rw [go_pos, upd_same]; exact ⟨trivial, hl⟩
        · omega
      | miss m => exact h.elim
      | ikey i h' q =>
        simp only [deqStep] at ht
        split at ht <;> cases ht
        rw [go_pos, upd_same]; exact ⟨trivial, hl⟩
      | val i en =>
        simp only [deqStep] at ht
        split at ht <;> cases ht
        rw [go_pos, upd_same]; exact ⟨trivial, hl⟩
      | take i en b =>
        simp only [deqStep] at ht
        split at ht <;> cases ht
        rw [go_pos, upd_same]; exact ⟨trivial, hl⟩
      | mark i en b e =>
        simp only [deqStep] at ht
        split at ht <;> cases ht
        · rw [go_pos, upd_same]; exact ⟨trivial, hl⟩
        · rw [ret_pos, upd_same]; exact ⟨trivial, hl.push (fun _ => ⟨e, rfl⟩)⟩
      | free i b e =>
        cases ht
        rw [ret_pos, upd_same]; exact ⟨trivial, hl.push (fun _ => ⟨e, rfl⟩)⟩
      | _ => cases ht; rw [go_pos, upd_same]; exact ⟨trivial, hl⟩
  | _ => rw [hp] at h; exact h.elim

/-- A lone poll on a queue that holds something returns an element. -/
theorem lone_poll {q : Bool} {s s' : Sys E} {t : Nat} (hr : Reach q s) (hi : s.pos t = .idle)
    (hn : ∀ t', ¬ InPoll (s.pos t')) (ha : gets s.log < adds s.log)
    (hd : During t NotPoll (begin s t .poll) s') : Fine s'.log s.log.length t := by
  have hr0 : Reach q (begin s t .poll) := .step hr (.call t .poll hi)
  have key : (∀ t', t' ≠ t → ¬ InPoll (s'.pos t')) ∧ PollOk s' (s'.pos t) ∧
      Fine s'.log s.log.length t := by
    induction hd with
    | refl =>
      refine ⟨?_, ?_, ?_⟩
      · intro t' e
        show ¬ InPoll (upd s.pos t _ t')
        rw [upd_ne _ _ e]
        exact hn t'
      · show PollOk _ (upd s.pos t _ t)
        rw [upd_same]
        refine ⟨fun p => (Tick.reach hr p).quiet ?_, ?_⟩
        · intro t'
          right
          have := hn t'
          cases hy : s.pos t' with
          | deq k p d => rw [hy] at this; exact absurd trivial this
          | _ => rfl
        · have C := Cnt.reach hr
          obtain ⟨W, w1, w2, w3⟩ := C.heads
          have hW : W = [] := by
            cases W with
            | nil => rfl
            | cons x xs =>
              exact absurd (posIx_inPoll ((w2 x).mp List.mem_cons_self)) (hn x)
          have hsub := total_sub (f := fun p => (s.prods p).tail)
            (g := fun p => (s.prods p).head) s.count (fun p _ => (Tick.reach hr p).head_le)
          rw [C.tails, w3, hW] at hsub
          obtain ⟨p, h1, h2⟩ := total_pos (f := fun p => (s.prods p).tail - (s.prods p).head)
            s.count (by simp only [List.length_nil] at hsub; omega)
          exact ⟨p, h1, by show (s.prods p).head < (s.prods p).tail; omega⟩
      · intro m r h1 h2
        have : m < s.log.length := by
          rcases Nat.lt_or_ge m s.log.length with h | h
          · exact h
          · have : s.log[m]? = some r := h1
            rw [List.getElem?_eq_none h] at this
            cases this
        omega
    | call t' c _ hne hi' hok ih =>
      obtain ⟨i1, i2, i3⟩ := ih
      refine ⟨?_, ?_, i3⟩
      · intro t'' e
        show ¬ InPoll (upd _ t' (start c) t'')
        by_cases e' : t'' = t'
        · subst e'; rw [upd_same]; cases c <;> first | exact hok.elim | exact id
        · rw [upd_ne _ _ e']; exact i1 t'' e
      · show PollOk _ (upd _ t' (start c) t)
        rw [upd_ne _ _ (fun e => hne e.symm)]
        exact i2.grow (Nat.le_refl _) (fun p => ⟨Nat.le_refl _, rfl, rfl, rfl⟩)
    | @tick s1 s2 t' c hd' h ih =>
      obtain ⟨i1, i2, i3⟩ := ih
      have hr1 := hr0.during hd'
      by_cases e : t' = t
      · subst e
        have := PollOk.own (Ranged.reach hr1 t') i2 i3 h
        exact ⟨fun t'' e => by rw [tick_pos h t'' e]; exact i1 t'' e, this.1, this.2⟩
      · have hnp := i1 t' e
        obtain ⟨Γ, src, hit, I, _⟩ := Good.reach hr1
        have hpos : ∀ t'', t'' ≠ t → ¬ InPoll (s2.pos t'') := by
          intro t'' e'
          by_cases e2 : t'' = t'
          · subst e2; exact tick_notPoll hnp h
          · rw [tick_pos h t'' e2]; exact i1 t'' e'
        rw [tick_pos h t (fun x => e x.symm)]
        cases (tick_mv h).eff I with
        | same h1 h2 h3 =>
          refine ⟨hpos, i2.grow (tick_count h) (fun p => ?_), ?_⟩
          · obtain ⟨a, b, c, d⟩ := h1 p
            exact ⟨by rw [a]; exact Nat.le_refl _, b, c, d⟩
          · rcases h3 with h3 | ⟨r, _, hr, h3⟩
            · rw [h3]; exact i3
            · rw [h3]; exact i3.push (fun x => absurd (hr.symm.trans x) e)
        | pub p e' ct hp h1 h2 h3 h4 =>
          have hct : ct = (s1.prods p).tail := I.o.ct t' p e' _ ct hp rfl
          refine ⟨hpos, i2.grow (tick_count h) (fun q => ?_), ?_⟩
          · by_cases e2 : q = p
            · subst e2; rw [h2]; exact ⟨by simp only; omega, rfl, rfl, rfl⟩
            · rw [h1 q e2]; exact ⟨Nat.le_refl _, rfl, rfl, rfl⟩
          · rw [h4]; exact i3.push (fun x => absurd x e)
        | inc k p oc hp => rw [hp] at hnp; exact absurd trivial hnp
        | take k p m hp => rw [hp] at hnp; exact absurd trivial hnp
        | miss k p m hp => rw [hp] at hnp; exact absurd trivial hnp
        | got k p i e' hx => exact absurd (posIx_inPoll (by rw [hx]; simp)) hnp
  exact key.2.2

/-- How much each producer holds. -/
def fill (s : Sys E) (p : Nat) : Nat := (s.prods p).tail - (s.prods p).head

/-- What a count nothing overlaps knows on its way. -/
def CountOk (s : Sys E) (z : Bool) (D : Nat) : Pos E → Prop
  | .idle => True
  | .count z' => z' = z ∧ total (fill s) s.count = D
  | .countT z' n acc => z' = z ∧ 0 < n ∧ acc + total (fill s) n = D
  | .countH z' n acc tl => z' = z ∧ 0 < n ∧ acc + total (fill s) n = D ∧
      tl = (s.prods (n - 1)).tail
  | _ => False

/-- The answers since there were `n` calls in the log are all `a`. -/
def Says (l : List (Rec E)) (n : Nat) (a : Res E) : Prop :=
  ∀ (m : Nat) r, l[m]? = some r → n ≤ m → r.res = a

theorem Says.push {l : List (Rec E)} {n : Nat} {a : Res E} {r : Rec E} (h : Says l n a)
    (hr : r.res = a) : Says (l ++ [r]) n a := by
  intro m x hx hm
  rcases getElem?_push hx with ⟨h1, _⟩ | ⟨_, h1⟩
  · exact h m x h1 hm
  · subst h1; exact hr

theorem Says.start (l : List (Rec E)) (a : Res E) : Says l l.length a := by
  intro m r h1 h2
  rw [List.getElem?_eq_none h2] at h1
  cases h1

theorem countNext_ok {s : Sys E} {t n acc N D : Nat} {z : Bool}
    (h : acc + total (fill s) n = D) (hl : Says s.log N (answer z D)) :
    CountOk (countNext s t z n acc) z D ((countNext s t z n acc).pos t) ∧
      Says (countNext s t z n acc).log N (answer z D) ∧
      (countNext s t z n acc).prods = s.prods ∧ (countNext s t z n acc).count = s.count := by
  unfold countNext
  split
  · next h0 =>
    subst h0
    have : acc = D := h
    subst this
    rw [ret_pos, upd_same]
    exact ⟨trivial, hl.push rfl, rfl, rfl⟩
  · next h0 => rw [go_pos, upd_same]; exact ⟨⟨rfl, Nat.pos_of_ne_zero h0, h⟩, hl, rfl, rfl⟩

theorem CountOk.own {s s' : Sys E} {t c N D : Nat} {z : Bool}
    (h : CountOk s z D (s.pos t)) (hl : Says s.log N (answer z D)) (ht : tick s t c = some s') :
    CountOk s' z D (s'.pos t) ∧ Says s'.log N (answer z D) ∧ s'.prods = s.prods ∧
      s'.count = s.count := by
  unfold tick at ht
  cases hp : s.pos t with
  | idle => rw [hp] at ht; cases ht
  | count z' =>
    rw [hp] at ht h
    obtain ⟨rfl, h2⟩ := h
    cases ht
    exact countNext_ok (by omega) hl
  | countT z' n acc =>
    rw [hp] at ht h
    obtain ⟨rfl, h2, h3⟩ := h
    cases ht
    rw [go_pos, upd_same]
    exact ⟨⟨rfl, h2, h3, rfl⟩, hl, rfl, rfl⟩
  | countH z' n acc tl =>
    rw [hp] at ht h
    obtain ⟨rfl, h2, h3, h4⟩ := h
    cases ht
    refine countNext_ok ?_ hl
    obtain ⟨n, rfl⟩ : ∃ k, n = k + 1 := ⟨n - 1, by omega⟩
    rw [total] at h3
    rw [h4]
    show acc + fill s n + total (fill s) n = D
    omega
  | _ => rw [hp] at h; exact h.elim

theorem held_of {q : Bool} {s : Sys E} (hr : Reach q s) (hs : ∀ t, posIx (s.pos t) = none) :
    total (fill s) s.count = adds s.log - gets s.log ∧ gets s.log ≤ adds s.log := by
  have C := Cnt.reach hr
  obtain ⟨W, w1, w2, w3⟩ := C.heads
  have hW : W = [] := by
    cases W with
    | nil => rfl
    | cons x xs => exact absurd (hs x) ((w2 x).mp List.mem_cons_self)
  have hsub := total_sub (f := fun p => (s.prods p).tail)
    (g := fun p => (s.prods p).head) s.count (fun p _ => (Tick.reach hr p).head_le)
  rw [C.tails, w3, hW] at hsub
  simp only [List.length_nil] at hsub
  have e : total (fill s) s.count = total (fun p => (s.prods p).tail - (s.prods p).head) s.count :=
    rfl
  omega

theorem Still.held {q : Bool} {s : Sys E} (hr : Reach q s) (hs : Still s) :
    total (fill s) s.count = adds s.log - gets s.log ∧ gets s.log ≤ adds s.log :=
  held_of hr (fun t => by rw [hs t]; rfl)

theorem total_zero {f : Nat → Nat} : ∀ (n : Nat), total f n = 0 → ∀ p, p < n → f p = 0
  | 0, _, p, hp => by omega
  | n + 1, h, p, hp => by
    rw [total] at h
    by_cases e : p = n
    · subst e; omega
    · exact total_zero n (by omega) p (by omega)

/-- A count nothing overlaps. -/
theorem lone_count {q : Bool} {s s' : Sys E} {t : Nat} {c : Call E} {z : Bool} (hr : Reach q s)
    (hs : Still s) (hc : start c = .count z) (hd : Solo t (begin s t c) s') :
    Says s'.log s.log.length (answer z (adds s.log - gets s.log)) := by
  have key : CountOk s' z (adds s.log - gets s.log) (s'.pos t) ∧
      Says s'.log s.log.length (answer z (adds s.log - gets s.log)) ∧ s'.prods = s.prods ∧
      s'.count = s.count := by
    induction hd with
    | refl =>
      refine ⟨?_, Says.start _ _, rfl, rfl⟩
      show CountOk _ _ _ (upd s.pos t _ t)
      rw [upd_same, hc]
      exact ⟨rfl, (hs.held hr).1⟩
    | step c' _ h ih =>
      obtain ⟨i1, i2, i3, i4⟩ := ih
      obtain ⟨j1, j2, j3, j4⟩ := i1.own i2 h
      exact ⟨j1, j2, j3.trans i3, j4.trans i4⟩
  exact key.2.1

end Verif.LinkedQueue
