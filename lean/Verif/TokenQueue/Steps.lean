import Verif.TokenQueue.Cons
/-!
# How many steps calls take
-/
namespace Verif.TokenQueue

variable {E : Type} {c : Cfg} {g : G E} {s s' : Sys E} {own : Nat → Own} {fate : Nat → Fate} {t : Nat}

/-- The steps a consumer has at most before its call ends. -/
def left : DPos E → Nat
  | .idle => 0
  | .tl k => 3 * k.max + 12
  | .ov k _ => 3 * k.max + 11
  | .op k _ _ => 3 * k.max + 10
  | .inc _ d _ => 3 * d + 9
  | .again _ _ d _ => 3 * d + 8
  | .short _ a _ => 3 * a + 7
  | .miss _ _ => 1
  | .head _ a => 3 * a + 6
  | .idx _ _ a => 3 * a + 5
  | .frt _ _ a _ => 3 * a + 4
  | .bas _ _ a _ _ => 3 * a + 3
  | .blk _ _ e _ _ i _ => 3 * (e - i) + 2
  | .mv _ _ e _ _ _ _ i _ => 3 * (e - i) + 1
  | .mark _ _ e _ _ _ _ i _ => 3 * (e - i) + 3

/-- What a position says by itself. -/
def Loc (c : Cfg) : DPos E → Prop
  | .tl k => 0 < k.max
  | .ov k _ => 0 < k.max
  | .op k _ _ => 0 < k.max
  | .inc _ d _ => 0 < d
  | .again _ _ d _ => 0 < d
  | .short _ a _ => 0 < a
  | .head _ a => 0 < a
  | .idx _ _ a => 0 < a
  | .frt _ _ a _ => 0 < a
  | .bas _ _ a _ _ => 0 < a
  | .blk _ _ e _ _ i _ => i < e
  | .mv _ _ e _ _ _ i0 i _ => i0 ≤ i ∧ i < stop c i0 e
  | .mark _ _ e _ _ _ _ i _ => i ≤ e
  | _ => True

/-- A step of thread `t` changes only its own position, makes what is left less and keeps it sensible. -/
theorem left_step (h : Loc c (s.pos t)) (hs : consStep c s t = some s') :
    (∃ p, s'.pos = upd s.pos t p ∧ left p < left (s.pos t) ∧ Loc c p) ∧ s'.pp = s.pp := by
  rw [consStep.eq_def] at hs
  have out : ∀ {p : DPos E} {s1 : Sys E}, s1.pos = upd s.pos t p → s1.pp = s.pp → left p < left (s.pos t) →
      Loc c p → (∃ p, s1.pos = upd s.pos t p ∧ left p < left (s.pos t) ∧ Loc c p) ∧ s1.pp = s.pp :=
    fun h1 h2 h3 h4 => ⟨⟨_, h1, h3, h4⟩, h2⟩
  split at hs
  · cases hs
  · next hpos =>
    injection hs with hs; subst hs; rw [hpos] at h out ⊢
    exact out rfl rfl (Nat.lt_succ_self _) h
  · next hpos =>
    injection hs with hs; subst hs; rw [hpos] at h out ⊢
    exact out rfl rfl (Nat.lt_succ_self _) h
  · next k T o hpos =>
    rw [hpos] at h out ⊢
    have h0 : 0 < k.max := h
    split at hs
    · next hlt =>
      injection hs with hs; subst hs
      have := Nat.min_le_right (T + o - s.opt) k.max
      refine out rfl rfl ?_ ?_
      · show 3 * min (T + o - s.opt) k.max + 9 < 3 * k.max + 10
        omega
      · show 0 < min (T + o - s.opt) k.max
        omega
    · injection hs with hs; subst hs
      exact out rfl rfl (Nat.succ_pos _) trivial
  · next k d o hpos =>
    rw [hpos] at h out ⊢
    injection hs with hs; subst hs
    exact out rfl rfl (Nat.lt_succ_self _) h
  · next k m d o hpos =>
    rw [hpos] at h out ⊢
    have h0 : 0 < d := h
    have hmin := Nat.min_le_left d (s.tail + o - m)
    split at hs
    · next hlt =>
      simp only at hs
      have hpos2 : 0 < min d (s.tail + o - m) := by omega
      split at hs
      · injection hs with hs; subst hs
        refine out rfl rfl ?_ hpos2
        show 3 * min d (s.tail + o - m) + 7 < 3 * d + 8
        omega
      · injection hs with hs; subst hs
        refine out rfl rfl ?_ hpos2
        show 3 * min d (s.tail + o - m) + 6 < 3 * d + 8
        omega
    · injection hs with hs; subst hs
      refine out rfl rfl ?_ trivial
      show 1 < 3 * d + 8
      omega
  · next hpos =>
    rw [hpos] at h out ⊢
    injection hs with hs; subst hs
    exact out rfl rfl (Nat.lt_succ_self _) h
  · next hpos =>
    rw [hpos] at h out ⊢
    injection hs with hs; subst hs
    exact out rfl rfl (Nat.succ_pos _) trivial
  · next hpos =>
    rw [hpos] at h out ⊢
    injection hs with hs; subst hs
    exact out rfl rfl (Nat.lt_succ_self _) h
  · next k f a hpos =>
    rw [hpos] at h out ⊢
    split at hs
    · injection hs with hs; subst hs
      exact out rfl rfl (Nat.succ_pos _) trivial
    · injection hs with hs; subst hs
      exact out rfl rfl (Nat.lt_succ_self _) h
  · next k f a hd hpos =>
    rw [hpos] at h out ⊢
    split at hs
    · injection hs with hs; subst hs
      exact out rfl rfl (Nat.succ_pos _) trivial
    · injection hs with hs; subst hs
      exact out rfl rfl (Nat.lt_succ_self _) h
  · next k f a hd p hpos =>
    rw [hpos] at h out ⊢
    have h0 : 0 < a := h
    split at hs
    · injection hs with hs; subst hs
      exact out rfl rfl (Nat.succ_pos _) trivial
    · injection hs with hs; subst hs
      refine out rfl rfl ?_ ?_
      · show 3 * (f + a - f) + 2 < 3 * a + 3
        omega
      · show f < f + a
        omega
  · next k f e hd p i acc hpos =>
    rw [hpos] at h out ⊢
    have h0 : i < e := h
    split at hs
    · injection hs with hs; subst hs
      exact out rfl rfl (Nat.succ_pos _) trivial
    · injection hs with hs; subst hs
      exact out rfl rfl (Nat.lt_succ_self _) ⟨Nat.le_refl _, lt_stop h0⟩
  · next k f e hd p b i0 i acc hpos =>
    rw [hpos] at h out ⊢
    have h0 : i0 ≤ i ∧ i < stop c i0 e := h
    have hie := (stop_div h0.1 h0.2).2
    split at hs
    · injection hs with hs; subst hs
      exact out rfl rfl (Nat.succ_pos _) trivial
    · simp only at hs
      split at hs
      · injection hs with hs; subst hs
        refine out rfl rfl ?_ (hie : i + 1 ≤ e)
        show 3 * (e - (i + 1)) + 3 < 3 * (e - i) + 1
        omega
      · injection hs with hs; subst hs
        refine out rfl rfl ?_ ⟨by omega, by omega⟩
        show 3 * (e - (i + 1)) + 1 < 3 * (e - i) + 1
        omega
  · next k f e hd p b i0 i acc hpos =>
    rw [hpos] at h out ⊢
    have h0 : i ≤ e := h
    split at hs
    · injection hs with hs; subst hs
      exact out rfl rfl (Nat.succ_pos _) trivial
    · simp only at hs
      split at hs
      · injection hs with hs; subst hs
        exact out rfl rfl (Nat.succ_pos _) trivial
      · injection hs with hs; subst hs
        refine out rfl rfl (Nat.lt_succ_self _) ?_
        show i < e
        omega

/-- The steps the producer has at most before its call ends. -/
def leftP : PPos E → Nat
  | .idle => 0
  | .chk _ _ => 6
  | .grow _ _ => 5
  | .take _ _ => 4
  | .fr _ _ => 3
  | .put _ => 2
  | .pub _ => 1
  | .reuse k => 2 * k.need + k.items.length + 5
  | .more k => 2 * k.need + k.items.length + 4
  | .draw k => 2 * k.need + k.items.length + 3
  | .opn k => k.items.length + 3
  | .fill _ _ _ _ rest => rest.length + 1

def LocP : PPos E → Prop
  | .draw k => 0 < k.need
  | _ => True

theorem spare_putEntry (s : Sys E) (base b : Nat) : (putEntry s base b).pos = s.pos := by
  unfold putEntry; split <;> rfl

theorem spare_putFront (s : Sys E) (f : Nat) : (putFront s f).pos = s.pos := by
  unfold putFront; split <;> rfl

theorem spare_reset {fuel : Nat} (s : Sys E) (b : Nat) : (resetFrom s fuel b).pos = s.pos := by
  induction fuel generalizing s b with
  | zero => rfl
  | succ fuel ih =>
    unfold resetFrom
    simp only
    split
    · rfl
    · rw [ih]

theorem pos_prod {ok : Bool} (h : prodStep c s ok = some s') : s'.pos = s.pos := by
  rw [prodStep.eq_def] at h
  repeat' (first | split at h | (simp only at h; split at h))
  all_goals first
    | (cases h; done)
    | (simp only [Option.some.injEq] at h
       subst h
       first
         | rfl
         | (simp only [spare_putEntry, spare_putFront, spare_reset]; rfl)
         | (simp only [spare_putEntry, spare_putFront, spare_reset]))

theorem locP_step {ok : Bool} (h : prodStep c s ok = some s') : LocP s'.pp := by
  rw [prodStep.eq_def] at h
  split at h
  case h_9 k hpp =>
    split at h
    · injection h with h; subst h; exact trivial
    · next hn =>
      split at h
      · injection h with h; subst h; exact trivial
      · split at h
        · split at h
          · injection h with h; subst h; exact Nat.pos_of_ne_zero hn
          · injection h with h; subst h; exact trivial
        · injection h with h; subst h; exact Nat.pos_of_ne_zero hn
  all_goals repeat' (first | split at h | (simp only at h; split at h))
  all_goals first
    | (cases h; done)
    | (simp only [Option.some.injEq] at h
       subst h
       exact trivial)

theorem leftP_step {ok : Bool} (h : LocP s.pp) (hs : prodStep c s ok = some s') : leftP s'.pp < leftP s.pp := by
  rw [prodStep.eq_def] at hs
  split at hs
  · cases hs
  · next hpp =>
    split at hs
    · injection hs with hs; subst hs; rw [hpp]; exact Nat.lt_succ_self _
    · simp only at hs
      split at hs
      · injection hs with hs; subst hs; rw [hpp]; exact (by decide : 3 < 6)
      · injection hs with hs; subst hs; rw [hpp]; exact Nat.lt_succ_self _
  · next hpp =>
    split at hs
    · injection hs with hs; subst hs; rw [hpp]; exact Nat.succ_pos _
    · split at hs
      · split at hs
        · injection hs with hs; subst hs; rw [hpp]; exact Nat.lt_succ_self _
        · injection hs with hs; subst hs; rw [hpp]; exact Nat.succ_pos _
      · injection hs with hs; subst hs; rw [hpp]; exact Nat.lt_succ_self _
  · next hpp =>
    split at hs
    · injection hs with hs; subst hs; rw [hpp]; exact Nat.lt_succ_self _
    · injection hs with hs; subst hs; rw [hpp]; exact Nat.succ_pos _
  · next hpp => injection hs with hs; subst hs; rw [hpp]; exact Nat.lt_succ_self _
  · next hpp =>
    split at hs
    · injection hs with hs; subst hs; rw [hpp]; exact Nat.succ_pos _
    · injection hs with hs; subst hs; rw [hpp]; exact Nat.lt_succ_self _
  · next hpp => injection hs with hs; subst hs; rw [hpp]; exact Nat.succ_pos _
  · next k hpp =>
    split at hs
    · injection hs with hs; subst hs; rw [hpp]; exact Nat.lt_succ_self _
    · simp only at hs
      split at hs
      · next hc =>
        injection hs with hs; subst hs; rw [hpp]
        show 2 * (k.need - 1) + k.items.length + 5 < 2 * k.need + k.items.length + 5
        have := hc.1
        omega
      · injection hs with hs; subst hs; rw [hpp]; exact Nat.lt_succ_self _
  · next k hpp =>
    split at hs
    · injection hs with hs; subst hs; rw [hpp]
      show k.items.length + 3 < 2 * k.need + k.items.length + 4
      omega
    · split at hs
      · injection hs with hs; subst hs; rw [hpp]; exact Nat.succ_pos _
      · split at hs
        · split at hs
          · injection hs with hs; subst hs; rw [hpp]; exact Nat.lt_succ_self _
          · injection hs with hs; subst hs; rw [hpp]; exact Nat.succ_pos _
        · injection hs with hs; subst hs; rw [hpp]; exact Nat.lt_succ_self _
  · next k hpp =>
    rw [hpp] at h
    have h0 : 0 < k.need := h
    split at hs
    · injection hs with hs; subst hs; rw [hpp]
      show 2 * (k.need - 1) + k.items.length + 4 < 2 * k.need + k.items.length + 3
      omega
    · injection hs with hs; subst hs; rw [hpp]; exact Nat.succ_pos _
  · next k hpp =>
    split at hs
    · injection hs with hs; subst hs; rw [hpp]; exact Nat.succ_pos _
    · injection hs with hs; subst hs; rw [hpp]
      show k.items.length + 1 < k.items.length + 3
      omega
  · next k eb b i rest hpp =>
    split at hs
    · split at hs
      · injection hs with hs; subst hs; rw [hpp]; exact Nat.succ_pos _
      · injection hs with hs; subst hs; rw [hpp]; exact Nat.succ_pos _
    · split at hs
      · injection hs with hs; subst hs; rw [hpp]; exact Nat.succ_pos _
      · injection hs with hs; subst hs; rw [hpp]; exact Nat.lt_succ_self _

/-- Positions are sensible. -/
structure Sane (c : Cfg) (s : Sys E) : Prop where
  cons : ∀ t, Loc c (s.pos t)
  prod : LocP s.pp

theorem callBulk_pos {can : Bool} {l : List E} : (callBulk c s can l).pos = s.pos := by
  unfold callBulk; simp only; split <;> rfl

theorem callBulk_loc {can : Bool} {l : List E} : LocP (callBulk c s can l).pp := by
  unfold callBulk; simp only; split <;> exact trivial

theorem sane_move {m : Move E} (h : Sane c s) (hm : move c s m = some s') : Sane c s' := by
  cases m with
  | prod ok =>
    have hm' : prodStep c s ok = some s' := hm
    exact ⟨fun t => by rw [pos_prod hm']; exact h.cons t, locP_step hm'⟩
  | enq can x =>
    unfold move at hm
    simp only at hm
    split at hm
    · injection hm with hm; subst hm
      refine ⟨h.cons, ?_⟩
      show LocP (if _ then _ else _)
      split <;> exact trivial
    · cases hm
  | bulk can l =>
    unfold move at hm
    simp only at hm
    split at hm
    · injection hm with hm; subst hm
      exact ⟨fun t => by rw [callBulk_pos]; exact h.cons t, callBulk_loc⟩
    · cases hm
  | cons t =>
    have hm' : consStep c s t = some s' := hm
    obtain ⟨⟨p, h1, -, h2⟩, h3⟩ := left_step (h.cons t) hm'
    refine ⟨fun t' => ?_, by rw [h3]; exact h.prod⟩
    rw [h1]
    by_cases e : t' = t
    · subst e; rw [upd_self]; exact h2
    · rw [upd_ne e]; exact h.cons t'
  | deq t max =>
    unfold move at hm
    simp only at hm
    split at hm
    · split at hm
      · cases hm
      · next hmax =>
        injection hm with hm; subst hm
        refine ⟨fun t' => ?_, h.prod⟩
        show Loc c (upd s.pos t _ t')
        by_cases e : t' = t
        · subst e; rw [upd_self]; exact Nat.pos_of_ne_zero hmax
        · rw [upd_ne e]; exact h.cons t'
    · cases hm

theorem sane_run {ms : List (Move E)} (h : Sane c s) (hr : run c s ms = some s') : Sane c s' := by
  induction ms generalizing s with
  | nil => unfold run at hr; injection hr with hr; subst hr; exact h
  | cons m ms ih =>
    unfold run at hr
    split at hr
    · cases hr
    · next s1 h1 => exact ih (sane_move h h1) hr

theorem sane_reach (h : Reach c s) : Sane c s := by
  obtain ⟨ok, ms, hr⟩ := h
  exact sane_run (s := start c ok) ⟨fun _ => trivial, trivial⟩ hr

theorem left_run {ms : List (Move E)} (h : Sane c s) (hr : run c s ms = some s')
    (hn : ∀ max, .deq t max ∉ ms) : ms.countP (isCons t) + left (s'.pos t) ≤ left (s.pos t) := by
  induction ms generalizing s with
  | nil => unfold run at hr; injection hr with hr; subst hr; exact Nat.le_of_eq (Nat.zero_add _)
  | cons m ms ih =>
    unfold run at hr
    split at hr
    · cases hr
    · next s1 h1 =>
      have h2 := ih (sane_move h h1) hr (fun max hm => hn max (List.mem_cons_of_mem _ hm))
      rw [List.countP_cons]
      cases m with
      | prod ok =>
        rw [pos_prod (c := c) (s := s) h1] at h2
        exact h2
      | enq can x =>
        unfold move at h1
        simp only at h1
        split at h1
        · injection h1 with h1; subst h1; exact h2
        · cases h1
      | bulk can l =>
        unfold move at h1
        simp only at h1
        split at h1
        · injection h1 with h1; subst h1
          rw [callBulk_pos] at h2; exact h2
        · cases h1
      | cons t' =>
        obtain ⟨⟨p, h3, h4, -⟩, -⟩ := left_step (c := c) (s := s) (h.cons t') h1
        rw [h3] at h2
        by_cases e : t' = t
        · subst e
          rw [upd_self] at h2
          have : isCons t' (Move.cons (E := E) t') = true := by simp [isCons]
          rw [this, if_pos rfl]
          omega
        · rw [upd_ne (fun e2 => e e2.symm)] at h2
          have : isCons t (Move.cons (E := E) t') = false := by simp [isCons, e]
          rw [this]
          exact h2
      | deq t' max =>
        by_cases e : t' = t
        · subst e; exact absurd List.mem_cons_self (hn max)
        unfold move at h1
        simp only at h1
        split at h1
        · split at h1
          · cases h1
          · injection h1 with h1; subst h1
            have h3 : (s.go t' (.tl ⟨max, s.log.length⟩)).pos t = s.pos t := upd_ne (fun e2 => e e2.symm)
            rw [h3] at h2; exact h2
        · cases h1

theorem leftP_run {ms : List (Move E)} (h : Sane c s) (hr : run c s ms = some s')
    (hn : ∀ m ∈ ms, starts m = false) : ms.countP isProd + leftP s'.pp ≤ leftP s.pp := by
  induction ms generalizing s with
  | nil => unfold run at hr; injection hr with hr; subst hr; exact Nat.le_of_eq (Nat.zero_add _)
  | cons m ms ih =>
    unfold run at hr
    split at hr
    · cases hr
    · next s1 h1 =>
      have h2 := ih (sane_move h h1) hr (fun m hm => hn m (List.mem_cons_of_mem _ hm))
      rw [List.countP_cons]
      cases m with
      | prod ok =>
        have h3 := leftP_step (c := c) (s := s) h.prod h1
        have : isProd (Move.prod (E := E) ok) = true := rfl
        rw [this, if_pos rfl]
        omega
      | enq can x => have := hn _ List.mem_cons_self; cases this
      | bulk can l => have := hn _ List.mem_cons_self; cases this
      | cons t' =>
        obtain ⟨-, h3⟩ := left_step (c := c) (s := s) (h.cons t') h1
        rw [h3] at h2; exact h2
      | deq t' max =>
        unfold move at h1
        simp only at h1
        split at h1
        · split at h1
          · cases h1
          · injection h1 with h1; subst h1; exact h2
        · cases h1

end Verif.TokenQueue
