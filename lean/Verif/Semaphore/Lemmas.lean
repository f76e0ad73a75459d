import Verif.Semaphore.Spec
/-! # Invariants of the semaphore -/
namespace Verif.Semaphore

/-- Whether the condition mutex is held at a position. -/
def holdsC : Pos → Bool
  | .rLockP _ => true
  | .rAdd _ => true
  | .rUnlockP _ => true
  | .rNotify _ => true
  | .rUnlockC _ => true
  | .aWait _ _ => true
  | .aUnlockC _ _ => true
  | .wWait _ => true
  | .wFail _ => true
  | .wLockP _ => true
  | .wTest _ => true
  | .wGot _ => true
  | .wGot2 _ => true
  | .wMiss _ => true
  | .wMiss2 _ => true
  | _ => false

/-- Whether the permit mutex is held at a position. -/
def holdsP : Pos → Bool
  | .rAdd _ => true
  | .rUnlockP _ => true
  | .aRead _ _ => true
  | .aUnlock _ _ _ => true
  | .aDec _ _ => true
  | .aUnlockP _ _ => true
  | .tTest _ => true
  | .tGot _ => true
  | .tMiss _ => true
  | .wTest _ => true
  | .wGot _ => true
  | .wMiss _ => true
  | .vRead => true
  | .vUnlockP _ => true
  | _ => false

/-- What the running call has done to the counter. -/
def eff : Pos → Int
  | .rUnlockP n => n
  | .rNotify n => n
  | .rUnlockC n => n
  | .rRet n => n
  | .aTop n k => k - max n 0
  | .aRead n k => k + 1 - max n 0
  | .aUnlock n k _ => k + 1 - max n 0
  | .aLockC n k => k + 1 - max n 0
  | .aWait n k => k + 1 - max n 0
  | .aAsleep n k => k + 1 - max n 0
  | .aWoken n k => k + 1 - max n 0
  | .aUnlockC n k => k + 1 - max n 0
  | .aLockP n k => k + 1 - max n 0
  | .aDec n k => k + 1 - max n 0
  | .aUnlockP n k => k - max n 0
  | .tGot n => -n
  | .wGot n => -n
  | .wGot2 n => -n
  | .tRet n true => -n
  | _ => 0

/-- The call an event is. -/
def callOf : Ev → Option Op
  | .call _ op => some op
  | _ => none

/-- The shape of every step: one or two threads move. -/
inductive Shape (s : Sys) : Option Op → Sys → Prop
  | call (t : Nat) (op : Op) (h : s.threads[t]? = some .idle) : Shape s (some op) (s.goto t (enter op))
  | lockC (t : Nat) (p p' : Pos) (h : s.threads[t]? = some p) (ha : act p = .lockC p') (hf : s.lockC = none) :
    Shape s none { s.goto t p' with lockC := some t }
  | lockP (t : Nat) (p p' : Pos) (h : s.threads[t]? = some p) (ha : act p = .lockP p') (hf : s.lockP = none) :
    Shape s none { s.goto t p' with lockP := some t }
  | unlockC (t : Nat) (p p' : Pos) (h : s.threads[t]? = some p) (ha : act p = .unlockC p') : Shape s none { s.goto t p' with lockC := none }
  | unlockP (t : Nat) (p p' : Pos) (h : s.threads[t]? = some p) (ha : act p = .unlockP p') : Shape s none { s.goto t p' with lockP := none }
  | access (t : Nat) (p : Pos) (f : Int → Int × Pos) (h : s.threads[t]? = some p) (ha : act p = .access f) :
    Shape s none { s.goto t (f s.count).2 with count := (f s.count).1, undef := ¬ (INT_MIN ≤ (f s.count).1 ∧ (f s.count).1 ≤ INT_MAX) }
  | wait (t : Nat) (p p' : Pos) (h : s.threads[t]? = some p) (ha : act p = .wait p') : Shape s none { s.goto t p' with lockC := none }
  | notify (t : Nat) (p p' : Pos) (h : s.threads[t]? = some p) (ha : act p = .notify p') : Shape s none (s.goto t p')
  | notifyOne (t u : Nat) (p p' q q' : Pos) (l : Option Pos) (h : s.threads[t]? = some p) (ha : act p = .notify p')
    (hu : (s.goto t p').threads[u]? = some q) (hb : act q = .sleep q' l) : Shape s none ((s.goto t p').goto u q')
  | ret (t : Nat) (p : Pos) (d : Done) (h : s.threads[t]? = some p) (ha : act p = .ret d) :
    Shape s none { s.goto t .idle with log := d :: s.log }
  | wake (u : Nat) (q q' : Pos) (l : Option Pos) (h : s.threads[u]? = some q) (ha : act q = .sleep q' l) : Shape s none (s.goto u q')
  | late (u : Nat) (q q' q'' : Pos) (h : s.threads[u]? = some q) (ha : act q = .sleep q' (some q'')) : Shape s none (s.goto u q'')

theorem rouse_shape {s s' : Sys} {u : Nat} {late : Bool} (h : rouse s u late = some s') :
    ∃ q q' l, s.threads[u]? = some q ∧ act q = .sleep q' l ∧
      (late = false ∧ s' = s.goto u q' ∨ ∃ q'', late = true ∧ l = some q'' ∧ s' = s.goto u q'') := by
  unfold rouse at h
  cases hq : s.threads[u]? with
  | none => rw [hq] at h; cases h
  | some q =>
    rw [hq] at h
    simp only [Option.map_some] at h
    cases ha : act q with
    | sleep w l =>
      rw [ha] at h
      simp only at h
      cases late with
      | false => exact ⟨q, w, l, rfl, ha, Or.inl ⟨rfl, by simpa using h.symm⟩⟩
      | true =>
        rw [if_pos rfl] at h
        cases l with
        | none => cases h
        | some q'' => exact ⟨q, w, _, rfl, ha, Or.inr ⟨q'', rfl, rfl, by simpa using h.symm⟩⟩
    | _ => rw [ha] at h; cases h

theorem step_shape {s s' : Sys} {e : Ev} (h : step s e = some s') : Shape s (callOf e) s' := by
  unfold step at h
  by_cases hu : s.undef = true
  · rw [if_pos hu] at h; cases h
  rw [if_neg hu] at h
  cases e with
  | call t op =>
    simp only at h
    by_cases ht : s.threads[t]? = some .idle
    · rw [if_pos ht] at h; cases h; exact .call t op ht
    · rw [if_neg ht] at h; cases h
  | tick t =>
    simp only at h
    cases ht : s.threads[t]? with
    | none => rw [ht] at h; cases h
    | some p =>
      rw [ht] at h
      simp only at h
      cases ha : act p with
      | none => rw [ha] at h; cases h
      | lockC p' =>
        rw [ha, tick] at h
        by_cases hf : s.lockC = none
        · rw [if_pos hf] at h; cases h; exact .lockC t p p' ht ha hf
        · rw [if_neg hf] at h; cases h
      | lockP p' =>
        rw [ha, tick] at h
        by_cases hf : s.lockP = none
        · rw [if_pos hf] at h; cases h; exact .lockP t p p' ht ha hf
        · rw [if_neg hf] at h; cases h
      | unlockC p' => rw [ha, tick] at h; cases h; exact .unlockC t p p' ht ha
      | unlockP p' => rw [ha, tick] at h; cases h; exact .unlockP t p p' ht ha
      | access f => rw [ha, tick] at h; cases h; exact .access t p f ht ha
      | wait p' => rw [ha, tick] at h; cases h; exact .wait t p p' ht ha
      | sleep w l => rw [ha, tick] at h; cases h
      | notify p' =>
        rw [ha, tick] at h
        by_cases hf : s.threads.any asleep = true
        · rw [if_pos hf] at h; cases h
        · rw [if_neg hf] at h; cases h; exact .notify t p p' ht ha
      | ret d => rw [ha, tick] at h; cases h; exact .ret t p d ht ha
  | notify t u =>
    simp only at h
    cases ht : s.threads[t]? with
    | none => rw [ht] at h; cases h
    | some p =>
      rw [ht] at h
      simp only [Option.map_some] at h
      cases ha : act p with
      | notify p' =>
        rw [ha] at h
        simp only at h
        obtain ⟨q, q', l, h1, h2, h3 | ⟨q'', h3, _⟩⟩ := rouse_shape h
        · rw [h3.2]; exact .notifyOne t u p p' q q' l ht ha h1 h2
        · cases h3
      | _ => rw [ha] at h; cases h
  | wake u =>
    obtain ⟨q, q', l, h1, h2, h3 | ⟨q'', h3, _⟩⟩ := rouse_shape h
    · rw [h3.2]; exact .wake u q q' l h1 h2
    · cases h3
  | late u =>
    obtain ⟨q, q', l, h1, h2, h3 | ⟨q'', _, h4, h5⟩⟩ := rouse_shape h
    · cases h3.1
    · rw [h5]; subst h4; exact .late u q q' q'' h1 h2

/-! ## The code position by position -/

theorem act_lockC {p p' : Pos} (h : act p = .lockC p') :
    holdsC p = false ∧ holdsC p' = true ∧ holdsP p' = holdsP p ∧ eff p' = eff p := by
  cases p <;> simp only [act, reduceCtorEq, Act.lockC.injEq] at h
  case aTop n k => cases k <;> simp only [act, reduceCtorEq] at h
  all_goals (subst h; exact ⟨rfl, rfl, rfl, rfl⟩)

theorem act_lockP {p p' : Pos} (h : act p = .lockP p') :
    holdsP p = false ∧ holdsP p' = true ∧ holdsC p' = holdsC p ∧ eff p' = eff p := by
  cases p <;> simp only [act, reduceCtorEq, Act.lockP.injEq] at h
  case aTop n k =>
    cases k with
    | zero => simp only [act, reduceCtorEq] at h
    | succ k =>
      simp only [act, Act.lockP.injEq] at h
      subst h; refine ⟨rfl, rfl, rfl, ?_⟩
      simp only [eff]; omega
  all_goals (subst h; exact ⟨rfl, rfl, rfl, rfl⟩)

theorem act_unlockC {p p' : Pos} (h : act p = .unlockC p') :
    holdsC p = true ∧ holdsC p' = false ∧ holdsP p' = holdsP p ∧ eff p' = eff p := by
  cases p <;> simp only [act, reduceCtorEq, Act.unlockC.injEq] at h
  case aTop n k => cases k <;> simp only [act, reduceCtorEq] at h
  all_goals (subst h; exact ⟨rfl, rfl, rfl, rfl⟩)

theorem act_unlockP {p p' : Pos} (h : act p = .unlockP p') :
    holdsP p = true ∧ holdsP p' = false ∧ holdsC p' = holdsC p ∧ eff p' = eff p := by
  cases p <;> simp only [act, reduceCtorEq, Act.unlockP.injEq] at h
  case aTop n k => cases k <;> simp only [act, reduceCtorEq] at h
  case aUnlock n k c => subst h; split <;> exact ⟨rfl, rfl, rfl, rfl⟩
  all_goals (subst h; exact ⟨rfl, rfl, rfl, rfl⟩)

theorem act_wait {p p' : Pos} (h : act p = .wait p') :
    holdsC p = true ∧ holdsC p' = false ∧ holdsP p' = holdsP p ∧ eff p' = eff p := by
  cases p <;> simp only [act, reduceCtorEq, Act.wait.injEq] at h
  case aTop n k => cases k <;> simp only [act, reduceCtorEq] at h
  all_goals (subst h; exact ⟨rfl, rfl, rfl, rfl⟩)

theorem act_notify {p p' : Pos} (h : act p = .notify p') :
    holdsC p' = holdsC p ∧ holdsP p' = holdsP p ∧ eff p' = eff p := by
  cases p <;> simp only [act, reduceCtorEq, Act.notify.injEq] at h
  case aTop n k => cases k <;> simp only [act, reduceCtorEq] at h
  all_goals (subst h; exact ⟨rfl, rfl, rfl⟩)

theorem act_access {p : Pos} {f : Int → Int × Pos} (h : act p = .access f) (c : Int) :
    holdsP p = true ∧ holdsC (f c).2 = holdsC p ∧ holdsP (f c).2 = holdsP p ∧ (f c).1 - c = eff (f c).2 - eff p := by
  cases p <;> simp only [act, reduceCtorEq, Act.access.injEq] at h
  case aTop n k => cases k <;> simp only [act, reduceCtorEq] at h
  case tTest n =>
    subst h
    by_cases hc : n ≤ c
    · simp only [if_pos hc]; refine ⟨rfl, rfl, rfl, ?_⟩; simp only [eff]; omega
    · simp only [if_neg hc]; refine ⟨rfl, rfl, rfl, ?_⟩; simp only [eff]; omega
  case wTest n =>
    subst h
    by_cases hc : n ≤ c
    · simp only [if_pos hc]; refine ⟨rfl, rfl, rfl, ?_⟩; simp only [eff]; omega
    · simp only [if_neg hc]; refine ⟨rfl, rfl, rfl, ?_⟩; simp only [eff]; omega
  all_goals (subst h; refine ⟨rfl, rfl, rfl, ?_⟩; simp only [eff]; omega)

theorem act_sleep {p p' : Pos} {l : Option Pos} (h : act p = .sleep p' l) :
    (holdsC p = false ∧ holdsP p = false) ∧ (holdsC p' = false ∧ holdsP p' = false ∧ eff p' = eff p) ∧
    ∀ p'', l = some p'' → holdsC p'' = false ∧ holdsP p'' = false ∧ eff p'' = eff p := by
  cases p <;> simp only [act, reduceCtorEq, Act.sleep.injEq] at h
  case aTop n k => cases k <;> simp only [act, reduceCtorEq] at h
  all_goals
    obtain ⟨h1, h2⟩ := h
    subst h1; subst h2
    exact ⟨⟨rfl, rfl⟩, ⟨rfl, rfl, rfl⟩, fun p'' h => by cases h; try exact ⟨rfl, rfl, rfl⟩⟩

theorem act_ret {p : Pos} {d : Done} (h : act p = .ret d) : holdsC p = false ∧ holdsP p = false ∧ eff p = change d := by
  cases p <;> simp only [act, reduceCtorEq, Act.ret.injEq] at h
  case aTop n k =>
    cases k with
    | zero =>
      simp only [act, Act.ret.injEq] at h
      subst h; refine ⟨rfl, rfl, ?_⟩
      simp only [eff, change]; omega
    | succ k => simp only [act, reduceCtorEq] at h
  case tRet n got => subst h; cases got <;> exact ⟨rfl, rfl, rfl⟩
  all_goals (subst h; exact ⟨rfl, rfl, rfl⟩)

theorem enter_pos (op : Op) : holdsC (enter op) = false ∧ holdsP (enter op) = false ∧ eff (enter op) = 0 := by
  cases op with
  | acquire n => refine ⟨rfl, rfl, ?_⟩; simp only [enter, eff]; omega
  | tryAcquire n => exact ⟨rfl, rfl, rfl⟩
  | release n => exact ⟨rfl, rfl, rfl⟩
  | available => exact ⟨rfl, rfl, rfl⟩

/-! ## Sums over the threads -/

theorem sum_set (g : Pos → Int) (l : List Pos) (t : Nat) (p p' : Pos) (h : l[t]? = some p) :
    ((l.set t p').map g).sum = (l.map g).sum - g p + g p' := by
  induction l generalizing t with
  | nil => simp at h
  | cons a l ih =>
    cases t with
    | zero => simp at h; subst h; simp; omega
    | succ t =>
      simp only [List.getElem?_cons_succ] at h
      simp only [List.set_cons_succ, List.map_cons, List.sum_cons, ih t h]
      omega

theorem get_set (l : List Pos) (t u : Nat) (p' q : Pos) (h : (l.set t p')[u]? = some q) : u = t ∧ q = p' ∨ u ≠ t ∧ l[u]? = some q := by
  by_cases hu : u = t
  · subst hu
    rw [List.getElem?_set_self'] at h
    cases hl : l[u]? with
    | none => rw [hl] at h; cases h
    | some a => rw [hl] at h; simp at h; exact Or.inl ⟨rfl, h.symm⟩
  · rw [List.getElem?_set_ne (fun e => hu e.symm)] at h
    exact Or.inr ⟨hu, h⟩

/-- Conservation. -/
def Balanced (permits : Int) (s : Sys) : Prop := s.count = permits + (s.log.map change).sum + (s.threads.map eff).sum

theorem balanced_step {permits : Int} {s s' : Sys} {o : Option Op} (h : Shape s o s') (hb : Balanced permits s) : Balanced permits s' := by
  unfold Balanced at *
  cases h with
  | call t op h =>
    simp only [Sys.goto, sum_set eff _ t _ _ h, (enter_pos op).2.2]
    simp only [eff]; omega
  | lockC t p p' h ha hf => simp only [Sys.goto, sum_set eff _ t _ _ h, (act_lockC ha).2.2.2]; omega
  | lockP t p p' h ha hf => simp only [Sys.goto, sum_set eff _ t _ _ h, (act_lockP ha).2.2.2]; omega
  | unlockC t p p' h ha => simp only [Sys.goto, sum_set eff _ t _ _ h, (act_unlockC ha).2.2.2]; omega
  | unlockP t p p' h ha => simp only [Sys.goto, sum_set eff _ t _ _ h, (act_unlockP ha).2.2.2]; omega
  | access t p f h ha =>
    have := (act_access ha s.count).2.2.2
    simp only [Sys.goto, sum_set eff _ t _ _ h]; omega
  | wait t p p' h ha => simp only [Sys.goto, sum_set eff _ t _ _ h, (act_wait ha).2.2.2]; omega
  | notify t p p' h ha => simp only [Sys.goto, sum_set eff _ t _ _ h, (act_notify ha).2.2]; omega
  | notifyOne t u p p' q q' l h ha hu hb' =>
    have h1 := (act_sleep hb').2.1.2.2
    simp only [Sys.goto] at hu ⊢
    rw [sum_set eff _ u _ _ hu, sum_set eff _ t _ _ h, (act_notify ha).2.2, h1]; omega
  | ret t p d h ha =>
    have h1 := (act_ret ha).2.2
    simp only [Sys.goto, sum_set eff _ t _ _ h, List.map_cons, List.sum_cons]
    simp only [eff] at h1 ⊢; omega
  | wake u q q' l h ha => simp only [Sys.goto, sum_set eff _ u _ _ h, (act_sleep ha).2.1.2.2]; omega
  | late u q q' q'' h ha => simp only [Sys.goto, sum_set eff _ u _ _ h, ((act_sleep ha).2.2 _ rfl).2.2]; omega

/-- Each mutex is held by exactly the thread at a position that holds it. -/
def Locked (s : Sys) : Prop :=
  (∀ t, s.lockC = some t ↔ ∃ p, s.threads[t]? = some p ∧ holdsC p = true) ∧
  (∀ t, s.lockP = some t ↔ ∃ p, s.threads[t]? = some p ∧ holdsP p = true)

/-- One thread moves and holds `k` what it held. -/
theorem same_holder (g : Pos → Bool) (l : List Pos) (o : Option Nat) (t : Nat) (p p' : Pos)
    (hl : ∀ u, o = some u ↔ ∃ q, l[u]? = some q ∧ g q = true) (h : l[t]? = some p) (hg : g p' = g p) :
    ∀ u, o = some u ↔ ∃ q, (l.set t p')[u]? = some q ∧ g q = true := by
  intro u
  rw [hl u]
  by_cases hu : u = t
  · subst hu
    constructor
    · rintro ⟨q, h1, h2⟩
      rw [h] at h1; cases h1
      exact ⟨p', by rw [List.getElem?_set_self', h]; rfl, by rw [hg, h2]⟩
    · rintro ⟨q, h1, h2⟩
      rw [List.getElem?_set_self', h] at h1
      cases h1
      exact ⟨p, h, by rw [← hg]; exact h2⟩
  · rw [List.getElem?_set_ne (fun e => hu e.symm)]

theorem take_holder (g : Pos → Bool) (l : List Pos) (t : Nat) (p p' : Pos)
    (hl : ∀ u, (none : Option Nat) = some u ↔ ∃ q, l[u]? = some q ∧ g q = true) (h : l[t]? = some p) (hg : g p' = true) :
    ∀ u, some t = some u ↔ ∃ q, (l.set t p')[u]? = some q ∧ g q = true := by
  intro u
  constructor
  · intro e
    cases e
    exact ⟨p', by rw [List.getElem?_set_self', h]; rfl, hg⟩
  · rintro ⟨q, h1, h2⟩
    rcases get_set l t u p' q h1 with ⟨h3, _⟩ | ⟨_, h3⟩
    · rw [h3]
    · exact absurd ((hl u).mpr ⟨q, h3, h2⟩) (by simp)

theorem drop_holder (g : Pos → Bool) (l : List Pos) (o : Option Nat) (t : Nat) (p p' : Pos)
    (hl : ∀ u, o = some u ↔ ∃ q, l[u]? = some q ∧ g q = true) (h : l[t]? = some p) (hg : g p = true) (hg' : g p' = false) :
    ∀ u, (none : Option Nat) = some u ↔ ∃ q, (l.set t p')[u]? = some q ∧ g q = true := by
  intro u
  have ht := (hl t).mpr ⟨p, h, hg⟩
  constructor
  · intro e; cases e
  · rintro ⟨q, h1, h2⟩
    rcases get_set l t u p' q h1 with ⟨_, h3⟩ | ⟨h3, h4⟩
    · subst h3; rw [hg'] at h2; cases h2
    · have := (hl u).mpr ⟨q, h4, h2⟩
      rw [ht] at this
      cases this
      exact absurd rfl h3

theorem locked_step {s s' : Sys} {o : Option Op} (h : Shape s o s') (hl : Locked s) : Locked s' := by
  obtain ⟨hC, hP⟩ := hl
  cases h with
  | call t op h =>
    have e := enter_pos op
    exact ⟨same_holder holdsC _ _ t _ _ hC h (by rw [e.1]; rfl), same_holder holdsP _ _ t _ _ hP h (by rw [e.2.1]; rfl)⟩
  | lockC t p p' h ha hf =>
    have e := act_lockC ha
    rw [hf] at hC
    exact ⟨take_holder holdsC _ t _ _ hC h e.2.1, same_holder holdsP _ _ t _ _ hP h e.2.2.1⟩
  | lockP t p p' h ha hf =>
    have e := act_lockP ha
    rw [hf] at hP
    exact ⟨same_holder holdsC _ _ t _ _ hC h e.2.2.1, take_holder holdsP _ t _ _ hP h e.2.1⟩
  | unlockC t p p' h ha =>
    have e := act_unlockC ha
    exact ⟨drop_holder holdsC _ _ t _ _ hC h e.1 e.2.1, same_holder holdsP _ _ t _ _ hP h e.2.2.1⟩
  | unlockP t p p' h ha =>
    have e := act_unlockP ha
    exact ⟨same_holder holdsC _ _ t _ _ hC h e.2.2.1, drop_holder holdsP _ _ t _ _ hP h e.1 e.2.1⟩
  | access t p f h ha =>
    have e := act_access ha s.count
    exact ⟨same_holder holdsC _ _ t _ _ hC h e.2.1, same_holder holdsP _ _ t _ _ hP h e.2.2.1⟩
  | wait t p p' h ha =>
    have e := act_wait ha
    exact ⟨drop_holder holdsC _ _ t _ _ hC h e.1 e.2.1, same_holder holdsP _ _ t _ _ hP h e.2.2.1⟩
  | notify t p p' h ha =>
    have e := act_notify ha
    exact ⟨same_holder holdsC _ _ t _ _ hC h e.1, same_holder holdsP _ _ t _ _ hP h e.2.1⟩
  | notifyOne t u p p' q q' l h ha hu hb =>
    have e := act_notify ha
    have e' := act_sleep hb
    exact ⟨same_holder holdsC _ _ u _ _ (same_holder holdsC _ _ t _ _ hC h e.1) hu (by rw [e'.2.1.1, e'.1.1]),
      same_holder holdsP _ _ u _ _ (same_holder holdsP _ _ t _ _ hP h e.2.1) hu (by rw [e'.2.1.2.1, e'.1.2])⟩
  | ret t p d h ha =>
    have e := act_ret ha
    exact ⟨same_holder holdsC _ _ t _ _ hC h (by rw [e.1]; rfl), same_holder holdsP _ _ t _ _ hP h (by rw [e.2.1]; rfl)⟩
  | wake u q q' l h ha =>
    have e' := act_sleep ha
    exact ⟨same_holder holdsC _ _ u _ _ hC h (by rw [e'.2.1.1, e'.1.1]), same_holder holdsP _ _ u _ _ hP h (by rw [e'.2.1.2.1, e'.1.2])⟩
  | late u q q' q'' h ha =>
    have e' := act_sleep ha
    have e'' := e'.2.2 _ rfl
    exact ⟨same_holder holdsC _ _ u _ _ hC h (by rw [e''.1, e'.1.1]), same_holder holdsP _ _ u _ _ hP h (by rw [e''.2.1, e'.1.2])⟩

/-- The counter is an `int`, unless it overflowed. -/
def InRange (s : Sys) : Prop := s.undef = false → INT_MIN ≤ s.count ∧ s.count ≤ INT_MAX

theorem inRange_step {s s' : Sys} {o : Option Op} (h : Shape s o s') (hr : InRange s) : InRange s' := by
  cases h with
  | access t p f h ha => intro hu; simpa using hu
  | _ => exact hr

/-- What every step preserves holds along every execution. -/
theorem run_inv (I : Sys → Prop) (hI : ∀ s s' o, Shape s o s' → I s → I s') (es : List Ev) : ∀ s s', run s es = some s' → I s → I s' := by
  induction es with
  | nil => intro s s' h hs; cases h; exact hs
  | cons e es ih =>
    intro s s' h hs
    unfold run at h
    cases h1 : step s e with
    | none => rw [h1] at h; cases h
    | some s1 => rw [h1] at h; exact ih s1 s' h (hI s s1 _ (step_shape h1) hs)

theorem init_get (permits : Int) (k t : Nat) (p : Pos) (h : (init permits k).threads[t]? = some p) : p = .idle := by
  have := List.mem_of_getElem? h
  exact List.eq_of_mem_replicate this

theorem init_locked (permits : Int) (k : Nat) : Locked (init permits k) := by
  constructor
  · intro t
    constructor
    · intro h; cases h
    · rintro ⟨p, h1, h2⟩; rw [init_get permits k t p h1] at h2; cases h2
  · intro t
    constructor
    · intro h; cases h
    · rintro ⟨p, h1, h2⟩; rw [init_get permits k t p h1] at h2; cases h2

theorem sum_idle (g : Pos → Int) (hg : g .idle = 0) (l : List Pos) (h : ∀ p ∈ l, p = .idle) : (l.map g).sum = 0 := by
  induction l with
  | nil => rfl
  | cons a l ih =>
    rw [List.map_cons, List.sum_cons, ih (fun p hp => h p (List.mem_cons_of_mem _ hp)), h a List.mem_cons_self, hg]; rfl

theorem init_balanced (permits : Int) (k : Nat) : Balanced permits (init permits k) := by
  unfold Balanced
  rw [sum_idle eff rfl (init permits k).threads (fun p hp => List.eq_of_mem_replicate hp)]
  simp [init]

end Verif.Semaphore
