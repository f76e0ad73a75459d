import Verif.Thread.Count
/-!
# Destroying a thread object
-/
namespace Verif.Thread

/-! ## Agents outside the semaphore -/

def inSem : Pos → Bool
  | .jIn => true
  | .jForIn => true
  | .rIn _ => true
  | .xIn => true
  | _ => false

/-- An agent that is not in a call of the semaphore does not move there. -/
theorem idle_stays {s s' : Semaphore.Sys} {e : Semaphore.Ev} (h : Semaphore.step s e = some s') (hi : inner e = true) :
    s'.threads.length = s.threads.length ∧ ∀ u : Nat, s.threads[u]? = some .idle → s'.threads[u]? = some .idle := by
  have hsh := Semaphore.step_shape h
  have hc : Semaphore.callOf e = none := by cases e <;> first | rfl | cases hi
  rw [hc] at hsh
  clear h
  have hset : ∀ (l : List Semaphore.Pos) (t : Nat) (p p' : Semaphore.Pos), l[t]? = some p → p ≠ .idle → ∀ u : Nat, l[u]? = some .idle → (l.set t p')[u]? = some .idle := by
    intro l t p p' ht hp u hu
    rw [List.getElem?_set_ne]
    · exact hu
    · intro e; subst e; rw [ht] at hu; cases hu; exact hp rfl
  have hne : ∀ (p : Semaphore.Pos), Semaphore.act p ≠ .none → p ≠ .idle := by intro p h e; subst e; exact h rfl
  cases hsh with
  | lockC t p p' h ha hf => exact ⟨List.length_set, hset _ _ _ _ h (hne p (by rw [ha]; intro h; cases h))⟩
  | lockP t p p' h ha hf => exact ⟨List.length_set, hset _ _ _ _ h (hne p (by rw [ha]; intro h; cases h))⟩
  | unlockC t p p' h ha => exact ⟨List.length_set, hset _ _ _ _ h (hne p (by rw [ha]; intro h; cases h))⟩
  | unlockP t p p' h ha => exact ⟨List.length_set, hset _ _ _ _ h (hne p (by rw [ha]; intro h; cases h))⟩
  | access t p f h ha => exact ⟨List.length_set, hset _ _ _ _ h (hne p (by rw [ha]; intro h; cases h))⟩
  | wait t p p' h ha => exact ⟨List.length_set, hset _ _ _ _ h (hne p (by rw [ha]; intro h; cases h))⟩
  | notify t p p' h ha => exact ⟨List.length_set, hset _ _ _ _ h (hne p (by rw [ha]; intro h; cases h))⟩
  | notifyOne t u p p' q q' l h ha hu hb =>
    refine ⟨by show ((s.threads.set t p').set u q').length = _; rw [List.length_set, List.length_set], ?_⟩
    intro v hv
    exact hset _ _ _ _ hu (hne q (by rw [hb]; intro h; cases h)) v (hset _ _ _ _ h (hne p (by rw [ha]; intro h; cases h)) v hv)
  | ret t p d h ha => exact ⟨List.length_set, hset _ _ _ _ h (hne p (by rw [ha]; intro h; cases h))⟩
  | wake u q q' l h ha => exact ⟨List.length_set, hset _ _ _ _ h (hne q (by rw [ha]; intro h; cases h))⟩
  | late u q q' q'' h ha => exact ⟨List.length_set, hset _ _ _ _ h (hne q (by rw [ha]; intro h; cases h))⟩

/-- Nobody moves when all are idle. -/
theorem all_idle {s s' : Semaphore.Sys} {e : Semaphore.Ev} (h : Semaphore.step s e = some s') (hi : inner e = true)
    (ha : ∀ (t : Nat) (q : Semaphore.Pos), s.threads[t]? = some q → q = .idle) : False := by
  have hsh := Semaphore.step_shape h
  have hc : Semaphore.callOf e = none := by cases e <;> first | rfl | cases hi
  rw [hc] at hsh
  clear h
  cases hsh with
  | lockC t p p' h h' hf => rw [ha t p h] at h'; cases h'
  | lockP t p p' h h' hf => rw [ha t p h] at h'; cases h'
  | unlockC t p p' h h' => rw [ha t p h] at h'; cases h'
  | unlockP t p p' h h' => rw [ha t p h] at h'; cases h'
  | access t p f h h' => rw [ha t p h] at h'; cases h'
  | wait t p p' h h' => rw [ha t p h] at h'; cases h'
  | notify t p p' h h' => rw [ha t p h] at h'; cases h'
  | notifyOne t u p p' q q' l h h' hu hb => rw [ha t p h] at h'; cases h'
  | ret t p d h h' => rw [ha t p h] at h'; cases h'
  | wake u q q' l h h' => rw [ha u q h] at h'; cases h'
  | late u q q' q'' h h' => rw [ha u q h] at h'; cases h'

/-- Agents outside the calls of the semaphore are idle there. -/
def Linked (sem : List Semaphore.Pos) (pos : List Pos) : Prop :=
  sem.length = pos.length ∧ ∀ (t : Nat) (p : Pos), pos[t]? = some p → inSem p = false → sem[t]? = some .idle

theorem linked_set {sem : List Semaphore.Pos} {pos : List Pos} (h : Linked sem pos) (t : Nat) (p' : Pos)
    (hp : inSem p' = false → sem[t]? = some .idle) : Linked sem (pos.set t p') := by
  refine ⟨by rw [List.length_set]; exact h.1, ?_⟩
  intro u p hu hi
  rcases get_set _ _ _ _ _ hu with ⟨rfl, rfl⟩ | ⟨_, h1⟩
  · exact hp hi
  · exact h.2 u p h1 hi

theorem linked_enter {sem : List Semaphore.Pos} {pos : List Pos} (h : Linked sem pos) (t : Nat) (p' : Pos) (q' : Semaphore.Pos)
    (hp : inSem p' = true) : Linked (sem.set t q') (pos.set t p') := by
  refine ⟨by rw [List.length_set, List.length_set]; exact h.1, ?_⟩
  intro u p hu hi
  rcases get_set _ _ _ _ _ hu with ⟨rfl, rfl⟩ | ⟨hne, h1⟩
  · rw [hp] at hi; cases hi
  · rw [List.getElem?_set_ne (fun e => hne e.symm)]; exact h.2 u p h1 hi

theorem linked_spawn {sem : List Semaphore.Pos} {pos : List Pos} (h : Linked sem pos) (p' : Pos) : Linked (sem ++ [.idle]) (pos ++ [p']) := by
  refine ⟨by simp [h.1], ?_⟩
  intro u p hu hi
  rcases get_snoc _ _ _ _ hu with ⟨rfl, rfl⟩ | h1
  · rw [← h.1]; simp
  · have := (List.getElem?_eq_some_iff.mp h1).1
    rw [List.getElem?_append_left (by rw [h.1]; exact this)]
    exact h.2 u p h1 hi

theorem linked_step {body : Body} {s s' : Sys} {e : Ev} (h : Shape body s e s') (hs : Linked s.sem.threads s.pos) : Linked s'.sem.threads s'.pos := by
  cases h with
  | gone _ _ => exact hs
  | call t op h => exact linked_set hs t _ (fun _ => hs.2 t _ h rfl)
  | sem e sem hi h =>
    obtain ⟨h1, h2⟩ := idle_stays h hi
    exact ⟨by rw [h1]; exact hs.1, fun t p hp hin => h2 t (hs.2 t p hp hin)⟩
  | tick t p s' ht h' =>
    have hm := tick_moves h'
    cases hm
    case spawn h => exact linked_set (linked_spawn hs _) t _ (fun _ => by
      have := hs.2 t _ ht rfl
      rw [List.getElem?_append_left (List.getElem?_eq_some_iff.mp this).1]; exact this)
    case crash w h => exact linked_spawn hs _
    case jEnter h => exact linked_enter hs t _ _ rfl
    case jForEnter h => exact linked_enter hs t _ _ rfl
    case rRelease h => exact linked_enter hs t _ _ rfl
    case xAgain h => exact linked_enter hs t _ _ rfl
    case rNull => exact hs
    case jIn h => exact linked_set hs t _ (fun _ => h)
    case jForIn h => exact linked_set hs t _ (fun _ => h)
    case rIn h => exact linked_set hs t _ (fun _ => h)
    case xIn h => exact linked_set hs t _ (fun _ => h)
    all_goals exact linked_set hs t _ (fun _ => hs.2 t _ ht rfl)

theorem linked_init (k : Nat) : Linked (init k).sem.threads (init k).pos := by
  refine ⟨by simp [init, Semaphore.init], ?_⟩
  intro t p h _
  have := (List.getElem?_eq_some_iff.mp h).1
  simp only [init, List.length_replicate] at this
  simp [init, Semaphore.init, List.getElem?_replicate, this]

/-! ## The destructor -/

/-- A worker that has not ended. -/
def live (p : Pos) : Prop := worker p = true ∧ p ≠ .ended

/-- No destructor is running and none has run. -/
structure Before (s : Sys) : Prop where
  linked : Linked s.sem.threads s.pos
  noX : ∀ (t : Nat) (p : Pos), s.pos[t]? = some p → p = .xTest ∨ (∃ w, p = .xWait w) ∨ p = .xPermits ∨ p = .xAgain ∨ p = .xIn ∨ p = .xGone ∨ p = .dTest ∨ p = .dDetach → False
  own : ∀ (t : Nat) (p : Pos), s.pos[t]? = some p → live p → s.handle = some t
  gone : s.gone = false
  fate : s.fate ≠ .undefined
  log : Done.destroyed ∉ s.log

theorem before_set {s s' : Sys} (h : Before s) {t : Nat} {p p' : Pos} (ht : s.pos[t]? = some p) (hp : s'.pos = s.pos.set t p')
    (hl : Linked s'.sem.threads s'.pos)
    (hx : p' = .xTest ∨ (∃ w, p' = .xWait w) ∨ p' = .xPermits ∨ p' = .xAgain ∨ p' = .xIn ∨ p' = .xGone ∨ p' = .dTest ∨ p' = .dDetach → False)
    (hlive : live p' → live p) (hh : s'.handle = s.handle) (hg : s'.gone = s.gone) (hf : s'.fate = s.fate)
    (hlog : Done.destroyed ∈ s'.log → Done.destroyed ∈ s.log) : Before s' := by
  refine ⟨hl, ?_, ?_, by rw [hg]; exact h.gone, by rw [hf]; exact h.fate, fun hm => h.log (hlog hm)⟩
  · intro u q hu
    rw [hp] at hu
    rcases get_set _ _ _ _ _ hu with ⟨_, rfl⟩ | ⟨_, h1⟩
    · exact hx
    · exact h.noX u q h1
  · intro u q hu hq
    rw [hp] at hu
    rw [hh]
    rcases get_set _ _ _ _ _ hu with ⟨rfl, rfl⟩ | ⟨_, h1⟩
    · exact h.own _ p ht (hlive hq)
    · exact h.own u q h1 hq

theorem before_step {body : Body} (hb : body ≠ .null) {s s' : Sys} {e : Ev} (h : Shape body s e s') (hs : Before s)
    (hdet : ∀ t, e ≠ .call t .detach) (hdes : ∀ t, e ≠ .call t .destroy) :
    s'.fate = .terminated ∧ Done.destroyed ∉ s'.log ∨ Before s' := by
  have hl := linked_step h hs.linked
  cases h with
  | gone _ h => rw [hs.gone] at h; cases h
  | sem e sem hi h => exact Or.inr ⟨hl, hs.noX, hs.own, hs.gone, hs.fate, hs.log⟩
  | call t op h =>
    refine Or.inr (before_set hs h rfl hl ?_ ?_ rfl rfl rfl (fun h => h))
    · cases op
      case detach => exact absurd rfl (hdet t)
      case destroy => exact absurd rfl (hdes t)
      case run => cases body <;> simp [enter, entry]
      all_goals simp [enter]
    · intro hlv
      cases op <;> first | exact hlv | (simp [enter, live, worker] at hlv; done) | skip
      have := hlv.1
      rw [enter, worker_entry] at this; cases this
  | tick t p s' ht h' =>
    have hm := tick_moves h'
    have hx := hs.noX t p ht
    cases hm
    case spawn h =>
      refine Or.inr ⟨hl, ?_, ?_, hs.gone, hs.fate, by simpa using hs.log⟩
      · intro u q hu
        rcases get_set _ _ _ _ _ hu with ⟨_, rfl⟩ | ⟨_, h1⟩
        · simp
        · rcases get_snoc _ _ _ _ h1 with ⟨_, rfl⟩ | h1
          · cases body <;> simp [entry]
          · exact hs.noX u q h1
      · intro u q hu hq
        rcases get_set _ _ _ _ _ hu with ⟨_, rfl⟩ | ⟨_, h1⟩
        · cases hq.1
        · rcases get_snoc _ _ _ _ h1 with ⟨rfl, rfl⟩ | h1
          · rfl
          · have := hs.own u q h1 hq
            rw [h] at this; cases this
    case crash w h => exact Or.inl ⟨rfl, hs.log⟩
    case rNull h => exact absurd h hb
    all_goals first
      | (exfalso; apply hx; simp; done)
      | (refine Or.inr (before_set hs ht rfl hl ?_ ?_ rfl rfl rfl ?_)
         · simp
         · simp [live, worker]
         · simp [Sys.ret, Sys.goto])

/-- A worker's step. -/
theorem worker_moves {body : Body} (hb : body ≠ .null) {s s' : Sys} {t : Nat} {p : Pos} (hw : worker p = true) (h : Moves body s t p s') :
    p ≠ .ended ∧ ∃ p', worker p' = true ∧ s'.pos = s.pos.set t p' ∧ s'.handle = s.handle ∧ s'.gone = s.gone ∧ s'.log = s.log ∧ s'.fate = s.fate := by
  cases h <;> first | (cases hw; done) | skip
  case rNull h => exact absurd h hb
  all_goals
    refine ⟨(by intro h; cases h), _, ?_, rfl, rfl, rfl, rfl, rfl⟩
    exact hw

/-- Agent `d` has called the destructor. -/
structure After (d : Nat) (s : Sys) : Prop where
  linked : Linked s.sem.threads s.pos
  others : ∀ (t : Nat) (p : Pos), t ≠ d → s.pos[t]? = some p → p = .idle ∨ worker p = true
  here : (∃ p, s.pos[d]? = some p ∧ s.gone = false ∧ Done.destroyed ∉ s.log ∧
      (p = .xTest ∧ (∀ (t : Nat) (p : Pos), s.pos[t]? = some p → live p → s.handle = some t) ∨
       (∃ w, p = .xWait w ∧ ∀ (t : Nat) (p : Pos), s.pos[t]? = some p → live p → t = w) ∨
       (p = .xPermits ∨ p = .xAgain ∨ p = .xIn ∨ p = .xGone) ∧ ∀ (t : Nat) (p : Pos), s.pos[t]? = some p → ¬ live p)) ∨
    s.gone = true ∧ s.pos[d]? = some .idle ∧ ∀ (t : Nat) (p : Pos), s.pos[t]? = some p → ¬ live p
  fate : s.fate ≠ .undefined

theorem after_quiet {d : Nat} {s : Sys} (h : After d s) (hg : s.gone = true) : ∀ (t : Nat) (p : Pos), s.pos[t]? = some p → p = .idle ∨ p = .ended := by
  rcases h.here with ⟨_, _, h1, _⟩ | ⟨_, h2, h3⟩
  · rw [hg] at h1; cases h1
  · intro t p hp
    by_cases htd : t = d
    · subst htd; rw [h2] at hp; cases hp; exact Or.inl rfl
    · rcases h.others t p htd hp with h4 | h4
      · exact Or.inl h4
      · right
        by_cases he : p = .ended
        · exact he
        · exact absurd ⟨h4, he⟩ (h3 t p hp)

theorem after_step {body : Body} (hb : body ≠ .null) {d : Nat} {s s' : Sys} {e : Ev} (h : Shape body s e s') (hs : After d s)
    (hc : ∀ t op, e ≠ .call t op) : After d s' := by
  have hl := linked_step h hs.linked
  cases h with
  | gone _ hg h =>
    exfalso
    have hq := after_quiet hs hg
    rcases h with ⟨t, op, rfl⟩ | ⟨u, hu⟩ | ⟨e', sem, hi, he⟩
    · exact hc t op rfl
    · cases hp : s.pos[u]? with
      | none => rw [hp] at hu; cases hu
      | some p =>
        rw [hp] at hu
        rcases hq u p hp with rfl | rfl <;> cases hu
    · refine all_idle he hi ?_
      intro t q ht
      have hlen : t < s.pos.length := by have := (List.getElem?_eq_some_iff.mp ht).1; rw [hs.linked.1] at this; exact this
      have hp := List.getElem?_eq_getElem hlen
      have : inSem s.pos[t] = false := by rcases hq t _ hp with h | h <;> rw [h] <;> rfl
      have := hs.linked.2 t _ hp this
      rw [ht] at this; cases this; rfl
  | call t op h => exact absurd rfl (hc t op)
  | sem e sem hi h => exact ⟨hl, hs.others, hs.here, hs.fate⟩
  | tick t p s' ht h' hg =>
    have hm := tick_moves h'
    obtain ⟨pd, hpd, _, hlog, hcase⟩ | ⟨hg', _⟩ := hs.here
    · by_cases htd : t = d
      · subst htd
        rw [ht] at hpd; cases hpd
        have hoth : ∀ p', ∀ (u : Nat) (q : Pos), u ≠ t → (s.pos.set t p')[u]? = some q → q = .idle ∨ worker q = true := by
          intro p' u q hut hu
          rw [List.getElem?_set_ne (fun e => hut e.symm)] at hu
          exact hs.others u q hut hu
        have hself : ∀ p' : Pos, (s.pos.set t p')[t]? = some p' := fun p' => List.getElem?_set_self (List.getElem?_eq_some_iff.mp ht).1
        have hlive : ∀ p', worker p' = false → ∀ (u : Nat) (q : Pos), (s.pos.set t p')[u]? = some q → live q → s.pos[u]? = some q := by
          intro p' hp' u q hu hq
          rcases get_set _ _ _ _ _ hu with ⟨_, rfl⟩ | ⟨_, h1⟩
          · rw [hq.1] at hp'; cases hp'
          · exact h1
        rcases hcase with ⟨rfl, hc1⟩ | ⟨w, rfl, hc1⟩ | ⟨hx, hc1⟩
        · cases hm
          case xNone h =>
            refine ⟨hl, hoth _, Or.inl ⟨.xPermits, hself _, hg, hlog, Or.inr (Or.inr ⟨Or.inl rfl, ?_⟩)⟩, hs.fate⟩
            intro u q hu hq
            have := hc1 u q (hlive _ rfl u q hu hq) hq
            rw [h] at this; cases this
          case xSome w h =>
            refine ⟨hl, hoth _, Or.inl ⟨.xWait w, hself _, hg, hlog, Or.inr (Or.inl ⟨w, rfl, ?_⟩)⟩, hs.fate⟩
            intro u q hu hq
            have := hc1 u q (hlive _ rfl u q hu hq) hq
            rw [h] at this; exact (Option.some.inj this).symm
        · cases hm
          case xWait h =>
            refine ⟨hl, hoth _, Or.inl ⟨.xPermits, hself _, hg, hlog, Or.inr (Or.inr ⟨Or.inl rfl, ?_⟩)⟩, hs.fate⟩
            intro u q hu hq
            have h1 := hlive _ rfl u q hu hq
            have h2 := hc1 u q h1 hq
            subst h2
            rw [h] at h1; cases h1
            exact hq.2 rfl
        · have hno : ∀ p', worker p' = false → ∀ (u : Nat) (q : Pos), (s.pos.set t p')[u]? = some q → ¬ live q :=
            fun p' hp' u q hu hq => hc1 u q (hlive p' hp' u q hu hq) hq
          rcases hx with rfl | rfl | rfl | rfl
          · cases hm
            case xPos h => exact ⟨hl, hoth _, Or.inl ⟨.xAgain, hself _, hg, hlog, Or.inr (Or.inr ⟨Or.inr (Or.inl rfl), hno _ rfl⟩)⟩, hs.fate⟩
            case xZero h => exact ⟨hl, hoth _, Or.inl ⟨.xGone, hself _, hg, hlog, Or.inr (Or.inr ⟨Or.inr (Or.inr (Or.inr rfl)), hno _ rfl⟩)⟩, hs.fate⟩
          · cases hm
            case xAgain h => exact ⟨hl, hoth _, Or.inl ⟨.xIn, hself _, hg, hlog, Or.inr (Or.inr ⟨Or.inr (Or.inr (Or.inl rfl)), hno _ rfl⟩)⟩, hs.fate⟩
          · cases hm
            case xIn h => exact ⟨hl, hoth _, Or.inl ⟨.xGone, hself _, hg, hlog, Or.inr (Or.inr ⟨Or.inr (Or.inr (Or.inr rfl)), hno _ rfl⟩)⟩, hs.fate⟩
          · cases hm
            case xGone => exact ⟨hl, hoth _, Or.inr ⟨rfl, hself _, hno _ rfl⟩, hs.fate⟩
      · have hw : worker p = true := by
          rcases hs.others t p htd ht with rfl | h
          · cases hm
          · exact h
        obtain ⟨hne, p', h1, h2, h3, h4, h5, h6⟩ := worker_moves hb hw hm
        have hlv : ∀ (u : Nat) (q : Pos), s'.pos[u]? = some q → live q → ∃ q', s.pos[u]? = some q' ∧ live q' := by
          intro u q hu hq
          rw [h2] at hu
          rcases get_set _ _ _ _ _ hu with ⟨rfl, rfl⟩ | ⟨_, hu⟩
          · exact ⟨p, ht, hw, hne⟩
          · exact ⟨q, hu, hq⟩
        refine ⟨hl, ?_, Or.inl ⟨pd, by rw [h2, List.getElem?_set_ne htd]; exact hpd, by rw [h4]; exact hg, by rw [h5]; exact hlog, ?_⟩, by rw [h6]; exact hs.fate⟩
        · intro u q hud hu
          rw [h2] at hu
          rcases get_set _ _ _ _ _ hu with ⟨_, rfl⟩ | ⟨_, hu⟩
          · exact Or.inr h1
          · exact hs.others u q hud hu
        · rcases hcase with ⟨rfl, hc1⟩ | ⟨w, rfl, hc1⟩ | ⟨hx, hc1⟩
          · refine Or.inl ⟨rfl, ?_⟩
            intro u q hu hq
            obtain ⟨q', a, b⟩ := hlv u q hu hq
            rw [h3]; exact hc1 u q' a b
          · refine Or.inr (Or.inl ⟨w, rfl, ?_⟩)
            intro u q hu hq
            obtain ⟨q', a, b⟩ := hlv u q hu hq
            exact hc1 u q' a b
          · refine Or.inr (Or.inr ⟨hx, ?_⟩)
            intro u q hu hq
            obtain ⟨q', a, b⟩ := hlv u q hu hq
            exact hc1 u q' a b
    · rw [hg] at hg'; cases hg'

theorem run_after {body : Body} (hb : body ≠ .null) {d : Nat} (es : List Ev) : ∀ s s', run body s es = some s' → After d s →
    (∀ x ∈ es, ∀ u op, x ≠ .call u op) → After d s' :=
  fun s s' h hs hc => run_inv (After d) (fun e => ∀ u op, e ≠ .call u op) (fun _ _ _ ho _ hsh hi => after_step hb hsh hi ho) es s s' h hc hs

theorem run_careful {body : Body} (hb : body ≠ .null) (es : List Ev) : ∀ s s', run body s es = some s' → Careful body s es → Before s →
    s'.fate = .terminated ∧ Done.destroyed ∉ s'.log ∨ Before s' ∨ ∃ d, After d s' := by
  induction es with
  | nil => intro s s' h _ hs; cases h; exact Or.inr (Or.inl hs)
  | cons e es ih =>
    intro s s' h hcare hs
    unfold run at h
    cases h1 : step body s e with
    | none => rw [h1] at h; cases h
    | some s1 =>
      rw [h1] at h
      unfold Careful at hcare
      obtain ⟨hdet, hdes, hnext⟩ := hcare
      have hsh := (step_shape h1).2
      by_cases hd : ∃ t, e = .call t .destroy
      · obtain ⟨t, rfl⟩ := hd
        obtain ⟨hrest, hno⟩ := hdes t rfl
        right; right
        refine ⟨t, run_after hb es s1 s' h ?_ hno⟩
        have hl := linked_step hsh hs.linked
        cases hsh with
        | gone _ hg _ => rw [hs.gone] at hg; cases hg
        | call t op ht hg =>
          refine ⟨hl, ?_, Or.inl ⟨.xTest, List.getElem?_set_self (List.getElem?_eq_some_iff.mp ht).1, hs.gone, hs.log, Or.inl ⟨rfl, ?_⟩⟩, hs.fate⟩
          · intro u q hut hu
            rcases get_set _ _ _ _ _ hu with ⟨he, _⟩ | ⟨_, hu⟩
            · exact absurd he hut
            · exact hrest u q hu
          · intro u q hu hq
            rcases get_set _ _ _ _ _ hu with ⟨_, rfl⟩ | ⟨_, hu⟩
            · cases hq.1
            · exact hs.own u q hu hq
      · rcases before_step hb hsh hs hdet (fun t he => hd ⟨t, he⟩) with h2 | h2
        · cases es with
          | nil => cases h; exact Or.inl h2
          | cons e' es =>
            exfalso
            unfold run step at h
            simp [h2.1] at h
        · exact ih s1 s' h (hnext s1 h1) h2

/-- `Careful`, computed. -/
def careful (body : Body) : Sys → List Ev → Bool
  | _, [] => true
  | s, e :: es => (match e with | .call _ .detach => false | _ => true) &&
    (match e with | .call _ .destroy => s.pos.all (fun p => decide (p = .idle) || worker p) && es.all (fun x => match x with | .call _ _ => false | _ => true) | _ => true) &&
    (match step body s e with | none => true | some s' => careful body s' es)

theorem careful_sound (body : Body) (es : List Ev) : ∀ s, careful body s es = true → Careful body s es := by
  induction es with
  | nil => intro s _; trivial
  | cons e es ih =>
    intro s h
    unfold careful at h
    simp only [Bool.and_eq_true] at h
    obtain ⟨⟨h1, h2⟩, h3⟩ := h
    refine ⟨?_, ?_, ?_⟩
    · intro t he; rw [he] at h1; cases h1
    · intro t he
      rw [he] at h2
      simp only [Bool.and_eq_true, List.all_eq_true, Bool.or_eq_true, decide_eq_true_eq] at h2
      refine ⟨fun u p hu => h2.1 p (List.mem_of_getElem? hu), fun x hx u op he => ?_⟩
      have := h2.2 x hx
      rw [he] at this; cases this
    · intro s' hs
      rw [hs] at h3
      exact ih s' h3

theorem before_init (k : Nat) : Before (init k) := by
  refine ⟨linked_init k, ?_, ?_, rfl, (by intro h; cases h), (by intro h; cases h)⟩
  · intro t p h; rw [init_pos k t p h]; simp
  · intro t p h hl; rw [init_pos k t p h] at hl; cases hl.1

end Verif.Thread
