import Verif.Thread.Again
/-!
# Where the permits go
-/
namespace Verif.Thread

/-- Where in the semaphore an agent may be. -/
def Sits : Pos → Semaphore.Pos → Prop
  | .jIn, .aTop n k => n = 1 ∧ k ≤ 1
  | .jIn, .aRead n k => n = 1 ∧ k = 0
  | .jIn, .aUnlock n k _ => n = 1 ∧ k = 0
  | .jIn, .aLockC n k => n = 1 ∧ k = 0
  | .jIn, .aWait n k => n = 1 ∧ k = 0
  | .jIn, .aAsleep n k => n = 1 ∧ k = 0
  | .jIn, .aWoken n k => n = 1 ∧ k = 0
  | .jIn, .aUnlockC n k => n = 1 ∧ k = 0
  | .jIn, .aLockP n k => n = 1 ∧ k = 0
  | .jIn, .aDec n k => n = 1 ∧ k = 0
  | .jIn, .aUnlockP n k => n = 1 ∧ k = 0
  | .rIn _, .rLockC n => n = 1
  | .rIn _, .rLockP n => n = 1
  | .rIn _, .rAdd n => n = 1
  | .rIn _, .rUnlockP n => n = 1
  | .rIn _, .rNotify n => n = 1
  | .rIn _, .rUnlockC n => n = 1
  | .rIn _, .rRet n => n = 1
  | _, .idle => True
  | _, _ => False

theorem sits_tick {s s' : Semaphore.Sys} {t : Nat} {p : Pos} {q : Semaphore.Pos} (hf : Sits p q) (h : Semaphore.tick s t (Semaphore.act q) = some s') :
    ∃ q', s'.threads = s.threads.set t q' ∧ Sits p q' ∧ s'.count + due p q' = s.count + due p q := by
  cases p
  case jIn =>
    cases q <;> simp only [Sits] at hf
    case idle => simp only [Semaphore.act, Semaphore.tick, reduceCtorEq] at h
    case aTop n k =>
      obtain ⟨rfl, hk⟩ := hf
      match k, hk with
      | 0, _ =>
        simp only [Semaphore.act, Semaphore.tick, Option.some.injEq] at h
        subst h
        exact ⟨_, rfl, trivial, rfl⟩
      | 1, _ =>
        simp only [Semaphore.act, Semaphore.tick, Option.ite_none_right_eq_some, Option.some.injEq] at h
        obtain ⟨_, rfl⟩ := h
        exact ⟨_, rfl, ⟨rfl, rfl⟩, rfl⟩
    case aUnlock n k d =>
      obtain ⟨rfl, rfl⟩ := hf
      simp only [Semaphore.act, Semaphore.tick, Option.some.injEq] at h
      subst h
      by_cases hd : d = 0
      · exact ⟨.aLockC 1 0, by rw [if_pos hd]; rfl, ⟨rfl, rfl⟩, rfl⟩
      · exact ⟨.aLockP 1 0, by rw [if_neg hd]; rfl, ⟨rfl, rfl⟩, rfl⟩
    case aDec n k =>
      obtain ⟨rfl, rfl⟩ := hf
      simp only [Semaphore.act, Semaphore.tick, Option.some.injEq] at h
      subst h
      exact ⟨.aUnlockP 1 0, rfl, ⟨rfl, rfl⟩, by show s.count - 1 + (1 : Nat) = s.count + (0 : Nat); omega⟩
    case aAsleep n k => simp only [Semaphore.act, Semaphore.tick, reduceCtorEq] at h
    all_goals
      simp only [Semaphore.act, Semaphore.tick, Option.ite_none_right_eq_some, Option.some.injEq] at h
      obtain ⟨rfl, rfl⟩ := hf
      first
        | (obtain ⟨_, rfl⟩ := h
           exact ⟨_, rfl, ⟨rfl, rfl⟩, rfl⟩)
        | (subst h
           exact ⟨_, rfl, ⟨rfl, rfl⟩, rfl⟩)
        | (subst h
           exact ⟨_, rfl, ⟨rfl, by omega⟩, rfl⟩)
  case rIn w =>
    cases q <;> simp only [Sits] at hf
    case idle => simp only [Semaphore.act, Semaphore.tick, reduceCtorEq] at h
    case rAdd n =>
      subst hf
      simp only [Semaphore.act, Semaphore.tick, Option.some.injEq] at h
      subst h
      exact ⟨.rUnlockP 1, rfl, rfl, by show s.count + 1 + (0 : Nat) = s.count + (1 : Nat); omega⟩
    case rNotify n =>
      subst hf
      simp only [Semaphore.act, Semaphore.tick] at h
      by_cases ha : s.threads.any Semaphore.asleep = true
      · rw [if_pos ha] at h; cases h
      · rw [if_neg ha] at h; cases h
        exact ⟨_, rfl, rfl, rfl⟩
    all_goals
      simp only [Semaphore.act, Semaphore.tick, Option.ite_none_right_eq_some, Option.some.injEq] at h
      subst hf
      first
        | (obtain ⟨_, rfl⟩ := h
           exact ⟨_, rfl, rfl, rfl⟩)
        | (subst h
           exact ⟨_, rfl, rfl, rfl⟩)
        | (subst h
           exact ⟨_, rfl, trivial, rfl⟩)
  all_goals
    cases q <;> simp only [Sits] at hf
    simp only [Semaphore.act, Semaphore.tick, reduceCtorEq] at h

/-- Positions of agents that use neither the destructor nor `join(ms)`, for an
object that is not of a derived class. -/
def plain : Pos → Bool
  | .xTest => false
  | .xWait _ => false
  | .xPermits => false
  | .xAgain => false
  | .xIn => false
  | .xGone => false
  | .jForEnter => false
  | .jForIn => false
  | .oFunc _ => false
  | _ => true

/-- Every permit comes from a function that returned and goes to a `join()` that returns. -/
structure Full (s : Sys) : Prop where
  len : s.sem.threads.length = s.pos.length
  sits : ∀ (t : Nat) (p : Pos) (q : Semaphore.Pos), s.pos[t]? = some p → s.sem.threads[t]? = some q → Sits p q
  plain : ∀ (t : Nat) (p : Pos), s.pos[t]? = some p → plain p = true
  locked : Semaphore.Locked s.sem
  balance : s.sem.count + pairs due s.pos s.sem.threads + s.log.count .joined = s.finished

theorem full_set {s s' : Sys} (h : Full s) {t : Nat} {p p' : Pos} (ht : s.pos[t]? = some p) (hp : s'.pos = s.pos.set t p') (hsem : s'.sem = s.sem)
    (hq : ∀ q, s.sem.threads[t]? = some q → Sits p q → Sits p' q ∧ due p' q + s'.log.count .joined + s.finished = due p q + s.log.count .joined + s'.finished)
    (hk : Thread.plain p' = true) : Full s' := by
  obtain ⟨q, hq0⟩ := get_other h.len ht
  obtain ⟨h1, h2⟩ := hq q hq0 (h.sits t p q ht hq0)
  have a1 := pairs_left due s.pos s.sem.threads t p p' q ht hq0
  refine ⟨by rw [hsem, hp, List.length_set]; exact h.len, ?_, ?_, by rw [hsem]; exact h.locked, ?_⟩
  · intro u p1 q1 hu hu'
    rw [hsem] at hu'
    rw [hp] at hu
    rcases get_set _ _ _ _ _ hu with ⟨rfl, rfl⟩ | ⟨_, hu⟩
    · rw [hq0] at hu'; cases hu'; exact h1
    · exact h.sits u p1 q1 hu hu'
  · intro u p1 hu
    rw [hp] at hu
    rcases get_set _ _ _ _ _ hu with ⟨rfl, rfl⟩ | ⟨_, hu⟩
    · exact hk
    · exact h.plain u p1 hu
  · have := h.balance
    rw [hsem, hp]
    omega

theorem full_enter {s s' : Sys} (h : Full s) {t : Nat} {p p' : Pos} (op : Semaphore.Op) (ht : s.pos[t]? = some p) (hi : s.sem.threads[t]? = some .idle)
    (hp : s'.pos = s.pos.set t p') (hsem : s'.sem = s.sem.goto t (Semaphore.enter op))
    (hf : Sits p' (Semaphore.enter op)) (hd : due p' (Semaphore.enter op) = due p .idle) (hl : s'.log = s.log) (hfin : s'.finished = s.finished)
    (hk : Thread.plain p' = true) : Full s' := by
  have a1 := pairs_set due s.pos s.sem.threads t p p' .idle (Semaphore.enter op) ht hi
  have hth : s'.sem.threads = s.sem.threads.set t (Semaphore.enter op) := by rw [hsem]; rfl
  have hcn : s'.sem.count = s.sem.count := by rw [hsem]; rfl
  refine ⟨by rw [hth, hp, List.length_set, List.length_set]; exact h.len, ?_, ?_, by rw [hsem]; exact Semaphore.locked_step (.call t op hi) h.locked, ?_⟩
  · intro u p1 q1 hu hu'
    rw [hth] at hu'
    rw [hp] at hu
    rcases get_set _ _ _ _ _ hu with ⟨rfl, rfl⟩ | ⟨hne, hu⟩
    · rcases get_set _ _ _ _ _ hu' with ⟨_, rfl⟩ | ⟨hne, _⟩
      · exact hf
      · exact absurd rfl hne
    · rcases get_set _ _ _ _ _ hu' with ⟨he, _⟩ | ⟨_, hu'⟩
      · exact absurd he hne
      · exact h.sits u p1 q1 hu hu'
  · intro u p1 hu
    rw [hp] at hu
    rcases get_set _ _ _ _ _ hu with ⟨rfl, rfl⟩ | ⟨_, hu⟩
    · exact hk
    · exact h.plain u p1 hu
  · have := h.balance
    rw [hcn, hth, hp, hl, hfin]
    omega

theorem locked_snoc {s : Semaphore.Sys} (h : Semaphore.Locked s) : Semaphore.Locked { s with threads := s.threads ++ [.idle] } := by
  have hg : ∀ (g : Semaphore.Pos → Bool) (o : Option Nat), g .idle = false → (∀ u, o = some u ↔ ∃ p, s.threads[u]? = some p ∧ g p = true) →
      ∀ u, o = some u ↔ ∃ p, (s.threads ++ [.idle])[u]? = some p ∧ g p = true := by
    intro g o hg h u
    rw [h u]
    constructor
    · intro ⟨p, h1, h2⟩
      exact ⟨p, by rw [List.getElem?_append_left (List.getElem?_eq_some_iff.mp h1).1]; exact h1, h2⟩
    · intro ⟨p, h1, h2⟩
      rcases get_snoc _ _ _ _ h1 with ⟨_, rfl⟩ | h1
      · rw [hg] at h2; cases h2
      · exact ⟨p, h1, h2⟩
  exact ⟨hg _ _ rfl h.1, hg _ _ rfl h.2⟩

theorem full_spawn {s : Sys} (h : Full s) {body : Body} (hb : body ≠ .derived) (s' : Sys) (hp : s'.pos = s.pos ++ [entry body true])
    (hsem : s'.sem = { s.sem with threads := s.sem.threads ++ [.idle] }) (hl : s'.log = s.log) (hfin : s'.finished = s.finished) : Full s' := by
  have hth : s'.sem.threads = s.sem.threads ++ [.idle] := by rw [hsem]
  have hcn : s'.sem.count = s.sem.count := by rw [hsem]
  have he : due (entry body true) .idle = 0 ∧ Thread.plain (entry body true) = true := by cases body <;> first | exact ⟨rfl, rfl⟩ | exact absurd rfl hb
  refine ⟨by rw [hth, hp]; simp [h.len], ?_, ?_, by rw [hsem]; exact locked_snoc h.locked, ?_⟩
  · intro u p1 q1 hu hu'
    rw [hp] at hu
    rw [hth] at hu'
    rcases get_snoc _ _ _ _ hu with ⟨rfl, rfl⟩ | hu
    · rw [← h.len] at hu'
      simp at hu'
      subst hu'
      cases body <;> trivial
    · have := (List.getElem?_eq_some_iff.mp hu).1
      rw [List.getElem?_append_left (by rw [h.len]; exact this)] at hu'
      exact h.sits u p1 q1 hu hu'
  · intro u p1 hu
    rw [hp] at hu
    rcases get_snoc _ _ _ _ hu with ⟨rfl, rfl⟩ | hu
    · exact he.2
    · exact h.plain u p1 hu
  · have := h.balance
    rw [hcn, hth, hp, hl, hfin, pairs_snoc _ _ _ _ _ h.len]
    omega

/-- One agent's position in the semaphore changes. -/
theorem full_sem1 {s : Sys} (h : Full s) {sem : Semaphore.Sys} {t : Nat} {p : Pos} {q q' : Semaphore.Pos} (hp : s.pos[t]? = some p) (ht : s.sem.threads[t]? = some q)
    (h1 : sem.threads = s.sem.threads.set t q') (h2 : Sits p q') (h3 : sem.count + due p q' = s.sem.count + due p q) (hl : Semaphore.Locked sem) : Full { s with sem := sem } := by
  have a1 := pairs_right due s.pos s.sem.threads t p q q' hp ht
  refine ⟨by rw [h1, List.length_set]; exact h.len, ?_, h.plain, hl, ?_⟩
  · intro u p1 q1 hu hu'
    rw [h1] at hu'
    rcases get_set _ _ _ _ _ hu' with ⟨rfl, rfl⟩ | ⟨hne, hu'⟩
    · change s.pos[u]? = some p1 at hu
      rw [hp] at hu; cases hu; exact h2
    · exact h.sits u p1 q1 hu hu'
  · have := h.balance
    show sem.count + ((pairs due s.pos sem.threads : Nat) : Int) + s.log.count .joined = s.finished
    rw [h1]
    omega

theorem sits_woken {p : Pos} {q q' : Semaphore.Pos} (h : Sits p q) (hq : woken q = some q') : Sits p q' ∧ due p q' = due p q := by
  cases q <;> simp only [woken, reduceCtorEq, Option.some.injEq] at hq
  case aAsleep n k => subst hq; cases p <;> first | exact ⟨h, rfl⟩ | exact h.elim
  case wAsleep n => cases p <;> exact h.elim

theorem full_sem {s : Sys} (h : Full s) {e : Semaphore.Ev} {sem : Semaphore.Sys} (hi : inner e = true)
    (hs : Semaphore.step s.sem e = some sem) : Full { s with sem := sem } := by
  have hlock : Semaphore.Locked sem := Semaphore.locked_step (Semaphore.step_shape hs) h.locked
  have hget : ∀ (t : Nat) (q : Semaphore.Pos), s.sem.threads[t]? = some q → ∃ p, s.pos[t]? = some p := by
    intro t q hq
    have := (List.getElem?_eq_some_iff.mp hq).1
    exact ⟨_, List.getElem?_eq_getElem (by rw [← h.len]; exact this)⟩
  by_cases hw : ∃ u, e = .wake u
  · obtain ⟨u, rfl⟩ := hw
    unfold Semaphore.step at hs
    by_cases hu : s.sem.undef = true
    · rw [if_pos hu] at hs; cases hs
    rw [if_neg hu] at hs
    obtain ⟨q, q', l, h1, h2, h3 | ⟨q'', h3, _⟩⟩ := Semaphore.rouse_shape hs
    · obtain ⟨p, hp⟩ := hget u q h1
      obtain ⟨h4, h5⟩ := sits_woken (h.sits u p q hp h1) (sleep_woken h2).1
      have hse : sem = s.sem.goto u q' := h3.2
      exact full_sem1 h hp h1 (by rw [hse]; rfl) h4 (by rw [h5, hse]; rfl) hlock
    · cases h3
  · cases inner_of_step hs hi (fun u he => hw ⟨u, he⟩) with
    | tick t q sem ht ht' =>
      obtain ⟨p, hp⟩ := hget t q ht
      obtain ⟨q', h1, h2, h3⟩ := sits_tick (h.sits t p q hp ht) ht'
      exact full_sem1 h hp ht h1 h2 h3 hlock
    | notify t u n q q' ht hu hq =>
      obtain ⟨p, hp⟩ := hget t _ ht
      have hf := h.sits t p _ hp ht
      have ⟨w, hpw, hn⟩ : ∃ w, p = .rIn w ∧ n = 1 := by cases p <;> first | exact hf.elim | exact ⟨_, rfl, hf⟩
      subst hpw hn
      have a1 := pairs_set due s.pos s.sem.threads t (.rIn w) (.rIn w) (.rNotify 1) (.rUnlockC 1) hp ht
      rw [set_same _ _ _ hp] at a1
      rcases get_set _ _ _ _ _ hu with ⟨_, rfl⟩ | ⟨hne, hu'⟩
      · cases hq
      · obtain ⟨pu, hpu⟩ := hget u q hu'
        obtain ⟨h4, h5⟩ := sits_woken (h.sits u pu q hpu hu') hq
        have a2 := pairs_right due s.pos (s.sem.threads.set t (.rUnlockC 1)) u pu q q' hpu hu
        refine ⟨by simp [Semaphore.Sys.goto, h.len], ?_, h.plain, hlock, ?_⟩
        · intro v p1 q1 hv hv'
          change s.pos[v]? = some p1 at hv
          change ((s.sem.threads.set t (.rUnlockC 1)).set u q')[v]? = some q1 at hv'
          rcases get_set _ _ _ _ _ hv' with ⟨rfl, rfl⟩ | ⟨_, hv'⟩
          · rw [hpu] at hv; cases hv; exact h4
          · rcases get_set _ _ _ _ _ hv' with ⟨rfl, rfl⟩ | ⟨_, hv'⟩
            · rw [hp] at hv; cases hv; rfl
            · exact h.sits v p1 q1 hv hv'
        · have := h.balance
          have e1 : due (.rIn w) (.rUnlockC 1) = 0 ∧ due (.rIn w) (.rNotify 1) = 0 := ⟨rfl, rfl⟩
          show s.sem.count + ((pairs due s.pos ((s.sem.threads.set t (.rUnlockC 1)).set u q') : Nat) : Int) + s.log.count .joined = s.finished
          omega
    | late u n hu =>
      obtain ⟨p, hp⟩ := hget u _ hu
      have hf := h.sits u p _ hp hu
      cases p <;> exact hf.elim

theorem full_step {body : Body} (hb : body ≠ .empty) (hb' : body ≠ .derived) {s s' : Sys} {e : Ev}
    (hd : ∀ t, e ≠ .call t .destroy) (hj : ∀ t, e ≠ .call t .joinFor) (h : Shape body s e s') (hs : Full s) : Full s' := by
  cases h with
  | gone _ _ => exact ⟨hs.len, hs.sits, hs.plain, hs.locked, hs.balance⟩
  | sem e sem hi h => exact full_sem hs hi h
  | call t op h =>
    refine full_set hs h rfl rfl ?_ ?_
    · intro q _ hf
      have hq : q = .idle := by cases q <;> first | rfl | exact hf.elim
      subst hq
      have he : ∀ w, due (entry body w) .idle = 0 ∧ Sits (entry body w) .idle := by intro w; cases body <;> exact ⟨rfl, trivial⟩
      cases op
      case run => exact ⟨(he false).2, by show due (entry body false) .idle + s.log.count .joined + s.finished = 0 + s.log.count .joined + s.finished; rw [(he false).1]⟩
      all_goals exact ⟨trivial, rfl⟩
    · cases op <;> first | rfl | exact absurd rfl (hd t) | exact absurd rfl (hj t) | (cases body <;> first | rfl | exact absurd rfl hb')
  | tick t p s' ht h' =>
    have hm := tick_moves h'
    have hk := hs.plain t p ht
    cases hm
    case spawn h =>
      have hl : t < s.pos.length := (List.getElem?_eq_some_iff.mp ht).1
      have ht' : (s.pos ++ [entry body true])[t]? = some .sSpawn := by rw [List.getElem?_append_left hl]; exact ht
      have h1 := full_spawn hs hb' { s with pos := s.pos ++ [entry body true], sem := { s.sem with threads := s.sem.threads ++ [.idle] } } rfl rfl rfl rfl
      refine full_set h1 ht' rfl rfl ?_ rfl
      intro q _ hf
      have hq : q = .idle := by cases q <;> first | rfl | exact hf.elim
      subst hq
      exact ⟨trivial, by simp [due]⟩
    case crash w h => exact full_spawn hs hb' _ rfl rfl rfl rfl
    case jEnter h => exact full_enter hs (.acquire 1) ht h rfl rfl ⟨rfl, Nat.le_refl _⟩ rfl rfl rfl rfl
    case rRelease w h => exact full_enter hs (.release 1) ht h rfl rfl rfl rfl rfl rfl rfl
    case rSetEmpty w h => exact absurd h hb
    case rNull => exact ⟨hs.len, hs.sits, hs.plain, hs.locked, hs.balance⟩
    case jIn h =>
      refine full_set hs ht rfl rfl ?_ rfl
      intro q hq hf
      rw [h] at hq; cases hq
      exact ⟨trivial, by simp [due, Sys.ret, Sys.goto]; omega⟩
    case rIn w h =>
      refine full_set hs ht rfl rfl ?_ rfl
      intro q hq hf
      rw [h] at hq; cases hq
      exact ⟨trivial, by simp [due, Sys.goto]⟩
    case jForEnter => cases hk
    case jForIn => cases hk
    case oEnd => cases hk
    case oRet => cases hk
    case xNone => cases hk
    case xSome => cases hk
    case xWait => cases hk
    case xPos => cases hk
    case xZero => cases hk
    case xAgain => cases hk
    case xIn => cases hk
    case xGone => cases hk
    all_goals
      refine full_set hs ht rfl rfl ?_ rfl
      intro q hq hf
      have hq : q = .idle := by cases q <;> first | rfl | exact hf.elim
      subst hq
      exact ⟨trivial, by simp [due, Sys.ret, Sys.goto] <;> omega⟩

theorem full_init (k : Nat) : Full (init k) := by
  refine ⟨by simp [init, Semaphore.init], ?_, ?_, Semaphore.init_locked 0 k, ?_⟩
  · intro t p q h h'
    rw [init_pos k t p h, Semaphore.init_get 0 k t q h']; trivial
  · intro t p h
    rw [init_pos k t p h]; rfl
  · have : ∀ k, pairs due (List.replicate k .idle) (List.replicate k .idle) = 0 := by
      intro k
      induction k with
      | zero => rfl
      | succ k ih => rw [List.replicate_succ, List.replicate_succ]; simp only [pairs, ih]; rfl
    show (0 : Int) + ((pairs due (List.replicate k .idle) (List.replicate k .idle) : Nat) : Int) + ((0 : Nat) : Int) = ((0 : Nat) : Int)
    rw [this]; rfl

/-- Nobody is in a call and every worker has ended. -/
theorem pairs_rest (pos : List Pos) : ∀ sem : List Semaphore.Pos, (∀ p ∈ pos, p = .idle ∨ p = .ended) → pairs due pos sem = 0 := by
  induction pos with
  | nil => intro sem _; cases sem <;> rfl
  | cons p pos ih =>
    intro sem h
    cases sem with
    | nil => rfl
    | cons q sem =>
      have h1 := ih sem (fun x hx => h x (List.mem_cons_of_mem _ hx))
      have h2 : due p q = 0 := by rcases h p List.mem_cons_self with rfl | rfl <;> cases q <;> rfl
      simp only [pairs, h1, h2]

/-- Then the semaphore has as many permits as functions returned without a `join()`. -/
theorem full_rest {s : Sys} (h : Full s) (hr : ∀ p ∈ s.pos, p = .idle ∨ p = .ended) :
    s.sem.count + s.log.count .joined = s.finished ∧ (∀ (t : Nat), t < s.pos.length → s.sem.threads[t]? = some .idle) ∧ s.sem.lockC = none ∧ s.sem.lockP = none := by
  have hi : ∀ (t : Nat), t < s.pos.length → s.sem.threads[t]? = some .idle := by
    intro t ht
    have h1 := List.getElem?_eq_getElem ht
    have h2 : t < s.sem.threads.length := by rw [h.len]; exact ht
    have h3 := List.getElem?_eq_getElem h2
    have h4 := h.sits t _ _ h1 h3
    rw [h3]
    rcases hr _ (List.getElem_mem ht) with h5 | h5 <;> rw [h5] at h4 <;> revert h4 <;> cases s.sem.threads[t] <;> intro h4 <;> first | rfl | exact h4.elim
  have hn : ∀ (o : Option Nat) (g : Semaphore.Pos → Bool), g .idle = false → (∀ u, o = some u ↔ ∃ p, s.sem.threads[u]? = some p ∧ g p = true) → o = none := by
    intro o g hg hh
    cases o with
    | none => rfl
    | some u =>
      obtain ⟨p, h1, h2⟩ := (hh u).mp rfl
      have := (List.getElem?_eq_some_iff.mp h1).1
      rw [hi u (by rw [← h.len]; exact this)] at h1
      cases h1
      rw [hg] at h2; cases h2
  refine ⟨?_, hi, hn _ _ rfl h.locked.1, hn _ _ rfl h.locked.2⟩
  have := h.balance
  rw [pairs_rest s.pos s.sem.threads hr] at this
  simpa using this

end Verif.Thread
