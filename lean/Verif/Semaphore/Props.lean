import Verif.Semaphore.Lemmas
/-!
# C44, C45, C74, C75: the semaphore in every schedule
-/
namespace Verif.Semaphore

/-! ## C44 -/

/-- When no call is running, the permits available are those at the start, plus
those put in, minus those taken, over all the calls that have returned. -/
theorem C44_balance (permits : Int) (k : Nat) (es : List Ev) (s : Sys) (h : run (init permits k) es = some s) (hq : Quiet s) :
    s.count = permits + (s.log.map change).sum := by
  have hb := run_inv (Balanced permits) (fun _ _ _ => balanced_step) es _ _ h (init_balanced permits k)
  unfold Balanced at hb
  rw [sum_idle eff rfl _ hq] at hb
  omega

/-- `availablePermits` then reports that number. -/
theorem C44_available (permits : Int) (k : Nat) (es : List Ev) (s : Sys) (hp : INT_MIN ≤ permits ∧ permits ≤ INT_MAX)
    (h : run (init permits k) es = some s) (hq : Quiet s) (hu : s.undef = false) (t : Nat) (ht : t < s.threads.length) :
    ∃ s', run s [.call t .available, .tick t, .tick t, .tick t, .tick t] = some s' ∧
      s'.log = .available (permits + (s.log.map change).sum) :: s.log := by
  have hc := C44_balance permits k es s h hq
  have hr := run_inv InRange (fun _ _ _ => inRange_step) es _ _ h (fun _ => hp) hu
  have hl := run_inv Locked (fun _ _ _ => locked_step) es _ _ h (init_locked permits k)
  have hlP : s.lockP = none := by
    cases e : s.lockP with
    | none => rfl
    | some u =>
      obtain ⟨p, h1, h2⟩ := (hl.2 u).mp e
      rw [hq p (List.mem_of_getElem? h1)] at h2; cases h2
  have hg : s.threads[t]? = some .idle := by
    rw [List.getElem?_eq_getElem ht, hq _ (List.getElem_mem ht)]
  have hset : ∀ p : Pos, (s.threads.set t p)[t]? = some p := fun p => List.getElem?_set_self ht
  rw [← hc]
  refine ⟨{ s with threads := s.threads.set t .idle, log := .available s.count :: s.log }, ?_, rfl⟩
  have e1 : step s (.call t .available) = some { s with threads := s.threads.set t .vLockP } := by
    unfold step; rw [if_neg (by simp [hu])]; simp only; rw [if_pos hg]; rfl
  have e2 : step { s with threads := s.threads.set t .vLockP } (.tick t) =
      some { s with threads := s.threads.set t .vRead, lockP := some t } := by
    unfold step; rw [if_neg (by simp [hu])]; simp only [hset, act, tick, if_pos hlP, Sys.goto, List.set_set]
  have e3 : step { s with threads := s.threads.set t .vRead, lockP := some t } (.tick t) =
      some { s with threads := s.threads.set t (.vUnlockP s.count), lockP := some t } := by
    unfold step
    rw [if_neg (by simp [hu])]
    simp only [hset, act, tick, Sys.goto, List.set_set, hr, and_self, not_true_eq_false, decide_false, hu]
  have e4 : step { s with threads := s.threads.set t (.vUnlockP s.count), lockP := some t } (.tick t) =
      some { s with threads := s.threads.set t (.vRet s.count) } := by
    unfold step
    rw [if_neg (by simp [hu])]
    simp only [hset, act, tick, Sys.goto, List.set_set, hlP]
  have e5 : step { s with threads := s.threads.set t (.vRet s.count) } (.tick t) =
      some { s with threads := s.threads.set t .idle, log := .available s.count :: s.log } := by
    unfold step
    rw [if_neg (by simp [hu])]
    simp only [hset, act, tick, Sys.goto, List.set_set]
  simp only [run, e1, e2, e3, e4, e5, Option.bind_some]

/-- Two threads, one permit: one takes it, the other fails to take two, then puts
in three. -/
example : ∃ s, run (init 1 2) [.call 0 (.acquire 1), .tick 0, .tick 0, .tick 0, .call 1 (.tryAcquire 2), .tick 0, .tick 0, .tick 0, .tick 0,
    .tick 1, .tick 1, .tick 1, .tick 1, .tick 1, .late 1, .tick 1, .tick 1, .tick 1,
    .call 1 (.release 3), .tick 1, .tick 1, .tick 1, .tick 1, .tick 1, .tick 1, .tick 1] = some s ∧ Quiet s ∧ s.undef = false ∧ s.count = 3 := by
  refine ⟨⟨3, none, none, [.idle, .idle], [.release 3, .tryAcquire 2 false, .acquire 1], false⟩, rfl, ?_, rfl, rfl⟩
  intro p hp
  simp at hp; exact hp

/-! ## C45 -/

/-- Positions of calls other than `acquire`, with arguments that are not negative. -/
def Clean : Pos → Prop
  | .idle => True
  | .rLockC n => 0 ≤ n
  | .rLockP n => 0 ≤ n
  | .rAdd n => 0 ≤ n
  | .rUnlockP n => 0 ≤ n
  | .rNotify n => 0 ≤ n
  | .rUnlockC n => 0 ≤ n
  | .rRet n => 0 ≤ n
  | .tLockP n => 0 ≤ n
  | .tTest n => 0 ≤ n
  | .tGot n => 0 ≤ n
  | .tMiss n => 0 ≤ n
  | .wLockC n => 0 ≤ n
  | .wWait n => 0 ≤ n
  | .wAsleep n => 0 ≤ n
  | .wWoken n => 0 ≤ n
  | .wTimedOut n => 0 ≤ n
  | .wFail n => 0 ≤ n
  | .wLockP n => 0 ≤ n
  | .wTest n => 0 ≤ n
  | .wGot n => 0 ≤ n
  | .wGot2 n => 0 ≤ n
  | .wMiss n => 0 ≤ n
  | .wMiss2 n => 0 ≤ n
  | .tRet n _ => 0 ≤ n
  | .vLockP => True
  | .vRead => True
  | .vUnlockP _ => True
  | .vRet _ => True
  | _ => False

def CleanSys (s : Sys) : Prop := 0 ≤ s.count ∧ ∀ (t : Nat) (p : Pos), s.threads[t]? = some p → Clean p

theorem clean_set {l : List Pos} {t : Nat} {p' : Pos} (h : ∀ (u : Nat) (p : Pos), l[u]? = some p → Clean p) (h' : Clean p') :
    ∀ (u : Nat) (p : Pos), (l.set t p')[u]? = some p → Clean p := by
  intro u p hu
  rcases get_set l t u p' p hu with ⟨_, rfl⟩ | ⟨_, h1⟩
  · exact h'
  · exact h u p h1

theorem clean_access {p : Pos} {f : Int → Int × Pos} (h : act p = .access f) (c : Int) (hc : 0 ≤ c) (hp : Clean p) :
    0 ≤ (f c).1 ∧ Clean (f c).2 := by
  cases p <;> simp only [act, reduceCtorEq, Act.access.injEq] at h <;> simp only [Clean] at hp
  case tTest n =>
    subst h
    by_cases hn : n ≤ c
    · simp only [if_pos hn]; exact ⟨by omega, hp⟩
    · simp only [if_neg hn]; exact ⟨hc, hp⟩
  case wTest n =>
    subst h
    by_cases hn : n ≤ c
    · simp only [if_pos hn]; exact ⟨by omega, hp⟩
    · simp only [if_neg hn]; exact ⟨hc, hp⟩
  case rAdd n => subst h; exact ⟨by simp only; omega, hp⟩
  case vRead => subst h; exact ⟨hc, trivial⟩

/-- The other actions keep the call and its argument. -/
theorem clean_move {p p' : Pos} (hp : Clean p)
    (h : act p = .lockC p' ∨ act p = .lockP p' ∨ act p = .unlockC p' ∨ act p = .unlockP p' ∨ act p = .wait p' ∨ act p = .notify p' ∨
      (∃ l, act p = .sleep p' l) ∨ ∃ q, act p = .sleep q (some p')) : Clean p' := by
  cases p <;> simp only [Clean] at hp <;>
    simp only [act, reduceCtorEq, exists_false, false_or, or_false, Act.lockC.injEq, Act.lockP.injEq, Act.unlockC.injEq, Act.unlockP.injEq,
      Act.wait.injEq, Act.notify.injEq, Act.sleep.injEq, Option.some.injEq, exists_and_left, exists_eq', exists_eq, exists_and_right, and_true, true_and] at h
  all_goals first | (subst h; exact hp) | (subst h; trivial) | (rcases h with h | h <;> (subst h; exact hp))

theorem clean_step {s s' : Sys} {o : Option Op} (h : Shape s o s') (ho : ∀ op, o = some op → Clean (enter op)) (hs : CleanSys s) : CleanSys s' := by
  obtain ⟨hc, hp⟩ := hs
  cases h with
  | call t op h => exact ⟨hc, clean_set hp (ho op rfl)⟩
  | lockC t p p' h ha hf => exact ⟨hc, clean_set hp (clean_move (hp _ _ h) (by simp [ha]))⟩
  | lockP t p p' h ha hf => exact ⟨hc, clean_set hp (clean_move (hp _ _ h) (by simp [ha]))⟩
  | unlockC t p p' h ha => exact ⟨hc, clean_set hp (clean_move (hp _ _ h) (by simp [ha]))⟩
  | unlockP t p p' h ha => exact ⟨hc, clean_set hp (clean_move (hp _ _ h) (by simp [ha]))⟩
  | access t p f h ha =>
    have := clean_access ha s.count hc (hp _ _ h)
    exact ⟨this.1, clean_set hp this.2⟩
  | wait t p p' h ha => exact ⟨hc, clean_set hp (clean_move (hp _ _ h) (by simp [ha]))⟩
  | notify t p p' h ha => exact ⟨hc, clean_set hp (clean_move (hp _ _ h) (by simp [ha]))⟩
  | notifyOne t u p p' q q' l h ha hu hb =>
    have h1 : ∀ (u : Nat) (p : Pos), (s.goto t p').threads[u]? = some p → Clean p := clean_set hp (clean_move (hp _ _ h) (by simp [ha]))
    exact ⟨hc, clean_set h1 (clean_move (h1 _ _ hu) (by simp [hb]))⟩
  | ret t p d h ha => exact ⟨hc, clean_set hp trivial⟩
  | wake u q q' l h ha => exact ⟨hc, clean_set hp (clean_move (hp _ _ h) (by simp [ha]))⟩
  | late u q q' q'' h ha => exact ⟨hc, clean_set hp (clean_move (hp _ _ h) (by simp [ha]))⟩

theorem clean_run (es : List Ev) : ∀ s s', run s es = some s' → TryOnly es → CleanSys s → CleanSys s' := by
  induction es with
  | nil => intro s s' h _ hs; cases h; exact hs
  | cons e es ih =>
    intro s s' h ht hs
    unfold run at h
    cases h1 : step s e with
    | none => rw [h1] at h; cases h
    | some s1 =>
      rw [h1] at h
      have hsh := step_shape h1
      cases e with
      | call t op =>
        cases op with
        | acquire n => exact absurd ht id
        | tryAcquire n => exact ih s1 s' h ht.2 (clean_step hsh (fun op e => by cases e; exact ht.1) hs)
        | release n => exact ih s1 s' h ht.2 (clean_step hsh (fun op e => by cases e; exact ht.1) hs)
        | available => exact ih s1 s' h ht (clean_step hsh (fun op e => by cases e; trivial) hs)
      | tick t => exact ih s1 s' h ht (clean_step hsh (fun op e => by cases e) hs)
      | notify t u => exact ih s1 s' h ht (clean_step hsh (fun op e => by cases e) hs)
      | wake u => exact ih s1 s' h ht (clean_step hsh (fun op e => by cases e) hs)
      | late u => exact ih s1 s' h ht (clean_step hsh (fun op e => by cases e) hs)

theorem change_eq (l : List Done) : (l.map change).sum = (l.map putIn).sum - (l.map granted).sum := by
  induction l with
  | nil => rfl
  | cons d l ih =>
    simp only [List.map_cons, List.sum_cons, ih]
    cases d with
    | tryAcquire n got => cases got <;> simp only [change, putIn, granted] <;> omega
    | _ => simp only [change, putIn, granted]; omega

theorem eff_le (l : List Pos) (h : ∀ p ∈ l, Clean p) : (l.map eff).sum ≤ (l.map puttingIn).sum := by
  induction l with
  | nil => exact Int.le_refl _
  | cons p l ih =>
    have h1 := ih (fun q hq => h q (List.mem_cons_of_mem _ hq))
    have h2 := h p List.mem_cons_self
    have h3 : eff p ≤ puttingIn p := by
      cases p <;> simp only [Clean] at h2 <;> simp only [eff, puttingIn] <;> try omega
      rename_i n got
      cases got <;> simp only <;> omega
    simp only [List.map_cons, List.sum_cons]
    omega

/-- In every execution without `acquire` the permits handed out by the calls that
returned never exceed those at the start plus those put in by calls that have
returned or are running, and the counter is never negative. -/
theorem C45_try_partial (permits : Int) (hp : 0 ≤ permits) (k : Nat) (es : List Ev) (s : Sys) (h : run (init permits k) es = some s)
    (ht : TryOnly es) :
    0 ≤ s.count ∧ (s.log.map granted).sum ≤ permits + (s.log.map putIn).sum + (s.threads.map puttingIn).sum := by
  have hc := clean_run es _ _ h ht ⟨hp, fun t p h1 => by rw [init_get _ _ _ _ h1]; trivial⟩
  have hb := run_inv (Balanced permits) (fun _ _ _ => balanced_step) es _ _ h (init_balanced permits k)
  unfold Balanced at hb
  have h1 := eff_le s.threads (fun p hm => by
    obtain ⟨t, ht⟩ := List.mem_iff_getElem?.mp hm
    exact hc.2 t p ht)
  rw [change_eq] at hb
  have := hc.1
  omega

example : TryOnly [.call 0 (.release 2), .call 1 (.tryAcquire 1), .tick 0, .late 1] := ⟨by decide, by decide, trivial⟩

/-- Two threads acquire the only permit: both see it before either takes it. -/
theorem C45_race_wrong : ∃ es s, run (init 1 2) es = some s ∧ NoSpurious es ∧ Quiet s ∧ s.log = [.acquire 1, .acquire 1] ∧ s.count = -1 := by
  refine ⟨[.call 0 (.acquire 1), .call 1 (.acquire 1), .tick 0, .tick 0, .tick 0, .tick 1, .tick 1, .tick 1,
    .tick 0, .tick 0, .tick 0, .tick 0, .tick 1, .tick 1, .tick 1, .tick 1], ⟨-1, none, none, [.idle, .idle], [.acquire 1, .acquire 1], false⟩,
    rfl, trivial, ?_, rfl, rfl⟩
  intro p hp
  simp at hp; exact hp

/-- One thread, no permit, nobody puts one in: a spurious wake-up lets it through. -/
theorem C45_spurious_wrong : ∃ es s, run (init 0 1) es = some s ∧ Quiet s ∧ s.log = [.acquire 1] ∧ s.count = -1 := by
  refine ⟨[.call 0 (.acquire 1), .tick 0, .tick 0, .tick 0, .tick 0, .tick 0, .wake 0, .tick 0, .tick 0, .tick 0, .tick 0, .tick 0, .tick 0],
    ⟨-1, none, none, [.idle], [.acquire 1], false⟩, rfl, ?_, rfl, rfl⟩
  intro p hp
  simp at hp; exact hp

/-- Once the counter is negative `acquire` never waits. -/
theorem C45_negative_wrong (c : Int) (h : c < 0) (h' : INT_MIN < c) :
    run ⟨c, none, none, [.idle], [], false⟩ [.call 0 (.acquire 1), .tick 0, .tick 0, .tick 0, .tick 0, .tick 0, .tick 0, .tick 0] =
      some ⟨c - 1, none, none, [.idle], [.acquire 1], false⟩ := by
  have hne : ¬ c = 0 := by omega
  have h1 : INT_MIN ≤ c ∧ c ≤ INT_MAX := by unfold INT_MIN INT_MAX at *; omega
  have h2 : INT_MIN ≤ c - 1 ∧ c - 1 ≤ INT_MAX := by unfold INT_MIN INT_MAX at *; omega
  simp [run, step, enter, Sys.goto, act, tick, hne, h1.1, h2.1, Int.not_lt.mpr h1.2, Int.not_lt.mpr h2.2]

example : (-1 : Int) < 0 ∧ INT_MIN < -1 := by decide

/-! ## C74: wake-ups -/

/-- A permit is put in between a thread's look at the counter and its wait; the
thread then sleeps though a permit is there, and nothing but a spurious wake-up
or another call can happen. -/
theorem C74_lost_wrong : ∃ es s, run (init 0 2) es = some s ∧ NoSpurious es ∧ s.count = 1 ∧ s.threads = [.aAsleep 1 0, .idle] ∧
    s.log = [.release 1] ∧ ∀ e s', step s e = some s' → e = .wake 0 ∨ ∃ op, e = .call 1 op := by
  refine ⟨[.call 0 (.acquire 1), .tick 0, .tick 0, .tick 0, .call 1 (.release 1), .tick 1, .tick 1, .tick 1, .tick 1, .tick 1, .tick 1, .tick 1,
    .tick 0, .tick 0], ⟨1, none, none, [.aAsleep 1 0, .idle], [.release 1], false⟩, rfl, trivial, rfl, rfl, rfl, ?_⟩
  intro e s' h
  have hidx : ∀ t : Nat, 2 ≤ t → ([.aAsleep 1 0, .idle] : List Pos)[t]? = none := by
    intro t ht
    exact List.getElem?_eq_none (by simpa using ht)
  cases e with
  | call t op =>
    rcases t with _ | _ | t
    · cases h
    · exact Or.inr ⟨op, rfl⟩
    · simp [step, hidx (t + 2) (by omega)] at h
  | tick t =>
    rcases t with _ | _ | t
    · cases h
    · cases h
    · simp [step, hidx (t + 2) (by omega)] at h
  | notify t u =>
    rcases t with _ | _ | t
    · cases h
    · cases h
    · simp [step, hidx (t + 2) (by omega)] at h
  | wake u =>
    rcases u with _ | _ | u
    · exact Or.inl rfl
    · cases h
    · simp [step, rouse, hidx (u + 2) (by omega)] at h
  | late u =>
    rcases u with _ | _ | u
    · cases h
    · cases h
    · simp [step, rouse, hidx (u + 2) (by omega)] at h

/-- Two threads wait, two permits are put in at once: one thread stays asleep. -/
theorem C74_one_of_two_wrong : ∃ es s, run (init 0 3) es = some s ∧ NoSpurious es ∧ s.count = 1 ∧ s.threads = [.idle, .aAsleep 1 0, .idle] ∧
    s.log = [.acquire 1, .release 2] := by
  exact ⟨[.call 0 (.acquire 1), .tick 0, .tick 0, .tick 0, .tick 0, .tick 0, .call 1 (.acquire 1), .tick 1, .tick 1, .tick 1, .tick 1, .tick 1,
    .call 2 (.release 2), .tick 2, .tick 2, .tick 2, .tick 2, .notify 2 0, .tick 2, .tick 2,
    .tick 0, .tick 0, .tick 0, .tick 0, .tick 0, .tick 0], ⟨1, none, none, [.idle, .aAsleep 1 0, .idle], [.acquire 1, .release 2], false⟩,
    rfl, trivial, rfl, rfl, rfl⟩

/-- What does hold: a call of `release` that notifies while threads sleep wakes one of them. -/
theorem C74_wakes_partial (s s' : Sys) (t : Nat) (n : Int) (h : s.threads[t]? = some (.rNotify n)) (hs : s.threads.any asleep = true)
    (e : Ev) (he : e = .tick t ∨ ∃ u, e = .notify t u) (hr : step s e = some s') :
    ∃ u p, u ≠ t ∧ s.threads[u]? = some p ∧ asleep p = true ∧ ∃ p', s'.threads[u]? = some p' ∧ asleep p' = false := by
  unfold step at hr
  by_cases hu : s.undef = true
  · rw [if_pos hu] at hr; cases hr
  rw [if_neg hu] at hr
  rcases he with rfl | ⟨u, rfl⟩
  · simp only [h, act, tick, hs, if_true] at hr; cases hr
  · simp only [h, Option.map_some, act] at hr
    obtain ⟨q, q', l, h1, h2, ⟨_, h3⟩ | ⟨q'', h3, _⟩⟩ := rouse_shape hr
    · rcases get_set _ t u _ q h1 with ⟨_, h4⟩ | ⟨h4, h5⟩
      · subst h4; cases h2
      · refine ⟨u, q, h4, h5, by unfold asleep; rw [h2], q', ?_, ?_⟩
        · subst h3
          show ((s.threads.set t (.rUnlockC n)).set u q')[u]? = some q'
          exact List.getElem?_set_self (List.getElem?_eq_some_iff.mp h1).1
        · cases q <;> simp only [act, reduceCtorEq, Act.sleep.injEq] at h2
          case aTop n k => cases k <;> simp only [act, reduceCtorEq] at h2
          all_goals (obtain ⟨h2, _⟩ := h2; subst h2; rfl)
    · cases h3

/-! ## C75: locks -/

/-- The semaphore's own locks never block for good: whenever a thread is in a call
and not asleep, some thread can go on, without a new call, a spurious wake-up or
a timeout. -/
theorem C75_no_deadlock (permits : Int) (k : Nat) (es : List Ev) (s : Sys) (h : run (init permits k) es = some s) (hu : s.undef = false)
    (hb : Busy s) : ∃ e s', step s e = some s' ∧ ((∃ t, e = .tick t) ∨ ∃ t u, e = .notify t u) := by
  have hl := run_inv Locked (fun _ _ _ => locked_step) es _ _ h (init_locked permits k)
  have hnotify : ∀ (t : Nat) (p p' : Pos), s.threads[t]? = some p → act p = .notify p' →
      ∃ e s', step s e = some s' ∧ ((∃ t, e = .tick t) ∨ ∃ t u, e = .notify t u) := by
    intro t p p' ht ha
    by_cases hs : s.threads.any asleep = true
    · obtain ⟨q, hq1, hq2⟩ := List.any_eq_true.mp hs
      obtain ⟨u, hu'⟩ := List.mem_iff_getElem?.mp hq1
      have hut : u ≠ t := by
        intro e; subst e
        rw [ht] at hu'; cases hu'
        unfold asleep at hq2; rw [ha] at hq2; cases hq2
      unfold asleep at hq2
      cases hq : act q with
      | sleep w l =>
        refine ⟨.notify t u, (s.goto t p').goto u w, ?_, Or.inr ⟨t, u, rfl⟩⟩
        unfold step
        rw [if_neg (by simp [hu])]
        simp only [ht, Option.map_some, ha]
        unfold rouse
        have : (s.goto t p').threads[u]? = some q := by
          show (s.threads.set t p')[u]? = some q
          rw [List.getElem?_set_ne (fun e => hut e.symm)]; exact hu'
        simp only [this, Option.map_some, hq]
        rfl
      | _ => rw [hq] at hq2; cases hq2
    · refine ⟨.tick t, s.goto t p', ?_, Or.inl ⟨t, rfl⟩⟩
      unfold step
      rw [if_neg (by simp [hu])]
      simp only [ht, ha, tick, if_neg hs]
  have htick : ∀ (t : Nat) (p : Pos), s.threads[t]? = some p → (∃ s', tick s t (act p) = some s') →
      ∃ e s', step s e = some s' ∧ ((∃ t, e = .tick t) ∨ ∃ t u, e = .notify t u) := by
    rintro t p ht ⟨s', hs'⟩
    refine ⟨.tick t, s', ?_, Or.inl ⟨t, rfl⟩⟩
    unfold step
    rw [if_neg (by simp [hu])]
    simp only [ht, hs']
  cases hP : s.lockP with
  | some u =>
    obtain ⟨p, h1, h2⟩ := (hl.2 u).mp hP
    refine htick u p h1 ?_
    cases p <;> simp only [holdsP, Bool.false_eq_true] at h2 <;> simp only [act, tick] <;> exact ⟨_, rfl⟩
  | none =>
    cases hC : s.lockC with
    | some u =>
      obtain ⟨p, h1, h2⟩ := (hl.1 u).mp hC
      by_cases hn : ∃ p', act p = .notify p'
      · obtain ⟨p', hn⟩ := hn
        exact hnotify u p p' h1 hn
      · refine htick u p h1 ?_
        cases p <;> simp only [holdsC, Bool.false_eq_true] at h2 <;> simp only [act, tick, if_pos hP] <;> first
          | exact ⟨_, rfl⟩
          | exact absurd ⟨_, rfl⟩ hn
    | none =>
      obtain ⟨t, p, h1, h2, h3⟩ := hb
      by_cases hn : ∃ p', act p = .notify p'
      · obtain ⟨p', hn⟩ := hn
        exact hnotify t p p' h1 hn
      · refine htick t p h1 ?_
        cases p
        case aTop n k => cases k <;> simp only [act, tick, if_pos hP] <;> exact ⟨_, rfl⟩
        all_goals first
          | exact absurd rfl h2
          | exact absurd ⟨_, rfl⟩ hn
          | (simp only [act, tick, if_pos hP, if_pos hC]; exact ⟨_, rfl⟩)
          | (simp [asleep, act] at h3)

/-- The counter is only touched by the thread that holds its mutex, so no two
threads touch it at once. -/
theorem C75_exclusive (permits : Int) (k : Nat) (es : List Ev) (s : Sys) (h : run (init permits k) es = some s) (t u : Nat) (p q : Pos)
    (f g : Int → Int × Pos) (ht : s.threads[t]? = some p) (hu : s.threads[u]? = some q) (hp : act p = .access f) (hq : act q = .access g) :
    t = u := by
  have hl := run_inv Locked (fun _ _ _ => locked_step) es _ _ h (init_locked permits k)
  have h1 := (hl.2 t).mpr ⟨p, ht, (act_access hp 0).1⟩
  have h2 := (hl.2 u).mpr ⟨q, hu, (act_access hq 0).1⟩
  rw [h1] at h2
  cases h2; rfl

/-- Three threads in calls at once, two of them waiting for a lock. -/
example : ∃ s, run (init 1 3) [.call 0 (.acquire 1), .tick 0, .call 1 (.release 1), .tick 1, .call 2 .available] = some s ∧ s.undef = false ∧ Busy s :=
  ⟨_, rfl, rfl, 0, _, rfl, by decide, by decide⟩

end Verif.Semaphore
