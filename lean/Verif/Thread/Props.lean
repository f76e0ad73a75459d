import Verif.Thread.Keep
import Verif.Thread.Destroy
/-!
# C118–C124: `java.lang.Thread`
-/
namespace Verif.Thread

/-- `n` times. -/
abbrev times (n : Nat) (e : Ev) : List Ev := List.replicate n e

/-- `start()` by agent 0. -/
abbrev starts : List Ev := [.call 0 .start, .tick 0, .tick 0, .tick 0]

/-- Agent 1 runs until it is in the function. -/
abbrev runs : List Ev := times 3 (.tick 1)

/-- The function of agent 1 returns and the agent gives its permit; nobody waits. -/
abbrev gives : List Ev := times 2 (.tick 1) ++ times 7 (.sem (.tick 1))

/-- Agent 1 ends. -/
abbrev ends : List Ev := times 2 (.tick 1)

/-- `join()` by agent `t` when a permit is there. -/
abbrev joins (t : Nat) : List Ev := [.call t .join, .tick t] ++ times 7 (.sem (.tick t)) ++ [.tick t]

/-- `join()` by agent `t` when no permit is there: it sleeps. -/
abbrev sleeps (t : Nat) : List Ev := [.call t .join, .tick t] ++ times 5 (.sem (.tick t))

theorem pre_before (l : List Pos) : total pre l = l.countP before := by
  induction l with
  | nil => rfl
  | cons p l ih =>
    have : total pre (p :: l) = pre p + total pre l := rfl
    rw [this, ih, List.countP_cons]
    cases p <;> simp [pre, before] <;> omega

/-! ## C118 -/

/-- With no spurious wake-up, `join()` returns only after the function has returned;
with one call of `start()` or `run()`, the function has then returned once and does
not run any more. Missing: spurious wake-ups, and the same for several calls of
`start()`. -/
theorem C118_join_partial (body : Body) (hb : body ≠ .empty) (k : Nat) (es : List Ev) (s : Sys) (hn : NoSpurious es) (h : run body (init k) es = some s)
    (hj : Done.joined ∈ s.log) : 1 ≤ s.finished ∧ (asked es ≤ 1 → s.finished = 1 ∧ running s = 0) := by
  have hd : DryInv body s := run_inv (DryInv body) (fun e => ∀ u, e ≠ .sem (.wake u)) (fun _ _ _ ho _ hsh hi => dryInv_step hb ho hsh hi) es _ _ h hn (dryInv_init body k)
  have h1 : 1 ≤ s.finished := by
    rcases Nat.eq_zero_or_pos s.finished with hz | hz
    · exact absurd hj (hd (Or.inl hz)).2.2.2
    · exact hz
  refine ⟨h1, fun ha => ?_⟩
  have hc := (run_solo es 0 _ _ h (by omega) (counted_init k) (solo_init body k)).1.runs
  rw [pre_before] at hc
  unfold running
  omega

/-- One caller starts the thread and joins it: it sleeps until the function returned. -/
example : ∃ s, run .func (init 1) (starts ++ sleeps 0 ++ runs ++ times 2 (.tick 1) ++ times 4 (.sem (.tick 1)) ++ [.sem (.notify 1 0)] ++
    times 2 (.sem (.tick 1)) ++ times 6 (.sem (.tick 0)) ++ [.tick 0]) = some s ∧ Done.joined ∈ s.log ∧ s.finished = 1 := by
  refine ⟨_, rfl, ?_, rfl⟩
  decide

/-- A spurious wake-up makes `join()` return while the function is running. -/
theorem C118_spurious_wrong : ∃ es s, run .func (init 1) es = some s ∧ asked es = 1 ∧ Done.joined ∈ s.log ∧ s.finished = 0 ∧ s.pos[1]? = some (.rFunc true) := by
  refine ⟨starts ++ runs ++ sleeps 0 ++ [.sem (.wake 0)] ++ times 6 (.sem (.tick 0)) ++ [.tick 0], _, rfl, ?_, ?_, rfl, rfl⟩ <;> decide

/-! ## C119 -/

/-- When everybody is at rest and the function has returned more often than `join()`,
the next `join()` returns by the caller's own steps, whatever happened before, spurious
wake-ups included. Missing: a `join()` beyond the number of times the function
returned (refuted below), `join(ms)`, and callers that are not at rest. -/
theorem C119_returns_partial (body : Body) (hb : body ≠ .empty) (hb' : body ≠ .derived) (k : Nat) (es : List Ev) (s : Sys)
    (hd : ∀ t, .call t .destroy ∉ es) (hj : ∀ t, .call t .joinFor ∉ es) (h : run body (init k) es = some s) (hr : AtRest s)
    (hm : s.log.count .joined < s.finished) (hf : s.fate = .runs) (hg : s.gone = false) (hu : s.sem.undef = false) (hi : s.finished ≤ 2147483647)
    (t : Nat) (ht : s.pos[t]? = some .idle) : ∃ s', run body s (joins t) = some s' ∧ s'.log = .joined :: s.log ∧ s'.finished = s.finished := by
  have hfull : Full s := run_inv Full (fun e => (∀ t, e ≠ .call t .destroy) ∧ ∀ t, e ≠ .call t .joinFor)
    (fun _ _ _ ho _ hsh hi => full_step hb hb' ho.1 ho.2 hsh hi) es _ _ h (fun e he => ⟨fun u hu => hd u (hu ▸ he), fun u hu => hj u (hu ▸ he)⟩) (full_init k)
  obtain ⟨h1, h2, h3, h4⟩ := full_rest hfull hr
  have hlt : t < s.pos.length := (List.getElem?_eq_some_iff.mp ht).1
  have hst := h2 t hlt
  have hls : t < s.sem.threads.length := (List.getElem?_eq_some_iff.mp hst).1
  have hc1 : 1 ≤ s.sem.count := by omega
  have hc2 : s.sem.count ≤ 2147483647 := by omega
  have g1 : ∀ p : Pos, (s.pos.set t p)[t]? = some p := fun p => List.getElem?_set_self hlt
  have g2 : ∀ q : Semaphore.Pos, (s.sem.threads.set t q)[t]? = some q := fun q => List.getElem?_set_self hls
  have hb1 : (decide ¬ (INT_MIN ≤ s.sem.count ∧ s.sem.count ≤ INT_MAX)) = false := by simp [INT_MIN, INT_MAX]; omega
  have hb2 : (decide ¬ (INT_MIN ≤ s.sem.count - 1 ∧ s.sem.count - 1 ≤ INT_MAX)) = false := by simp [INT_MIN, INT_MAX]; omega
  have hne : ¬ s.sem.count = 0 := by omega
  let S (p : Pos) (q : Semaphore.Pos) (c : Int) (l : Option Nat) (lg : List Semaphore.Done) : Sys :=
    { s with pos := s.pos.set t p, sem := { s.sem with threads := s.sem.threads.set t q, count := c, lockP := l, log := lg } }
  have e1 : step body s (.call t .join) = some { s with pos := s.pos.set t .jEnter } := by
    simp only [step, hf, ne_eq, not_true_eq_false, if_false, ht, if_true, hg, Bool.false_eq_true, Sys.goto, enter]
  have e2 : step body { s with pos := s.pos.set t .jEnter } (.tick t) = some (S .jIn (.aTop 1 1) s.sem.count none s.sem.log) := by
    simp only [step, hf, ne_eq, not_true_eq_false, if_false, hg, Bool.false_eq_true, g1, tick, Sys.enterSem, Semaphore.step, hu, hst, if_true, Option.map_some,
      Sys.goto, List.set_set, Semaphore.Sys.goto, Semaphore.enter, S, h4]
    rfl
  have e (p q q' c c' l l' lg lg') (hh : Semaphore.step { s.sem with threads := s.sem.threads.set t q, count := c, lockP := l, log := lg } (.tick t) =
      some { s.sem with threads := s.sem.threads.set t q', count := c', lockP := l', log := lg' }) : step body (S p q c l lg) (.sem (.tick t)) = some (S p q' c' l' lg') := by
    simp only [step, S, hf, ne_eq, not_true_eq_false, if_false, hg, Bool.false_eq_true, inner, if_true, hh, Option.map_some]
  have e3 := e .jIn (.aTop 1 1) (.aRead 1 0) s.sem.count s.sem.count none (some t) s.sem.log s.sem.log (by
    simp only [Semaphore.step, hu, Bool.false_eq_true, if_false, g2, Semaphore.act, Semaphore.tick, if_true, Semaphore.Sys.goto, List.set_set])
  have e4 := e .jIn (.aRead 1 0) (.aUnlock 1 0 s.sem.count) s.sem.count s.sem.count (some t) (some t) s.sem.log s.sem.log (by
    simp only [Semaphore.step, hu, Bool.false_eq_true, if_false, g2, Semaphore.act, Semaphore.tick, Semaphore.Sys.goto, List.set_set, hb1])
  have e5 := e .jIn (.aUnlock 1 0 s.sem.count) (.aLockP 1 0) s.sem.count s.sem.count (some t) none s.sem.log s.sem.log (by
    simp only [Semaphore.step, hu, Bool.false_eq_true, if_false, g2, Semaphore.act, Semaphore.tick, Semaphore.Sys.goto, List.set_set, hne])
  have e6 := e .jIn (.aLockP 1 0) (.aDec 1 0) s.sem.count s.sem.count none (some t) s.sem.log s.sem.log (by
    simp only [Semaphore.step, hu, Bool.false_eq_true, if_false, g2, Semaphore.act, Semaphore.tick, if_true, Semaphore.Sys.goto, List.set_set])
  have e7 := e .jIn (.aDec 1 0) (.aUnlockP 1 0) s.sem.count (s.sem.count - 1) (some t) (some t) s.sem.log s.sem.log (by
    simp only [Semaphore.step, hu, Bool.false_eq_true, if_false, g2, Semaphore.act, Semaphore.tick, Semaphore.Sys.goto, List.set_set, hb2])
  have e8 := e .jIn (.aUnlockP 1 0) (.aTop 1 0) (s.sem.count - 1) (s.sem.count - 1) (some t) none s.sem.log s.sem.log (by
    simp only [Semaphore.step, hu, Bool.false_eq_true, if_false, g2, Semaphore.act, Semaphore.tick, Semaphore.Sys.goto, List.set_set])
  have e9 := e .jIn (.aTop 1 0) .idle (s.sem.count - 1) (s.sem.count - 1) none none s.sem.log (.acquire 1 :: s.sem.log) (by
    simp only [Semaphore.step, hu, Bool.false_eq_true, if_false, g2, Semaphore.act, Semaphore.tick, Semaphore.Sys.goto, List.set_set])
  have e10 : step body (S .jIn .idle (s.sem.count - 1) none (.acquire 1 :: s.sem.log)) (.tick t) =
      some ((S .jIn .idle (s.sem.count - 1) none (.acquire 1 :: s.sem.log)).ret t .joined) := by
    simp only [step, S, hf, ne_eq, not_true_eq_false, if_false, hg, Bool.false_eq_true, g1, tick, Sys.backFromSem, g2, decide_true, if_true]
  refine ⟨(S .jIn .idle (s.sem.count - 1) none (.acquire 1 :: s.sem.log)).ret t .joined, ?_, rfl, rfl⟩
  show run body s [.call t .join, .tick t, .sem (.tick t), .sem (.tick t), .sem (.tick t), .sem (.tick t), .sem (.tick t), .sem (.tick t), .sem (.tick t), .tick t] = _
  simp only [run, e1, e2, e3, e4, e5, e6, e7, e8, e9, e10, Option.bind_some]

/-- A thread that was started and has ended. -/
example : ∃ s, run .func (init 1) (starts ++ runs ++ gives ++ ends) = some s ∧ AtRest s ∧ s.log.count .joined < s.finished ∧ s.fate = .runs ∧ s.gone = false ∧
    s.sem.undef = false ∧ s.finished ≤ 2147483647 ∧ s.pos[0]? = some .idle := by
  refine ⟨_, rfl, ?_, ?_, rfl, rfl, rfl, ?_, rfl⟩
  · unfold AtRest; decide
  · decide
  · decide

/-- With one caller and no spurious wake-up, `join()` never returns more often than
the function: the second `join()` on a thread that was started once never returns. -/
theorem C119_second_wrong (body : Body) (hb : body ≠ .empty) (es : List Ev) (s : Sys) (hn : NoSpurious es) (hd : ∀ t, .call t .destroy ∉ es)
    (h : run body (init 1) es = some s) : s.log.count .joined ≤ s.finished ∧ (asked es ≤ 1 → s.log.count .joined ≤ 1) := by
  have h1 : One s := run_inv One (fun e => (∀ u, e ≠ .sem (.wake u)) ∧ ∀ t, e ≠ .call t .destroy) (fun _ _ _ ho _ hsh hi => one_step hb ho.1 ho.2 hsh hi)
    es _ _ h (fun e he => ⟨hn e he, fun u hu => hd u (hu ▸ he)⟩) one_init
  have h2 := h1.balance
  have h3 := h1.nonneg
  have h4 : s.log.count .joined ≤ s.finished := by omega
  refine ⟨h4, fun ha => ?_⟩
  have hc := (run_solo es 0 _ _ h (by omega) (counted_init 1) (solo_init body 1)).1.runs
  omega

/-- The thread has ended, the first `join()` has returned and the second sleeps. -/
example : ∃ s, run .func (init 1) (starts ++ runs ++ gives ++ ends ++ joins 0 ++ sleeps 0) = some s ∧ s.log.count .joined = 1 ∧
    s.sem.threads[0]? = some (.aAsleep 1 0) ∧ s.pos[1]? = some .ended := by
  refine ⟨_, rfl, ?_, rfl, rfl⟩; decide

/-- `join()` on a thread that was never started never returns. -/
theorem C119_unstarted_wrong (body : Body) (hb : body ≠ .empty) (k : Nat) (es : List Ev) (s : Sys) (hn : NoSpurious es) (h : run body (init k) es = some s)
    (ha : asked es = 0) : Done.joined ∉ s.log := by
  have hd : DryInv body s := run_inv (DryInv body) (fun e => ∀ u, e ≠ .sem (.wake u)) (fun _ _ _ ho _ hsh hi => dryInv_step hb ho hsh hi) es _ _ h hn (dryInv_init body k)
  have hc := (run_solo es 0 _ _ h (by omega) (counted_init k) (solo_init body k)).1.runs
  exact (hd (Or.inl (by omega))).2.2.2

example : ∃ s, run .func (init 2) (sleeps 0 ++ sleeps 1) = some s ∧ asked (sleeps 0 ++ sleeps 1) = 0 := ⟨_, rfl, rfl⟩

/-- `join()` on an object of a derived class with its own `run()` never returns. -/
theorem C119_derived_wrong (k : Nat) (es : List Ev) (s : Sys) (hn : NoSpurious es) (h : run .derived (init k) es = some s) : Done.joined ∉ s.log := by
  have hd : DryInv .derived s := run_inv (DryInv .derived) (fun e => ∀ u, e ≠ .sem (.wake u)) (fun _ _ _ ho _ hsh hi => dryInv_step (by intro h; cases h) ho hsh hi)
    es _ _ h hn (dryInv_init .derived k)
  exact (hd (Or.inr rfl)).2.2.2

/-- It has ended; `join()` sleeps. -/
example : ∃ s, run .derived (init 1) (starts ++ [.tick 1] ++ sleeps 0) = some s ∧ s.finished = 1 ∧ s.pos[1]? = some .ended ∧ s.sem.threads[0]? = some (.aAsleep 1 0) :=
  ⟨_, rfl, rfl, rfl, rfl⟩

/-! ## C120 -/

theorem window_mem (l : List Pos) : 0 < total window l ↔ ∃ p ∈ l, (∃ w, p = .rFunc w) ∨ after p := by
  induction l with
  | nil => simp [total]
  | cons x l ih =>
    have h1 : total window (x :: l) = window x + total window l := rfl
    have h2 : 0 < window x ↔ (∃ w, x = .rFunc w) ∨ after x := by cases x <;> simp [window, after]
    rw [h1]
    constructor
    · intro h
      rcases Nat.eq_zero_or_pos (window x) with hz | hz
      · obtain ⟨p, h3, h4⟩ := ih.mp (by omega)
        exact ⟨p, List.mem_cons_of_mem _ h3, h4⟩
      · exact ⟨x, List.mem_cons_self, h2.mp hz⟩
    · intro ⟨p, h3, h4⟩
      rcases List.mem_cons.mp h3 with rfl | h3
      · have := h2.mpr h4; omega
      · have := ih.mpr ⟨p, h3, h4⟩; omega

/-- With one call of `start()` or `run()`, `isAlive()` answers whether some thread is
in the function, or past it and not yet through with the run. Missing: the time between
`start()` and the function and after `join()` (refuted below), several starts, and
derived classes (refuted below). -/
theorem C120_alive_partial (body : Body) (k : Nat) (es : List Ev) (s s' : Sys) (ha : asked es ≤ 1) (h : run body (init k) es = some s) (t : Nat)
    (hg : s.gone = false) (ht : s.pos[t]? = some .iRead) (h' : step body s (.tick t) = some s') :
    ∃ b, s'.log = .alive b :: s.log ∧ (b = true ↔ ∃ p ∈ s.pos, (∃ w, p = .rFunc w) ∨ after p) := by
  have hs := (run_solo es 0 _ _ h (by omega) (counted_init k) (solo_init body k)).2
  have hf := (step_shape h').1
  refine ⟨s.alive, ?_, ?_⟩
  · unfold step at h'
    rw [if_neg (by simp [hf])] at h'
    simp only [hg, Bool.false_eq_true, if_false, ht, tick] at h'
    cases h'; rfl
  · rw [hs.alive, decide_eq_true_iff]
    exact window_mem s.pos

/-- The function runs and somebody asks. -/
example : ∃ s s', run .func (init 1) (starts ++ runs ++ [.call 0 .isAlive]) = some s ∧ step .func s (.tick 0) = some s' ∧ s.gone = false ∧ s.pos[0]? = some .iRead ∧
    s'.log.head? = some (.alive true) := ⟨_, _, rfl, rfl, rfl, rfl, rfl⟩

/-- Right after `start()` returned `isAlive()` can answer false, and the function has not returned. -/
theorem C120_start_wrong : ∃ es s, run .func (init 1) es = some s ∧ s.log = [.alive false, .started] ∧ s.finished = 0 :=
  ⟨starts ++ [.call 0 .isAlive, .tick 0], _, rfl, rfl, rfl⟩

/-- Right after `join()` returned `isAlive()` can answer true. -/
theorem C120_join_wrong : ∃ es s, run .func (init 1) es = some s ∧ NoSpurious es ∧ s.log = [.alive true, .joined, .started] := by
  refine ⟨starts ++ runs ++ gives ++ joins 0 ++ [.call 0 .isAlive, .tick 0], _, rfl, ?_, rfl⟩
  intro e he u
  revert e
  simp [starts, runs, gives, joins, times]

/-- Positions of an object of a derived class. -/
def Own (s : Sys) : Prop := s.alive = false ∧ Done.alive true ∉ s.log ∧ ∀ p ∈ s.pos, ∀ w, p ≠ .rTid w ∧ p ≠ .rTls w ∧ p ≠ .rSet w

theorem own_step {s s' : Sys} {e : Ev} (h : Shape .derived s e s') (hs : Own s) : Own s' := by
  obtain ⟨h1, h2, h3⟩ := hs
  have hset : ∀ (l : List Pos) (t : Nat) (p : Pos), (∀ p ∈ l, ∀ w, p ≠ .rTid w ∧ p ≠ .rTls w ∧ p ≠ .rSet w) → (∀ w, p ≠ .rTid w ∧ p ≠ .rTls w ∧ p ≠ .rSet w) →
      ∀ q ∈ l.set t p, ∀ w, q ≠ .rTid w ∧ q ≠ .rTls w ∧ q ≠ .rSet w := by
    intro l t p hl hp q hq
    rcases List.mem_or_eq_of_mem_set hq with h | rfl
    · exact hl q h
    · exact hp
  have hsnoc : ∀ q ∈ s.pos ++ [entry .derived true], ∀ w, q ≠ .rTid w ∧ q ≠ .rTls w ∧ q ≠ .rSet w := by
    intro q hq
    rcases List.mem_append.mp hq with h | h
    · exact h3 q h
    · cases List.mem_singleton.mp h; intro w; exact ⟨(fun h => by cases h), (fun h => by cases h), (fun h => by cases h)⟩
  have hcons : ∀ d, d ≠ Done.alive true → Done.alive true ∉ d :: s.log := fun d hd hm => (List.mem_cons.mp hm).elim (fun e => hd e.symm) h2
  cases h with
  | gone _ _ => exact ⟨h1, h2, h3⟩
  | sem e sem hi h => exact ⟨h1, h2, h3⟩
  | call t op h =>
    refine ⟨h1, h2, hset _ _ _ h3 ?_⟩
    intro w
    cases op <;> exact ⟨(fun h => by cases h), (fun h => by cases h), (fun h => by cases h)⟩
  | tick t p s' ht h' =>
    have hm := tick_moves h'
    have hp := h3 p (List.mem_of_getElem? ht)
    cases hm
    case spawn => exact ⟨h1, hcons _ (by intro h; cases h), hset _ _ _ hsnoc (fun w => ⟨(fun h => by cases h), (fun h => by cases h), (fun h => by cases h)⟩)⟩
    case crash => exact ⟨h1, h2, hsnoc⟩
    case rTid w => exact absurd rfl (hp w).1
    case rTls w => exact absurd rfl (hp w).2.1
    case rSet w _ => exact absurd rfl (hp w).2.2
    case rSetEmpty w _ => exact absurd rfl (hp w).2.2
    case rNull => exact ⟨h1, h2, h3⟩
    case iRead =>
      refine ⟨h1, hcons _ ?_, hset _ _ _ h3 (fun w => ⟨(fun h => by cases h), (fun h => by cases h), (fun h => by cases h)⟩)⟩
      rw [h1]; intro h; cases h
    all_goals
      refine ⟨?_, ?_, hset _ _ _ h3 (fun w => ⟨(fun h => by cases h), (fun h => by cases h), (fun h => by cases h)⟩)⟩
      · first | exact h1 | rfl
      · first | exact h2 | exact hcons _ (by intro h; cases h)

/-- `isAlive()` of an object of a derived class with its own `run()` always answers false. -/
theorem C120_derived_wrong (k : Nat) (es : List Ev) (s : Sys) (h : run .derived (init k) es = some s) : Done.alive true ∉ s.log := by
  have := run_inv Own (fun _ => True) (fun _ _ _ _ _ hsh hi => own_step hsh hi) es _ _ h (fun _ _ => trivial)
    ⟨rfl, (fun h => by cases h), fun p hp w => by cases List.eq_of_mem_replicate hp; exact ⟨(fun h => by cases h), (fun h => by cases h), (fun h => by cases h)⟩⟩
  exact this.2.1

/-- Its own `run()` is running. -/
example : ∃ s, run .derived (init 1) (starts ++ [.call 0 .isAlive, .tick 0]) = some s ∧ s.log.head? = some (.alive false) ∧ s.pos[1]? = some (.oFunc true) := ⟨_, rfl, rfl, rfl⟩

/-! ## C121 -/

/-- Unless the program was ended, the function has returned and is to return at most
as often as `start()` and `run()` were called; with one such call the program is not
ended, and once `start()` has returned the function has returned once or is to.
Missing: a second `start()` (refuted below), an empty or null function. -/
theorem C121_once_partial (body : Body) (k : Nat) (es : List Ev) (s : Sys) (h : run body (init k) es = some s) :
    (s.fate ≠ .terminated → s.finished + running s ≤ asked es) ∧
    (asked es ≤ 1 → s.fate ≠ .terminated ∧ (body ≠ .empty → Done.started ∈ s.log → s.finished + running s = 1)) := by
  constructor
  · intro hf
    rcases run_counted es 0 _ _ h (counted_init k) with hc | hc
    · exact absurd hc hf
    · have := hc.runs
      rw [pre_before] at this
      unfold running
      omega
  · intro ha
    have hs := run_solo es 0 _ _ h (by omega) (counted_init k) (solo_init body k)
    refine ⟨hs.2.fate, fun hb hst => ?_⟩
    have h1 := hs.1.runs
    have h2 := hs.2.started hst hb
    rw [pre_before] at h1 h2
    unfold running
    omega

/-- The function of a run that has begun goes on whatever the others do. -/
theorem C121_unblocked (body : Body) (hb : body ≠ .null) (s : Sys) (hf : s.fate = .runs) (hg : s.gone = false) (t : Nat) (p : Pos) (ht : s.pos[t]? = some p)
    (hp : before p = true) : ∃ s', step body s (.tick t) = some s' ∧ s'.fate = .runs ∧
      (s'.finished = s.finished + 1 ∨ ∃ p', s'.pos[t]? = some p' ∧ (before p' = true ∨ body = .empty) ∧ s'.finished = s.finished) := by
  have hl : t < s.pos.length := (List.getElem?_eq_some_iff.mp ht).1
  have hstep : step body s (.tick t) = tick body s t p := by
    unfold step
    rw [if_neg (by simp [hf])]
    simp only [hg, Bool.false_eq_true, if_false, ht]
  rw [hstep]
  cases p <;> simp only [before, Bool.false_eq_true] at hp
  case rTid w => exact ⟨_, rfl, hf, Or.inr ⟨.rTls w, List.getElem?_set_self hl, Or.inl rfl, rfl⟩⟩
  case rTls w => exact ⟨_, rfl, hf, Or.inr ⟨.rSet w, List.getElem?_set_self hl, Or.inl rfl, rfl⟩⟩
  case rSet w =>
    by_cases he : body = .empty
    · exact ⟨_, rfl, hf, Or.inr ⟨_, List.getElem?_set_self hl, Or.inr he, rfl⟩⟩
    · exact ⟨_, rfl, hf, Or.inr ⟨_, List.getElem?_set_self hl, Or.inl (by rw [if_neg he]; rfl), rfl⟩⟩
  case rFunc w => cases body <;> first | exact absurd rfl hb | exact ⟨_, rfl, hf, Or.inl rfl⟩
  case oFunc w => cases w <;> exact ⟨_, rfl, hf, Or.inl rfl⟩

/-- Started, in the function, and two callers. -/
example : ∃ s, run .func (init 2) (starts ++ times 3 (.tick 2)) = some s ∧ s.fate ≠ .terminated ∧ asked (starts ++ times 3 (.tick 2)) ≤ 1 ∧ Done.started ∈ s.log ∧
    s.pos[2]? = some (.rFunc true) ∧ s.fate = .runs ∧ s.gone = false := by
  refine ⟨_, rfl, ?_, ?_, ?_, rfl, rfl, rfl⟩ <;> decide

/-- `start()` on a thread that was started before, is not detached and is not seen
alive ends the program, in every state. -/
theorem C121_restart_wrong (body : Body) (hb : body ≠ .empty) (s : Sys) (hf : s.fate = .runs) (hg : s.gone = false) (w : Nat) (hh : s.handle = some w)
    (ha : s.alive = false) (t : Nat) (ht : s.pos[t]? = some .idle) :
    ∃ s', run body s [.call t .start, .tick t, .tick t, .tick t] = some s' ∧ s'.fate = .terminated := by
  have hl : t < s.pos.length := (List.getElem?_eq_some_iff.mp ht).1
  have g1 : ∀ p : Pos, (s.pos.set t p)[t]? = some p := fun p => List.getElem?_set_self hl
  have e1 : step body s (.call t .start) = some { s with pos := s.pos.set t .sFunc } := by
    simp only [step, hf, ne_eq, not_true_eq_false, if_false, ht, if_true, hg, Bool.false_eq_true, Sys.goto, enter]
  have e2 : step body { s with pos := s.pos.set t .sFunc } (.tick t) = some { s with pos := s.pos.set t .sAlive } := by
    simp only [step, hf, ne_eq, not_true_eq_false, if_false, hg, Bool.false_eq_true, g1, tick, hb, Sys.goto, List.set_set]
  have e3 : step body { s with pos := s.pos.set t .sAlive } (.tick t) = some { s with pos := s.pos.set t .sSpawn } := by
    simp only [step, hf, ne_eq, not_true_eq_false, if_false, hg, Bool.false_eq_true, g1, tick, ha, Sys.goto, List.set_set]
  have e4 : step body { s with pos := s.pos.set t .sSpawn } (.tick t) = some (Sys.spawn { s with pos := s.pos.set t .sSpawn } body t) := by
    simp only [step, hf, ne_eq, not_true_eq_false, if_false, hg, Bool.false_eq_true, g1, tick]
  refine ⟨Sys.spawn { s with pos := s.pos.set t .sSpawn } body t, by simp only [run, e1, e2, e3, e4, Option.bind_some], ?_⟩
  unfold Sys.spawn
  simp only [hh]

/-- A thread that has ended; and one that `start()` has just been called on. -/
example : ∃ s, run .func (init 1) (starts ++ runs ++ gives ++ ends ++ joins 0) = some s ∧ s.fate = .runs ∧ s.gone = false ∧ s.handle = some 1 ∧ s.alive = false ∧
    s.pos[0]? = some .idle := ⟨_, rfl, rfl, rfl, rfl, rfl, rfl⟩
example : ∃ s, run .func (init 1) starts = some s ∧ s.fate = .runs ∧ s.gone = false ∧ s.handle = some 1 ∧ s.alive = false ∧ s.pos[0]? = some .idle :=
  ⟨_, rfl, rfl, rfl, rfl, rfl, rfl⟩

/-- The function of `Thread()` is undefined behaviour, in every state. -/
theorem C121_null_wrong (s : Sys) (hf : s.fate = .runs) (hg : s.gone = false) (t : Nat) (w : Bool) (ht : s.pos[t]? = some (.rFunc w)) :
    ∃ s', step .null s (.tick t) = some s' ∧ s'.fate = .undefined := by
  refine ⟨{ s with fate := .undefined }, ?_, rfl⟩
  simp only [step, hf, ne_eq, not_true_eq_false, if_false, hg, Bool.false_eq_true, ht, tick]

example : ∃ s, run .null (init 1) (starts ++ runs) = some s ∧ s.fate = .runs ∧ s.gone = false ∧ s.pos[1]? = some (.rFunc true) := ⟨_, rfl, rfl, rfl, rfl⟩

/-! ## C122 -/

/-- When the thread is never detached, the destructor is called with nobody in a call
and nobody calls afterwards, nothing undefined happens, and when the destructor has
returned the operating-system threads have ended. Missing: detached threads and
threads that wait in `join()` (both refuted below), `Thread()`. -/
theorem C122_destroy_partial (body : Body) (hb : body ≠ .null) (k : Nat) (es : List Ev) (s : Sys) (hc : Careful body (init k) es) (h : run body (init k) es = some s) :
    s.fate ≠ .undefined ∧ (Done.destroyed ∈ s.log → AtRest s) := by
  rcases run_careful hb es _ _ h hc (before_init k) with ⟨h1, h2⟩ | h1 | ⟨d, h1⟩
  · exact ⟨(by rw [h1]; intro h; cases h), fun h => absurd h h2⟩
  · exact ⟨h1.fate, fun h => absurd h h1.log⟩
  · refine ⟨h1.fate, fun hd => ?_⟩
    rcases h1.here with ⟨_, _, _, h2, _⟩ | ⟨hg, _⟩
    · exact absurd hd h2
    · intro p hp
      obtain ⟨t, ht⟩ := List.mem_iff_getElem?.mp hp
      exact after_quiet h1 hg t p ht

/-- Start, destroy while the function runs. -/
abbrev leaves : List Ev := starts ++ runs ++ [.call 0 .destroy, .tick 0] ++ gives ++ ends ++ times 3 (.tick 0) ++ times 7 (.sem (.tick 0)) ++ times 2 (.tick 0)

example : ∃ s, run .func (init 1) leaves = some s ∧ Careful .func (init 1) leaves ∧ Done.destroyed ∈ s.log ∧ s.finished = 1 := by
  refine ⟨_, rfl, careful_sound _ _ _ ?_, ?_, rfl⟩ <;> decide

/-- Destroying a detached thread object does not wait: the worker then uses an object
that is gone. -/
theorem C122_detach_wrong : ∃ es s, run .func (init 1) es = some s ∧ s.log = [.destroyed, .detached, .started] ∧ s.fate = .undefined :=
  ⟨starts ++ runs ++ [.call 0 .detach, .tick 0, .tick 0] ++ [.call 0 .destroy, .tick 0, .tick 0, .tick 0] ++ [.tick 1], _, rfl, rfl, rfl⟩

/-- Destroying an object that another thread waits for does not wake that thread: the
destructor returns and the other still sleeps; when it wakes it uses an object that is gone. -/
theorem C122_waiter_wrong : ∃ es s, run .func (init 2) es = some s ∧ s.log = [.destroyed] ∧ s.sem.threads[1]? = some (.aAsleep 1 0) ∧
    ∃ s', run .func s [.sem (.wake 1)] = some s' ∧ s'.fate = .undefined :=
  ⟨sleeps 1 ++ [.call 0 .destroy, .tick 0, .tick 0, .tick 0], _, rfl, rfl, rfl, _, rfl, rfl⟩

/-! ## C123 -/

/-- What is known about `detached` and `threadObject`. -/
structure Handled (n : Nat) (s : Sys) : Prop where
  flag : Done.detached ∈ s.log → s.detached = true
  flag' : s.detached = true → Done.detached ∈ s.log
  none : n = 0 → s.handle = none ∧ s.detached = false

theorem handled_step {body : Body} {n : Nat} {s s' : Sys} {e : Ev} (h : Shape body s e s') (hc : Counted n s) (hs : Handled n s) : Handled (n + asks e) s' := by
  have hcons : ∀ d, d ≠ Done.detached → (Done.detached ∈ d :: s.log ↔ Done.detached ∈ s.log) := by
    intro d hd
    rw [List.mem_cons]
    exact ⟨fun h => h.elim (fun e => absurd e.symm hd) id, Or.inr⟩
  cases h with
  | gone e _ h => exact ⟨hs.flag, hs.flag', fun h => hs.none (by omega)⟩
  | sem e sem hi h => exact ⟨hs.flag, hs.flag', hs.none⟩
  | call t op h => exact ⟨hs.flag, hs.flag', fun h => hs.none (by omega)⟩
  | tick t p s' ht h' =>
    have hm := tick_moves h'
    have hsp : p = .sSpawn → n ≠ 0 := by
      rintro rfl hn
      have h1 := total_get toCome s.pos t _ ht
      have h2 := hc.runs
      change 1 ≤ total toCome s.pos at h1
      omega
    cases hm
    case spawn => exact ⟨fun h => hs.flag ((hcons _ (by intro h; cases h)).mp h), fun h => (hcons _ (by intro h; cases h)).mpr (hs.flag' h), fun h => absurd h (hsp rfl)⟩
    case crash => exact ⟨hs.flag, hs.flag', fun h => absurd h (hsp rfl)⟩
    case dDone w hw => exact ⟨fun _ => rfl, fun _ => List.mem_cons_self, fun h => by rw [(hs.none h).1] at hw; cases hw⟩
    case xWait w hw => exact ⟨hs.flag, hs.flag', fun h => ⟨rfl, (hs.none h).2⟩⟩
    all_goals first
      | exact ⟨hs.flag, hs.flag', hs.none⟩
      | exact ⟨fun h => hs.flag ((hcons _ (by intro h; cases h)).mp h), fun h => (hcons _ (by intro h; cases h)).mpr (hs.flag' h), hs.none⟩

theorem run_handled {body : Body} (es : List Ev) : ∀ n s s', run body s es = some s' → Counted n s → Handled n s →
    s'.fate = .terminated ∨ Handled (n + asked es) s' := by
  induction es with
  | nil => intro n s s' h _ hs; cases h; exact Or.inr hs
  | cons e es ih =>
    intro n s s' h hc hs
    unfold run at h
    cases h1 : step body s e with
    | none => rw [h1] at h; cases h
    | some s1 =>
      rw [h1] at h
      have hsh := (step_shape h1).2
      have h2 := handled_step hsh hc hs
      have ha : n + asked (e :: es) = n + asks e + asked es := by simp [asked]; omega
      rcases counted_step hsh hc with h3 | h3
      · cases es with
        | nil => cases h; exact Or.inl h3
        | cons e' es => exfalso; unfold run step at h; simp [h3] at h
      · rw [ha]; exact ih _ s1 s' h h3 h2

/-- `detach()` throws `IllegalArgumentException` exactly when a `detach()` has returned
before, and on a thread that was never started throws `std::system_error`. Missing: two
calls at the same time. -/
theorem C123_detach_partial (body : Body) (k : Nat) (es : List Ev) (s : Sys) (h : run body (init k) es = some s) (hf : s.fate = .runs) (hg : s.gone = false)
    (t : Nat) (ht : s.pos[t]? = some .idle) :
    (Done.detached ∈ s.log → ∃ s', run body s [.call t .detach, .tick t] = some s' ∧ s'.log = .illegal :: s.log) ∧
    (Done.detached ∉ s.log → ∃ s', run body s [.call t .detach, .tick t, .tick t] = some s' ∧
      (s'.log = .detached :: s.log ∧ s'.handle = none ∨ s'.log = .systemError :: s.log ∧ s.handle = none) ∧
      (asked es = 0 → s'.log = .systemError :: s.log)) := by
  have hs : Handled (0 + asked es) s := by
    rcases run_handled es 0 _ _ h (counted_init k) ⟨(fun h => by cases h), (fun h => by cases h), fun _ => ⟨rfl, rfl⟩⟩ with h1 | h1
    · rw [hf] at h1; cases h1
    · exact h1
  have hl : t < s.pos.length := (List.getElem?_eq_some_iff.mp ht).1
  have g1 : ∀ p : Pos, (s.pos.set t p)[t]? = some p := fun p => List.getElem?_set_self hl
  have e1 : step body s (.call t .detach) = some { s with pos := s.pos.set t .dTest } := by
    simp only [step, hf, ne_eq, not_true_eq_false, if_false, ht, if_true, hg, Bool.false_eq_true, Sys.goto, enter]
  constructor
  · intro hd
    have e2 : step body { s with pos := s.pos.set t .dTest } (.tick t) = some (Sys.ret { s with pos := s.pos.set t .dTest } t .illegal) := by
      simp only [step, hf, ne_eq, not_true_eq_false, if_false, hg, Bool.false_eq_true, g1, tick, hs.flag hd, if_true]
    exact ⟨_, by simp only [run, e1, e2, Option.bind_some]; rfl, rfl⟩
  · intro hd
    have hdf : s.detached = false := by
      cases h1 : s.detached with
      | false => rfl
      | true => exact absurd (hs.flag' h1) hd
    have e2 : step body { s with pos := s.pos.set t .dTest } (.tick t) = some { s with pos := s.pos.set t .dDetach } := by
      simp only [step, hf, ne_eq, not_true_eq_false, if_false, hg, Bool.false_eq_true, g1, tick, hdf, Sys.goto, List.set_set]
    cases hh : s.handle with
    | none =>
      have e3 : step body { s with pos := s.pos.set t .dDetach } (.tick t) = some (Sys.ret { s with pos := s.pos.set t .dDetach } t .systemError) := by
        simp only [step, hf, ne_eq, not_true_eq_false, if_false, hg, Bool.false_eq_true, g1, tick, hh]
      exact ⟨_, by simp only [run, e1, e2, e3, Option.bind_some]; rfl, Or.inr ⟨rfl, rfl⟩, fun _ => rfl⟩
    | some w =>
      have e3 : step body { s with pos := s.pos.set t .dDetach } (.tick t) = some { Sys.ret { s with pos := s.pos.set t .dDetach } t .detached with handle := none, detached := true } := by
        simp only [step, hf, ne_eq, not_true_eq_false, if_false, hg, Bool.false_eq_true, g1, tick, hh]
      refine ⟨_, by simp only [run, e1, e2, e3, Option.bind_some]; rfl, Or.inl ⟨rfl, rfl⟩, fun ha => ?_⟩
      rw [(hs.none (by omega)).1] at hh; cases hh

/-- Detached once; never started. -/
example : ∃ s, run .func (init 1) (starts ++ [.call 0 .detach, .tick 0, .tick 0]) = some s ∧ s.fate = .runs ∧ s.gone = false ∧ s.pos[0]? = some .idle ∧ Done.detached ∈ s.log := by
  refine ⟨_, rfl, rfl, rfl, rfl, ?_⟩; decide
example : ∃ s, run .func (init 1) [.call 0 .isAlive, .tick 0] = some s ∧ s.fate = .runs ∧ s.gone = false ∧ s.pos[0]? = some .idle ∧ Done.detached ∉ s.log := by
  refine ⟨_, rfl, rfl, rfl, rfl, ?_⟩; decide

/-- What `detach()` is supposed to say before `start()` it does not say: on a thread that nobody started
the exception is `std::system_error`, whatever was called before. -/
theorem C123_unstarted_wrong (body : Body) (k : Nat) (es : List Ev) (s : Sys) (h : run body (init k) es = some s) (hf : s.fate = .runs)
    (hg : s.gone = false) (hn : asked es = 0) (t : Nat) (ht : s.pos[t]? = some .idle) :
    ∃ s', run body s [.call t .detach, .tick t, .tick t] = some s' ∧ s'.log = .systemError :: s.log := by
  have hs : Handled (0 + asked es) s := by
    rcases run_handled es 0 _ _ h (counted_init k) ⟨(fun h => by cases h), (fun h => by cases h), fun _ => ⟨rfl, rfl⟩⟩ with h1 | h1
    · rw [hf] at h1; cases h1
    · exact h1
  have hd : Done.detached ∉ s.log := fun hd => by
    have h1 := hs.flag hd
    rw [(hs.none (by omega)).2] at h1; cases h1
  obtain ⟨s', h1, _, h2⟩ := (C123_detach_partial body k es s h hf hg t ht).2 hd
  exact ⟨s', h1, h2 hn⟩

/-- Two calls at the same time: both have seen that the thread is not detached, and the second one throws
`std::system_error`. -/
theorem C123_race_wrong : ∃ s, run .func (init 2) ([.call 0 .start, .tick 0, .tick 0, .tick 0] ++
      [.call 0 .detach, .call 1 .detach, .tick 0, .tick 1, .tick 0, .tick 1]) = some s ∧
    s.log = [.systemError, .detached, .started] := ⟨_, rfl, rfl⟩

/-- With a `start()` between the two, after the function has returned, both calls detach a thread. -/
theorem C123_twice_wrong : ∃ s, run .derived (init 2) ([.call 0 .start, .tick 0, .tick 0, .tick 0] ++
      [.call 0 .detach, .call 1 .detach, .tick 0, .tick 1, .tick 0] ++ [.call 0 .start, .tick 0, .tick 0, .tick 0, .tick 1]) = some s ∧
    s.log = [.detached, .started, .detached, .started] := ⟨_, rfl, rfl⟩

/-- Threads detached, and the one that may be. -/
theorem detach_step {body : Body} {s s' : Sys} {e : Ev} (h : Shape body s e s')
    (hs : s.log.count .detached + (if s.handle.isSome then 1 else 0) ≤ s.log.count .started) :
    s'.log.count .detached + (if s'.handle.isSome then 1 else 0) ≤ s'.log.count .started := by
  have hd : ∀ d : Done, d ≠ .detached → (d :: s.log).count .detached = s.log.count .detached := fun d h => List.count_cons_of_ne h
  have hst : ∀ d : Done, s.log.count .started ≤ (d :: s.log).count .started := fun d => List.count_le_count_cons
  have keep : ∀ d : Done, d ≠ .detached → (d :: s.log).count .detached + (if s.handle.isSome then 1 else 0) ≤ (d :: s.log).count .started := by
    intro d h
    rw [hd d h]
    exact Nat.le_trans hs (hst d)
  cases h with
  | gone e _ h => exact hs
  | sem e sem hi h => exact hs
  | call t op h => exact hs
  | tick t p s' ht h' =>
    have hm := tick_moves h'
    cases hm
    case spawn h =>
      show (Done.started :: s.log).count .detached + 1 ≤ (Done.started :: s.log).count .started
      rw [hd _ (by intro h; cases h), List.count_cons_self]
      rw [h] at hs
      exact Nat.succ_le_succ hs
    case dDone w hw =>
      show (Done.detached :: s.log).count .detached + 0 ≤ (Done.detached :: s.log).count .started
      rw [List.count_cons_self, List.count_cons_of_ne (by intro h; cases h)]
      rw [hw] at hs
      exact hs
    case xWait w hw =>
      show s.log.count .detached + 0 ≤ s.log.count .started
      omega
    all_goals first
      | exact hs
      | exact keep _ (by intro h; cases h)

/-- Whatever the interleaving, no more calls of `detach()` return than calls of `start()`, so every started
thread is detached at most once. -/
theorem C123_once (body : Body) (k : Nat) (es : List Ev) (s : Sys) (h : run body (init k) es = some s) :
    s.log.count .detached ≤ s.log.count .started := by
  have key : ∀ es (s0 s : Sys), run body s0 es = some s →
      s0.log.count .detached + (if s0.handle.isSome then 1 else 0) ≤ s0.log.count .started →
      s.log.count .detached + (if s.handle.isSome then 1 else 0) ≤ s.log.count .started := by
    intro es
    induction es with
    | nil => intro s0 s h hs; cases h; exact hs
    | cons e es ih =>
      intro s0 s h hs
      unfold run at h
      cases h1 : step body s0 e with
      | none => rw [h1] at h; cases h
      | some s1 =>
        rw [h1] at h
        exact ih s1 s h (detach_step (step_shape h1).2 hs)
  have := key es _ s h (by show 0 + 0 ≤ 0; omega)
  omega

example : ∃ s, run .func (init 1) (starts ++ [.call 0 .detach, .tick 0, .tick 0]) = some s ∧ s.log.count .detached = 1 := ⟨_, rfl, rfl⟩

/-! ## C124 -/

/-- Positions in a run after the thread number was stored. -/
def named : Pos → Bool
  | .rTls _ => true
  | .rSet _ => true
  | .rFunc _ => true
  | .rRelease _ => true
  | .rIn _ => true
  | .rClear _ => true
  | _ => false

/-- Positions in a run after `currentThreadPtr` was stored. -/
def set : Pos → Bool
  | .rSet _ => true
  | .rFunc _ => true
  | .rRelease _ => true
  | .rIn _ => true
  | .rClear _ => true
  | _ => false

structure Named (s : Sys) : Prop where
  len : s.cur.length = s.pos.length
  cur : ∀ (t : Nat) (p : Pos), s.pos[t]? = some p → set p = true → s.cur[t]? = some true

theorem named_set {s s' : Sys} (h : Named s) {t : Nat} {p p' : Pos} (ht : s.pos[t]? = some p) (hp : s'.pos = s.pos.set t p')
    (hc : s'.cur = s.cur ∧ (set p' = true → set p = true) ∨ s'.cur = s.cur.set t true) : Named s' := by
  rcases hc with ⟨h1, h2⟩ | h1
  · refine ⟨by rw [h1, hp, List.length_set]; exact h.len, ?_⟩
    intro u q hu hq
    rw [hp] at hu; rw [h1]
    rcases get_set _ _ _ _ _ hu with ⟨rfl, rfl⟩ | ⟨_, hu⟩
    · exact h.cur _ p ht (h2 hq)
    · exact h.cur u q hu hq
  · refine ⟨by rw [h1, hp, List.length_set, List.length_set]; exact h.len, ?_⟩
    intro u q hu hq
    rw [hp] at hu; rw [h1]
    have hl : t < s.cur.length := by rw [h.len]; exact (List.getElem?_eq_some_iff.mp ht).1
    rcases get_set _ _ _ _ _ hu with ⟨rfl, rfl⟩ | ⟨hne, hu⟩
    · exact List.getElem?_set_self hl
    · rw [List.getElem?_set_ne (fun e => hne e.symm)]; exact h.cur u q hu hq

theorem named_spawn {s : Sys} (h : Named s) (body : Body) (s' : Sys) (hp : s'.pos = s.pos ++ [entry body true]) (hc : s'.cur = s.cur ++ [false]) : Named s' := by
  refine ⟨by rw [hp, hc]; simp [h.len], ?_⟩
  intro u q hu hq
  rw [hp] at hu; rw [hc]
  rcases get_snoc _ _ _ _ hu with ⟨rfl, rfl⟩ | hu
  · exfalso; revert hq; cases body <;> intro hq <;> cases hq
  · have := h.cur u q hu hq
    rw [List.getElem?_append_left (List.getElem?_eq_some_iff.mp this).1]; exact this

theorem named_step {body : Body} {s s' : Sys} {e : Ev} (h : Shape body s e s') (hs : Named s) : Named s' := by
  cases h with
  | gone e _ h => exact ⟨hs.len, hs.cur⟩
  | sem e sem hi h => exact ⟨hs.len, hs.cur⟩
  | call t op h =>
    refine named_set hs h rfl (Or.inl ⟨rfl, fun hq => ?_⟩)
    exfalso; revert hq; cases op <;> first | (intro hq; cases hq; done) | (cases body <;> intro hq <;> cases hq)
  | tick t p s' ht h' =>
    have hm := tick_moves h'
    cases hm
    case spawn =>
      have h1 := named_spawn hs body { s with pos := s.pos ++ [entry body true], cur := s.cur ++ [false] } rfl rfl
      have hl : t < s.pos.length := (List.getElem?_eq_some_iff.mp ht).1
      exact named_set h1 (t := t) (p := .sSpawn) (by rw [List.getElem?_append_left hl]; exact ht) rfl (Or.inl ⟨rfl, (fun hq => by cases hq)⟩)
    case crash => exact named_spawn hs body _ rfl rfl
    case rNull => exact ⟨hs.len, hs.cur⟩
    case rTls => exact named_set hs ht rfl (Or.inr rfl)
    all_goals
      refine named_set hs ht rfl (Or.inl ⟨rfl, fun hq => ?_⟩)
      first | rfl | (cases hq; done)

/-- In the function of a thread, on whichever thread it runs, `currentThread()` is
this object. Missing: derived classes, and threads outside a run (refuted below). -/
theorem C124_current_partial (body : Body) (k : Nat) (es : List Ev) (s : Sys) (h : run body (init k) es = some s) (t : Nat) (w : Bool) (ht : s.pos[t]? = some (.rFunc w)) :
    s.cur.getD t false = true := by
  have hn : Named s := run_inv Named (fun _ => True) (fun _ _ _ _ _ hsh hi => named_step hsh hi) es _ _ h (fun _ _ => trivial)
    ⟨by simp [init], fun t p hp hq => by rw [init_pos k t p hp] at hq; cases hq⟩
  rw [List.getD_eq_getElem?_getD, hn.cur t _ ht rfl]; rfl

example : ∃ s, run .func (init 1) (starts ++ runs) = some s ∧ s.pos[1]? = some (.rFunc true) := ⟨_, rfl, rfl⟩

/-- Positions of callers and workers when nobody calls `run()`. -/
structure Main (k : Nat) (s : Sys) : Prop where
  len : k ≤ s.pos.length
  callers : ∀ (t : Nat) (p : Pos), t < k → s.pos[t]? = some p → before p = false ∧ named p = false
  cur : ∀ (t : Nat), t < k → s.cur.getD t false = false
  log : Done.current true ∈ s.log → False
  workers : ∀ (t : Nat) (p : Pos), k ≤ t → s.pos[t]? = some p → worker p = true
  length : s.cur.length = s.pos.length

theorem main_set {k : Nat} {s s' : Sys} (h : Main k s) {t : Nat} {p p' : Pos} (ht : s.pos[t]? = some p) (hp : s'.pos = s.pos.set t p')
    (hn : before p' = false ∧ named p' = false ∨ before p = true ∨ named p = true) (hw : worker p = true → worker p' = true)
    (hc : s'.cur = s.cur ∨ s'.cur = s.cur.set t true ∧ (before p = true ∨ named p = true)) (hl : Done.current true ∈ s'.log → Done.current true ∈ s.log) : Main k s' := by
  have hlate : before p = true ∨ named p = true → k ≤ t := by
    intro h1
    rcases Nat.lt_or_ge t k with h2 | h2
    · have := h.callers t p h2 ht
      rcases h1 with h1 | h1
      · rw [this.1] at h1; cases h1
      · rw [this.2] at h1; cases h1
    · exact h2
  refine ⟨by rw [hp, List.length_set]; exact h.len, ?_, ?_, fun h1 => h.log (hl h1), ?_, ?_⟩
  · intro u q huk hu
    rw [hp] at hu
    rcases get_set _ _ _ _ _ hu with ⟨rfl, rfl⟩ | ⟨_, hu⟩
    · rcases hn with h1 | h1
      · exact h1
      · exact absurd (hlate h1) (by omega)
    · exact h.callers u q huk hu
  · intro u huk
    rcases hc with h1 | ⟨h1, h2⟩
    · rw [h1]; exact h.cur u huk
    · have := hlate h2
      rw [h1, List.getD_eq_getElem?_getD, List.getElem?_set_ne (by omega), ← List.getD_eq_getElem?_getD]
      exact h.cur u huk
  · intro u q huk hu
    rw [hp] at hu
    rcases get_set _ _ _ _ _ hu with ⟨rfl, rfl⟩ | ⟨_, hu⟩
    · exact hw (h.workers _ _ huk ht)
    · exact h.workers u q huk hu
  · rcases hc with h1 | ⟨h1, _⟩
    · rw [h1, hp, List.length_set]; exact h.length
    · rw [h1, hp, List.length_set, List.length_set]; exact h.length

theorem main_spawn {k : Nat} {s : Sys} (h : Main k s) (body : Body) (s' : Sys) (hp : s'.pos = s.pos ++ [entry body true]) (hc : s'.cur = s.cur ++ [false])
    (hl : s'.log = s.log) : Main k s' := by
  refine ⟨by rw [hp]; simp; have := h.len; omega, ?_, ?_, by rw [hl]; exact h.log, ?_, by rw [hp, hc]; simp [h.length]⟩
  · intro u q huk hu
    rw [hp] at hu
    rcases get_snoc _ _ _ _ hu with ⟨rfl, rfl⟩ | hu
    · have := h.len; omega
    · exact h.callers u q huk hu
  · intro u huk
    have := h.len
    rw [hc, List.getD_eq_getElem?_getD, List.getElem?_append_left (by rw [h.length]; omega), ← List.getD_eq_getElem?_getD]
    exact h.cur u huk
  · intro u q huk hu
    rw [hp] at hu
    rcases get_snoc _ _ _ _ hu with ⟨rfl, rfl⟩ | hu
    · exact worker_entry body true
    · exact h.workers u q huk hu

theorem main_step {k : Nat} {body : Body} {s s' : Sys} {e : Ev} (hr : ∀ t, e ≠ .call t .run) (h : Shape body s e s') (hs : Main k s) : Main k s' := by
  have hcons : ∀ d, d ≠ Done.current true → (Done.current true ∈ d :: s.log → Done.current true ∈ s.log) := by
    intro d hd h
    exact (List.mem_cons.mp h).elim (fun e => absurd e.symm hd) id
  cases h with
  | gone e _ h => exact ⟨hs.len, hs.callers, hs.cur, hs.log, hs.workers, hs.length⟩
  | sem e sem hi h => exact ⟨hs.len, hs.callers, hs.cur, hs.log, hs.workers, hs.length⟩
  | call t op h =>
    refine main_set hs h rfl (Or.inl ?_) (fun hq => by cases hq) (Or.inl rfl) (fun h => h)
    cases op <;> first | exact ⟨rfl, rfl⟩ | exact absurd rfl (hr t)
  | tick t p s' ht h' =>
    have hm := tick_moves h'
    cases hm
    case spawn =>
      have h1 := main_spawn hs body { s with pos := s.pos ++ [entry body true], cur := s.cur ++ [false] } rfl rfl rfl
      have hl : t < s.pos.length := (List.getElem?_eq_some_iff.mp ht).1
      exact main_set h1 (t := t) (p := .sSpawn) (by rw [List.getElem?_append_left hl]; exact ht) rfl (Or.inl ⟨rfl, rfl⟩) (fun hq => by cases hq) (Or.inl rfl) (hcons _ (by intro h; cases h))
    case crash => exact main_spawn hs body _ rfl rfl rfl
    case rNull => exact ⟨hs.len, hs.callers, hs.cur, hs.log, hs.workers, hs.length⟩
    case cRead =>
      have htk : t < k := by
        rcases Nat.lt_or_ge t k with h2 | h2
        · exact h2
        · cases hs.workers t _ h2 ht
      refine main_set hs ht rfl (Or.inl ⟨rfl, rfl⟩) (fun hq => by cases hq) (Or.inl rfl) (hcons _ ?_)
      rw [hs.cur t htk]; intro h; cases h
    case rTls => exact main_set hs ht rfl (Or.inr (Or.inl rfl)) (fun hq => hq) (Or.inr ⟨rfl, Or.inl rfl⟩) (fun h => h)
    all_goals
      refine main_set hs ht rfl ?_ (fun hq => ?_) (Or.inl rfl) ?_
      · first | exact Or.inl ⟨rfl, rfl⟩ | exact Or.inr (Or.inl rfl) | exact Or.inr (Or.inr rfl)
      · first | exact hq | rfl | (cases hq; done)
      · first | exact (fun h => h) | exact hcons _ (by intro h; cases h)

/-- `currentThread()` of a thread that the program did not make with `start()` is
always null: there is no object for the main thread. -/
theorem C124_main_wrong (body : Body) (k : Nat) (es : List Ev) (s : Sys) (hr : ∀ t, .call t .run ∉ es) (h : run body (init k) es = some s) : Done.current true ∉ s.log := by
  have hm : Main k s := run_inv (Main k) (fun e => ∀ t, e ≠ .call t .run) (fun _ _ _ ho _ hsh hi => main_step ho hsh hi) es _ _ h (fun e he u hu => hr u (hu ▸ he))
    ⟨by simp [init], fun t p _ hp => by rw [init_pos k t p hp]; exact ⟨rfl, rfl⟩, fun t ht => by simp [init, ht],
      (fun h => by cases h), fun t p hk hp => by have := (List.getElem?_eq_some_iff.mp hp).1; simp [init] at this; omega, by simp [init]⟩
  exact hm.log

example : ∃ s, run .func (init 1) (starts ++ runs ++ [.call 0 .currentThread, .tick 0]) = some s ∧ s.log = [.current false, .started] := ⟨_, rfl, rfl⟩

/-- After a thread called `run()` of the object itself, its `currentThread()` stays
the object, also when the object is gone. -/
theorem C124_run_wrong : ∃ es s, run .func (init 1) es = some s ∧ s.log = [.current true, .ran] ∧
    ∃ es' s', run .func s es' = some s' ∧ s'.log.head? = some .destroyed ∧ s'.cur.getD 0 false = true :=
  ⟨.call 0 .run :: times 5 (.tick 0) ++ times 7 (.sem (.tick 0)) ++ times 2 (.tick 0) ++ [.call 0 .currentThread, .tick 0], _, rfl, rfl,
    [.call 0 .destroy, .tick 0, .tick 0, .tick 0] ++ times 7 (.sem (.tick 0)) ++ times 2 (.tick 0), _, rfl, rfl, rfl⟩

/-- The thread number. -/
def Numbered (s : Sys) : Prop := ∀ (t : Nat) (p : Pos), s.pos[t]? = some p → named p = true → s.tid = t + 1

theorem alone_named {s : Sys} (hc : Counted 1 s) {t u : Nat} {p q : Pos} (ht : s.pos[t]? = some p) (hu : s.pos[u]? = some q) (hp : 1 ≤ weight p) (hq : named q = true) : t = u := by
  by_cases hne : t = u
  · exact hne
  · have h1 := total_get2 weight rfl s.pos t u p q ht hu hne
    have h2 := hc.weight
    have h3 : weight q = 1 := by cases q <;> first | rfl | cases hq
    omega

theorem numbered_step {body : Body} {s s' : Sys} {e : Ev} (h : Shape body s e s') (hc : Counted 1 s) (hs : Numbered s) : Numbered s' := by
  have hset : ∀ (s' : Sys) (t : Nat) (p p' : Pos), s.pos[t]? = some p → s'.pos = s.pos.set t p' → s'.tid = s.tid → (named p' = true → named p = true) → Numbered s' := by
    intro s' t p p' ht hp htid hn u q hu hq
    rw [hp] at hu; rw [htid]
    rcases get_set _ _ _ _ _ hu with ⟨rfl, rfl⟩ | ⟨_, hu⟩
    · exact hs _ p ht (hn hq)
    · exact hs u q hu hq
  have hsnoc : ∀ (u : Nat) (q : Pos), (s.pos ++ [entry body true])[u]? = some q → named q = true → s.tid = u + 1 := by
    intro u q hu hq
    rcases get_snoc _ _ _ _ hu with ⟨rfl, rfl⟩ | hu
    · exfalso; revert hq; cases body <;> intro hq <;> cases hq
    · exact hs u q hu hq
  cases h with
  | gone e _ h => exact hs
  | sem e sem hi h => exact hs
  | call t op h =>
    refine hset _ t _ _ h rfl rfl (fun hq => ?_)
    exfalso; revert hq; cases op <;> first | (intro hq; cases hq; done) | (cases body <;> intro hq <;> cases hq)
  | tick t p s' ht h' =>
    have hm := tick_moves h'
    cases hm
    case spawn =>
      intro u q hu hq
      rcases get_set _ _ _ _ _ hu with ⟨_, rfl⟩ | ⟨_, hu⟩
      · cases hq
      · exact hsnoc u q hu hq
    case crash => exact hsnoc
    case rNull => exact hs
    case rTid w =>
      intro u q hu hq
      rcases get_set _ _ _ _ _ hu with ⟨rfl, _⟩ | ⟨_, hu⟩
      · rfl
      · rw [alone_named hc ht hu (Nat.le_refl _) hq]
    all_goals
      refine hset _ t _ _ ht rfl rfl (fun hq => ?_)
      first | rfl | (cases hq; done)

/-- With one call of `start()` or `run()`, while the function runs `getId()` is the
number of the thread it runs on. Missing: before the function runs (refuted below). -/
theorem C124_id_partial (body : Body) (k : Nat) (es : List Ev) (s : Sys) (ha : asked es ≤ 1) (h : run body (init k) es = some s) (t : Nat) (w : Bool)
    (ht : s.pos[t]? = some (.rFunc w)) : s.tid = t + 1 := by
  have : ∀ (es : List Ev) (n : Nat) (s s' : Sys), run body s es = some s' → n + asked es ≤ 1 → Counted n s → Solo body s → Numbered s → Numbered s' := by
    intro es
    induction es with
    | nil => intro n s s' h _ _ _ hs; cases h; exact hs
    | cons e es ih =>
      intro n s s' h hn hc hso hs
      unfold run at h
      cases h1 : step body s e with
      | none => rw [h1] at h; cases h
      | some s1 =>
        rw [h1] at h
        have hsh := (step_shape h1).2
        have he : n + asked (e :: es) = n + asks e + asked es := by simp [asked]; omega
        have h2 := numbered_step hsh (counted_mono (by omega) hc) hs
        have h3 := solo_step hsh (counted_mono (by omega) hc) hso
        rcases counted_step hsh hc with h4 | h4
        · exact absurd h4 h3.fate
        · exact ih _ s1 s' h (by omega) h4 h3 h2
  exact this es 0 _ _ h (by omega) (counted_init k) (solo_init body k) (fun t p hp hq => by rw [init_pos k t p hp] at hq; cases hq) t _ ht rfl

example : ∃ s, run .func (init 1) (starts ++ runs) = some s ∧ asked (starts ++ runs) ≤ 1 ∧ s.pos[1]? = some (.rFunc true) := by
  refine ⟨_, rfl, ?_, rfl⟩; decide

/-- Right after `start()` returned `getId()` can answer 0, the number of no thread. -/
theorem C124_id_wrong : ∃ es s, run .func (init 1) es = some s ∧ s.log = [.id 0, .started] := ⟨starts ++ [.call 0 .getId, .tick 0], _, rfl, rfl⟩

end Verif.Thread
