import Verif.Semaphore.Lemmas
import Verif.Thread.Spec
/-!
# Invariants of a thread object
-/
namespace Verif.Thread

/-! ## Steps of the semaphore without spurious wake-ups -/

/-- A sleeping position and where a notification takes it. -/
def woken : Semaphore.Pos → Option Semaphore.Pos
  | .aAsleep n k => some (.aWoken n k)
  | .wAsleep n => some (.wWoken n)
  | _ => none

/-- What an inner step of the semaphore is. -/
inductive Inner (s : Semaphore.Sys) : Semaphore.Sys → Prop
  | tick (t : Nat) (q : Semaphore.Pos) (s' : Semaphore.Sys) (h : s.threads[t]? = some q) (h' : Semaphore.tick s t (Semaphore.act q) = some s') : Inner s s'
  | notify (t u : Nat) (n : Int) (q q' : Semaphore.Pos) (h : s.threads[t]? = some (.rNotify n))
    (hu : (s.threads.set t (.rUnlockC n))[u]? = some q) (hq : woken q = some q') : Inner s ((s.goto t (.rUnlockC n)).goto u q')
  | late (u : Nat) (n : Int) (h : s.threads[u]? = some (.wAsleep n)) : Inner s (s.goto u (.wTimedOut n))

theorem sleep_woken {q q' : Semaphore.Pos} {l : Option Semaphore.Pos} (h : Semaphore.act q = .sleep q' l) :
    woken q = some q' ∧ (∀ q'', l = some q'' → ∃ n, q = .wAsleep n ∧ q'' = .wTimedOut n) := by
  cases q <;> simp only [Semaphore.act, reduceCtorEq, Semaphore.Act.sleep.injEq] at h
  case aTop n k => cases k <;> simp only [Semaphore.act, reduceCtorEq] at h
  case aAsleep n k => obtain ⟨rfl, rfl⟩ := h; exact ⟨rfl, fun q'' h => by cases h⟩
  case wAsleep n => obtain ⟨rfl, rfl⟩ := h; exact ⟨rfl, fun q'' h => by cases h; exact ⟨n, rfl, rfl⟩⟩

theorem notify_pos {q q' : Semaphore.Pos} (h : Semaphore.act q = .notify q') : ∃ n, q = .rNotify n ∧ q' = .rUnlockC n := by
  cases q <;> simp only [Semaphore.act, reduceCtorEq, Semaphore.Act.notify.injEq] at h
  case aTop n k => cases k <;> simp only [Semaphore.act, reduceCtorEq] at h
  case rNotify n => exact ⟨n, rfl, h.symm⟩

theorem inner_of_step {s s' : Semaphore.Sys} {e : Semaphore.Ev} (h : Semaphore.step s e = some s') (hi : inner e = true)
    (hw : ∀ u, e ≠ .wake u) : Inner s s' := by
  unfold Semaphore.step at h
  by_cases hu : s.undef = true
  · rw [if_pos hu] at h; cases h
  rw [if_neg hu] at h
  cases e with
  | call t op => cases hi
  | wake u => exact absurd rfl (hw u)
  | tick t =>
    simp only at h
    cases ht : s.threads[t]? with
    | none => rw [ht] at h; cases h
    | some q => rw [ht] at h; exact .tick t q s' ht h
  | notify t u =>
    simp only at h
    cases ht : s.threads[t]? with
    | none => rw [ht] at h; cases h
    | some p =>
      rw [ht] at h
      simp only [Option.map_some] at h
      cases ha : Semaphore.act p with
      | notify p' =>
        rw [ha] at h
        simp only at h
        obtain ⟨n, rfl, rfl⟩ := notify_pos ha
        obtain ⟨q, q', l, h1, h2, h3 | ⟨q'', h3, _⟩⟩ := Semaphore.rouse_shape h
        · rw [h3.2]; exact .notify t u n q q' ht h1 (sleep_woken h2).1
        · cases h3
      | _ => rw [ha] at h; cases h
  | late u =>
    obtain ⟨q, q', l, h1, h2, h3 | ⟨q'', _, h4, h5⟩⟩ := Semaphore.rouse_shape h
    · cases h3.1
    · obtain ⟨n, rfl, rfl⟩ := (sleep_woken h2).2 q'' h4
      rw [h5]; exact .late u n h1

theorem sem_call {s s' : Semaphore.Sys} {t : Nat} {op : Semaphore.Op} (h : Semaphore.step s (.call t op) = some s') :
    s.threads[t]? = some .idle ∧ s' = s.goto t (Semaphore.enter op) := by
  unfold Semaphore.step at h
  by_cases hu : s.undef = true
  · rw [if_pos hu] at h; cases h
  rw [if_neg hu] at h
  simp only at h
  by_cases ht : s.threads[t]? = some .idle
  · rw [if_pos ht] at h; cases h; exact ⟨ht, rfl⟩
  · rw [if_neg ht] at h; cases h

/-! ## Steps of the thread object -/

inductive Shape (body : Body) (s : Sys) : Ev → Sys → Prop
  | call (t : Nat) (op : Op) (h : s.pos[t]? = some .idle) (hg : s.gone = false) : Shape body s (.call t op) (s.goto t (enter body op))
  | tick (t : Nat) (p : Pos) (s' : Sys) (h : s.pos[t]? = some p) (h' : tick body s t p = some s') (hg : s.gone = false) : Shape body s (.tick t) s'
  | sem (e : Semaphore.Ev) (sem : Semaphore.Sys) (hi : inner e = true) (h : Semaphore.step s.sem e = some sem) (hg : s.gone = false) :
    Shape body s (.sem e) { s with sem := sem }
  | gone (e : Ev) (h : s.gone = true) (h' : (∃ t op, e = .call t op) ∨ (∃ u : Nat, busy s.pos[u]? = true) ∨
      ∃ e' sem, inner e' = true ∧ Semaphore.step s.sem e' = some sem) : Shape body s e { s with fate := .undefined }

theorem step_shape {body : Body} {s s' : Sys} {e : Ev} (h : step body s e = some s') : s.fate = .runs ∧ Shape body s e s' := by
  unfold step at h
  by_cases hf : s.fate ≠ .runs
  · rw [if_pos hf] at h; cases h
  rw [if_neg hf] at h
  have hf : s.fate = .runs := by simpa using hf
  refine ⟨hf, ?_⟩
  cases e with
  | call t op =>
    simp only at h
    by_cases ht : s.pos[t]? = some .idle
    · rw [if_pos ht] at h
      by_cases hg : s.gone = true
      · rw [if_pos hg] at h; cases h
        exact .gone _ hg (Or.inl ⟨t, op, rfl⟩)
      · rw [if_neg hg] at h; cases h; exact .call t op ht (by simpa using hg)
    · rw [if_neg ht] at h; cases h
  | tick t =>
    simp only at h
    by_cases hg : s.gone = true
    · rw [if_pos hg] at h
      by_cases hb : busy s.pos[t]? = true
      · rw [if_pos hb] at h; cases h; exact .gone _ hg (Or.inr (Or.inl ⟨t, hb⟩))
      · rw [if_neg hb] at h; cases h
    · rw [if_neg hg] at h
      cases hp : s.pos[t]? with
      | none => rw [hp] at h; cases h
      | some p => rw [hp] at h; exact .tick t p s' hp h (by simpa using hg)
  | sem e =>
    simp only at h
    by_cases hi : inner e = true
    · rw [if_pos hi] at h
      by_cases hg : s.gone = true
      · rw [if_pos hg] at h
        by_cases hb : (Semaphore.step s.sem e).isSome = true
        · rw [if_pos hb] at h; cases h; exact .gone _ hg (Or.inr (Or.inr ⟨e, _, hi, Option.some_get hb |>.symm⟩))
        · rw [if_neg hb] at h; cases h
      · rw [if_neg hg] at h
        cases h1 : Semaphore.step s.sem e with
        | none => rw [h1] at h; cases h
        | some sem =>
          rw [h1] at h; cases h
          exact .sem e sem hi h1 (by simpa using hg)
    · rw [if_neg hi] at h; cases h

theorem run_inv {body : Body} (I : Sys → Prop) (ok : Ev → Prop) (hI : ∀ s e s', ok e → s.fate = .runs → Shape body s e s' → I s → I s') (es : List Ev) :
    ∀ s s', run body s es = some s' → (∀ e ∈ es, ok e) → I s → I s' := by
  induction es with
  | nil => intro s s' h _ hs; cases h; exact hs
  | cons e es ih =>
    intro s s' h hn hs
    unfold run at h
    cases h1 : step body s e with
    | none => rw [h1] at h; cases h
    | some s1 =>
      rw [h1] at h
      have h2 := step_shape h1
      exact ih s1 s' h (fun e he => hn e (List.mem_cons_of_mem _ he)) (hI _ e _ (hn e List.mem_cons_self) h2.1 h2.2 hs)

theorem get_set {α : Type} (l : List α) (t u : Nat) (p' q : α) (h : (l.set t p')[u]? = some q) : u = t ∧ q = p' ∨ u ≠ t ∧ l[u]? = some q := by
  rw [List.getElem?_set] at h
  by_cases hut : t = u
  · subst hut
    rw [if_pos rfl] at h
    by_cases hl : t < l.length
    · rw [if_pos hl] at h; cases h; exact Or.inl ⟨rfl, rfl⟩
    · rw [if_neg hl] at h; cases h
  · rw [if_neg hut] at h; exact Or.inr ⟨fun h => hut h.symm, h⟩

theorem get_snoc {α : Type} (l : List α) (x q : α) (u : Nat) (h : (l ++ [x])[u]? = some q) : u = l.length ∧ q = x ∨ l[u]? = some q := by
  rcases Nat.lt_or_ge u l.length with hu | hu
  · rw [List.getElem?_append_left hu] at h; exact Or.inr h
  · rw [List.getElem?_append_right hu] at h
    have : u - l.length = 0 := by
      cases hn : u - l.length with
      | zero => rfl
      | succ m => rw [hn] at h; cases h
    rw [this] at h
    cases h
    exact Or.inl ⟨by omega, rfl⟩

/-- What an agent at a position does. -/
inductive Moves (body : Body) (s : Sys) (t : Nat) : Pos → Sys → Prop
  | sEmpty (h : body = .empty) : Moves body s t .sFunc (s.ret t .started)
  | sGo (h : body ≠ .empty) : Moves body s t .sFunc (s.goto t .sAlive)
  | sAlive (h : s.alive = true) : Moves body s t .sAlive (s.ret t .started)
  | sDead (h : s.alive = false) : Moves body s t .sAlive (s.goto t .sSpawn)
  | spawn (h : s.handle = none) : Moves body s t .sSpawn
      { s with pos := (s.pos ++ [entry body true]).set t .idle, cur := s.cur ++ [false],
               sem := { s.sem with threads := s.sem.threads ++ [Semaphore.Pos.idle] },
               handle := some s.pos.length, log := .started :: s.log }
  | crash (w : Nat) (h : s.handle = some w) : Moves body s t .sSpawn
      { s with pos := s.pos ++ [entry body true], cur := s.cur ++ [false],
               sem := { s.sem with threads := s.sem.threads ++ [Semaphore.Pos.idle] }, fate := .terminated }
  | jEnter (h : s.sem.threads[t]? = some .idle) : Moves body s t .jEnter { s.goto t .jIn with sem := s.sem.goto t (.aTop 1 1) }
  | jIn (h : s.sem.threads[t]? = some .idle) : Moves body s t .jIn (s.ret t .joined)
  | jForEnter (h : s.sem.threads[t]? = some .idle) : Moves body s t .jForEnter { s.goto t .jForIn with sem := s.sem.goto t (.tLockP 1) }
  | jForIn (h : s.sem.threads[t]? = some .idle) : Moves body s t .jForIn (s.ret t .joinedFor)
  | iRead : Moves body s t .iRead (s.ret t (.alive s.alive))
  | gRead : Moves body s t .gRead (s.ret t (.id s.tid))
  | cRead : Moves body s t .cRead (s.ret t (.current (s.cur.getD t false)))
  | dIllegal (h : s.detached = true) : Moves body s t .dTest (s.ret t .illegal)
  | dGo (h : s.detached = false) : Moves body s t .dTest (s.goto t .dDetach)
  | dError (h : s.handle = none) : Moves body s t .dDetach (s.ret t .systemError)
  | dDone (w : Nat) (h : s.handle = some w) : Moves body s t .dDetach { s.ret t .detached with handle := none, detached := true }
  | rTid (w : Bool) : Moves body s t (.rTid w) { s.goto t (.rTls w) with tid := t + 1 }
  | rTls (w : Bool) : Moves body s t (.rTls w) { s.goto t (.rSet w) with cur := s.cur.set t true }
  | rSetEmpty (w : Bool) (h : body = .empty) : Moves body s t (.rSet w) { s.goto t (.rRelease w) with alive := true }
  | rSet (w : Bool) (h : body ≠ .empty) : Moves body s t (.rSet w) { s.goto t (.rFunc w) with alive := true }
  | rNull (w : Bool) (h : body = .null) : Moves body s t (.rFunc w) { s with fate := .undefined }
  | rFunc (w : Bool) (h : body ≠ .null) : Moves body s t (.rFunc w) { s.goto t (.rRelease w) with finished := s.finished + 1 }
  | rRelease (w : Bool) (h : s.sem.threads[t]? = some .idle) : Moves body s t (.rRelease w) { s.goto t (.rIn w) with sem := s.sem.goto t (.rLockC 1) }
  | rIn (w : Bool) (h : s.sem.threads[t]? = some .idle) : Moves body s t (.rIn w) (s.goto t (.rClear w))
  | rEnd : Moves body s t (.rClear true) { s.goto t .ended with alive := false }
  | rRet : Moves body s t (.rClear false) { s.ret t .ran with alive := false }
  | oEnd : Moves body s t (.oFunc true) { s.goto t .ended with finished := s.finished + 1 }
  | oRet : Moves body s t (.oFunc false) { s.ret t .ran with finished := s.finished + 1 }
  | xNone (h : s.handle = none) : Moves body s t .xTest (s.goto t .xPermits)
  | xSome (w : Nat) (h : s.handle = some w) : Moves body s t .xTest (s.goto t (.xWait w))
  | xWait (w : Nat) (h : s.pos[w]? = some .ended) : Moves body s t (.xWait w) { s.goto t .xPermits with handle := none }
  | xPos (hl : s.sem.lockP = none) (h : 0 < s.sem.count) : Moves body s t .xPermits (s.goto t .xAgain)
  | xZero (hl : s.sem.lockP = none) (h : ¬ 0 < s.sem.count) : Moves body s t .xPermits (s.goto t .xGone)
  | xAgain (hl : s.sem.lockP = none) (h : s.sem.threads[t]? = some .idle) :
      Moves body s t .xAgain { s.goto t .xIn with sem := s.sem.goto t (.rLockC s.sem.count) }
  | xIn (h : s.sem.threads[t]? = some .idle) : Moves body s t .xIn (s.goto t .xGone)
  | xGone : Moves body s t .xGone { s.ret t .destroyed with gone := true }

theorem enterSem_some {s s' : Sys} {t : Nat} {op : Semaphore.Op} {p' : Pos} (h : s.enterSem t op p' = some s') :
    s.sem.threads[t]? = some .idle ∧ s' = { s.goto t p' with sem := s.sem.goto t (Semaphore.enter op) } := by
  unfold Sys.enterSem at h
  cases h1 : Semaphore.step s.sem (.call t op) with
  | none => rw [h1] at h; cases h
  | some sem =>
    rw [h1] at h; cases h
    obtain ⟨h2, rfl⟩ := sem_call h1
    exact ⟨h2, rfl⟩

theorem tick_moves {body : Body} {s s' : Sys} {t : Nat} {p : Pos} (h : tick body s t p = some s') : Moves body s t p s' := by
  cases p <;> simp only [tick, Option.some.injEq, reduceCtorEq] at h
  case sFunc =>
    by_cases hb : body = .empty
    · rw [if_pos hb] at h; subst h; exact .sEmpty hb
    · rw [if_neg hb] at h; subst h; exact .sGo hb
  case sAlive =>
    by_cases hb : s.alive = true
    · rw [if_pos hb] at h; subst h; exact .sAlive hb
    · rw [if_neg hb] at h; subst h; exact .sDead (by simpa using hb)
  case sSpawn =>
    subst h
    cases hh : s.handle with
    | none =>
      have : s.spawn body t = { s with
               pos := (s.pos ++ [entry body true]).set t .idle, cur := s.cur ++ [false],
               sem := { s.sem with threads := s.sem.threads ++ [Semaphore.Pos.idle] },
               handle := some s.pos.length, log := .started :: s.log } := by
        simp [Sys.spawn, hh, Sys.ret, Sys.goto]
      rw [this]; exact .spawn hh
    | some w =>
      have : s.spawn body t = { s with
               pos := s.pos ++ [entry body true], cur := s.cur ++ [false],
               sem := { s.sem with threads := s.sem.threads ++ [Semaphore.Pos.idle] }, fate := .terminated } := by
        simp [Sys.spawn, hh]
      rw [this]; exact .crash w hh
  case jEnter => obtain ⟨h1, rfl⟩ := enterSem_some h; exact .jEnter h1
  case jForEnter => obtain ⟨h1, rfl⟩ := enterSem_some h; exact .jForEnter h1
  case rRelease w => obtain ⟨h1, rfl⟩ := enterSem_some h; exact .rRelease w h1
  case xAgain =>
    by_cases hl : s.sem.lockP = none
    · rw [if_pos hl] at h; obtain ⟨h1, rfl⟩ := enterSem_some h; exact .xAgain hl h1
    · rw [if_neg hl] at h; cases h
  case jIn =>
    by_cases hb : s.backFromSem t = true
    · rw [if_pos hb] at h; cases h; exact .jIn (by simpa [Sys.backFromSem] using hb)
    · rw [if_neg hb] at h; cases h
  case jForIn =>
    by_cases hb : s.backFromSem t = true
    · rw [if_pos hb] at h; cases h; exact .jForIn (by simpa [Sys.backFromSem] using hb)
    · rw [if_neg hb] at h; cases h
  case rIn w =>
    by_cases hb : s.backFromSem t = true
    · rw [if_pos hb] at h; cases h; exact .rIn w (by simpa [Sys.backFromSem] using hb)
    · rw [if_neg hb] at h; cases h
  case xIn =>
    by_cases hb : s.backFromSem t = true
    · rw [if_pos hb] at h; cases h; exact .xIn (by simpa [Sys.backFromSem] using hb)
    · rw [if_neg hb] at h; cases h
  case iRead => subst h; exact .iRead
  case gRead => subst h; exact .gRead
  case cRead => subst h; exact .cRead
  case dTest =>
    by_cases hb : s.detached = true
    · rw [if_pos hb] at h; subst h; exact .dIllegal hb
    · rw [if_neg hb] at h; subst h; exact .dGo (by simpa using hb)
  case dDetach =>
    cases hh : s.handle with
    | none => rw [hh] at h; subst h; exact .dError hh
    | some w => rw [hh] at h; subst h; exact .dDone w hh
  case rTid w => subst h; exact .rTid w
  case rTls w => subst h; exact .rTls w
  case rSet w =>
    by_cases hb : body = .empty
    · rw [if_pos hb] at h; subst h; exact .rSetEmpty w hb
    · rw [if_neg hb] at h; subst h; exact .rSet w hb
  case rFunc w =>
    by_cases hb : body = .null
    · subst hb; subst h; exact .rNull w rfl
    · have : s' = { s.goto t (.rRelease w) with finished := s.finished + 1 } := by
        cases body <;> first | exact h.symm | exact absurd rfl hb
      rw [this]; exact .rFunc w hb
  case rClear w => subst h; cases w <;> first | exact .rRet | exact .rEnd
  case oFunc w => subst h; cases w <;> first | exact .oRet | exact .oEnd
  case xTest =>
    cases hh : s.handle with
    | none => rw [hh] at h; subst h; exact .xNone hh
    | some w => rw [hh] at h; subst h; exact .xSome w hh
  case xWait w =>
    by_cases hb : s.pos[w]? = some .ended
    · rw [if_pos hb] at h; cases h; exact .xWait w hb
    · rw [if_neg hb] at h; cases h
  case xPermits =>
    by_cases hl : s.sem.lockP = none
    · rw [if_pos hl] at h
      by_cases hc : 0 < s.sem.count
      · rw [if_pos hc] at h; cases h; exact .xPos hl hc
      · rw [if_neg hc] at h; cases h; exact .xZero hl hc
    · rw [if_neg hl] at h; cases h
  case xGone => subst h; exact .xGone

/-! ## While the function has not returned no join does -/

/-- In a call of `acquire(1)`, not past its wait. -/
def Waiting : Semaphore.Pos → Prop
  | .aTop n k => n = 1 ∧ k = 1
  | .aRead n k => n = 1 ∧ k = 0
  | .aUnlock n k c => n = 1 ∧ k = 0 ∧ c = 0
  | .aLockC n k => n = 1 ∧ k = 0
  | .aWait n k => n = 1 ∧ k = 0
  | .aAsleep n k => n = 1 ∧ k = 0
  | _ => False

/-- Positions in the semaphore when nothing has been put in. -/
def Dry (q : Semaphore.Pos) : Prop := Waiting q ∨ match q with
  | .idle => True
  | .tLockP n => n = 1
  | .tTest n => n = 1
  | .tMiss n => n = 1
  | .wLockC n => n = 1
  | .wWait n => n = 1
  | .wAsleep n => n = 1
  | .wTimedOut n => n = 1
  | .wFail n => n = 1
  | .tRet n got => n = 1 ∧ got = false
  | _ => False

theorem dry_tick {s s' : Semaphore.Sys} {t : Nat} {q : Semaphore.Pos} (ht : s.threads[t]? = some q) (h : Semaphore.tick s t (Semaphore.act q) = some s')
    (hc : s.count = 0) (hq : Dry q) :
    s'.count = 0 ∧ ∃ q', s'.threads = s.threads.set t q' ∧ Dry q' ∧ (Waiting q → Waiting q') := by
  cases q <;> simp only [Dry, Waiting, false_or, or_false, or_self] at hq
  case aTop n k =>
    obtain ⟨rfl, rfl⟩ := hq
    simp only [Semaphore.act, Semaphore.tick, Option.ite_none_right_eq_some, Option.some.injEq] at h
    obtain ⟨_, rfl⟩ := h
    exact ⟨hc, _, rfl, Or.inl ⟨rfl, rfl⟩, fun _ => ⟨rfl, rfl⟩⟩
  case aRead n k =>
    obtain ⟨rfl, rfl⟩ := hq
    simp only [Semaphore.act, Semaphore.tick, Option.some.injEq] at h
    subst h
    exact ⟨hc, _, rfl, Or.inl ⟨rfl, rfl, hc⟩, fun _ => ⟨rfl, rfl, hc⟩⟩
  case aUnlock n k c =>
    obtain ⟨rfl, rfl, rfl⟩ := hq
    simp only [Semaphore.act, Semaphore.tick, Option.some.injEq, if_true] at h
    subst h
    exact ⟨hc, _, rfl, Or.inl ⟨rfl, rfl⟩, fun _ => ⟨rfl, rfl⟩⟩
  case aLockC n k =>
    obtain ⟨rfl, rfl⟩ := hq
    simp only [Semaphore.act, Semaphore.tick, Option.ite_none_right_eq_some, Option.some.injEq] at h
    obtain ⟨_, rfl⟩ := h
    exact ⟨hc, _, rfl, Or.inl ⟨rfl, rfl⟩, fun _ => ⟨rfl, rfl⟩⟩
  case aWait n k =>
    obtain ⟨rfl, rfl⟩ := hq
    simp only [Semaphore.act, Semaphore.tick, Option.some.injEq] at h
    subst h
    exact ⟨hc, _, rfl, Or.inl ⟨rfl, rfl⟩, fun _ => ⟨rfl, rfl⟩⟩
  case tTest n =>
    subst hq
    simp only [Semaphore.act, Semaphore.tick, Option.some.injEq, hc] at h
    subst h
    exact ⟨rfl, _, rfl, Or.inr rfl, fun h => h.elim⟩
  case tRet n got =>
    obtain ⟨rfl, rfl⟩ := hq
    simp only [Semaphore.act, Semaphore.tick, Option.some.injEq] at h
    subst h
    exact ⟨hc, _, rfl, Or.inr trivial, fun h => h.elim⟩
  all_goals
    simp only [Semaphore.act, Semaphore.tick, Option.ite_none_right_eq_some, Option.some.injEq, reduceCtorEq] at h
  all_goals first
    | (obtain ⟨_, rfl⟩ := h; exact ⟨hc, _, rfl, Or.inr hq, fun h => h.elim⟩)
    | (subst h; subst hq; exact ⟨hc, _, rfl, Or.inr rfl, fun h => h.elim⟩)
    | (subst h; subst hq; exact ⟨hc, _, rfl, Or.inr ⟨rfl, rfl⟩, fun h => h.elim⟩)

def DrySem (s : Semaphore.Sys) : Prop := s.count = 0 ∧ ∀ (t : Nat) (q : Semaphore.Pos), s.threads[t]? = some q → Dry q

theorem dry_set {l : List Semaphore.Pos} {t : Nat} {q' : Semaphore.Pos} (h : ∀ (u : Nat) (q : Semaphore.Pos), l[u]? = some q → Dry q) (h' : Dry q') :
    ∀ (u : Nat) (q : Semaphore.Pos), (l.set t q')[u]? = some q → Dry q := by
  intro u q hu
  rcases get_set l t u q' q hu with ⟨_, rfl⟩ | ⟨_, h1⟩
  · exact h'
  · exact h u q h1

theorem dry_inner {s s' : Semaphore.Sys} (h : Inner s s') (hd : DrySem s) :
    DrySem s' ∧ ∀ (t : Nat) (q : Semaphore.Pos), s.threads[t]? = some q → Waiting q → ∃ q', s'.threads[t]? = some q' ∧ Waiting q' := by
  obtain ⟨hc, hq⟩ := hd
  cases h with
  | tick t q s' ht h =>
    obtain ⟨h1, q', h2, h3, h4⟩ := dry_tick ht h hc (hq t q ht)
    refine ⟨⟨h1, by rw [h2]; exact dry_set hq h3⟩, ?_⟩
    intro u q1 hu hw
    rw [h2, List.getElem?_set]
    by_cases htu : t = u
    · subst htu
      rw [ht] at hu; cases hu
      rw [if_pos rfl, if_pos (List.getElem?_eq_some_iff.mp ht).1]
      exact ⟨q', rfl, h4 hw⟩
    · rw [if_neg htu]; exact ⟨q1, hu, hw⟩
  | notify t u n q q' ht hu hw =>
    have := hq t _ ht
    simp [Dry, Waiting] at this
  | late u n ht =>
    have h1 : n = 1 := by
      have := hq u _ ht
      simpa [Dry, Waiting] using this
    subst h1
    refine ⟨⟨hc, dry_set hq (Or.inr rfl)⟩, ?_⟩
    intro v q1 hv hw
    show ∃ q', (s.threads.set u _)[v]? = some q' ∧ _
    rw [List.getElem?_set]
    by_cases htu : u = v
    · subst htu
      rw [ht] at hv; cases hv
      exact hw.elim
    · rw [if_neg htu]; exact ⟨q1, hv, hw⟩

/-- Positions of the thread object while no permit has been put in. -/
def Calm (body : Body) : Pos → Prop
  | .rTid _ => body ≠ .derived
  | .rTls _ => body ≠ .derived
  | .rSet _ => body ≠ .derived
  | .rFunc _ => body ≠ .derived
  | .rRelease _ => False
  | .rIn _ => False
  | .rClear _ => False
  | .xAgain => False
  | .xIn => False
  | _ => True

/-- No permit has been put in and no join has returned. -/
def Dried (body : Body) (sem : Semaphore.Sys) (pos : List Pos) (log : List Done) : Prop :=
  DrySem sem ∧ (∀ (t : Nat) (p : Pos), pos[t]? = some p → Calm body p) ∧
  (∀ t : Nat, pos[t]? = some .jIn → ∃ q, sem.threads[t]? = some q ∧ Waiting q) ∧ Done.joined ∉ log

/-- The function has not returned, or nobody would tell. -/
def DryInv (body : Body) (s : Sys) : Prop := (s.finished = 0 ∨ body = .derived) → Dried body s.sem s.pos s.log

theorem dried_set {body : Body} {sem : Semaphore.Sys} {pos : List Pos} {log : List Done} (h : Dried body sem pos log) (t : Nat) (p' : Pos)
    (hp : Calm body p') (hj : p' ≠ .jIn) : Dried body sem (pos.set t p') log := by
  refine ⟨h.1, ?_, ?_, h.2.2.2⟩
  · intro u q hu
    rcases get_set _ _ _ _ _ hu with ⟨_, rfl⟩ | ⟨_, h1⟩
    · exact hp
    · exact h.2.1 u q h1
  · intro u hu
    rcases get_set _ _ _ _ _ hu with ⟨_, h1⟩ | ⟨_, h1⟩
    · exact absurd h1.symm hj
    · exact h.2.2.1 u h1

theorem dried_ret {body : Body} {sem : Semaphore.Sys} {pos : List Pos} {log : List Done} (h : Dried body sem pos log) (t : Nat) (d : Done)
    (hd : d ≠ .joined) : Dried body sem (pos.set t .idle) (d :: log) :=
  have h' := dried_set h t .idle trivial (by intro e; cases e)
  ⟨h'.1, h'.2.1, h'.2.2.1, fun hm => (List.mem_cons.mp hm).elim (fun e => hd e.symm) h'.2.2.2⟩

theorem dried_enter {body : Body} {sem : Semaphore.Sys} {pos : List Pos} {log : List Done} (h : Dried body sem pos log) (t : Nat) (p' : Pos)
    (q' : Semaphore.Pos) (h2 : sem.threads[t]? = some .idle) (ho : Dry q') (hp : Calm body p') (hj : p' = .jIn → Waiting q') :
    Dried body (sem.goto t q') (pos.set t p') log := by
  refine ⟨⟨h.1.1, dry_set h.1.2 ho⟩, ?_, ?_, h.2.2.2⟩
  · intro u q hu
    rcases get_set _ _ _ _ _ hu with ⟨_, rfl⟩ | ⟨_, h1⟩
    · exact hp
    · exact h.2.1 u q h1
  · intro u hu
    show ∃ q, (sem.threads.set t _)[u]? = some q ∧ _
    rw [List.getElem?_set]
    rcases get_set _ _ _ _ _ hu with ⟨hut, h3⟩ | ⟨hut, h3⟩
    · rw [if_pos hut.symm, if_pos (List.getElem?_eq_some_iff.mp h2).1]
      exact ⟨_, rfl, hj h3.symm⟩
    · rw [if_neg (fun e => hut e.symm)]
      exact h.2.2.1 u h3

theorem calm_entry (body : Body) (w : Bool) : Calm body (entry body w) ∧ entry body w ≠ .jIn := by
  cases body <;> simp [entry, Calm]

theorem dried_spawn {body : Body} {sem : Semaphore.Sys} {pos : List Pos} {log : List Done} (h : Dried body sem pos log) :
    Dried body { sem with threads := sem.threads ++ [.idle] } (pos ++ [entry body true]) log := by
  refine ⟨⟨h.1.1, ?_⟩, ?_, ?_, h.2.2.2⟩
  · intro u q hu
    rcases get_snoc _ _ _ _ hu with ⟨_, rfl⟩ | h1
    · exact Or.inr trivial
    · exact h.1.2 u q h1
  · intro u q hu
    rcases get_snoc _ _ _ _ hu with ⟨_, rfl⟩ | h1
    · exact (calm_entry body true).1
    · exact h.2.1 u q h1
  · intro u hu
    rcases get_snoc _ _ _ _ hu with ⟨_, h1⟩ | h1
    · exact absurd h1.symm (calm_entry body true).2
    · obtain ⟨q, h3, h4⟩ := h.2.2.1 u h1
      refine ⟨q, ?_, h4⟩
      show (sem.threads ++ _)[u]? = _
      rw [List.getElem?_append_left (List.getElem?_eq_some_iff.mp h3).1]
      exact h3

theorem moves_finished {body : Body} {s s' : Sys} {t : Nat} {p : Pos} (h : Moves body s t p s') : s.finished ≤ s'.finished := by
  cases h <;> first | exact Nat.le_refl _ | exact Nat.le_succ _

theorem dryInv_step {body : Body} (hb : body ≠ .empty) {s s' : Sys} {e : Ev} (hw : ∀ u, e ≠ .sem (.wake u)) (h : Shape body s e s') (hs : DryInv body s) : DryInv body s' := by
  intro hf
  cases h with
  | gone _ _ => exact hs hf
  | call t op h =>
    have h0 := hs hf
    refine dried_set h0 t _ ?_ ?_
    · cases op <;> first | exact (calm_entry body false).1 | trivial
    · cases op <;> first | exact (calm_entry body false).2 | (intro h; cases h)
  | sem e sem hi h =>
    have h0 := hs hf
    obtain ⟨h1, h2⟩ := dry_inner (inner_of_step h hi (fun u he => hw u (by rw [he]))) h0.1
    exact ⟨h1, h0.2.1, fun t ht => by
      obtain ⟨q, h3, h4⟩ := h0.2.2.1 t ht
      exact h2 t q h3 h4, h0.2.2.2⟩
  | tick t p s' ht h' =>
    have hm := tick_moves h'
    have h0 : Dried body s.sem s.pos s.log := by
      apply hs
      have := moves_finished hm
      rcases hf with hf | hf
      · left; omega
      · exact Or.inr hf
    have hcalm := h0.2.1 t p ht
    cases hm
    case spawn h =>
      exact dried_ret (dried_spawn h0) t .started (by intro e; cases e)
    case crash => exact dried_spawn h0
    case jIn h =>
      obtain ⟨q, h1, h2⟩ := h0.2.2.1 t ht
      rw [h] at h1; cases h1; exact h2.elim
    case jEnter h => exact dried_enter h0 t _ _ h (Or.inl ⟨rfl, rfl⟩) trivial (fun _ => ⟨rfl, rfl⟩)
    case jForEnter h => exact dried_enter h0 t _ _ h (Or.inr rfl) trivial (fun e => by cases e)
    case rSetEmpty h => exact absurd h hb
    case rFunc h =>
      rcases hf with hf | hf
      · exact absurd hf (Nat.succ_ne_zero _)
      · exact absurd hf hcalm
    case xPos hl h => rw [h0.1.1] at h; exact absurd h (by decide)
    all_goals first
      | exact hcalm.elim
      | exact h0
      | exact dried_ret h0 t _ (by intro e; cases e)
      | exact dried_set h0 t _ hcalm (by intro e; cases e)
      | exact dried_set h0 t _ trivial (by intro e; cases e)

theorem init_pos (k t : Nat) (p : Pos) (h : (init k).pos[t]? = some p) : p = .idle := List.eq_of_mem_replicate (List.mem_of_getElem? h)

theorem dryInv_init (body : Body) (k : Nat) : DryInv body (init k) := by
  intro _
  refine ⟨⟨rfl, ?_⟩, ?_, ?_, by simp [init]⟩
  · intro t q h; rw [Semaphore.init_get 0 k t q h]; exact Or.inr trivial
  · intro t p h; rw [init_pos k t p h]; trivial
  · intro t h; cases init_pos k t _ h

end Verif.Thread
