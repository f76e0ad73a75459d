import Verif.LinkedQueue.Tickets
/-!
# The steps of a thread, one by one

`tick` as a relation with one rule per kind of step.  Steps that neither touch the queue
nor carry anything of it are `plain`.
-/
namespace Verif.LinkedQueue

variable {E : Type}

/-- Positions that hold nothing of the queue. -/
def Plain : Pos E → Prop
  | .add .. => False
  | .deq _ _ .tail => True
  | .deq .. => False
  | _ => True

/-- Answers that carry no element. -/
def Dull : Res E → Prop
  | .added _ => False
  | .refused _ => False
  | .polled (some _) => False
  | _ => True

/-- The kinds of step of thread `t`. -/
inductive Mv (s : Sys E) (t : Nat) : Sys E → Prop where
  | plainGo (y) : Plain (s.pos t) → Plain y → s.pos t ≠ .idle → y ≠ .idle → Mv s t (s.go t y)
  | plainRet (r) : Plain (s.pos t) → Dull r → s.pos t ≠ .idle → Mv s t (s.ret t r)
  | found (e p) : s.pos t = .find e → s.own t = some p → Mv s t (s.go t (.add p e .tail))
  | made (e) : s.pos t = .find e → s.own t = none →
      Mv s t ({ s with count := s.count + 1, own := upd s.own t (some s.count) }.go t
        (.add s.count e .tail))
  | aTail0 (p e) : s.pos t = .add p e .tail → (s.prods p).tail % 32 = 0 →
      Mv s t (s.go t (.add p e (.head (s.prods p).tail)))
  | aTail1 (p e) : s.pos t = .add p e .tail → (s.prods p).tail % 32 ≠ 0 →
      Mv s t (s.go t (.add p e (.cons (s.prods p).tail)))
  | aHead (p e ct) : s.pos t = .add p e (.head ct) → (s.prods p).head < ct + 32 →
      Mv s t (s.go t (.add p e (.test ct)))
  | aRefuse (p e ct) : s.pos t = .add p e (.head ct) → ¬ (s.prods p).head < ct + 32 →
      Mv s t (s.ret t (.refused e))
  | aTestFree (p e ct en) : s.pos t = .add p e (.test ct) →
      en = ((s.prods p).hdrs (s.prods p).cur).index
        ((((s.prods p).hdrs (s.prods p).cur).tail + 1) %
          ((s.prods p).hdrs (s.prods p).cur).cap) →
      ((s.prods p).ents en).key = none ∨ ((s.prods p).ents en).value = some none →
      Mv s t (s.go t (.add p e (.key ct en)))
  | aTestFull (p e ct) : s.pos t = .add p e (.test ct) →
      Mv s t (s.go t (.add p e (.grow ct)))
  | aGrow (p e ct) : s.pos t = .add p e (.grow ct) →
      Mv s t ((s.prod p (newHdr (s.prods p))).go t (.add p e (.key ct
        (((newHdr (s.prods p)).hdrs (newHdr (s.prods p)).cur).index
          ((((newHdr (s.prods p)).hdrs (newHdr (s.prods p)).cur).tail + 1) %
            ((newHdr (s.prods p)).hdrs (newHdr (s.prods p)).cur).cap)))))
  | aKey (p e ct en) : s.pos t = .add p e (.key ct en) →
      Mv s t ((s.prod p { s.prods p with
        ents := upd (s.prods p).ents en { (s.prods p).ents en with key := some ct } }).go t
        (.add p e (.itail ct en)))
  | aItail (p e ct en) : s.pos t = .add p e (.itail ct en) →
      Mv s t ((s.prod p { s.prods p with
        hdrs := upd (s.prods p).hdrs (s.prods p).cur
          ((s.prods p).hdrs (s.prods p).cur).adv }).go t (.add p e (.get ct en)))
  | aGetOld (p e ct en c b) : s.pos t = .add p e (.get ct en) → s.free[c]? = some b →
      Mv s t ({ s with free := s.free.eraseIdx c }.go t (.add p e (.reset ct en b)))
  | aGetNew (p e ct en) : s.pos t = .add p e (.get ct en) →
      Mv s t ({ s with made := s.made + 1 }.go t (.add p e (.reset ct en s.made)))
  | aResetQ (p e ct en b) : s.pos t = .add p e (.reset ct en b) → s.quiet = true →
      Mv s t ((s.blk b { s.heap b with gone := 0 }).go t (.add p e (.val ct en b)))
  | aResetL (p e ct en b) : s.pos t = .add p e (.reset ct en b) → s.quiet = false →
      Mv s t ((s.blk b { s.heap b with gone := 0 }).go t (.add p e (.cons1 ct en b)))
  | aCons1 (p e ct en b) : s.pos t = .add p e (.cons1 ct en b) →
      (s.heap b).slots (ct % 32) = none →
      Mv s t ((s.blk b { s.heap b with
        slots := upd (s.heap b).slots (ct % 32) (some e) }).go t (.add p e (.val ct en b)))
  | aVal (p e ct en b) : s.pos t = .add p e (.val ct en b) →
      Mv s t ((s.prod p { s.prods p with
        ents := upd (s.prods p).ents en { (s.prods p).ents en with value := some (some b) } }).go t (.add p e (.tb ct b)))
  | aTbQ (p e ct b) : s.pos t = .add p e (.tb ct b) → s.quiet = true →
      Mv s t ((s.prod p { s.prods p with tailBlock := some b }).go t (.add p e (.cons ct)))
  | aTbL (p e ct b) : s.pos t = .add p e (.tb ct b) → s.quiet = false →
      Mv s t ((s.prod p { s.prods p with tailBlock := some b }).go t (.add p e (.pub ct)))
  | aCons (p e ct b) : s.pos t = .add p e (.cons ct) → (s.prods p).tailBlock = some b →
      (s.heap b).slots (ct % 32) = none →
      Mv s t ((s.blk b { s.heap b with
        slots := upd (s.heap b).slots (ct % 32) (some e) }).go t (.add p e (.pub ct)))
  | aPub (p e ct) : s.pos t = .add p e (.pub ct) →
      Mv s t ((s.prod p { s.prods p with tail := ct + 1 }).ret t (.added e))
  | dTail (k p) : s.pos t = .deq k p .tail →
      Mv s t (s.go t (.deq k p (.over (s.prods p).tail)))
  | dOver (k p tl) : s.pos t = .deq k p (.over tl) →
      Mv s t (s.go t (.deq k p (.opt tl (s.prods p).over)))
  | dOptYes (k p tl oc) : s.pos t = .deq k p (.opt tl oc) → (s.prods p).opt - oc < tl →
      Mv s t (s.go t (.deq k p (.inc oc)))
  | dOptGo (k p tl oc y) : s.pos t = .deq k p (.opt tl oc) → ¬ (s.prods p).opt - oc < tl →
      Plain y → y ≠ .idle → Mv s t (s.go t y)
  | dOptRet (k p tl oc) : s.pos t = .deq k p (.opt tl oc) → ¬ (s.prods p).opt - oc < tl →
      Mv s t (s.ret t (.polled none))
  | dInc (k p oc) : s.pos t = .deq k p (.inc oc) →
      Mv s t ((s.prod p { s.prods p with opt := (s.prods p).opt + 1 }).go t
        (.deq k p (.again (s.prods p).opt oc)))
  | dYes (k p m oc) : s.pos t = .deq k p (.again m oc) → m - oc < (s.prods p).tail →
      Mv s t (s.go t (.deq k p (.head m)))
  | dNo (k p m oc) : s.pos t = .deq k p (.again m oc) → ¬ m - oc < (s.prods p).tail →
      Mv s t (s.go t (.deq k p (.miss m)))
  | dHead (k p m) : s.pos t = .deq k p (.head m) →
      Mv s t ((s.prod p { s.prods p with head := (s.prods p).head + 1 }).go t
        (.deq k p (.idx (s.prods p).head)))
  | dMissGo (k p m y) : s.pos t = .deq k p (.miss m) → Plain y → y ≠ .idle →
      Mv s t ((s.prod p { s.prods p with over := (s.prods p).over + 1 }).go t y)
  | dMissRet (k p m) : s.pos t = .deq k p (.miss m) →
      Mv s t ((s.prod p { s.prods p with over := (s.prods p).over + 1 }).ret t (.polled none))
  | dIdx (k p i) : s.pos t = .deq k p (.idx i) →
      Mv s t (s.go t (.deq k p (.itail i (s.prods p).cur)))
  | dItail (k p i h) : s.pos t = .deq k p (.itail i h) →
      Mv s t (s.go t (.deq k p (.ikey i h ((s.prods p).hdrs h).tail)))
  | dIkey (k p i h q base) : s.pos t = .deq k p (.ikey i h q) →
      ((s.prods p).ents (((s.prods p).hdrs h).index q)).key = some base →
      Mv s t (s.go t (.deq k p (.val i (((s.prods p).hdrs h).index
        (ringPos ((s.prods p).hdrs h).cap q base i)))))
  | dVal (k p i en b) : s.pos t = .deq k p (.val i en) →
      ((s.prods p).ents en).value = some (some b) →
      Mv s t (s.go t (.deq k p (.take i en b)))
  | dTake (k p i en b e) : s.pos t = .deq k p (.take i en b) →
      (s.heap b).slots (i % 32) = some e →
      Mv s t ((s.blk b { s.heap b with
        slots := upd (s.heap b).slots (i % 32) none }).go t (.deq k p (.mark i en b e)))
  | dMarkLast (k p i en b e) : s.pos t = .deq k p (.mark i en b e) → (s.heap b).gone = 31 →
      Mv s t ((s.blk b { s.heap b with gone := (s.heap b).gone + 1 }).go t
        (.deq k p (.null i en b e)))
  | dMark (k p i en b e) : s.pos t = .deq k p (.mark i en b e) → (s.heap b).gone ≠ 31 →
      Mv s t ((s.blk b { s.heap b with gone := (s.heap b).gone + 1 }).ret t
        (.polled (some e)))
  | dNull (k p i en b e) : s.pos t = .deq k p (.null i en b e) →
      Mv s t ((s.prod p { s.prods p with
        ents := upd (s.prods p).ents en { (s.prods p).ents en with value := some none } }).go t (.deq k p (.free i b e)))
  | dFree (k p i b e) : s.pos t = .deq k p (.free i b e) →
      Mv s t ({ s with free := b :: s.free }.ret t (.polled (some e)))

theorem nextDeq_plain (best : Nat) : ∀ (n : Nat) {y : Pos E}, nextDeq best n = some y →
    Plain y ∧ y ≠ .idle
  | 0, y, h => by simp [nextDeq] at h
  | n + 1, y, h => by
    rw [nextDeq] at h
    split at h
    · exact nextDeq_plain best n h
    · cases h; exact ⟨trivial, by simp⟩

theorem addStep_mv {s s' : Sys E} {t p c : Nat} {e : E} {a : AStg}
    (hp : s.pos t = .add p e a) (h : addStep s t p e c a = some s') : Mv s t s' := by
  cases a with
  | tail =>
    simp only [addStep] at h
    cases h
    split
    · exact .aTail0 p e hp ‹_›
    · exact .aTail1 p e hp ‹_›
  | head ct =>
    simp only [addStep] at h
    split at h <;> cases h
    · exact .aHead p e ct hp ‹_›
    · exact .aRefuse p e ct hp ‹_›
  | test ct =>
    simp only [addStep] at h
    split at h
    · next hk => cases h; exact .aTestFree p e ct _ hp rfl (.inl hk)
    · next hk hv => cases h; exact .aTestFree p e ct _ hp rfl (.inr hv)
    · cases h; exact .aTestFull p e ct hp
    · cases h
  | grow ct => cases h; exact .aGrow p e ct hp
  | key ct en => cases h; exact .aKey p e ct en hp
  | itail ct en => cases h; exact .aItail p e ct en hp
  | get ct en =>
    simp only [addStep, requisition] at h
    split at h
    · next hc => cases h; exact .aGetOld p e ct en c _ hp hc
    · cases h; exact .aGetNew p e ct en hp
  | reset ct en b =>
    simp only [addStep] at h
    cases h
    split
    · exact .aResetQ p e ct en b hp ‹_›
    · exact .aResetL p e ct en b hp (by simpa using ‹¬ s.quiet = true›)
  | cons1 ct en b =>
    simp only [addStep] at h
    split at h
    · cases h
    · cases h; exact .aCons1 p e ct en b hp ‹_›
  | val ct en b => cases h; exact .aVal p e ct en b hp
  | tb ct b =>
    simp only [addStep] at h
    cases h
    split
    · exact .aTbQ p e ct b hp ‹_›
    · exact .aTbL p e ct b hp (by simpa using ‹¬ s.quiet = true›)
  | cons ct =>
    simp only [addStep] at h
    split at h
    · cases h
    · next b hb =>
      split at h
      · cases h
      · cases h; exact .aCons p e ct b hp hb ‹_›
  | pub ct => cases h; exact .aPub p e ct hp

theorem missed_cases (s : Sys E) (t p : Nat) (k : Cont) :
    (∃ y, Plain y ∧ y ≠ .idle ∧ missed s t p k = s.go t y) ∨
      missed s t p k = s.ret t (.polled none) := by
  cases k with
  | first => exact .inl ⟨.others p, trivial, by simp, rfl⟩
  | rest best n =>
    simp only [missed]
    split
    · exact .inr rfl
    · next y hy => exact .inl ⟨y, (nextDeq_plain best n hy).1, (nextDeq_plain best n hy).2, rfl⟩

theorem deqStep_mv {s s' : Sys E} {t p : Nat} {k : Cont} {d : DStg E}
    (hp : s.pos t = .deq k p d) (h : deqStep s t k p d = some s') : Mv s t s' := by
  cases d with
  | tail => cases h; exact .dTail k p hp
  | over tl => cases h; exact .dOver k p tl hp
  | opt tl oc =>
    simp only [deqStep] at h
    split at h
    · cases h; exact .dOptYes k p tl oc hp ‹_›
    · next hlt =>
      cases h
      rcases missed_cases s t p k with ⟨y, hy, hi, he⟩ | he
      · rw [he]; exact .dOptGo k p tl oc y hp hlt hy hi
      · rw [he]; exact .dOptRet k p tl oc hp hlt
  | inc oc => cases h; exact .dInc k p oc hp
  | again m oc =>
    simp only [deqStep] at h
    split at h
    · cases h; exact .dYes k p m oc hp ‹_›
    · cases h; exact .dNo k p m oc hp ‹_›
  | head m => cases h; exact .dHead k p m hp
  | miss m =>
    cases h
    rcases missed_cases (s.prod p { s.prods p with over := (s.prods p).over + 1 }) t p k with
      ⟨y, hy, hi, he⟩ | he
    · rw [he]; exact .dMissGo k p m y hp hy hi
    · rw [he]; exact .dMissRet k p m hp
  | idx i => cases h; exact .dIdx k p i hp
  | itail i h' => cases h; exact .dItail k p i h' hp
  | ikey i h' q =>
    simp only [deqStep] at h
    split at h
    · cases h
    · cases h; exact .dIkey k p i h' q _ hp ‹_›
  | val i en =>
    simp only [deqStep] at h
    split at h
    · cases h; exact .dVal k p i en _ hp ‹_›
    · cases h
  | take i en b =>
    simp only [deqStep] at h
    split at h
    · cases h
    · cases h; exact .dTake k p i en b _ hp ‹_›
  | mark i en b e =>
    simp only [deqStep] at h
    split at h
    · cases h; exact .dMarkLast k p i en b e hp ‹_›
    · cases h; exact .dMark k p i en b e hp ‹_›
  | null i en b e => cases h; exact .dNull k p i en b e hp
  | free i b e => cases h; exact .dFree k p i b e hp

theorem scanNext_mv {s : Sys E} {t : Nat} (n cnt best bsz : Nat) (h : Plain (s.pos t))
    (hi : s.pos t ≠ .idle) : Mv s t (scanNext s t n cnt best bsz) := by
  unfold scanNext
  split
  · exact .plainGo _ h trivial hi (by simp)
  · split
    · exact .plainRet _ h trivial hi
    · exact .plainGo _ h trivial hi (by simp)

theorem countNext_mv {s : Sys E} {t : Nat} (z : Bool) (n acc : Nat) (h : Plain (s.pos t))
    (hi : s.pos t ≠ .idle) : Mv s t (countNext s t z n acc) := by
  unfold countNext
  split
  · refine .plainRet _ h ?_ hi
    unfold answer
    split <;> trivial
  · exact .plainGo _ h trivial hi (by simp)

/-- Every step is one of these. -/
theorem tick_mv {s s' : Sys E} {t c : Nat} (h : tick s t c = some s') : Mv s t s' := by
  unfold tick at h
  split at h
  · cases h
  · next e hp =>
    split at h
    · next p ho => cases h; exact .found e p hp ho
    · next ho => cases h; exact .made e hp ho
  · next p e a hp => exact addStep_mv hp h
  · next hp => cases h; exact scanNext_mv _ _ _ _ (by rw [hp]; trivial) (by rw [hp]; simp)
  · next hp =>
    cases h
    exact .plainGo _ (by rw [hp]; trivial) trivial (by rw [hp]; simp) (by simp)
  · next hp =>
    have h1 : Plain (s.pos t) := by rw [hp]; trivial
    have h2 : s.pos t ≠ .idle := by rw [hp]; simp
    simp only at h
    split at h
    · cases h; exact scanNext_mv _ _ _ _ h1 h2
    · split at h <;> cases h <;> exact scanNext_mv _ _ _ _ h1 h2
  · next k p d hp => exact deqStep_mv hp h
  · next hp =>
    have h1 : Plain (s.pos t) := by rw [hp]; trivial
    have h2 : s.pos t ≠ .idle := by rw [hp]; simp
    split at h
    · cases h; exact .plainRet _ h1 trivial h2
    · next y hy =>
      cases h
      exact .plainGo _ h1 (nextDeq_plain _ _ hy).1 h2 (nextDeq_plain _ _ hy).2
  · next hp => cases h; exact countNext_mv _ _ _ (by rw [hp]; trivial) (by rw [hp]; simp)
  · next hp =>
    cases h
    exact .plainGo _ (by rw [hp]; trivial) trivial (by rw [hp]; simp) (by simp)
  · next hp => cases h; exact countNext_mv _ _ _ (by rw [hp]; trivial) (by rw [hp]; simp)

end Verif.LinkedQueue
