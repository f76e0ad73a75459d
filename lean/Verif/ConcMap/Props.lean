import Verif.ConcMap.Spec
/-! # Properties of ConcurrentHashMap -/
namespace Verif.ConcMap

variable {K V : Type} [DecidableEq K] [DecidableEq V]

theorem run_append (dflt : V) : ∀ (xs ys : List (Move K V)) (s : Cfg K V),
    run dflt s (xs ++ ys) = (run dflt s xs).bind fun s' => run dflt s' ys := by
  intro xs
  induction xs with
  | nil => intro ys s; rfl
  | cons x xs ih =>
    intro ys s
    rw [List.cons_append, run, run]
    cases move dflt s x with
    | none => rfl
    | some s' => exact ih ys s'

theorem run_snoc (dflt : V) (xs : List (Move K V)) (x : Move K V) (s s' : Cfg K V) :
    run dflt s (xs ++ [x]) = some s' ↔ ∃ s1, run dflt s xs = some s1 ∧ move dflt s1 x = some s' := by
  rw [run_append]
  cases h : run dflt s xs with
  | none => simp
  | some s1 =>
    simp only [Option.bind_some, Option.some.injEq, exists_eq_left']
    rw [run]
    cases move dflt s1 x <;> simp [run]

/-- Induction over schedules. -/
theorem run_induction (dflt : V) (s0 : Cfg K V) (P : List (Move K V) → Cfg K V → Prop) (h0 : P [] s0)
    (hs : ∀ xs s x s', run dflt s0 xs = some s → P xs s → move dflt s x = some s' → P (xs ++ [x]) s') :
    ∀ xs s, run dflt s0 xs = some s → P xs s := by
  have key : ∀ n (xs : List (Move K V)), xs.length = n → ∀ s, run dflt s0 xs = some s → P xs s := by
    intro n
    induction n with
    | zero =>
      intro xs hl s h
      have : xs = [] := by simpa using hl
      subst this
      simp only [run, Option.some.injEq] at h
      subst h; exact h0
    | succ n ih =>
      intro xs hl s h
      obtain ⟨ys, x, rfl⟩ : ∃ ys x, xs = ys ++ [x] := by
        have hne : xs ≠ [] := by rintro rfl; simp at hl
        exact ⟨xs.dropLast, xs.getLast hne, (List.dropLast_concat_getLast hne).symm⟩
      obtain ⟨s1, h1, h2⟩ := (run_snoc dflt ys x s0 s).mp h
      exact hs ys s1 x s h1 (ih ys (by simpa using hl) s1 h1) h2
  exact fun xs s h => key _ xs rfl s h

/-! ## The moves, case by case -/

theorem move_call {dflt : V} {s s' : Cfg K V} {t : Nat} {c : Call K V} (h : move dflt s (.call t c) = some s') :
    s.pos t = .idle ∧ s' = { s with pos := setPos s.pos t (.start c) } := by
  unfold move at h
  simp only at h
  cases hp : s.pos t <;> rw [hp] at h <;> simp at h
  exact ⟨rfl, h.symm⟩

/-- The effects of a step. -/
inductive Effect (dflt : V) (s : Cfg K V) (t : Nat) : Cfg K V → Prop
  | put (k v) : s.pos t = .start (.put k v) →
      Effect dflt s t ⟨upd s.table k (some v), setPos s.pos t .idle, s.done ++ [⟨t, .put k v, .unit⟩]⟩
  | clear : s.pos t = .start .clear → Effect dflt s t ⟨fun _ => none, setPos s.pos t .idle, s.done ++ [⟨t, .clear, .unit⟩]⟩
  | read (c) : s.pos t = .start c → (∀ k v, c ≠ .put k v) → c ≠ .clear → (∀ k, c = .remove k → s.table k = none) →
      (∀ k v, c = .removeIf k v → s.table k ≠ some v) →
      Effect dflt s t ⟨s.table, setPos s.pos t .idle, s.done ++ [⟨t, c, answer dflt s.table c⟩]⟩
  | find (k v) : s.pos t = .start (.remove k) → s.table k = some v → Effect dflt s t { s with pos := setPos s.pos t (.erase k v) }
  | findIf (k v) : s.pos t = .start (.removeIf k v) → s.table k = some v → Effect dflt s t { s with pos := setPos s.pos t (.eraseIf k v) }
  | erase (k v) : s.pos t = .erase k v →
      Effect dflt s t ⟨upd s.table k none, setPos s.pos t .idle, s.done ++ [⟨t, .remove k, .value v⟩]⟩
  | eraseIf (k v) : s.pos t = .eraseIf k v →
      Effect dflt s t ⟨upd s.table k none, setPos s.pos t .idle, s.done ++ [⟨t, .removeIf k v, .bool true⟩]⟩

theorem move_step {dflt : V} {s s' : Cfg K V} {t : Nat} (h : move dflt s (.step t) = some s') : Effect dflt s t s' := by
  unfold move at h
  simp only at h
  cases hp : s.pos t with
  | idle => rw [hp] at h; simp [act] at h
  | erase k v => rw [hp] at h; simp only [act, Option.some.injEq] at h; subst h; exact .erase k v hp
  | eraseIf k v => rw [hp] at h; simp only [act, Option.some.injEq] at h; subst h; exact .eraseIf k v hp
  | start c =>
    rw [hp] at h
    cases c with
    | put k v => simp only [act, Option.some.injEq] at h; subst h; exact .put k v hp
    | clear => simp only [act, Option.some.injEq] at h; subst h; exact .clear hp
    | get k => simp only [act, Option.some.injEq] at h; subst h; exact .read _ hp nofun nofun nofun nofun
    | getOrDefault k d => simp only [act, Option.some.injEq] at h; subst h; exact .read _ hp nofun nofun nofun nofun
    | containsKey k => simp only [act, Option.some.injEq] at h; subst h; exact .read _ hp nofun nofun nofun nofun
    | remove k =>
      cases hk : s.table k with
      | none =>
        simp only [act, hk, Option.some.injEq] at h; subst h
        have := Effect.read (dflt := dflt) _ hp nofun nofun (fun j e => by cases e; exact hk) nofun
        simpa only [answer, hk, Option.getD_none] using this
      | some v => simp only [act, hk, Option.some.injEq] at h; subst h; exact .find k v hp hk
    | removeIf k v =>
      cases hk : s.table k with
      | none =>
        simp only [act, hk, Option.some.injEq] at h; subst h
        have := Effect.read (dflt := dflt) _ hp nofun nofun nofun (fun j w e => by cases e; rw [hk]; simp)
        simpa only [answer, hk, reduceCtorEq, decide_false] using this
      | some w =>
        by_cases hw : w = v
        · subst hw
          simp only [act, hk, if_true, Option.some.injEq] at h; subst h; exact .findIf k w hp hk
        · simp only [act, hk, if_neg hw, Option.some.injEq] at h; subst h
          have := Effect.read (dflt := dflt) _ hp nofun nofun nofun (fun j w' e => by cases e; rw [hk]; simpa using hw)
          have e : decide (some w = some v) = false := by simpa using hw
          simpa only [answer, hk, e] using this

theorem setPos_same (p : Nat → Pos K V) (t : Nat) (x : Pos K V) : setPos p t x t = x := if_pos rfl
theorem setPos_ne (p : Nat → Pos K V) {t u : Nat} (x : Pos K V) (h : u ≠ t) : setPos p t x u = p u := if_neg h

/-! ## C97: answers were true during the call -/

/-- Thread `t` is in the call `c`, begun after no later call of `t`, at a moment of
the schedule at which the map explains the answer `a`. -/
def Witness (dflt : V) (s0 : Cfg K V) (xs : List (Move K V)) (t : Nat) (c : Call K V) (a : Ans V) : Prop :=
  ∃ ys zs s, xs = ys ++ zs ∧ run dflt s0 ys = some s ∧ s.pos t = .start c ∧ (∀ c', Move.call t c' ∉ zs) ∧ a = answer dflt s.table c

theorem Witness.extend {dflt : V} {s0 : Cfg K V} {xs : List (Move K V)} {t : Nat} {c : Call K V} {a : Ans V} (h : Witness dflt s0 xs t c a)
    {x : Move K V} (hx : ∀ c', x ≠ .call t c') : Witness dflt s0 (xs ++ [x]) t c a := by
  obtain ⟨ys, zs, s, rfl, h1, h2, h3, h4⟩ := h
  refine ⟨ys, zs ++ [x], s, by rw [List.append_assoc], h1, h2, ?_, h4⟩
  intro c' hc
  rcases List.mem_append.mp hc with hc | hc
  · exact h3 c' hc
  · exact hx c' (List.mem_singleton.mp hc).symm

/-- Pending erasures go back to a moment at which the value was found. -/
def Found (dflt : V) (s0 : Cfg K V) (xs : List (Move K V)) (s : Cfg K V) : Prop :=
  ∀ t, (∀ k v, s.pos t = .erase k v → Witness dflt s0 xs t (.remove k) (.value v)) ∧
    (∀ k v, s.pos t = .eraseIf k v → Witness dflt s0 xs t (.removeIf k v) (.bool true))

theorem Found.keep {dflt : V} {s0 : Cfg K V} {xs : List (Move K V)} {s s' : Cfg K V} (h : Found dflt s0 xs s) {x : Move K V} {t : Nat}
    (hx : ∀ u c, x = .call u c → u = t) (hp : ∀ u, u ≠ t → s'.pos u = s.pos u)
    (ht : (∀ k v, s'.pos t = .erase k v → Witness dflt s0 (xs ++ [x]) t (.remove k) (.value v)) ∧
      (∀ k v, s'.pos t = .eraseIf k v → Witness dflt s0 (xs ++ [x]) t (.removeIf k v) (.bool true))) : Found dflt s0 (xs ++ [x]) s' := by
  intro u
  by_cases hu : u = t
  · subst hu; exact ht
  · rw [hp u hu]
    have hne : ∀ c', x ≠ .call u c' := fun c' e => hu (hx u c' e)
    exact ⟨fun k v e => ((h u).1 k v e).extend hne, fun k v e => ((h u).2 k v e).extend hne⟩

theorem found (dflt : V) (m : Table K V) : ∀ xs s, run dflt (init m) xs = some s → Found dflt (init m) xs s := by
  apply run_induction
  · intro t; exact ⟨fun k v h => (by cases h), fun k v h => (by cases h)⟩
  · intro xs s x s' hr ih hm
    cases x with
    | call t c =>
      obtain ⟨h1, rfl⟩ := move_call hm
      refine ih.keep (t := t) (fun u c e => by cases e; rfl) (fun u hu => setPos_ne _ _ hu) ?_
      simp only [setPos_same]
      exact ⟨fun k v e => (by cases e), fun k v e => (by cases e)⟩
    | step t =>
      have idle : ∀ (m' : Table K V) (d : List (Done K V)), Found dflt (init m) (xs ++ [.step t]) ⟨m', setPos s.pos t .idle, d⟩ := by
        intro m' d
        refine ih.keep (t := t) (fun u c e => (by cases e)) (fun u hu => setPos_ne _ _ hu) ?_
        simp only [setPos_same]
        exact ⟨fun k v e => (by cases e), fun k v e => (by cases e)⟩
      cases move_step hm with
      | put | clear | read | erase | eraseIf => exact idle _ _
      | find k v hp hk =>
        refine ih.keep (t := t) (fun u c e => (by cases e)) (fun u hu => setPos_ne _ _ hu) ?_
        simp only [setPos_same]
        refine ⟨fun k' v' e => ?_, fun k v e => (by cases e)⟩
        cases e
        exact ⟨xs, [.step t], s, rfl, hr, hp, by simp, by simp [answer, hk]⟩
      | findIf k v hp hk =>
        refine ih.keep (t := t) (fun u c e => (by cases e)) (fun u hu => setPos_ne _ _ hu) ?_
        simp only [setPos_same]
        refine ⟨fun k v e => (by cases e), fun k' v' e => ?_⟩
        cases e
        exact ⟨xs, [.step t], s, rfl, hr, hp, by simp, by simp [answer, hk]⟩

/-- Whenever a call of thread `t` returns, its answer is the one the map explained
at some moment between the beginning of the call and the return: in every schedule
of any number of threads. -/
theorem C97_current (dflt : V) (m : Table K V) (xs : List (Move K V)) (t : Nat) (s s' : Cfg K V) (c : Call K V) (a : Ans V)
    (h : run dflt (init m) xs = some s) (hm : move dflt s (.step t) = some s') (hd : s'.done = s.done ++ [⟨t, c, a⟩]) :
    Witness dflt (init m) xs t c a := by
  have hf := found dflt m xs s h t
  have last : ∀ {d : Done K V}, s.done ++ [d] = s.done ++ [⟨t, c, a⟩] → d = ⟨t, c, a⟩ := fun e => by simpa using e
  have now : ∀ c, s.pos t = .start c → Witness dflt (init m) xs t c (answer dflt s.table c) := fun c hp =>
    ⟨xs, [], s, by simp, h, hp, by simp, rfl⟩
  cases move_step hm with
  | put k v hp => have e := last hd; cases e; exact now _ hp
  | clear hp => have e := last hd; cases e; exact now _ hp
  | read c hp => have e := last hd; cases e; exact now _ hp
  | find | findIf => simp at hd
  | erase k v hp => have e := last hd; cases e; exact hf.1 k v hp
  | eraseIf k v hp => have e := last hd; cases e; exact hf.2 k v hp

/-- Two threads remove the key 3, found by both, while a third one puts 9: the second
remover's answer 7 was true when it looked, not when it returned. -/
example : ∃ s s', run 0 (init fun j : Nat => if j = 3 then some 7 else none)
      [.call 0 (.remove 3), .call 1 (.remove 3), .step 0, .step 1, .step 0, .call 2 (.put 3 9), .step 2] = some s ∧
    move 0 s (.step 1) = some s' ∧ s'.done = s.done ++ [⟨1, .remove 3, .value 7⟩] ∧ s.table 3 = some 9 := by
  simp [run, move, init, setPos, act, upd]

/-! ## C98: calls on other keys -/

structure Undisturbed (dflt : V) (m : Table K V) (k : K) (s : Cfg K V) : Prop where
  table : s.table k = m k
  start : ∀ t c, s.pos t = .start c → Leaves k c
  erase : ∀ t j w, s.pos t = .erase j w → j ≠ k
  eraseIf : ∀ t j w, s.pos t = .eraseIf j w → j ≠ k
  answers : ∀ d ∈ s.done, Asks k d.call → d.ans = answer dflt m d.call

/-- However the threads are scheduled, calls that cannot change the mapping of `k`
do not change it: it is still the one of the beginning, and every call that asked
for it was answered accordingly. -/
theorem C98_other_keys (dflt : V) (m : Table K V) (k : K) : ∀ (xs : List (Move K V)) (s : Cfg K V), run dflt (init m) xs = some s →
    (∀ t c, Move.call t c ∈ xs → Leaves k c) → s.table k = m k ∧ ∀ d ∈ s.done, Asks k d.call → d.ans = answer dflt m d.call := by
  suffices h : ∀ xs s, run dflt (init m) xs = some s → (∀ t c, Move.call t c ∈ xs → Leaves k c) → Undisturbed dflt m k s from
    fun xs s hr hn => ⟨(h xs s hr hn).table, (h xs s hr hn).answers⟩
  apply run_induction
  · intro _
    exact ⟨rfl, fun t c e => (by cases e), fun t j w e => (by cases e), fun t j w e => (by cases e), fun d hd => (by cases hd)⟩
  · intro xs s x s' hr ih hm hn
    have A := ih fun t c hc => hn t c (List.mem_append_left _ hc)
    have pos : ∀ (t : Nat) (p : Pos K V) (u : Nat), setPos s.pos t p u = s.pos u ∨ setPos s.pos t p u = p := by
      intro t p u
      by_cases hu : u = t
      · exact Or.inr (by rw [hu, setPos_same])
      · exact Or.inl (setPos_ne _ _ hu)
    -- the position of the moving thread, and the answer of the call it ends
    have build : ∀ (t : Nat) (p : Pos K V) (m' : Table K V) (ds : List (Done K V)), m' k = s.table k → (∀ c, p = .start c → Leaves k c) →
        (∀ j w, p = .erase j w → j ≠ k) → (∀ j w, p = .eraseIf j w → j ≠ k) →
        (∀ d ∈ ds, Asks k d.call → d.ans = answer dflt m d.call) → Undisturbed dflt m k ⟨m', setPos s.pos t p, s.done ++ ds⟩ := by
      intro t p m' ds h1 h2 h3 h4 h5
      refine ⟨h1.trans A.table, fun u c e => ?_, fun u j w e => ?_, fun u j w e => ?_, fun d hd ha => ?_⟩
      · rcases pos t p u with hu | hu <;> simp only [hu] at e
        · exact A.start u c e
        · exact h2 c e
      · rcases pos t p u with hu | hu <;> simp only [hu] at e
        · exact A.erase u j w e
        · exact h3 j w e
      · rcases pos t p u with hu | hu <;> simp only [hu] at e
        · exact A.eraseIf u j w e
        · exact h4 j w e
      · rcases List.mem_append.mp hd with hd | hd
        · exact A.answers d hd ha
        · exact h5 d hd ha
    have upd' : ∀ (j : K) (x : Option V), j ≠ k → upd s.table j x k = s.table k := fun j x hj => if_neg (Ne.symm hj)
    cases x with
    | call t c =>
      obtain ⟨h1, rfl⟩ := move_call hm
      have := build t (.start c) s.table [] rfl (fun c' e => by cases e; exact hn t c (by simp)) nofun nofun nofun
      simpa using this
    | step t =>
      cases move_step hm with
      | put j w hp =>
        exact build t .idle _ _ (upd' j _ (A.start t _ hp)) nofun nofun nofun fun d hd ha => by
          rw [List.mem_singleton] at hd; subst hd; exact ha.elim
      | clear hp => exact (A.start t _ hp).elim
      | read c hp =>
        refine build t .idle _ _ rfl nofun nofun nofun fun d hd ha => ?_
        rw [List.mem_singleton] at hd; subst hd
        have hk := A.table
        cases c <;> first | exact ha.elim | (cases ha; simp only [answer, hk])
      | find j w hp hk =>
        have := build t (.erase j w) s.table [] rfl nofun (fun j' w' e => by cases e; exact A.start t _ hp) nofun nofun
        simpa using this
      | findIf j w hp hk =>
        have := build t (.eraseIf j w) s.table [] rfl nofun nofun (fun j' w' e => by cases e; exact A.start t _ hp) nofun
        simpa using this
      | erase j w hp =>
        exact build t .idle _ _ (upd' j _ (A.erase t j w hp)) nofun nofun nofun fun d hd ha => by
          rw [List.mem_singleton] at hd; subst hd; exact ha.elim
      | eraseIf j w hp =>
        exact build t .idle _ _ (upd' j _ (A.eraseIf t j w hp)) nofun nofun nofun fun d hd ha => by
          rw [List.mem_singleton] at hd; subst hd; exact ha.elim

example : ∃ s, run 0 (init fun j : Nat => if j = 3 then some 7 else none)
      [.call 0 (.get 3), .call 1 (.put 4 1), .step 1, .call 1 (.remove 4), .step 1, .step 0, .step 1] = some s ∧
    s.done = [⟨1, .put 4 1, .unit⟩, ⟨0, .get 3, .value 7⟩, ⟨1, .remove 4, .value 1⟩] := by
  simp [run, move, init, setPos, act, upd]

/-! ## C46: removal -/

/-- A value found by a remover can be found by another one before the first erases
it: whatever the value and the map, both are told. -/
theorem C46_both_told_wrong (dflt : V) (m : Table K V) (k : K) (v : V) (h : m k = some v) :
    ∃ s, run dflt (init m) [.call 0 (.remove k), .call 1 (.remove k), .step 0, .step 1, .step 0, .step 1] = some s ∧
      s.done = [⟨0, .remove k, .value v⟩, ⟨1, .remove k, .value v⟩] := by
  simp [run, move, init, setPos, act, h]

/-- A conditional removal erases a value that is not the expected one, put after
it looked. -/
theorem C46_conditional_wrong (dflt : V) (m : Table K V) (k : K) (v w : V) (h : m k = some v) :
    ∃ s1 s2, run dflt (init m) [.call 0 (.removeIf k v), .step 0, .call 1 (.put k w), .step 1] = some s1 ∧ s1.table k = some w ∧
      run dflt s1 [.step 0] = some s2 ∧ s2.table k = none ∧ s2.done = [⟨1, .put k w, .unit⟩, ⟨0, .removeIf k v, .bool true⟩] := by
  simp [run, move, init, setPos, act, h, upd]

/-- The same by `remove`: the value put meanwhile is lost, and the remover reports
the old one. -/
theorem C46_lost_wrong (dflt : V) (m : Table K V) (k : K) (v w : V) (h : m k = some v) :
    ∃ s, run dflt (init m) [.call 0 (.remove k), .step 0, .call 1 (.put k w), .step 1, .step 0] = some s ∧ s.table k = none ∧
      s.done = [⟨1, .put k w, .unit⟩, ⟨0, .remove k, .value v⟩] := by
  simp [run, move, init, setPos, act, h, upd]

example : (fun j : Nat => if j = 3 then some 7 else none) 3 = some 7 := rfl

/-- State of a schedule that neither puts `k` nor clears. -/
structure Alone (k : K) (v dflt : V) (s : Cfg K V) : Prop where
  start : ∀ t c, s.pos t = .start c → Keeps k c
  table : s.table k = some v ∨ s.table k = none
  erase : ∀ t w, s.pos t = .erase k w → w = v
  eraseIf : ∀ t w, s.pos t = .eraseIf k w → w = v
  answers : ∀ d ∈ s.done, d.call = .remove k → d.ans = .value v ∨ d.ans = .value dflt
  answersIf : ∀ d ∈ s.done, ∀ w, d.call = .removeIf k w → d.ans = .bool true → w = v
  gone : s.table k = none → ∃ d ∈ s.done, Told k v d = true
  after : ∀ d ∈ s.done, d.call = .remove k → s.table k = none

theorem upd_same (m : Table K V) (k : K) (x : Option V) : upd m k x k = x := if_pos rfl
theorem upd_ne (m : Table K V) {j k : K} (x : Option V) (h : k ≠ j) : upd m j x k = m k := if_neg h

theorem noPut_left {k : K} {xs ys : List (Move K V)} (h : NoPut k (xs ++ ys)) : NoPut k xs := fun t c hc => h t c (List.mem_append_left _ hc)

theorem alone (dflt : V) (m : Table K V) (k : K) (v : V) (h : m k = some v) :
    ∀ xs s, run dflt (init m) xs = some s → NoPut k xs → Alone k v dflt s := by
  apply run_induction
  · intro _
    exact ⟨fun t c e => (by cases e), Or.inl h, fun t w e => (by cases e), fun t w e => (by cases e), fun d hd => (by cases hd),
      fun d hd => (by cases hd), fun e => by simp [init, h] at e, fun d hd => (by cases hd)⟩
  · intro xs s x s' hr ih hm hn
    have A := ih (noPut_left hn)
    cases x with
    | call t c =>
      obtain ⟨h1, rfl⟩ := move_call hm
      have hp : ∀ u, setPos s.pos t (.start c) u = s.pos u ∨ setPos s.pos t (.start c) u = .start c := by
        intro u
        by_cases hu : u = t
        · exact Or.inr (by rw [hu, setPos_same])
        · exact Or.inl (setPos_ne _ _ hu)
      refine ⟨fun u c' e => ?_, A.table, fun u w e => ?_, fun u w e => ?_, A.answers, A.answersIf, A.gone, A.after⟩
      · rcases hp u with hu | hu
        · exact A.start u c' (hu ▸ e)
        · simp only at e; rw [hu] at e; cases e; exact hn t c (by simp)
      · rcases hp u with hu | hu
        · exact A.erase u w (hu ▸ e)
        · simp only at e; rw [hu] at e; cases e
      · rcases hp u with hu | hu
        · exact A.eraseIf u w (hu ▸ e)
        · simp only at e; rw [hu] at e; cases e
    | step t =>
      -- positions after a step that ends at `p`
      have hpos : ∀ {p : Pos K V} u, u ≠ t → setPos s.pos t p u = s.pos u := fun u hu => setPos_ne _ _ hu
      have startI : ∀ (p : Pos K V), (∀ c, p ≠ .start c) → ∀ u c', setPos s.pos t p u = .start c' → Keeps k c' := by
        intro p hp u c' e
        by_cases hu : u = t
        · rw [hu, setPos_same] at e; exact absurd e (hp c')
        · rw [hpos u hu] at e; exact A.start u c' e
      have eraseI : ∀ (p : Pos K V), (∀ w, p = .erase k w → w = v) → ∀ u w, setPos s.pos t p u = .erase k w → w = v := by
        intro p hp u w e
        by_cases hu : u = t
        · rw [hu, setPos_same] at e; exact hp w e
        · rw [hpos u hu] at e; exact A.erase u w e
      have eraseIfI : ∀ (p : Pos K V), (∀ w, p = .eraseIf k w → w = v) → ∀ u w, setPos s.pos t p u = .eraseIf k w → w = v := by
        intro p hp u w e
        by_cases hu : u = t
        · rw [hu, setPos_same] at e; exact hp w e
        · rw [hpos u hu] at e; exact A.eraseIf u w e
      cases move_step hm with
      | put j w hp =>
        have hj : j ≠ k := A.start t _ hp
        have ht : upd s.table j (some w) k = s.table k := upd_ne _ _ hj.symm
        refine ⟨startI _ nofun, by simp only [ht]; exact A.table, eraseI _ nofun, eraseIfI _ nofun, ?_, ?_, ?_, ?_⟩
        · intro d hd hc
          rcases List.mem_append.mp hd with hd | hd
          · exact A.answers d hd hc
          · rw [List.mem_singleton] at hd; subst hd; cases hc
        · intro d hd w' hc
          rcases List.mem_append.mp hd with hd | hd
          · exact A.answersIf d hd w' hc
          · rw [List.mem_singleton] at hd; subst hd; cases hc
        · simp only [ht]
          intro e
          obtain ⟨d, hd, h'⟩ := A.gone e
          exact ⟨d, List.mem_append_left _ hd, h'⟩
        · simp only [ht]
          intro d hd hc
          rcases List.mem_append.mp hd with hd | hd
          · exact A.after d hd hc
          · rw [List.mem_singleton] at hd; subst hd; cases hc
      | clear hp => exact (A.start t _ hp).elim
      | read c hp _ _ h3 h4 =>
        refine ⟨startI _ nofun, A.table, eraseI _ nofun, eraseIfI _ nofun, ?_, ?_, ?_, ?_⟩
        · intro d hd hc
          rcases List.mem_append.mp hd with hd | hd
          · exact A.answers d hd hc
          · rw [List.mem_singleton] at hd; subst hd
            simp only at hc ⊢
            subst hc
            rw [answer, h3 k rfl]
            exact Or.inr rfl
        · intro d hd w hc ha
          rcases List.mem_append.mp hd with hd | hd
          · exact A.answersIf d hd w hc ha
          · rw [List.mem_singleton] at hd; subst hd
            simp only at hc ha
            subst hc
            have := h4 k w rfl
            simp [answer, this] at ha
        · intro e
          obtain ⟨d, hd, h'⟩ := A.gone e
          exact ⟨d, List.mem_append_left _ hd, h'⟩
        · intro d hd hc
          rcases List.mem_append.mp hd with hd | hd
          · exact A.after d hd hc
          · rw [List.mem_singleton] at hd; subst hd
            exact h3 k hc
      | find j w hp hk =>
        refine ⟨startI _ nofun, A.table, eraseI _ ?_, eraseIfI _ nofun, A.answers, A.answersIf, A.gone, A.after⟩
        intro w' e
        cases e
        rcases A.table with h' | h' <;> rw [h'] at hk
        · cases hk; rfl
        · cases hk
      | findIf j w hp hk =>
        refine ⟨startI _ nofun, A.table, eraseI _ nofun, eraseIfI _ ?_, A.answers, A.answersIf, A.gone, A.after⟩
        intro w' e
        cases e
        rcases A.table with h' | h' <;> rw [h'] at hk
        · cases hk; rfl
        · cases hk
      | erase j w hp =>
        by_cases hj : j = k
        · subst hj
          have hw := A.erase t w hp
          subst hw
          refine ⟨startI _ nofun, Or.inr (upd_same _ _ _), eraseI _ nofun, eraseIfI _ nofun, ?_, ?_, ?_, ?_⟩
          · intro d hd hc
            rcases List.mem_append.mp hd with hd | hd
            · exact A.answers d hd hc
            · rw [List.mem_singleton] at hd; subst hd; exact Or.inl rfl
          · intro d hd w' hc
            rcases List.mem_append.mp hd with hd | hd
            · exact A.answersIf d hd w' hc
            · rw [List.mem_singleton] at hd; subst hd; cases hc
          · intro _
            exact ⟨_, List.mem_append_right _ (List.mem_singleton.mpr rfl), by simp [Told]⟩
          · intro d _ _; exact upd_same _ _ _
        · have ht : upd s.table j none k = s.table k := upd_ne _ _ (Ne.symm hj)
          refine ⟨startI _ nofun, by simp only [ht]; exact A.table, eraseI _ nofun, eraseIfI _ nofun, ?_, ?_, ?_, ?_⟩
          · intro d hd hc
            rcases List.mem_append.mp hd with hd | hd
            · exact A.answers d hd hc
            · rw [List.mem_singleton] at hd; subst hd; cases hc; exact absurd rfl hj
          · intro d hd w' hc
            rcases List.mem_append.mp hd with hd | hd
            · exact A.answersIf d hd w' hc
            · rw [List.mem_singleton] at hd; subst hd; cases hc
          · simp only [ht]
            intro e
            obtain ⟨d, hd, h'⟩ := A.gone e
            exact ⟨d, List.mem_append_left _ hd, h'⟩
          · simp only [ht]
            intro d hd hc
            rcases List.mem_append.mp hd with hd | hd
            · exact A.after d hd hc
            · rw [List.mem_singleton] at hd; subst hd; cases hc; exact absurd rfl hj
      | eraseIf j w hp =>
        by_cases hj : j = k
        · subst hj
          have hw := A.eraseIf t w hp
          subst hw
          refine ⟨startI _ nofun, Or.inr (upd_same _ _ _), eraseI _ nofun, eraseIfI _ nofun, ?_, ?_, ?_, ?_⟩
          · intro d hd hc
            rcases List.mem_append.mp hd with hd | hd
            · exact A.answers d hd hc
            · rw [List.mem_singleton] at hd; subst hd; cases hc
          · intro d hd w' hc ha
            rcases List.mem_append.mp hd with hd | hd
            · exact A.answersIf d hd w' hc ha
            · rw [List.mem_singleton] at hd; subst hd; cases hc; rfl
          · intro _
            exact ⟨_, List.mem_append_right _ (List.mem_singleton.mpr rfl), by simp [Told]⟩
          · intro d _ _; exact upd_same _ _ _
        · have ht : upd s.table j none k = s.table k := upd_ne _ _ (Ne.symm hj)
          refine ⟨startI _ nofun, by simp only [ht]; exact A.table, eraseI _ nofun, eraseIfI _ nofun, ?_, ?_, ?_, ?_⟩
          · intro d hd hc
            rcases List.mem_append.mp hd with hd | hd
            · exact A.answers d hd hc
            · rw [List.mem_singleton] at hd; subst hd; cases hc
          · intro d hd w' hc ha
            rcases List.mem_append.mp hd with hd | hd
            · exact A.answersIf d hd w' hc ha
            · rw [List.mem_singleton] at hd; subst hd; cases hc; exact absurd rfl hj
          · simp only [ht]
            intro e
            obtain ⟨d, hd, h'⟩ := A.gone e
            exact ⟨d, List.mem_append_left _ hd, h'⟩
          · simp only [ht]
            intro d hd hc
            rcases List.mem_append.mp hd with hd | hd
            · exact A.after d hd hc
            · rw [List.mem_singleton] at hd; subst hd; cases hc

/-- In every schedule of any number of threads on a map that holds `v` for `k`, when
nobody puts `k` or clears: removers report `v` or nothing, conditional removers
succeed only for `v`; as soon as one remover has returned the mapping is gone, and
when it is gone at least one call has been told.  (Missing: at most one.) -/
theorem C46_at_least_one_partial (dflt : V) (m : Table K V) (k : K) (v : V) (h : m k = some v) (xs : List (Move K V)) (s : Cfg K V)
    (hr : run dflt (init m) xs = some s) (hn : NoPut k xs) :
    (∀ d ∈ s.done, d.call = .remove k → (d.ans = .value v ∨ d.ans = .value dflt) ∧ s.table k = none) ∧
    (∀ d ∈ s.done, ∀ w, d.call = .removeIf k w → d.ans = .bool true → w = v) ∧
    (s.table k = none → ∃ d ∈ s.done, Told k v d = true) := by
  have A := alone dflt m k v h xs s hr hn
  exact ⟨fun d hd hc => ⟨A.answers d hd hc, A.after d hd hc⟩, A.answersIf, A.gone⟩

/-! ## Removals that do not overlap -/

/-- The number of calls told that they removed the mapping. -/
def told (k : K) (v : V) (ds : List (Done K V)) : Nat := (ds.filter fun d => Told k v d).length

theorem told_snoc (k : K) (v : V) (ds : List (Done K V)) (d : Done K V) : told k v (ds ++ [d]) = told k v ds + if Told k v d then 1 else 0 := by
  unfold told
  rw [List.filter_append, List.length_append]
  congr 1
  by_cases h : Told k v d <;> simp [h]

/-- With one removal at a time, a pending erasure finds its value still there. -/
structure Single (k : K) (v : V) (s : Cfg K V) : Prop where
  count : told k v s.done = if s.table k = none then 1 else 0
  erase : ∀ t w, s.pos t = .erase k w → s.table k = some v
  eraseIf : ∀ t w, s.pos t = .eraseIf k w → s.table k = some v

theorem oneAtATime_left {dflt : V} {m : Table K V} {k : K} {xs zs : List (Move K V)} (h : OneAtATime dflt m k (xs ++ zs)) : OneAtATime dflt m k xs :=
  fun ys zs' s e hr => h ys (zs' ++ zs) s (by rw [e, List.append_assoc]) hr

theorem single (dflt : V) (m : Table K V) (k : K) (v : V) (h : m k = some v) (hv : v ≠ dflt) :
    ∀ xs s, run dflt (init m) xs = some s → NoPut k xs → OneAtATime dflt m k xs → Single k v s := by
  apply run_induction
  · intro _ _
    refine ⟨?_, fun t w e => (by cases e), fun t w e => (by cases e)⟩
    show 0 = if m k = none then 1 else 0
    rw [h]; rfl
  · intro xs s x s' hr ih hm hn ho
    have A := alone dflt m k v h xs s hr (noPut_left hn)
    have S := ih (noPut_left hn) (oneAtATime_left ho)
    have one : ∀ t u, Removing k (s.pos t) → Removing k (s.pos u) → t = u := ho xs [x] s rfl hr
    cases x with
    | call t c =>
      obtain ⟨h1, rfl⟩ := move_call hm
      refine ⟨S.count, fun u w e => ?_, fun u w e => ?_⟩
      · by_cases hu : u = t
        · simp only [hu, setPos_same] at e; cases e
        · simp only [setPos_ne _ _ hu] at e; exact S.erase u w e
      · by_cases hu : u = t
        · simp only [hu, setPos_same] at e; cases e
        · simp only [setPos_ne _ _ hu] at e; exact S.eraseIf u w e
    | step t =>
      have eraseI : ∀ (p : Pos K V) (m' : Table K V), (∀ w, p = .erase k w → m' k = some v) →
          (∀ u w, u ≠ t → s.pos u = .erase k w → m' k = some v) → ∀ u w, setPos s.pos t p u = .erase k w → m' k = some v := by
        intro p m' hp ho u w e
        by_cases hu : u = t
        · rw [hu, setPos_same] at e; exact hp w e
        · rw [setPos_ne _ _ hu] at e; exact ho u w hu e
      have eraseIfI : ∀ (p : Pos K V) (m' : Table K V), (∀ w, p = .eraseIf k w → m' k = some v) →
          (∀ u w, u ≠ t → s.pos u = .eraseIf k w → m' k = some v) → ∀ u w, setPos s.pos t p u = .eraseIf k w → m' k = some v := by
        intro p m' hp ho u w e
        by_cases hu : u = t
        · rw [hu, setPos_same] at e; exact hp w e
        · rw [setPos_ne _ _ hu] at e; exact ho u w hu e
      cases move_step hm with
      | put j w hp =>
        have hj : j ≠ k := A.start t _ hp
        have ht : upd s.table j (some w) k = s.table k := upd_ne _ _ hj.symm
        refine ⟨?_, eraseI _ _ nofun fun u w' _ e => ht.trans (S.erase u w' e),
          eraseIfI _ _ nofun fun u w' _ e => ht.trans (S.eraseIf u w' e)⟩
        simp only [told_snoc, ht, S.count, Told]
        simp
      | clear hp => exact (A.start t _ hp).elim
      | read c hp _ _ h3 h4 =>
        refine ⟨?_, eraseI _ _ nofun fun u w' _ e => S.erase u w' e, eraseIfI _ _ nofun fun u w' _ e => S.eraseIf u w' e⟩
        have ht : Told k v ⟨t, c, answer dflt s.table c⟩ = false := by
          cases c with
          | remove j =>
            have := h3 j rfl
            simp only [Told, answer, this, Option.getD_none]
            simp only [decide_eq_false_iff_not]
            rintro ⟨_, e⟩
            exact hv e.symm
          | removeIf j w =>
            have := h4 j w rfl
            simp [Told, answer, this]
          | _ => rfl
        simp only [told_snoc, ht, S.count]
        simp
      | find j w hp hk =>
        refine ⟨S.count, eraseI _ _ ?_ fun u w' _ e => S.erase u w' e, eraseIfI _ _ nofun fun u w' _ e => S.eraseIf u w' e⟩
        intro w' e
        cases e
        rcases A.table with h' | h' <;> rw [h'] at hk
        · exact h'
        · cases hk
      | findIf j w hp hk =>
        refine ⟨S.count, eraseI _ _ nofun fun u w' _ e => S.erase u w' e, eraseIfI _ _ ?_ fun u w' _ e => S.eraseIf u w' e⟩
        intro w' e
        cases e
        rcases A.table with h' | h' <;> rw [h'] at hk
        · exact h'
        · cases hk
      | erase j w hp =>
        by_cases hj : j = k
        · subst hj
          have hs := S.erase t w hp
          have hw := A.erase t w hp
          have no : ∀ u, u ≠ t → ¬ Removing j (s.pos u) := fun u hu hr' => hu (one u t hr' (by rw [hp]; exact rfl))
          refine ⟨?_, eraseI _ _ nofun fun u w' hu e => absurd (by rw [e]; exact rfl) (no u hu),
            eraseIfI _ _ nofun fun u w' hu e => absurd (by rw [e]; exact rfl) (no u hu)⟩
          have ht : Told j v ⟨t, .remove j, .value w⟩ = true := by simp [Told, hw]
          simp only [told_snoc, ht, S.count, hs, upd_same]
          simp
        · have ht : upd s.table j none k = s.table k := upd_ne _ _ (Ne.symm hj)
          refine ⟨?_, eraseI _ _ nofun fun u w' _ e => ht.trans (S.erase u w' e),
            eraseIfI _ _ nofun fun u w' _ e => ht.trans (S.eraseIf u w' e)⟩
          have hn : Told k v ⟨t, .remove j, .value w⟩ = false := by simp [Told, hj]
          simp only [told_snoc, hn, S.count, ht]
          simp
      | eraseIf j w hp =>
        by_cases hj : j = k
        · subst hj
          have hs := S.eraseIf t w hp
          have no : ∀ u, u ≠ t → ¬ Removing j (s.pos u) := fun u hu hr' => hu (one u t hr' (by rw [hp]; exact rfl))
          refine ⟨?_, eraseI _ _ nofun fun u w' hu e => absurd (by rw [e]; exact rfl) (no u hu),
            eraseIfI _ _ nofun fun u w' hu e => absurd (by rw [e]; exact rfl) (no u hu)⟩
          have ht : Told j v ⟨t, .removeIf j w, .bool true⟩ = true := by simp [Told]
          simp only [told_snoc, ht, S.count, hs, upd_same]
          simp
        · have ht : upd s.table j none k = s.table k := upd_ne _ _ (Ne.symm hj)
          refine ⟨?_, eraseI _ _ nofun fun u w' _ e => ht.trans (S.erase u w' e),
            eraseIfI _ _ nofun fun u w' _ e => ht.trans (S.eraseIf u w' e)⟩
          have hn : Told k v ⟨t, .removeIf j w, .bool true⟩ = false := by simp [Told, hj]
          simp only [told_snoc, hn, S.count, ht]
          simp

/-- When no two removals of `k` are under way at the same time, exactly one call is
told, once the mapping is gone, and none before.  (Missing: overlapping removals.) -/
theorem C46_exactly_one_partial (dflt : V) (m : Table K V) (k : K) (v : V) (h : m k = some v) (hv : v ≠ dflt) (xs : List (Move K V)) (s : Cfg K V)
    (hr : run dflt (init m) xs = some s) (hn : NoPut k xs) (ho : OneAtATime dflt m k xs) :
    (s.done.filter fun d => Told k v d).length = if s.table k = none then 1 else 0 :=
  (single dflt m k v h hv xs s hr hn ho).count

/-- Two removals, one after the other, and a put of another key between them. -/
def turns : List (Move Nat Nat) :=
  [.call 0 (.remove 3), .step 0, .call 2 (.put 4 1), .step 0, .step 2, .call 1 (.remove 3), .step 1]

example : NoPut 3 turns := by
  intro t c h
  simp only [turns, List.mem_cons, List.not_mem_nil, or_false, Move.call.injEq, reduceCtorEq, false_or] at h
  rcases h with ⟨_, rfl⟩ | ⟨_, rfl⟩ | ⟨_, rfl⟩
  · trivial
  · show (4 : Nat) ≠ 3; decide
  · trivial

example : OneAtATime 0 (fun j : Nat => if j = 3 then some 7 else none) 3 turns := by
  intro ys zs s e hr t u
  have hy : ys = turns.take ys.length := by rw [e]; simp
  have hl : ys.length < 8 := by
    have := congrArg List.length e
    rw [List.length_append] at this
    have h7 : turns.length = 7 := rfl
    omega
  generalize ys.length = n at hy hl
  subst hy
  rcases n with _ | _ | _ | _ | _ | _ | _ | _ | n <;> first
    | omega
    | (simp [turns, run, move, init, setPos, act, upd] at hr
       subst hr
       rcases t with _ | _ | _ | t <;> rcases u with _ | _ | _ | u <;> simp [Removing, setPos])

example : ∃ s, run 0 (init fun j : Nat => if j = 3 then some 7 else none) turns = some s ∧ s.table 3 = none ∧
    s.done = [⟨0, .remove 3, .value 7⟩, ⟨2, .put 4 1, .unit⟩, ⟨1, .remove 3, .value 0⟩] := by
  simp [turns, run, move, init, setPos, act, upd]

end Verif.ConcMap
