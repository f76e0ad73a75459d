import Verif.LinkedQueue.Seq
/-!
# Executions written out
-/
namespace Verif.LinkedQueue

variable {E : Type}

inductive Act (E : Type) where
  | call (t : Nat) (c : Call E)
  | tick (t : Nat)

def act (s : Sys E) : Act E → Option (Sys E)
  | .call t c =>
    match s.pos t with
    | .idle => some (begin s t c)
    | _ => none
  | .tick t => tick s t 0

/-- The actions in turn. -/
def runs : List (Act E) → Sys E → Option (Sys E)
  | [], s => some s
  | a :: l, s =>
    match act s a with
    | some s' => runs l s'
    | none => none

/-- `P` holds at the start and after every action. -/
def always (P : Sys E → Bool) : List (Act E) → Sys E → Bool
  | [], s => P s
  | a :: l, s => P s &&
    match act s a with
    | some s' => always P l s'
    | none => true

/-- `n` steps of a thread. -/
def go (t n : Nat) : List (Act E) := List.replicate n (.tick t)

theorem act_step {s s' : Sys E} {a : Act E} (h : act s a = some s') : Step s s' := by
  cases a with
  | call t c =>
    simp only [act] at h
    split at h
    · next hi => cases h; exact .call t c hi
    · cases h
  | tick t => exact .tick t 0 h

theorem runs_reach {q : Bool} : ∀ (l : List (Act E)) {s s' : Sys E}, Reach q s →
    runs l s = some s' → Reach q s'
  | [], s, s', hr, h => by cases h; exact hr
  | a :: l, s, s', hr, h => by
    rw [runs] at h
    split at h
    · next ha => exact runs_reach l (.step hr (act_step ha)) h
    · cases h

/-- Thread `t` calls nothing, the others only what `ok` allows. -/
def fits (t : Nat) (ok : Call E → Prop) : List (Act E) → Prop
  | [] => True
  | .call t' c :: l => t' ≠ t ∧ ok c ∧ fits t ok l
  | .tick _ :: l => fits t ok l

theorem runs_during {t : Nat} {ok : Call E → Prop} {s0 : Sys E} :
    ∀ (l : List (Act E)) {s s' : Sys E}, During t ok s0 s → fits t ok l → runs l s = some s' →
      During t ok s0 s'
  | [], s, s', hd, _, h => by cases h; exact hd
  | a :: l, s, s', hd, hf, h => by
    rw [runs] at h
    split at h
    · next s1 ha =>
      cases a with
      | call t' c =>
        obtain ⟨f1, f2, f3⟩ := hf
        simp only [act] at ha
        split at ha
        · next hi => cases ha; exact runs_during l (.call t' c hd f1 hi f2) f3 h
        · cases ha
      | tick t' => exact runs_during l (.tick t' 0 hd ha) hf h
    · cases h

def Act.thr : Act E → Nat
  | .call t _ => t
  | .tick t => t

/-- Threads that do not act stand still. -/
theorem runs_pos : ∀ (l : List (Act E)) {s s' : Sys E} {t : Nat}, (∀ a, a ∈ l → a.thr ≠ t) →
    runs l s = some s' → s'.pos t = s.pos t
  | [], s, s', t, _, h => by cases h; rfl
  | a :: l, s, s', t, hn, h => by
    rw [runs] at h
    split at h
    · next s1 ha =>
      rw [runs_pos l (fun b hb => hn b (List.mem_cons_of_mem _ hb)) h]
      have hne : a.thr ≠ t := hn a List.mem_cons_self
      cases a with
      | call t' c =>
        simp only [act] at ha
        split at ha
        · cases ha; exact upd_ne _ _ (fun e => hne e.symm)
        · cases ha
      | tick t' => exact tick_pos ha t (fun e => hne e.symm)
    · cases h

theorem phase_idle {y : Pos E} (h : phase y = 0) : y = .idle := by
  cases y <;> first | rfl | cases h

/-- Calls are made when the first `N` threads are idle. -/
def serial (N : Nat) : List (Act E) → Sys E → Bool
  | [], _ => true
  | a :: l, s =>
    (match a with
      | .call _ _ => (List.range N).all fun t => phase (s.pos t) == 0
      | .tick _ => true) &&
    match act s a with
    | some s' => serial N l s'
    | none => true

theorem act_pos {s s' : Sys E} {a : Act E} (h : act s a = some s') {t : Nat} (ht : a.thr ≠ t) :
    s'.pos t = s.pos t :=
  runs_pos [a] (by intro b hb; rw [List.mem_singleton.mp hb]; exact ht) (by simp [runs, h])

theorem runs_seq {q : Bool} {N : Nat} : ∀ (l : List (Act E)) {s s' : Sys E}, SeqReach q s →
    (∀ t, N ≤ t → s.pos t = .idle) → (∀ a, a ∈ l.map Act.thr → a < N) →
    serial N l s = true → runs l s = some s' → SeqReach q s'
  | [], s, s', hr, _, _, _, h => by cases h; exact hr
  | a :: l, s, s', hr, hi, hN, hs, h => by
    rw [runs] at h
    rw [serial.eq_def, Bool.and_eq_true] at hs
    obtain ⟨h1, h2⟩ := hs
    split at h
    · next s1 ha =>
      rw [ha] at h2
      have haN : a.thr < N := hN _ (by simp)
      refine runs_seq l ?_ (fun t ht => ?_) (fun b hb => hN b (by simp; exact .inr (by simpa using hb))) h2 h
      · cases a with
        | call t c =>
          simp only [act] at ha
          split at ha
          · cases ha
            refine .call t c hr (fun t' => ?_)
            by_cases ht' : t' < N
            · have := List.all_eq_true.mp h1 t' (List.mem_range.mpr ht')
              exact phase_idle (by simpa using this)
            · exact hi t' (by omega)
          · cases ha
        | tick t => exact .tick t 0 hr ha
      · rw [act_pos ha (by omega)]; exact hi t ht
    · cases h

/-! ### As many elements as one likes -/

theorem left_add {y : Pos E} (h : phase y ≤ 1) (n : Nat) : left n y = left 0 y := by
  cases y <;> first | rfl | (simp [phase] at h)

/-- A step that ends a call leaves a record. -/
theorem Mv.ends {s s' : Sys E} {t : Nat} (m : Mv s t s') (h : s'.pos t = .idle) :
    s'.log ≠ s.log := by
  cases m <;> first
    | (intro e; have := congrArg List.length e; simp [Sys.ret, Sys.prod, Sys.blk] at this; done)
    | (rw [go_pos, upd_same] at h; cases h; done)
    | (rw [go_pos, upd_same] at h; exact absurd h ‹_›)

/-- An `add` left alone ends, having added. -/
theorem finish_add {q : Bool} : ∀ (k : Nat) {s : Sys E} {t : Nat}, SeqReach q s →
    phase (s.pos t) ≤ 1 → left 0 (s.pos t) ≤ k → ∃ s', SeqReach q s' ∧ s'.pos t = .idle ∧
      (∀ t', t' ≠ t → s'.pos t' = s.pos t') ∧ gets s'.log = gets s.log ∧
      adds s'.log = adds s.log + phase (s.pos t)
  | k, s, t, hr, hp, hk => by
    by_cases hi : s.pos t = .idle
    · exact ⟨s, hr, hi, fun _ _ => rfl, rfl, by rw [hi]; rfl⟩
    · obtain ⟨Γ, _, _, I, _⟩ := Good.reach hr.reach
      obtain ⟨s1, h1⟩ := I.go t 0 hi
      have hr1 : SeqReach q s1 := .tick t 0 hr h1
      have hl := tick_left (n := s.count) (Nat.le_refl _) (Ranged.reach hr.reach t) h1
      have hph : phase (s.pos t) = 1 := by
        have : phase (s.pos t) ≠ 0 := fun e => hi (phase_idle e)
        omega
      have hp1 : phase (s1.pos t) ≤ 1 := by
        rcases tick_phase h1 with h2 | h2 <;> omega
      rw [left_add hp, left_add hp1] at hl
      rcases tick_kind h1 with h2 | ⟨r, h2, _, h3, h4⟩
      · cases k with
        | zero => omega
        | succ k =>
          obtain ⟨s', g1, g2, g3, g4, g5⟩ := finish_add k hr1 hp1 (by omega)
          have hne : phase (s1.pos t) = 1 := by
            rcases Nat.lt_or_ge 0 (phase (s1.pos t)) with h0 | h0
            · omega
            · exfalso
              have h5 : s1.pos t = .idle := phase_idle (by omega)
              -- a step that ends an `add` leaves a record
              have : s1.log ≠ s.log := by
                have m := tick_mv h1
                exact m.ends h5
              exact this h2
          refine ⟨s', g1, g2, fun t' e => by rw [g3 t' e, tick_pos h1 t' e], by rw [g4, h2], ?_⟩
          rw [g5, h2, hne, hph]
      · refine ⟨s1, hr1, h3, fun t' e => tick_pos h1 t' e, ?_, ?_⟩
        all_goals
          rw [h2]
          cases h4 with
          | add e a p _ h5 =>
            rcases h5 with h5 | h5
            · first
              | (rw [gets_push]; simp [Rec.isGet, h5]; done)
              | (rw [adds_push, hph]; simp [Rec.isAdd, h5])
            · exfalso
              obtain ⟨_, _, _, _, L⟩ := Good.reach hr1.reach
              exact L.noRef s.log.length r e (by rw [h2]; exact getElem?_last _ _) h5
          | poll o h5 => rw [phase_poll.mp h5] at hph; cases hph
          | count z acc _ h5 =>
            rcases h5 with h5 | ⟨_, _, h5⟩ | ⟨_, _, _, h5⟩ <;> (rw [h5] at hph; cases hph)

theorem fill_up (q : Bool) (e : E) : ∀ (n : Nat), ∃ s : Sys E, SeqReach q s ∧ Still s ∧
    adds s.log = n ∧ gets s.log = 0
  | 0 => ⟨init q, .init, fun _ => rfl, rfl, rfl⟩
  | n + 1 => by
    obtain ⟨s, h1, h2, h3, h4⟩ := fill_up q e n
    have hp : (begin s 0 (.add e)).pos 0 = .find e := by
      show upd s.pos 0 (start (.add e)) 0 = _
      rw [upd_same]; rfl
    obtain ⟨s', g1, g2, g3, g4, g5⟩ := finish_add (left 0 ((begin s 0 (.add e)).pos 0))
      (.call 0 (.add e) h1 h2) (t := 0) (by rw [hp]; exact Nat.le_refl _) (Nat.le_refl _)
    refine ⟨s', g1, fun t => ?_, ?_, ?_⟩
    · by_cases e' : t = 0
      · subst e'; exact g2
      · rw [g3 t e']
        show upd s.pos 0 _ t = .idle
        rw [upd_ne _ _ e']
        exact h2 t
    · rw [g5, hp]
      show adds s.log + 1 = n + 1
      rw [h3]
    · rw [g4]; exact h4

theorem Fifo.inv {l : List (Rec E)} {x : List E} (h : Fifo l x) (l' : List (Rec E)) (r : Rec E)
    (e : l = l' ++ [r]) : ∃ q, Fifo l' q ∧ Plainly q r x := by
  cases h with
  | nil => simp at e
  | snoc h1 h2 =>
    obtain ⟨e1, e2⟩ := List.append_inj' e rfl
    cases e2
    subst e1
    exact ⟨_, h1, h2⟩

theorem Fifo.start {l : List (Rec E)} {x : List E} (h : Fifo l x) (e : l = []) : x = [] := by
  cases h with
  | nil => rfl
  | snoc h1 h2 => simp at e

end Verif.LinkedQueue
