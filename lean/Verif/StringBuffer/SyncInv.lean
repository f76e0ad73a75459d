import Verif.StringBuffer.SyncLemmas
/-!
# Invariant of runs in which all calls take the mutex
-/
namespace Verif.StringBuffer.Sync

open Verif.StringBuilder (SB)
open Verif.StringBuffer (Op Ans)

/-- The end of a call. -/
def ofAnswer : Answer → Prog Ans
  | .ok a => .out (.ok a)
  | .error e => .out (.throw e)

/-- The thread holds no mutex. -/
def Free (s : St) (t : Nat) : Prop := ∀ o, s.owner o ≠ some t

/-- What is known about a thread. -/
inductive TOk (sem : Sem) (s : St) (m : Nat → SB) (t : Nat) (ph : Phase) : Option (Call × Prog Ans) → Prop
  | idle (hp : ph = .idle) (hf : Free s t) : TOk sem s m t ph none
  | fresh (o : Nat) (c : Op) (hp : ph = .busy (.op o c)) (hl : locks c = true) (hf : Free s t) :
    TOk sem s m t ph (some (.op o c, .lock o ((body sem o c).after (Prog.release o))))
  | inside (o : Nat) (c : Op) (q : Prog Ans) (b : Obj) (hp : ph = .busy (.op o c)) (hl : locks c = true)
    (ho : s.owner o = some t) (hu : ∀ o', s.owner o' = some t → o' = o) (hq : Own o q) (hb : Fresh b) (hm : b.s = m o)
    (hr : q.run (s.objs o) = (body sem o c).run b) :
    TOk sem s m t ph (some (.op o c, q.after (Prog.release o)))
  | done (c : Call) (r : Answer) (hp : ph = .done c r) (hf : Free s t) : TOk sem s m t ph (some (c, ofAnswer r))

/-- The invariant. -/
structure Good (sem : Sem) (m₀ : Nat → SB) (todo : Nat → List Call) (s : St) (l : List Ev) (ph : Nat → Phase) (m : Nat → SB) : Prop where
  follows : Follows (fun _ => .idle) l ph
  replays : Replays sem m₀ (order l) m
  threads : ∀ t, TOk sem s m t (ph t) (s.cur t)
  objs : ∀ o, s.owner o = none → (s.objs o).s = m o ∧ Fresh (s.objs o)
  begins : ∀ t, begun t l ++ s.todo t = todo t

@[simp] theorem set_eq {α : Type u} (f : Nat → α) (i : Nat) (v : α) : set f i v i = v := if_pos rfl
theorem set_ne {α : Type u} (f : Nat → α) {i j : Nat} (v : α) (h : j ≠ i) : set f i v j = f j := if_neg h

theorem TOk.frame {sem : Sem} {s s' : St} {m m' : Nat → SB} {t : Nat} {ph : Phase} {x : Option (Call × Prog Ans)}
    (h : TOk sem s m t ph x) (ho : ∀ o, s'.owner o = some t ↔ s.owner o = some t)
    (hb : ∀ o, s.owner o = some t → s'.objs o = s.objs o ∧ m' o = m o) : TOk sem s' m' t ph x := by
  cases h with
  | idle hp hf => exact .idle hp fun o h => hf o ((ho o).1 h)
  | fresh o c hp hl hf => exact .fresh o c hp hl fun o h => hf o ((ho o).1 h)
  | inside o c q b hp hl hw hu hq hb' hm hr =>
    have hx := hb o hw
    exact .inside o c q b hp hl ((ho o).2 hw) (fun o' h => hu o' ((ho o').1 h)) hq hb' (hm.trans hx.2.symm) (by rw [hx.1]; exact hr)
  | done c r hp hf => exact .done c r hp fun o h => hf o ((ho o).1 h)

theorem Follows.snoc {p p₁ p₂ : Nat → Phase} {l : List Ev} {e : Ev} (h : Follows p l p₁) (hn : Next e p₁ p₂) : Follows p (l ++ [e]) p₂ := by
  induction l generalizing p with
  | nil => cases h; exact ⟨p₂, hn, rfl⟩
  | cons a l ih =>
    obtain ⟨q, h1, h2⟩ := h
    exact ⟨q, h1, ih h2⟩

theorem Replays.snoc {sem : Sem} {m m₁ m₂ : Nat → SB} {l : List (Call × Answer)} {c : Call} {r : Answer} (h : Replays sem m l m₁)
    (hn : (effect sem c m₁).Is m₂ r) : Replays sem m (l ++ [(c, r)]) m₂ := by
  induction l generalizing m with
  | nil => cases h; exact ⟨m₂, hn, rfl⟩
  | cons a l ih =>
    obtain ⟨q, h1, h2⟩ := h
    exact ⟨q, h1, ih h2⟩

theorem order_append (l l' : List Ev) : order (l ++ l') = order l ++ order l' := by
  induction l with
  | nil => rfl
  | cons a l ih => cases a <;> simp [order, ih]

theorem begun_append (t : Nat) (l l' : List Ev) : begun t (l ++ l') = begun t l ++ begun t l' := by
  induction l with
  | nil => rfl
  | cons a l ih =>
    cases a with
    | inv u c =>
      simp only [List.cons_append, begun]
      split
      · rw [ih]; rfl
      · exact ih
    | _ => exact ih

/-- The state a run ends in when something undefined happens. -/
def Bad (sem : Sem) (m₀ : Nat → SB) (todo : Nat → List Call) (l : List Ev) : Prop :=
  ∃ t c ph m, Follows (fun _ => .idle) l ph ∧ Replays sem m₀ (order l) m ∧ (∀ t, begun t l <+: todo t) ∧ ph t = .busy c ∧
    effect sem c m = .ub

variable {sem : Sem} {m₀ : Nat → SB} {todo : Nat → List Call}

theorem effect_op (sem : Sem) (o : Nat) (c : Op) (m : Nat → SB) : effect sem (.op o c) m = onObj o (StringBuffer.step sem c) m := rfl

/-- Threads that stay where they are. -/
theorem others {s s' : St} {l : List Ev} {ph ph' : Nat → Phase} {m m' : Nat → SB} {t : Nat} (g : Good sem m₀ todo s l ph m)
    (hc : ∀ u, u ≠ t → s'.cur u = s.cur u) (hp : ∀ u, u ≠ t → ph' u = ph u) (ho : ∀ u o, u ≠ t → (s'.owner o = some u ↔ s.owner o = some u))
    (hb : ∀ u o, u ≠ t → s.owner o = some u → s'.objs o = s.objs o ∧ m' o = m o)
    (ht : TOk sem s' m' t (ph' t) (s'.cur t)) : ∀ u, TOk sem s' m' u (ph' u) (s'.cur u) := by
  intro u
  by_cases h : u = t
  · rw [h]; exact ht
  · rw [hc u h, hp u h]
    exact (g.threads u).frame (fun o => ho u o h) (fun o => hb u o h)

/-- The result of a call that ends. -/
theorem end_effect {s : St} {o : Nat} {c : Op} {b : Obj} {m : Nat → SB} {x : Outcome Ans} (hb : Fresh b) (hm : b.s = m o)
    (hr : (Prog.out x).run (s.objs o) = (body sem o c).run b) :
    Refines (OM.lift x (s.objs o)) (StringBuffer.step sem c (m o)) := by
  have h := body_sim sem o c b hb
  rw [← hr, hm] at h
  exact h

theorem set_self {α : Type u} (f : Nat → α) (i : Nat) (v : α) (h : f i = v) : set f i v = f := by
  funext j
  unfold set
  split
  · rename_i e; rw [e, h]
  · rfl

theorem Good.step {s s' : St} {l : List Ev} {ph : Nat → Phase} {m : Nat → SB} {t : Nat} {e : Option Ev} (g : Good sem m₀ todo s l ph m)
    (hall : ∀ t, ∀ c ∈ todo t, Guarded c) (h : step sem t s = some (s', e)) :
    (s'.ub = false → ∃ ph' m', Good sem m₀ todo s' (l ++ e.toList) ph' m') ∧ (s'.ub = true → Bad sem m₀ todo (l ++ e.toList)) := by
  unfold Sync.step at h
  by_cases hu : s.ub = true
  · rw [if_pos hu] at h; cases h
  rw [if_neg hu] at h
  have hu' : s.ub = false := by simpa using hu
  have gt := g.threads t
  cases hc : s.cur t with
  | none =>
    rw [hc] at h gt
    cases gt with
    | idle hp hf =>
    cases ht : s.todo t with
    | nil => rw [ht] at h; cases h
    | cons c cs =>
      rw [ht] at h
      simp only [Option.some.injEq, Prod.mk.injEq] at h
      obtain ⟨rfl, rfl⟩ := h
      refine ⟨fun _ => ⟨set ph t (.busy c), m, ?_⟩, fun hub => absurd hub hu⟩
      have hg : Guarded c := hall t c (by rw [← g.begins t, ht]; simp)
      cases c with
      | op o c =>
        refine ⟨g.follows.snoc ⟨hp, rfl⟩, ?_, ?_, g.objs, ?_⟩
        · rw [Option.toList_some, order_append]; simpa [order] using g.replays
        · refine others (t := t) g (fun u hu => set_ne _ _ hu) (fun u hu => set_ne _ _ hu) (fun _ _ _ => Iff.rfl) (fun _ _ _ _ => ⟨rfl, rfl⟩) ?_
          simp only [set_eq, code, if_pos (show locks c = true from hg)]
          exact .fresh o c rfl hg hf
        · intro u
          rw [Option.toList_some, begun_append]
          by_cases h : u = t
          · subst h
            simp only [begun, set_eq, if_pos, List.append_assoc, List.singleton_append]
            rw [← g.begins u, ht]
          · simp only [begun, if_neg (Ne.symm h), List.append_nil, set_ne _ _ h]
            exact g.begins u
      | _ => exact hg.elim
  | some x =>
    obtain ⟨c, q⟩ := x
    rw [hc] at h gt
    simp only at h
    have hbegin : ∀ (e : Option Ev) (s' : St), s'.todo = s.todo → (∀ u d, e ≠ some (.inv u d)) →
        ∀ u, begun u (l ++ e.toList) ++ s'.todo u = todo u := by
      intro e s' h1 h2 u
      rw [begun_append, h1]
      have : begun u e.toList = [] := by
        cases e with
        | none => rfl
        | some v =>
          cases v with
          | inv u d => exact (h2 u d rfl).elim
          | lin u d r => rfl
          | res u d r => rfl
      rw [this, List.append_nil]
      exact g.begins u
    generalize hx : some (c, q) = x at gt
    cases gt with
    | idle hp hf => cases hx
    | done d r hp hf =>
      cases hx
      have h' : s' = { s with cur := set s.cur t none } ∧ e = some (.res t c r) := by
        cases r <;> (simp only [ofAnswer, advance, Option.some.injEq, Prod.mk.injEq] at h; exact ⟨h.1.symm, h.2.symm⟩)
      obtain ⟨rfl, rfl⟩ := h'
      refine ⟨fun _ => ⟨set ph t .idle, m, g.follows.snoc ⟨hp, rfl⟩, ?_, ?_, g.objs, hbegin _ _ rfl (by intro u d h; cases h)⟩,
        fun hub => absurd hub hu⟩
      · rw [Option.toList_some, order_append]; simpa [order] using g.replays
      · refine others (t := t) g (fun u hu => set_ne _ _ hu) (fun u hu => set_ne _ _ hu) (fun _ _ _ => Iff.rfl) (fun _ _ _ _ => ⟨rfl, rfl⟩) ?_
        simp only [set_eq]
        exact .idle rfl hf
    | fresh o d hp hl hf =>
      cases hx
      simp only [advance] at h
      by_cases hw : s.owner o = none
      · rw [if_pos hw] at h
        simp only [Option.some.injEq, Prod.mk.injEq] at h
        obtain ⟨rfl, rfl⟩ := h
        refine ⟨fun _ => ⟨ph, m, by simpa using g.follows, by simpa using g.replays, ?_, ?_, hbegin _ _ rfl (by intro u d h; cases h)⟩,
          fun hub => absurd hub hu⟩
        · refine others (t := t) g (fun u hu => set_ne _ _ hu) (fun _ _ => rfl) (fun u o' hu => ?_) (fun _ _ _ _ => ⟨rfl, rfl⟩) ?_
          · by_cases ho : o' = o
            · subst ho
              simp only [set_eq, hw, Option.some.injEq]
              exact ⟨fun h => absurd h.symm hu, fun h => nomatch h⟩
            · simp only [set_ne _ _ ho]
          · simp only [set_eq]
            refine .inside o d (body sem o d) (s.objs o) hp hl (set_eq _ _ _) (fun o' h => ?_) (own_body sem o d) (g.objs o hw).2
              (g.objs o hw).1 rfl
            by_cases ho : o' = o
            · exact ho
            · simp only [set_ne _ _ ho] at h
              exact (hf o' h).elim
        · intro o' h
          by_cases ho : o' = o
          · subst ho; simp only [set_eq] at h; cases h
          · simp only [set_ne _ _ ho] at h
            exact g.objs o' h
      · rw [if_neg hw] at h; cases h
    | inside o d q' b hp hl hw huniq hq hb hm hr =>
      cases hx
      cases q' with
      | lock _ _ => exact hq.elim
      | unlock _ _ => exact hq.elim
      | acc o' lo w f k =>
        obtain ⟨rfl, hk⟩ := hq
        simp only [Prog.after, advance] at h
        cases hfv : f (s.objs o') with
        | none =>
          rw [hfv] at h
          simp only [Option.some.injEq, Prod.mk.injEq] at h
          obtain ⟨rfl, rfl⟩ := h
          refine ⟨fun h => (nomatch h), fun _ => ⟨t, .op o' d, ph, m, by simpa using g.follows, by simpa using g.replays,
            fun u => ⟨s.todo u, by simpa using g.begins u⟩, hp, ?_⟩⟩
          have hs := body_sim sem o' d b hb
          rw [← hr, hm] at hs
          simp only [Prog.run, hfv] at hs
          rw [effect_op]
          unfold onObj
          rw [show StringBuffer.step sem d (m o') = .ub from hs]
        | some r =>
          rw [hfv] at h
          simp only [Option.some.injEq, Prod.mk.injEq] at h
          obtain ⟨rfl, rfl⟩ := h
          refine ⟨fun _ => ⟨ph, m, by simpa using g.follows, by simpa using g.replays, ?_, ?_, hbegin _ _ rfl (by intro u d h; cases h)⟩,
            fun hub => absurd hub hu⟩
          · refine others (t := t) g (fun u hu => set_ne _ _ hu) (fun _ _ => rfl) (fun _ _ _ => Iff.rfl) (fun u o₁ hu ho => ?_) ?_
            · have : o₁ ≠ o' := by
                intro he; subst he
                rw [hw] at ho
                exact hu (Option.some.inj ho).symm
              exact ⟨set_ne _ _ this, rfl⟩
            · simp only [set_eq]
              refine .inside o' d (k r.2) b hp hl hw huniq (hk r.2) hb hm ?_
              simp only [set_eq]
              rw [← hr]
              simp only [Prog.run, hfv]
          · intro o₁ h
            have : o₁ ≠ o' := by
              intro he; subst he
              have h : s.owner o₁ = none := h
              rw [hw] at h; cases h
            simp only [set_ne _ _ this]
            exact g.objs o₁ h
      | out x =>
        have he := end_effect (s := s) hb hm hr
        have fin : ∀ (r : Answer) (s₁ : SB), (StringBuffer.step sem d (m o)).Is s₁ r → (s.objs o).s = s₁ → Fresh (s.objs o) →
            s' = { s with owner := set s.owner o none, cur := set s.cur t (some (.op o d, ofAnswer r)) } → e = some (.lin t (.op o d) r) →
            (s'.ub = false → ∃ ph' m', Good sem m₀ todo s' (l ++ e.toList) ph' m') ∧ (s'.ub = true → Bad sem m₀ todo (l ++ e.toList)) := by
          intro r s₁ hi hs hf h1 h2
          subst h1 h2
          refine ⟨fun _ => ⟨set ph t (.done (.op o d) r), set m o s₁, g.follows.snoc ⟨hp, rfl⟩, ?_, ?_, ?_,
            hbegin _ _ rfl (by intro u d h; cases h)⟩, fun hub => absurd hub hu⟩
          · rw [Option.toList_some, order_append]
            refine g.replays.snoc ?_
            rw [effect_op]
            unfold onObj
            cases r with
            | ok v => rw [show StringBuffer.step sem d (m o) = .ret s₁ v from hi]; exact rfl
            | error v => rw [show StringBuffer.step sem d (m o) = .exc s₁ v from hi]; exact rfl
          · refine others (t := t) g (fun u hu => set_ne _ _ hu) (fun u hu => set_ne _ _ hu) (fun u o' hu => ?_) (fun u o₁ hu ho => ?_) ?_
            · by_cases ho : o' = o
              · subst ho
                simp only [set_eq, hw, Option.some.injEq]
                exact ⟨fun h => (nomatch h), fun h => absurd h.symm hu⟩
              · simp only [set_ne _ _ ho]
            · have : o₁ ≠ o := by
                intro he; subst he
                rw [hw] at ho
                exact hu (Option.some.inj ho).symm
              exact ⟨rfl, set_ne _ _ this⟩
            · simp only [set_eq]
              refine .done _ r rfl fun o' h => ?_
              by_cases ho : o' = o
              · subst ho; simp only [set_eq] at h; cases h
              · simp only [set_ne _ _ ho] at h
                exact ho (huniq o' h)
          · intro o' h
            by_cases ho : o' = o
            · subst ho
              simp only [set_eq]
              exact ⟨hs, hf⟩
            · simp only [set_ne _ _ ho] at h ⊢
              exact g.objs o' h
        cases x with
        | ok v =>
          simp only [Prog.after, Prog.release, advance, releaseEv, Option.some.injEq, Prod.mk.injEq] at h
          exact fin (.ok v) _ he.1 rfl he.2 h.1.symm h.2.symm
        | throw v =>
          simp only [Prog.after, Prog.release, advance, releaseEv, Option.some.injEq, Prod.mk.injEq] at h
          exact fin (.error v) _ he.1 rfl he.2 h.1.symm h.2.symm
        | ub =>
          simp only [Prog.after, Prog.release, advance, Option.some.injEq, Prod.mk.injEq] at h
          obtain ⟨rfl, rfl⟩ := h
          refine ⟨fun h => (nomatch h), fun _ => ⟨t, .op o d, ph, m, by simpa using g.follows, by simpa using g.replays,
            fun u => ⟨s.todo u, by simpa using g.begins u⟩, hp, ?_⟩⟩
          rw [effect_op]
          unfold onObj
          rw [show StringBuffer.step sem d (m o) = .ub from he]
        | diverge =>
          simp only [Prog.after, Prog.release, advance] at h
          cases h

theorem good_start (m₀ : Nat → SB) (todo : Nat → List Call) :
    Good sem m₀ todo (start m₀ todo) [] (fun _ => .idle) m₀ :=
  ⟨rfl, rfl, fun _ => .idle rfl fun _ h => (nomatch h), fun _ _ => ⟨rfl, rfl⟩, fun _ => rfl⟩

theorem step_ub {s : St} (h : s.ub = true) (t : Nat) : Sync.step sem t s = none := by
  unfold Sync.step
  rw [if_pos h]

/-- Every run keeps the invariant up to the point where something undefined happens. -/
theorem good_runs (hall : ∀ t, ∀ c ∈ todo t, Guarded c) (sched : List Nat) (s s' : St) (l l' : List Ev) (ph : Nat → Phase) (m : Nat → SB)
    (hu : s.ub = false) (g : Good sem m₀ todo s l ph m) (h : runs sem sched s = some (s', l')) :
    (s'.ub = false → ∃ ph' m', Good sem m₀ todo s' (l ++ l') ph' m') ∧ (s'.ub = true → Bad sem m₀ todo (l ++ l')) := by
  induction sched generalizing s l l' ph m with
  | nil =>
    simp only [runs, Option.some.injEq, Prod.mk.injEq] at h
    obtain ⟨rfl, rfl⟩ := h
    exact ⟨fun _ => ⟨ph, m, by simpa using g⟩, fun h => absurd h (by rw [hu]; exact fun h => nomatch h)⟩
  | cons t ts ih =>
    simp only [runs] at h
    cases hs : Sync.step sem t s with
    | none => rw [hs] at h; cases h
    | some r =>
      obtain ⟨s₁, e⟩ := r
      rw [hs] at h
      simp only at h
      have hg := g.step hall hs
      cases hr : runs sem ts s₁ with
      | none => rw [hr] at h; cases h
      | some r =>
        rw [hr] at h
        simp only [Option.map_some, Option.some.injEq, Prod.mk.injEq] at h
        obtain ⟨rfl, rfl⟩ := h
        cases hub : s₁.ub with
        | false =>
          obtain ⟨ph', m', g'⟩ := hg.1 hub
          have := ih s₁ (l ++ e.toList) r.2 ph' m' hub g' hr
          rw [List.append_assoc] at this
          exact this
        | true =>
          cases ts with
          | nil =>
            simp only [runs, Option.some.injEq] at hr
            subst hr
            simp only [List.append_nil]
            exact ⟨fun h => absurd h (by rw [hub]; exact fun h => nomatch h), fun _ => hg.2 hub⟩
          | cons u ts =>
            simp only [runs, step_ub hub] at hr
            cases hr

end Verif.StringBuffer.Sync
