import Verif.Cuckoo.Full
/-! # Lemmas about runs, and about steps that end -/
namespace Verif.Cuckoo

variable {K V : Type} [DecidableEq K]

/-! ## No step waits for ever -/

def Ends {α : Type} (o : Outcome α) : Prop := o ≠ .diverge

theorem Ends.ok {α : Type} (a : α) : Ends (Outcome.ok a) := by intro h; cases h
theorem Ends.ub {α : Type} : Ends (Outcome.ub : Outcome α) := by intro h; cases h
theorem Ends.throw {α : Type} (e : Exc) : Ends (Outcome.throw e : Outcome α) := by intro h; cases h

theorem Ends.bind {α β : Type} {o : Outcome α} {f : α → Outcome β} (h : Ends o) (hf : ∀ a, Ends (f a)) : Ends (o.bind f) := by
  cases o with
  | ok a => exact hf a
  | throw e => exact Ends.throw e
  | ub => exact Ends.ub
  | diverge => exact absurd rfl h

theorem setKV_ends (b : Buckets K V) (i s : Nat) (e : Entry K V) : Ends (setKV b i s e) := by
  unfold setKV; split <;> first | exact .ok _ | exact .ub

theorem eraseKV_ends (b : Buckets K V) (i s : Nat) : Ends (eraseKV b i s) := by
  unfold eraseKV; split <;> first | exact .ok _ | exact .ub

theorem moveSlots_ends (cfg : Cfg K) (oldHp newHp : Nat) (old : Buckets K V) (ind : Nat) :
    ∀ (l : List Nat) (n : Nat) (new : Buckets K V), Ends (moveSlots cfg oldHp newHp old ind l n new) := by
  intro l
  induction l with
  | nil => intro n new; exact .ok _
  | cons s rest ih =>
    intro n new
    unfold moveSlots
    cases old ind s with
    | none => exact ih _ _
    | some e =>
      simp only
      split
      · exact (setKV_ends _ _ _ _).bind fun _ => ih _ _
      · exact (setKV_ends _ _ _ _).bind fun _ => ih _ _

theorem moveBuckets_ends (cfg : Cfg K) (oldHp newHp : Nat) (old : Buckets K V) :
    ∀ (l : List Nat) (new : Buckets K V), Ends (moveBuckets cfg oldHp newHp old l new) := by
  intro l
  induction l with
  | nil => intro new; exact .ok _
  | cons i rest ih => intro new; exact (moveSlots_ends cfg oldHp newHp old i _ _ _).bind ih

theorem rehashLock_ends (cfg : Cfg K) (lazy : Bool) (t : Table K V) (l : Nat) : Ends (rehashLock cfg lazy t l) := by
  unfold rehashLock
  split
  · exact .ok _
  · split
    · exact .ub
    · apply (moveBuckets_ends cfg _ _ _ _ _).bind
      intro cur
      simp only
      split
      · split <;> exact .ok _
      · exact .ok _

theorem rehashLocks_ends (cfg : Cfg K) (lazy : Bool) : ∀ (ls : List Nat) (t : Table K V), Ends (rehashLocks cfg lazy ls t) := by
  intro ls
  induction ls with
  | nil => intro t; exact .ok _
  | cons l rest ih => intro t; exact (rehashLock_ends cfg lazy t l).bind ih

theorem section_ends (cfg : Cfg K) (hp : Nat) (bs : List Nat) (t : Table K V) : Ends (section_ cfg hp bs t) := by
  unfold section_
  split
  · exact .ok _
  · exact (rehashLocks_ends cfg _ _ _).bind fun _ => .ok _

theorem assignAt_ends (t : Table K V) (i s : Nat) (v : V) : Ends (assignAt t i s v) := by
  unfold assignAt; split <;> first | exact .ok _ | exact .ub

theorem addToBucket_ends (cfg : Cfg K) (t : Table K V) (i s : Nat) (e : Entry K V) : Ends (addToBucket cfg t i s e) := by
  unfold addToBucket; exact (setKV_ends _ _ _ _).bind fun _ => .ok _

theorem delFromBucket_ends (cfg : Cfg K) (t : Table K V) (i s : Nat) : Ends (delFromBucket cfg t i s) := by
  unfold delFromBucket; exact (eraseKV_ends _ _ _).bind fun _ => .ok _

theorem finish_ends (cfg : Cfg K) (t : Table K V) (k : K) (v : V) (i s : Nat) : Ends (finish cfg t k v i s) := by
  unfold finish
  simp only
  split
  · exact (assignAt_ends _ _ _ _).bind fun _ => .ok _
  · exact (addToBucket_ends _ _ _ _ _).bind fun _ => .ok _

theorem step_ends {cfg : Cfg K} {dbl : Table K V → Nat → Outcome (Table K V)} (hd : ∀ t hp, Ends (dbl t hp)) (t : Table K V)
    (pc : Pc K V) : Ends (step cfg dbl t pc) := by
  cases pc with
  | idle => exact .ok _
  | done c r => exact .ok _
  | snap c => exact .ok _
  | lock c hp =>
    cases c with
    | find k =>
      unfold step
      apply (section_ends cfg hp _ t).bind
      intro o
      cases o with
      | none => exact .ok _
      | some t' =>
        simp only
        cases cuckooFind cfg t'.cur k (partialKey (cfg.hash k)) (first hp (cfg.hash k)) (second hp (cfg.hash k)) with
        | none => exact .ok _
        | some p =>
          obtain ⟨i, s⟩ := p
          simp only
          cases t'.cur i s with
          | none => exact .ub
          | some e => exact .ok _
    | erase k =>
      unfold step
      apply (section_ends cfg hp _ t).bind
      intro o
      cases o with
      | none => exact .ok _
      | some t' =>
        simp only
        cases cuckooFind cfg t'.cur k (partialKey (cfg.hash k)) (first hp (cfg.hash k)) (second hp (cfg.hash k)) with
        | none => exact .ok _
        | some p => exact (delFromBucket_ends cfg _ _ _).bind fun _ => .ok _
    | assign k v =>
      unfold step
      apply (section_ends cfg hp _ t).bind
      intro o
      cases o with
      | none => exact .ok _
      | some t' =>
        simp only
        cases tryFindInsert cfg (t'.cur (first hp (cfg.hash k))) (partialKey (cfg.hash k)) k with
        | duplicate s => exact (assignAt_ends _ _ _ _).bind fun _ => .ok _
        | free r1 =>
          simp only
          cases tryFindInsert cfg (t'.cur (second hp (cfg.hash k))) (partialKey (cfg.hash k)) k with
          | duplicate s => exact (assignAt_ends _ _ _ _).bind fun _ => .ok _
          | free r2 =>
            cases r1 with
            | some s => exact (addToBucket_ends _ _ _ _ _).bind fun _ => .ok _
            | none =>
              cases r2 with
              | some s => exact (addToBucket_ends _ _ _ _ _).bind fun _ => .ok _
              | none => exact .ok _
  | search k v hp q last =>
    cases q with
    | nil => exact .ok _
    | cons x q =>
      unfold step
      apply (section_ends cfg hp _ t).bind
      intro o
      cases o with
      | none => exact .ok _
      | some t' =>
        simp only
        cases scanSlots (t'.cur x.bucket) hp x (List.range SLOTS) [] with
        | found s => exact .ok _
        | more cs =>
          simp only
          split
          · exact .ub
          · exact .ok _
  | path k v hp recs b ss =>
    cases ss with
    | nil => exact .ub
    | cons s rest =>
      unfold step
      apply (section_ends cfg hp _ t).bind
      intro o
      cases o with
      | none => exact .ok _
      | some t' =>
        simp only
        cases t'.cur b s with
        | none => exact .ok _
        | some e =>
          simp only
          split <;> exact .ok _
  | move k v hp recs d =>
    cases d with
    | zero =>
      unfold step
      apply (section_ends cfg hp _ t).bind
      intro o
      cases o with
      | none => exact .ok _
      | some t' =>
        simp only
        cases recs[0]? with
        | none => exact .ub
        | some r =>
          simp only
          cases t'.cur r.bucket r.slot with
          | some e => exact .ok _
          | none => exact finish_ends _ _ _ _ _ _
    | succ d =>
      unfold step
      simp only
      cases recs[d]? with
      | none => exact .ub
      | some from_ =>
        cases recs[d + 1]? with
        | none => exact .ub
        | some to =>
          simp only
          apply (section_ends cfg hp _ t).bind
          intro o
          cases o with
          | none => exact .ok _
          | some t' =>
            simp only
            cases t'.cur to.bucket to.slot with
            | some e => exact .ok _
            | none =>
              cases t'.cur from_.bucket from_.slot with
              | none => exact .ok _
              | some e =>
                simp only
                split
                · exact .ok _
                · apply (setKV_ends _ _ _ _).bind
                  intro cur
                  apply (eraseKV_ends _ _ _).bind
                  intro cur
                  split
                  · cases recs[0]? with
                    | none => exact .ub
                    | some r => exact finish_ends _ _ _ _ _ _
                  · exact .ok _
  | double k v hp =>
    unfold step
    simp only
    have := hd t hp
    cases hx : dbl t hp with
    | ok t' => exact .ok _
    | throw e => exact .ok _
    | ub => exact .ub
    | diverge => exact absurd hx this

theorem fastDouble_ends (cfg : Cfg K) (t : Table K V) (hp : Nat) : Ends (fastDouble cfg t hp) := by
  unfold fastDouble
  split
  · exact .throw _
  · split
    · exact .ok _
    · exact (rehashLocks_ends cfg _ _ _).bind fun _ => .ok _

/-! ## Only a failed search refuses -/

/-- The step does not end in an exception for a low load. -/
def High (o : Outcome (Table K V × Pc K V)) : Prop := ∀ t c, o ≠ .ok (t, .done c .tooLow)

theorem High.bind {α : Type} {o : Outcome α} {f : α → Outcome (Table K V × Pc K V)} (hf : ∀ a, High (f a)) : High (o.bind f) := by
  cases o with
  | ok a => exact hf a
  | throw e => intro t c h; cases h
  | ub => intro t c h; cases h
  | diverge => intro t c h; cases h

local macro "high" : tactic => `(tactic| (intro _ _ h; cases h))

theorem finish_high (cfg : Cfg K) (t : Table K V) (k : K) (v : V) (i s : Nat) : High (finish cfg t k v i s) := by
  unfold finish
  simp only
  split
  · exact High.bind fun _ => by high
  · exact High.bind fun _ => by high

theorem step_high {cfg : Cfg K} {dbl : Table K V → Nat → Outcome (Table K V)} (t : Table K V) (pc : Pc K V)
    (h1 : ∀ c r, pc ≠ .done c r) (h2 : ∀ k v hp, pc ≠ .double k v hp) : High (step cfg dbl t pc) := by
  cases pc with
  | idle => high
  | done c r => exact absurd rfl (h1 c r)
  | snap c => high
  | lock c hp =>
    cases c with
    | find k =>
      unfold step
      apply High.bind
      intro o
      cases o with
      | none => high
      | some t' =>
        simp only
        cases cuckooFind cfg t'.cur k (partialKey (cfg.hash k)) (first hp (cfg.hash k)) (second hp (cfg.hash k)) with
        | none => high
        | some p =>
          obtain ⟨i, s⟩ := p
          simp only
          cases t'.cur i s with
          | none => high
          | some e => high
    | erase k =>
      unfold step
      apply High.bind
      intro o
      cases o with
      | none => high
      | some t' =>
        simp only
        cases cuckooFind cfg t'.cur k (partialKey (cfg.hash k)) (first hp (cfg.hash k)) (second hp (cfg.hash k)) with
        | none => high
        | some p => exact High.bind fun _ => by high
    | assign k v =>
      unfold step
      apply High.bind
      intro o
      cases o with
      | none => high
      | some t' =>
        simp only
        cases tryFindInsert cfg (t'.cur (first hp (cfg.hash k))) (partialKey (cfg.hash k)) k with
        | duplicate s => exact High.bind fun _ => by high
        | free r1 =>
          simp only
          cases tryFindInsert cfg (t'.cur (second hp (cfg.hash k))) (partialKey (cfg.hash k)) k with
          | duplicate s => exact High.bind fun _ => by high
          | free r2 =>
            cases r1 with
            | some s => exact High.bind fun _ => by high
            | none =>
              cases r2 with
              | some s => exact High.bind fun _ => by high
              | none => high
  | search k v hp q last =>
    cases q with
    | nil => high
    | cons x q =>
      unfold step
      apply High.bind
      intro o
      cases o with
      | none => high
      | some t' =>
        simp only
        cases scanSlots (t'.cur x.bucket) hp x (List.range SLOTS) [] with
        | found s => high
        | more cs =>
          simp only
          split
          · high
          · high
  | path k v hp recs b ss =>
    cases ss with
    | nil => high
    | cons s rest =>
      unfold step
      apply High.bind
      intro o
      cases o with
      | none => high
      | some t' =>
        simp only
        cases t'.cur b s with
        | none => high
        | some e =>
          simp only
          split <;> high
  | move k v hp recs d =>
    cases d with
    | zero =>
      unfold step
      apply High.bind
      intro o
      cases o with
      | none => high
      | some t' =>
        simp only
        cases recs[0]? with
        | none => high
        | some r =>
          simp only
          cases t'.cur r.bucket r.slot with
          | some e => high
          | none => exact finish_high _ _ _ _ _ _
    | succ d =>
      unfold step
      simp only
      cases recs[d]? with
      | none => high
      | some from_ =>
        cases recs[d + 1]? with
        | none => high
        | some to =>
          simp only
          apply High.bind
          intro o
          cases o with
          | none => high
          | some t' =>
            simp only
            cases t'.cur to.bucket to.slot with
            | some e => high
            | none =>
              cases t'.cur from_.bucket from_.slot with
              | none => high
              | some e =>
                simp only
                split
                · high
                · apply High.bind
                  intro cur
                  apply High.bind
                  intro cur
                  split
                  · cases recs[0]? with
                    | none => high
                    | some r => exact finish_high _ _ _ _ _ _
                  · high
  | double k v hp => exact absurd rfl (h2 k v hp)

/-! ## Runs -/

theorem Run.append {cfg : Cfg K} {dbl : Table K V → Nat → Outcome (Table K V)} {s s' s'' : Sys K V} {es es' : List (Ev K V)}
    (h : Run cfg dbl s es s') (h' : Run cfg dbl s' es' s'') : Run cfg dbl s (es ++ es') s'' := by
  induction h with
  | nil s => exact h'
  | cons h _ ih => exact .cons h (ih h')

theorem goto_self (f : Nat → Pc K V) (i : Nat) (p q : Pc K V) : goto (goto f i p) i q = goto f i q := by
  funext j; unfold goto; split <;> rfl

theorem goto_same (f : Nat → Pc K V) (i : Nat) : goto f i (f i) = f := by
  funext j; unfold goto; split
  · next h => rw [h]
  · rfl

theorem goto_at (f : Nat → Pc K V) (i : Nat) (p : Pc K V) : goto f i p i = p := if_pos rfl

/-- A call that one thread brings to its end while the others rest is a run. -/
theorem run_alone {cfg : Cfg K} {dbl : Table K V → Nat → Outcome (Table K V)} (f : Nat → Pc K V) (i : Nat) {t' : Table K V} {c : Call K V} {r : Res V} :
    ∀ (n : Nat) (t : Table K V) (pc : Pc K V), runAlone cfg dbl n t pc = .ok (t', .done c r) →
    ∃ es, Run cfg dbl ⟨t, goto f i pc⟩ es ⟨t', goto f i (.done c r)⟩ ∧ ∀ e, e ∈ es → e = .tau i := by
  intro n
  induction n with
  | zero => intro t pc h; cases h
  | succ n ih =>
    intro t pc h
    have main : (step cfg dbl t pc).bind (fun r => runAlone cfg dbl n r.1 r.2) = .ok (t', .done c r) →
        ∃ es, Run cfg dbl ⟨t, goto f i pc⟩ es ⟨t', goto f i (.done c r)⟩ ∧ ∀ e, e ∈ es → e = .tau i := by
      intro h
      cases hs : step cfg dbl t pc with
      | ok p =>
        obtain ⟨t1, pc1⟩ := p
        rw [hs, Outcome.bind_ok] at h
        obtain ⟨es, h1, h2⟩ := ih t1 pc1 h
        refine ⟨.tau i :: es, .cons (s' := ⟨t1, goto f i pc1⟩) ?_ h1, ?_⟩
        · have := Step.work (cfg := cfg) (dbl := dbl) ⟨t, goto f i pc⟩ i t1 pc1 (by show step cfg dbl t (goto f i pc i) = _; rw [goto_at]; exact hs)
          rw [goto_self] at this
          exact this
        · intro e he
          rcases List.mem_cons.mp he with he | he
          · exact he
          · exact h2 e he
      | throw e => rw [hs] at h; cases h
      | ub => rw [hs] at h; cases h
      | diverge => rw [hs] at h; cases h
    cases pc with
    | done c' r' =>
      have h : (Outcome.ok (t, Pc.done c' r') : Outcome _) = .ok (t', .done c r) := h
      injection h with h; injection h with h1 h2; injection h2 with h2 h3
      subst h1 h2 h3
      exact ⟨[], .nil _, by intro e he; cases he⟩
    | idle => exact main h
    | snap _ => exact main h
    | lock _ _ => exact main h
    | search _ _ _ _ _ => exact main h
    | path _ _ _ _ _ _ => exact main h
    | move _ _ _ _ _ => exact main h
    | double _ _ _ => exact main h

theorem run_call {cfg : Cfg K} {dbl : Table K V → Nat → Outcome (Table K V)} {f : Nat → Pc K V} {i : Nat} (hi : f i = .idle)
    {t t' : Table K V} {c : Call K V} {r : Res V} {n : Nat} (h : runAlone cfg dbl n t (.snap c) = .ok (t', .done c r)) :
    ∃ es, Run cfg dbl ⟨t, f⟩ (.call i c :: (es ++ [.ret i c r])) ⟨t', f⟩ ∧ ∀ e, e ∈ es → e = .tau i := by
  obtain ⟨es, h1, h2⟩ := run_alone f i n t (.snap c) h
  refine ⟨es, .cons (Step.call ⟨t, f⟩ i c hi) (h1.append (.cons (s' := ⟨t', f⟩) ?_ (.nil _))), h2⟩
  have := Step.ret (cfg := cfg) (dbl := dbl) ⟨t', goto f i (.done c r)⟩ i c r (goto_at _ _ _)
  rw [goto_self] at this
  have hf : goto f i .idle = f := by rw [← hi]; exact goto_same f i
  rw [hf] at this
  exact this

end Verif.Cuckoo
