import Verif.StringBuffer.SyncInv
/-!
# Possible sequences of events
-/
namespace Verif.StringBuffer.Sync

open Verif.StringBuilder (SB)
open Verif.StringBuffer (Op Ans)

/-- An answer was given when the call took effect. -/
theorem Follows.answered {p p' : Nat → Phase} {l : List Ev} (h : Follows p l p') {t : Nat} {c : Call} {r : Answer} (hm : Ev.res t c r ∈ l) :
    (c, r) ∈ order l ∨ p t = .done c r := by
  induction l generalizing p with
  | nil => cases hm
  | cons e l ih =>
    obtain ⟨p₁, hn, hf⟩ := h
    rcases List.mem_cons.1 hm with rfl | hm
    · exact .inr hn.1
    · rcases ih hf hm with h | h
      · left; cases e <;> simp [order, h]
      · cases e with
        | inv u d =>
          rw [hn.2] at h
          by_cases ht : t = u
          · subst ht; rw [set_eq] at h; cases h
          · rw [set_ne _ _ ht] at h; exact .inr h
        | lin u d r' =>
          rw [hn.2] at h
          by_cases ht : t = u
          · subst ht; rw [set_eq] at h; cases h; left; simp [order]
          · rw [set_ne _ _ ht] at h; exact .inr h
        | res u d r' =>
          rw [hn.2] at h
          by_cases ht : t = u
          · subst ht; rw [set_eq] at h; cases h
          · rw [set_ne _ _ ht] at h; exact .inr h

/-- A call that took effect was begun. -/
theorem Follows.called {p p' : Nat → Phase} {l : List Ev} (h : Follows p l p') {c : Call} {r : Answer} (hm : (c, r) ∈ order l) :
    (∃ t, Ev.inv t c ∈ l) ∨ ∃ t, p t = .busy c := by
  induction l generalizing p with
  | nil => cases hm
  | cons e l ih =>
    obtain ⟨p₁, hn, hf⟩ := h
    have back : (c, r) ∈ order l → (∀ t, p₁ t = .busy c → p t = .busy c ∨ Ev.inv t c = e) →
        (∃ t, Ev.inv t c ∈ e :: l) ∨ ∃ t, p t = .busy c := by
      intro hm hb
      rcases ih hf hm with ⟨t, h⟩ | ⟨t, h⟩
      · exact .inl ⟨t, List.mem_cons_of_mem _ h⟩
      · rcases hb t h with h | h
        · exact .inr ⟨t, h⟩
        · exact .inl ⟨t, by rw [h]; exact List.mem_cons_self⟩
    cases e with
    | inv u d =>
      refine back hm fun t h => ?_
      rw [hn.2] at h
      by_cases ht : t = u
      · subst ht; rw [set_eq] at h; cases h; exact .inr rfl
      · rw [set_ne _ _ ht] at h; exact .inl h
    | lin u d r' =>
      simp only [order, List.mem_cons] at hm
      rcases hm with hm | hm
      · cases hm; exact .inr ⟨u, hn.1⟩
      · refine back hm fun t h => ?_
        rw [hn.2] at h
        by_cases ht : t = u
        · subst ht; rw [set_eq] at h; cases h
        · rw [set_ne _ _ ht] at h; exact .inl h
    | res u d r' =>
      refine back hm fun t h => ?_
      rw [hn.2] at h
      by_cases ht : t = u
      · subst ht; rw [set_eq] at h; cases h
      · rw [set_ne _ _ ht] at h; exact .inl h

/-- Number of calls begun. -/
def begins : List Ev → Nat
  | [] => 0
  | .inv _ _ :: l => begins l + 1
  | _ :: l => begins l

/-- No more calls take effect than were begun. -/
theorem Follows.count {p p' : Nat → Phase} {l : List Ev} (h : Follows p l p') (b : List Nat) (hb : ∀ t c, p t = .busy c → t ∈ b) :
    (order l).length ≤ b.length + begins l := by
  induction l generalizing p b with
  | nil => simp [order]
  | cons e l ih =>
    obtain ⟨p₁, hn, hf⟩ := h
    cases e with
    | inv u d =>
      have := ih hf (u :: b) fun t c h => by
        rw [hn.2] at h
        by_cases ht : t = u
        · rw [ht]; exact List.mem_cons_self
        · rw [set_ne _ _ ht] at h; exact List.mem_cons_of_mem _ (hb t c h)
      simp only [order, begins, List.length_cons] at this ⊢
      omega
    | lin u d r =>
      have hu := hb u d hn.1
      have := ih hf (b.erase u) fun t c h => by
        rw [hn.2] at h
        by_cases ht : t = u
        · subst ht; rw [set_eq] at h; cases h
        · rw [set_ne _ _ ht] at h; exact (List.mem_erase_of_ne ht).2 (hb t c h)
      rw [List.length_erase_of_mem hu] at this
      have : 0 < b.length := List.length_pos_of_mem hu
      simp only [order, begins, List.length_cons]
      omega
    | res u d r =>
      have := ih hf b fun t c h => by
        rw [hn.2] at h
        by_cases ht : t = u
        · subst ht; rw [set_eq] at h; cases h
        · rw [set_ne _ _ ht] at h; exact hb t c h
      simp only [order, begins]
      exact this

theorem begins_seen (l : List Ev) : begins (l.filter Ev.seen) = begins l := by
  induction l with
  | nil => rfl
  | cons e l ih => cases e <;> simp [List.filter, Ev.seen, begins, ih]

/-- What a caller sees of calls that can be put in order: at most as many take effect
as were begun, each of them was begun, and every answer seen is among theirs. -/
theorem Linearizable.bound {sem : Sem} {m : Nat → SB} {seen : List Ev} (h : Linearizable sem m seen) :
    ∃ o m', Replays sem m o m' ∧ o.length ≤ begins seen ∧ (∀ c r, (c, r) ∈ o → ∃ t, Ev.inv t c ∈ seen) ∧
      ∀ t c r, Ev.res t c r ∈ seen → (c, r) ∈ o := by
  obtain ⟨m', l, hl, ⟨p, hf⟩, hr⟩ := h
  refine ⟨order l, m', hr, ?_, ?_, ?_⟩
  · have := hf.count [] fun t c h => nomatch h
    rw [← hl, begins_seen]
    simpa using this
  · intro c r hm
    rcases hf.called hm with ⟨t, h⟩ | ⟨t, h⟩
    · exact ⟨t, by rw [← hl]; exact List.mem_filter.2 ⟨h, rfl⟩⟩
    · cases h
  · intro t c r hm
    rw [← hl] at hm
    rcases hf.answered (List.mem_filter.1 hm).1 with h | h
    · exact h
    · cases h

/-! ## Threads in the order of effect -/

/-- The calls that took effect, with their threads. -/
def orderOf : List Ev → List (Nat × Call)
  | [] => []
  | .lin t c _ :: l => (t, c) :: orderOf l
  | _ :: l => orderOf l

/-- Those of one thread. -/
def own (t : Nat) (o : List (Nat × Call)) : List Call := (o.filter fun x => x.1 = t).map Prod.snd

/-- The call in progress, if it has not taken effect. -/
def Phase.open : Phase → List Call
  | .busy c => [c]
  | _ => []

theorem Follows.inOrder {p p' : Nat → Phase} {l : List Ev} (h : Follows p l p') (t : Nat) :
    (p t).open ++ begun t l = own t (orderOf l) ++ (p' t).open := by
  induction l generalizing p with
  | nil => cases h; simp [begun, orderOf, own]
  | cons e l ih =>
    obtain ⟨p₁, hn, hf⟩ := h
    have ih := ih hf
    cases e with
    | inv u d =>
      rw [hn.2] at ih
      by_cases ht : t = u
      · subst ht
        rw [set_eq] at ih
        simp only [hn.1, Phase.open, begun, orderOf, if_pos, List.nil_append]
        simpa [Phase.open] using ih
      · rw [set_ne _ _ ht] at ih
        simp only [begun, orderOf, if_neg (Ne.symm ht)]
        exact ih
    | lin u d r =>
      rw [hn.2] at ih
      by_cases ht : t = u
      · subst ht
        rw [set_eq] at ih
        simp only [Phase.open, List.nil_append] at ih
        simp [hn.1, Phase.open, begun, orderOf, own, ih]
      · rw [set_ne _ _ ht] at ih
        have : own t ((u, d) :: orderOf l) = own t (orderOf l) := by
          unfold own
          rw [List.filter_cons_of_neg (by simpa using Ne.symm ht)]
        simp only [begun, orderOf, this]
        exact ih
    | res u d r =>
      rw [hn.2] at ih
      by_cases ht : t = u
      · subst ht
        rw [set_eq] at ih
        simp only [hn.1, Phase.open, begun, orderOf]
        exact ih
      · rw [set_ne _ _ ht] at ih
        exact ih

theorem order_orderOf (l : List Ev) : (order l).map Prod.fst = (orderOf l).map Prod.snd := by
  induction l with
  | nil => rfl
  | cons e l ih => cases e <;> simp [order, orderOf, ih]

/-- Total size, thread by thread. -/
theorem size_le (f : Call → Nat) (n : Nat) (o : List (Nat × Call)) (b : Nat → Nat) (hn : ∀ x ∈ o, x.1 < n)
    (hb : ∀ t, ((own t o).map f).sum ≤ b t) : (o.map fun x => f x.2).sum ≤ ((List.range n).map b).sum := by
  have part : ∀ (k : Nat) (o : List (Nat × Call)), (o.map fun x => f x.2).sum =
      ((own k o).map f).sum + ((o.filter fun x => ¬ x.1 = k).map fun x => f x.2).sum := by
    intro k o
    induction o with
    | nil => rfl
    | cons x o ih =>
      unfold own at ih ⊢
      by_cases h : x.1 = k
      · rw [List.filter_cons_of_pos (by simpa using h), List.filter_cons_of_neg (by simpa using h)]
        simp only [List.map_cons, List.sum_cons]
        omega
      · rw [List.filter_cons_of_neg (by simpa using h), List.filter_cons_of_pos (by simpa using h)]
        simp only [List.map_cons, List.sum_cons]
        omega
  induction n generalizing o with
  | zero =>
    cases o with
    | nil => simp
    | cons x o => exact absurd (hn x List.mem_cons_self) (Nat.not_lt_zero _)
  | succ n ih =>
    rw [List.range_succ, List.map_append, List.sum_append, part n o]
    have h1 := hb n
    have h2 := ih (o.filter fun x => ¬ x.1 = n) (fun x hx => by
      have := List.mem_filter.1 hx
      have h1 := hn x this.1
      have h2 : ¬ x.1 = n := by simpa using this.2
      omega) (fun t => by
      refine Nat.le_trans ?_ (hb t)
      by_cases ht : t = n
      · have : own t (o.filter fun x => ¬ x.1 = n) = [] := by
          unfold own
          rw [List.filter_filter, List.map_eq_nil_iff, List.filter_eq_nil_iff]
          intro x _
          simp only [Bool.and_eq_true, decide_eq_true_eq, not_and]
          intro h; rw [h, ht]; simp
        rw [this]
        exact Nat.zero_le _
      · have : own t (o.filter fun x => ¬ x.1 = n) = own t o := by
          unfold own
          rw [List.filter_filter]
          congr 1
          apply List.filter_congr
          intro x _
          by_cases hx : x.1 = t
          · simp [hx, ht]
          · simp [hx]
        rw [this]
        exact Nat.le_refl _)
    simp only [List.map_cons, List.map_nil, List.sum_cons, List.sum_nil]
    omega

end Verif.StringBuffer.Sync
