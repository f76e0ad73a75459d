import Verif.UuidClock.Text
/-! # The chain of states in the file -/
namespace Verif.UuidClock

open Verif.JString (Str)
open Verif.LibUuid (TimeVal Clock clockReg tryClock startClock clocks backSteps NoLongRun Sane)

/-! ## Sublists of readings -/

/-- The first time is before the second. -/
def Earlier (a b : TimeVal) : Prop := a.sec < b.sec ∨ (a.sec = b.sec ∧ a.usec < b.usec)

instance (a b : TimeVal) : Decidable (Earlier a b) := by unfold Earlier; infer_instance

theorem backSteps_cons (a b : TimeVal) (l : List TimeVal) : backSteps (a :: b :: l) = (if Earlier b a then 1 else 0) + backSteps (b :: l) := rfl

theorem backSteps_drop (a x : TimeVal) (l : List TimeVal) : backSteps (a :: l) ≤ backSteps (a :: x :: l) := by
  cases l with
  | nil => exact Nat.zero_le _
  | cons b l =>
    rw [backSteps_cons, backSteps_cons, backSteps_cons]
    by_cases h1 : Earlier b a
    · by_cases h2 : Earlier x a
      · rw [if_pos h1, if_pos h2]; omega
      · have h3 : Earlier b x := by unfold Earlier at *; omega
        rw [if_pos h1, if_neg h2, if_pos h3]; omega
    · rw [if_neg h1]; omega

theorem backSteps_tail (a : TimeVal) (l : List TimeVal) : backSteps l ≤ backSteps (a :: l) := by
  cases l with
  | nil => exact Nat.zero_le _
  | cons b l => rw [backSteps_cons]; omega

theorem backSteps_after {l' l : List TimeVal} (h : l'.Sublist l) : ∀ a, backSteps (a :: l') ≤ backSteps (a :: l) := by
  induction h with
  | slnil => intro a; exact Nat.le_refl _
  | @cons l₁ l₂ x _ ih =>
    intro a
    exact Nat.le_trans (ih a) (backSteps_drop a x l₂)
  | @cons_cons l₁ l₂ x _ ih =>
    intro a
    rw [backSteps_cons, backSteps_cons]
    have := ih x
    omega

theorem backSteps_sublist {l' l : List TimeVal} (h : l'.Sublist l) : backSteps l' ≤ backSteps l := by
  induction h with
  | slnil => exact Nat.le_refl _
  | cons x _ ih => exact Nat.le_trans ih (backSteps_tail x _)
  | @cons_cons l₁ l₂ x h _ => exact backSteps_after h x

theorem FineClock.mono {l' l : List TimeVal} (h : l'.Sublist l) (hf : FineClock l) : FineClock l' :=
  ⟨fun tv ht => hf.1 tv (h.subset ht), fun tv => Nat.le_trans (h.count_le tv) (hf.2.1 tv), Nat.lt_of_le_of_lt (backSteps_sublist h) hf.2.2⟩

/-! ## The chain -/

/-- The state after some readings. -/
def after (c : Clock) : List TimeVal → Clock
  | [] => c
  | tv :: tvs =>
    match tryClock c tv with
    | none => after c tvs
    | some (c', _) => after c' tvs

theorem chain_snoc {tv : TimeVal} {c' : Clock} {r : BitVec 64 × BitVec 16} : ∀ (tvs : List TimeVal) (c : Clock),
    tryClock (after c tvs) tv = some (c', r) → after c (tvs ++ [tv]) = c' ∧ clocks c (tvs ++ [tv]) = clocks c tvs ++ [r] := by
  intro tvs
  induction tvs with
  | nil =>
    intro c h
    unfold after at h
    simp [after, clocks, h]
  | cons x tvs ih =>
    intro c h
    simp only [List.cons_append, after, clocks] at h ⊢
    cases hx : tryClock c x with
    | none =>
      rw [hx] at h
      simp only at h ⊢
      exact ih c h
    | some y =>
      obtain ⟨c₁, r₁⟩ := y
      rw [hx] at h
      simp only at h ⊢
      obtain ⟨h1, h2⟩ := ih c₁ h
      exact ⟨h1, by rw [h2, List.cons_append]⟩

/-- States that are written and read. -/
def Live (c : Clock) : Prop := Readable c ∧ 1 ≤ c.last.sec

theorem seq_mask (x : BitVec 16) : (x &&& 0x3FFF#16).toNat < 2 ^ 14 := by
  rw [BitVec.toNat_and, show (0x3FFF#16).toNat = 2 ^ 14 - 1 from rfl, Nat.and_two_pow_sub_one_eq_mod]
  exact Nat.mod_lt _ (by omega)

theorem live_start {now : TimeVal} (h : Sensible now) (rnd : BitVec 16) : Live (startClock now rnd) := by
  obtain ⟨h1, h2, h3, h4⟩ := h
  unfold startClock
  exact ⟨⟨by simp only; omega, by simp only; omega, h3, h4, by simp, by simp, seq_mask rnd⟩, by simp only; omega⟩

theorem tryClock_live {c : Clock} {tv : TimeVal} (hc : Live c) (htv : Sensible tv) {c' : Clock} {r : BitVec 64 × BitVec 16}
    (h : tryClock c tv = some (c', r)) : Live c' := by
  obtain ⟨⟨a1, a2, a3, a4, a5, a6, a7⟩, a8⟩ := hc
  obtain ⟨h1, h2, h3, h4⟩ := htv
  unfold tryClock at h
  split at h
  · cases h
    exact ⟨⟨by simp only; omega, h2, h3, h4, by simp, by simp, seq_mask _⟩, by simp only; omega⟩
  · split at h
    · split at h
      · cases h
      · cases h
        exact ⟨⟨a1, a2, a3, a4, by simp only; omega, by simp only; omega, a7⟩, a8⟩
    · cases h
      exact ⟨⟨by simp only; omega, h2, h3, h4, by simp, by simp, a7⟩, by simp only; omega⟩

theorem after_live : ∀ (tvs : List TimeVal) (c : Clock), Live c → (∀ tv ∈ tvs, Sensible tv) → Live (after c tvs) := by
  intro tvs
  induction tvs with
  | nil => intro c h _; exact h
  | cons x tvs ih =>
    intro c h hs
    unfold after
    cases hx : tryClock c x with
    | none => exact ih c h fun tv ht => hs tv (List.mem_cons_of_mem _ ht)
    | some y => exact ih _ (tryClock_live h (hs x List.mem_cons_self) hx) fun tv ht => hs tv (List.mem_cons_of_mem _ ht)

theorem chain_live {rs tvs : List TimeVal} {n : TimeVal} (hf : FineClock rs) (h : (n :: tvs).Sublist rs) (r : BitVec 16) :
    Live (after (startClock n r) tvs) :=
  after_live tvs _ (live_start (hf.1 n (h.subset List.mem_cons_self)) r) fun tv ht => hf.1 tv (h.subset (List.mem_cons_of_mem _ ht))

theorem Live.not_zero {c : Clock} (h : Live c) : ¬ (c.last.sec = 0 ∧ c.last.usec = 0) := by
  have := h.2
  omega

theorem Sensible.sane {tv : TimeVal} (h : Sensible tv) : Sane tv := ⟨by have := h.1; omega, h.2.1, h.2.2.1, h.2.2.2⟩

/-- The results of the chain are distinct and fit into a UUID. -/
theorem chain_distinct {rs tvs : List TimeVal} {n : TimeVal} (hf : FineClock rs) (h : (n :: tvs).Sublist rs) (r : BitVec 16) :
    (clocks (startClock n r) tvs).Pairwise (· ≠ ·) ∧ ∀ x ∈ clocks (startClock n r) tvs, x.1.toNat < 2 ^ 60 ∧ x.2.toNat < 2 ^ 14 := by
  have hall : ∀ tv ∈ tvs, Sensible tv := fun tv ht => hf.1 tv (h.subset (List.mem_cons_of_mem _ ht))
  have hn := hf.1 n (h.subset List.mem_cons_self)
  obtain ⟨n1, n2, n3, n4⟩ := hn
  have hc : ∀ tv, tvs.count tv ≤ 9 := fun tv =>
    Nat.le_trans (List.count_le_count_cons) (Nat.le_trans (h.count_le tv) (hf.2.1 tv))
  have hb : backSteps ((startClock n r).last :: tvs) < 2 ^ 14 := by
    refine Nat.lt_of_le_of_lt ?_ (Nat.lt_of_le_of_lt (backSteps_sublist h) hf.2.2)
    cases tvs with
    | nil => exact Nat.le_refl _
    | cons x tvs =>
      rw [backSteps_cons, backSteps_cons]
      by_cases h1 : Earlier x (startClock n r).last
      · have h2 : Earlier x n := by unfold Earlier startClock at *; simp only at h1; omega
        rw [if_pos h1, if_pos h2]
        exact Nat.le_refl _
      · rw [if_neg h1]; omega
  have hrun : NoLongRun (List.replicate ((startClock n r).adjustment.toNat + 1) (startClock n r).last ++ tvs) := by
    intro pre post v he
    have h1 := congrArg (List.count v) he
    rw [List.count_append, List.count_append, List.count_append, List.count_replicate_self] at h1
    have h2 : List.count v (List.replicate ((startClock n r).adjustment.toNat + 1) (startClock n r).last) ≤ 1 := by
      have := List.count_le_length (a := v) (l := List.replicate ((startClock n r).adjustment.toNat + 1) (startClock n r).last)
      rw [List.length_replicate] at this
      exact this
    have h3 := hc v
    omega
  obtain ⟨q1, q2, _⟩ := LibUuid.clocks_after tvs (startClock n r)
    ⟨by simp only [startClock]; omega, by simp only [startClock]; omega, n3, n4⟩ (seq_mask r) (by simp [startClock]) (by simp [startClock])
    (fun tv ht => (hall tv ht).sane) hrun hb
  exact ⟨q2, fun x hx => ⟨(q1 x hx).1, (q1 x hx).2.1⟩⟩

/-- Without steps back the registers of the chain rise. -/
theorem rising : ∀ (tvs : List TimeVal) (c : Clock), Sane c.last → c.seq.toNat < 2 ^ 14 → 0 ≤ c.adjustment → c.adjustment ≤ 9 →
    (∀ tv ∈ tvs, Sane tv) → (∀ v, (List.replicate (c.adjustment.toNat + 1) c.last ++ tvs).count v ≤ 10) → backSteps (c.last :: tvs) = 0 →
    (clocks c tvs).Pairwise fun x y => x.1.toNat < y.1.toNat := by
  intro tvs
  induction tvs with
  | nil => intro c _ _ _ _ _ _ _; exact .nil
  | cons tv tvs ih =>
    intro c hl hq ha ha' hall hcount hback
    have hrest : ∀ t ∈ tvs, Sane t := fun t ht => hall t (List.mem_cons_of_mem _ ht)
    rw [backSteps_cons] at hback
    have hb0 : ¬ Earlier tv c.last := by
      intro q
      rw [if_pos q] at hback
      omega
    have hb1 : backSteps (tv :: tvs) = 0 := by omega
    have key : ∀ c' : Clock, tryClock c tv = some (c', clockReg c'.last c'.adjustment, c'.seq) → c'.last = tv → 0 ≤ c'.adjustment →
        c'.adjustment ≤ 9 → c'.seq.toNat < 2 ^ 14 → (∀ v, (List.replicate (c'.adjustment.toNat + 1) c'.last ++ tvs).count v ≤ 10) →
        (clocks c (tv :: tvs)).Pairwise fun x y => x.1.toNat < y.1.toNat := by
      intro c' h1 h2 h3 h4 h5 h6
      have hs' : Sane c'.last := by rw [h2]; exact hall tv List.mem_cons_self
      have hr' : NoLongRun (List.replicate (c'.adjustment.toNat + 1) c'.last ++ tvs) := by
        intro pre post v he
        have q1 := congrArg (List.count v) he
        have q2 := h6 v
        simp only [List.count_append, List.count_replicate_self] at q1 q2
        omega
      have hb' : backSteps (c'.last :: tvs) = 0 := by rw [h2]; exact hb1
      obtain ⟨k1, _, _⟩ := LibUuid.clocks_after tvs c' hs' h5 h3 h4 hrest hr' (by omega)
      rw [clocks, h1]
      refine List.pairwise_cons.mpr ⟨fun x hx => ?_, ih c' hs' h5 h3 h4 hrest h6 hb'⟩
      obtain ⟨_, _, k, q1, _, q2⟩ := k1 x hx
      exact q2 (by omega)
    have hsub : ∀ v, List.count v (tv :: tvs) ≤ 10 := fun v => by
      have := hcount v
      rw [List.count_append] at this
      omega
    by_cases he : tv = c.last
    · have hc1 : ∀ v, (List.replicate (c.adjustment.toNat + 1 + 1) c.last ++ tvs).count v ≤ 10 := by
        intro v
        have := hcount v
        rw [he] at this
        rw [List.count_append, List.count_cons] at this
        rw [List.replicate_succ, List.cons_append, List.count_cons, List.count_append]
        omega
      have hadj : c.adjustment ≤ 8 := by
        have := hc1 c.last
        rw [List.count_append, List.count_replicate_self] at this
        omega
      refine key { c with adjustment := c.adjustment + 1 } ?_ he.symm (by simp only; omega) (by simp only; omega) hq ?_
      · have h1 : ¬ (tv.sec < c.last.sec ∨ (tv.sec = c.last.sec ∧ tv.usec < c.last.usec)) := hb0
        have h2 : tv.sec = c.last.sec ∧ tv.usec = c.last.usec := by rw [he]; exact ⟨rfl, rfl⟩
        unfold tryClock
        rw [if_neg h1, if_pos h2, if_neg (by omega), he]
      · have e : ({ c with adjustment := c.adjustment + 1 } : Clock).adjustment.toNat = c.adjustment.toNat + 1 := by simp only; omega
        rw [e]
        exact hc1
    · refine key { c with adjustment := 0, last := tv } ?_ rfl (by simp) (by simp) hq (by
        intro v
        exact hsub v)
      have h1 : ¬ (tv.sec < c.last.sec ∨ (tv.sec = c.last.sec ∧ tv.usec < c.last.usec)) := hb0
      have h2 : ¬ (tv.sec = c.last.sec ∧ tv.usec = c.last.usec) := by
        intro q
        apply he
        cases tv
        cases hcl : c.last
        rw [hcl] at q
        simp only at q
        rw [q.1, q.2]
      unfold tryClock
      rw [if_neg h1, if_neg h2]

theorem chain_rising {rs tvs : List TimeVal} {n : TimeVal} (hf : FineClock rs) (h : (n :: tvs).Sublist rs) (r : BitVec 16)
    (hb : backSteps rs = 0) : (clocks (startClock n r) tvs).Pairwise fun x y => x.1.toNat < y.1.toNat := by
  have hall : ∀ tv ∈ tvs, Sensible tv := fun tv ht => hf.1 tv (h.subset (List.mem_cons_of_mem _ ht))
  have hn := hf.1 n (h.subset List.mem_cons_self)
  obtain ⟨n1, n2, n3, n4⟩ := hn
  have hc : ∀ tv, tvs.count tv ≤ 9 := fun tv =>
    Nat.le_trans (List.count_le_count_cons) (Nat.le_trans (h.count_le tv) (hf.2.1 tv))
  refine rising tvs (startClock n r) ⟨by simp only [startClock]; omega, by simp only [startClock]; omega, n3, n4⟩ (seq_mask r)
    (by simp [startClock]) (by simp [startClock]) (fun tv ht => (hall tv ht).sane) ?_ ?_
  · intro v
    rw [List.count_append]
    have h2 : List.count v (List.replicate ((startClock n r).adjustment.toNat + 1) (startClock n r).last) ≤ 1 := by
      have := List.count_le_length (a := v) (l := List.replicate ((startClock n r).adjustment.toNat + 1) (startClock n r).last)
      rw [List.length_replicate] at this
      exact this
    have h3 := hc v
    omega
  · have h0 : backSteps (n :: tvs) = 0 := Nat.le_zero.mp (hb ▸ backSteps_sublist h)
    cases tvs with
    | nil => rfl
    | cons x tvs =>
      rw [backSteps_cons] at h0 ⊢
      by_cases h1 : Earlier x (startClock n r).last
      · have h2 : Earlier x n := by unfold Earlier startClock at *; simp only at h1; omega
        rw [if_pos h2] at h0
        omega
      · rw [if_neg h1]; omega

/-- An adjustment is at most the number of other equal readings. -/
theorem after_count : ∀ (tvs : List TimeVal) (c : Clock), 0 ≤ c.adjustment →
    0 ≤ (after c tvs).adjustment ∧
      (after c tvs).adjustment.toNat + 1 ≤ (List.replicate (c.adjustment.toNat + 1) c.last ++ tvs).count (after c tvs).last := by
  intro tvs
  induction tvs with
  | nil =>
    intro c h
    refine ⟨h, ?_⟩
    simp [after]
  | cons tv tvs ih =>
    intro c h
    rw [after]
    have hmono : ∀ (c' : Clock) v, (List.replicate (c'.adjustment.toNat + 1) c'.last).count v ≤
        (List.replicate (c.adjustment.toNat + 1) c.last ++ [tv]).count v →
        (List.replicate (c'.adjustment.toNat + 1) c'.last ++ tvs).count v ≤ (List.replicate (c.adjustment.toNat + 1) c.last ++ tv :: tvs).count v := by
      intro c' v q
      rw [show tv :: tvs = [tv] ++ tvs from rfl, ← List.append_assoc, List.count_append, List.count_append (l₂ := tvs)]
      omega
    unfold tryClock
    split
    · rename_i hx
      split at hx
      · cases hx
      · split at hx
        · split at hx
          · obtain ⟨q1, q2⟩ := ih c h
            refine ⟨q1, Nat.le_trans q2 (hmono c _ ?_)⟩
            rw [List.count_append]
            omega
          · cases hx
        · cases hx
    · rename_i c' r hx
      split at hx
      · cases hx
        obtain ⟨q1, q2⟩ := ih ⟨0, tv, _⟩ (by simp)
        refine ⟨q1, Nat.le_trans q2 (hmono _ _ ?_)⟩
        rw [List.count_append]
        exact Nat.le_add_left _ _
      · split at hx
        · rename_i h2
          split at hx
          · cases hx
          · cases hx
            obtain ⟨q1, q2⟩ := ih { c with adjustment := c.adjustment + 1 } (by simp only; omega)
            refine ⟨q1, Nat.le_trans q2 (hmono _ _ ?_)⟩
            have he : c.last = tv := by
              cases tv
              cases hcl : c.last
              rw [hcl] at h2
              simp only at h2
              rw [h2.1, h2.2]
            have e : (c.adjustment + 1).toNat = c.adjustment.toNat + 1 := by omega
            simp only
            rw [e, he, List.replicate_succ' (n := c.adjustment.toNat + 1)]
            exact Nat.le_refl _
        · cases hx
          obtain ⟨q1, q2⟩ := ih { c with adjustment := 0, last := tv } (by simp)
          refine ⟨q1, Nat.le_trans q2 (hmono _ _ ?_)⟩
          rw [List.count_append]
          exact Nat.le_add_left _ _

/-- The clock is never read again. -/
theorem chain_moves {rs tvs : List TimeVal} {n tv : TimeVal} (hf : FineClock rs) (h : (n :: (tvs ++ [tv])).Sublist rs) (r : BitVec 16) :
    ∃ b, branch (after (startClock n r) tvs) tv = some b := by
  unfold branch
  split
  · exact ⟨_, rfl⟩
  · split
    · rename_i h2
      split
      · rename_i h3
        exfalso
        obtain ⟨k1, k2⟩ := after_count tvs (startClock n r) (by simp [startClock])
        have he : tv = (after (startClock n r) tvs).last := by
          cases tv
          cases hcl : (after (startClock n r) tvs).last
          rw [hcl] at h2
          simp only at h2
          rw [h2.1, h2.2]
        rw [← he, List.count_append] at k2
        have h4 := hf.2.1 tv
        have h5 := h.count_le tv
        rw [List.count_cons, List.count_append, List.count_singleton_self] at h5
        have h6 : List.count tv (List.replicate ((startClock n r).adjustment.toNat + 1) (startClock n r).last) ≤ 1 := by
          have := List.count_le_length (a := tv) (l := List.replicate ((startClock n r).adjustment.toNat + 1) (startClock n r).last)
          rw [List.length_replicate] at this
          exact this
        omega
      · exact ⟨_, rfl⟩
    · exact ⟨_, rfl⟩

theorem branch_try {c : Clock} {tv : TimeVal} {b : Branch} (h : branch c tv = some b) :
    tryClock c tv = some (take c tv b, clockReg tv (take c tv b).adjustment, (take c tv b).seq) := by
  unfold branch at h
  unfold tryClock
  split at h
  · rename_i h1
    cases h
    rw [if_pos h1]
    rfl
  · rename_i h1
    rw [if_neg h1]
    split at h
    · rename_i h2
      rw [if_pos h2]
      split at h
      · cases h
      · rename_i h3
        cases h
        rw [if_neg h3]
        rfl
    · rename_i h2
      cases h
      rw [if_neg h2]
      rfl

/-! ## Histories -/

theorem readings_append (l l' : List Ev) : readings (l ++ l') = readings l ++ readings l' := by
  induction l with
  | nil => rfl
  | cons e l ih => cases e <;> simp [readings, ih]

theorem results_append (l l' : List Ev) : results (l ++ l') = results l ++ results l' := by
  induction l with
  | nil => rfl
  | cons e l ih => cases e <;> simp [results, ih]

theorem set_eq {α : Type u} (f : Nat → α) (i : Nat) (v : α) : set f i v i = v := if_pos rfl

theorem set_ne {α : Type u} (f : Nat → α) {i j : Nat} (v : α) (h : j ≠ i) : set f i v j = f j := if_neg h

end Verif.UuidClock
