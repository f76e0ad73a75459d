import Verif.TokenQueue.Steps
/-!
# What follows from the invariants
-/
namespace Verif.TokenQueue

variable {E : Type} {c : Cfg} {g : G E} {s s' : Sys E} {own : Nat → Own} {fate : Nat → Fate} {t : Nat}
  {log : List (Rec E)}

/-- The claim of a thread. -/
def clOf : DPos E → Option (Call × Nat × Nat)
  | .idx k f a => some (k, f, f + a)
  | .frt k f a _ => some (k, f, f + a)
  | .bas k f a _ _ => some (k, f, f + a)
  | .blk k f e _ _ _ _ => some (k, f, e)
  | .mv k f e _ _ _ _ _ _ => some (k, f, e)
  | .mark k f e _ _ _ _ _ _ => some (k, f, e)
  | _ => none

theorem claim_step (h : Inv c g own fate s) {k : Call} {f e : Nat} (hc : clOf (s.pos t) = some (k, f, e)) :
    ∃ s', consStep c s t = some s' ∧
      ((clOf (s'.pos t) = some (k, f, e) ∧ s'.log = s.log) ∨
        (s'.log = s.log ++ [.deq k f ((g.vals.drop f).take (e - f))] ∧ s'.pos t = .idle)) := by
  have hdef : ∃ s', consStep c s t = some s' := by
    rw [consStep.eq_def]
    split
    case h_1 hpos => rw [hpos] at hc; cases hc
    all_goals repeat' (first | split | (simp only; split))
    all_goals exact ⟨_, rfl⟩
  obtain ⟨s', hs⟩ := hdef
  refine ⟨s', hs, ?_⟩
  obtain ⟨own', fate', h'⟩ := cons_step h hs
  have hbad := h'.bad
  have idle : ∀ p : DPos E, upd s.pos t p t = p := fun p => upd_self _ _ _
  have hci := h.cons t
  rw [consStep.eq_def] at hs
  split at hs
  · cases hs
  · next hpos => rw [hpos] at hc; cases hc
  · next hpos => rw [hpos] at hc; cases hc
  · next hpos => rw [hpos] at hc; cases hc
  · next hpos => rw [hpos] at hc; cases hc
  · next hpos => rw [hpos] at hc; cases hc
  · next hpos => rw [hpos] at hc; cases hc
  · next hpos => rw [hpos] at hc; cases hc
  · next hpos => rw [hpos] at hc; cases hc
  · next hpos =>
    rw [hpos] at hc
    split at hs
    · injection hs with hs; subst hs; cases hbad
    · injection hs with hs; subst hs
      exact .inl ⟨by show clOf (upd s.pos t _ t) = _; rw [idle]; exact hc, rfl⟩
  · next hpos =>
    rw [hpos] at hc
    split at hs
    · injection hs with hs; subst hs; cases hbad
    · injection hs with hs; subst hs
      exact .inl ⟨by show clOf (upd s.pos t _ t) = _; rw [idle]; exact hc, rfl⟩
  · next hpos =>
    rw [hpos] at hc
    split at hs
    · injection hs with hs; subst hs; cases hbad
    · injection hs with hs; subst hs
      exact .inl ⟨by show clOf (upd s.pos t _ t) = _; rw [idle]; exact hc, rfl⟩
  · next hpos =>
    rw [hpos] at hc
    split at hs
    · injection hs with hs; subst hs; cases hbad
    · injection hs with hs; subst hs
      exact .inl ⟨by show clOf (upd s.pos t _ t) = _; rw [idle]; exact hc, rfl⟩
  · next hpos =>
    rw [hpos] at hc
    split at hs
    · injection hs with hs; subst hs; cases hbad
    · simp only at hs
      split at hs
      · injection hs with hs; subst hs
        exact .inl ⟨by show clOf (upd s.pos t _ t) = _; rw [idle]; exact hc, rfl⟩
      · injection hs with hs; subst hs
        exact .inl ⟨by show clOf (upd s.pos t _ t) = _; rw [idle]; exact hc, rfl⟩
  · next k' f' e' hd p b i0 i acc hpos =>
    rw [hpos] at hc hci
    have hacc := hci.1.acc
    injection hc with hc
    injection hc with hc1 hc
    injection hc with hc2 hc3
    subst hc1 hc2 hc3
    split at hs
    · injection hs with hs; subst hs; cases hbad
    · simp only at hs
      split at hs
      · next e2 =>
        injection hs with hs; subst hs
        refine .inr ⟨?_, upd_self _ _ _⟩
        show s.log ++ [Rec.deq k' f' acc] = _
        rw [hacc, e2]
      · injection hs with hs; subst hs
        exact .inl ⟨by show clOf (upd s.pos t _ t) = _; rw [idle]; rfl, rfl⟩

/-- A thread with a claim gets its elements when it goes on alone. -/
theorem finish {k : Call} {f e : Nat} : ∀ (n : Nat) {s : Sys E} {own fate}, Inv c g own fate s → Sane c s →
    left (s.pos t) ≤ n → clOf (s.pos t) = some (k, f, e) →
    ∃ m s', run c s (List.replicate m (.cons t)) = some s' ∧ s'.pos t = .idle ∧
      s'.log = s.log ++ [.deq k f ((g.vals.drop f).take (e - f))]
  | n, s, own, fate, h, hsa, hn, hc => by
    obtain ⟨s', hs, h1⟩ := claim_step h hc
    have hrun : ∀ {m s2}, run c s' (List.replicate m (.cons t)) = some s2 →
        run c s (List.replicate (m + 1) (.cons t)) = some s2 := by
      intro m s2 hr
      rw [List.replicate_succ]
      unfold run
      rw [show move c s (.cons t) = some s' from hs]
      exact hr
    rcases h1 with ⟨h1, h2⟩ | ⟨h1, h2⟩
    · obtain ⟨own', fate', h'⟩ := cons_step h hs
      obtain ⟨⟨p, h3, h4, -⟩, -⟩ := left_step (hsa.cons t) hs
      have h5 : s'.pos t = p := by rw [h3, upd_self]
      cases n with
      | zero => omega
      | succ n =>
        obtain ⟨m, s2, hr, hi, hl⟩ := finish n h' (sane_move (m := .cons t) hsa hs) (by rw [h5]; omega) h1
        exact ⟨m + 1, s2, hrun hr, hi, by rw [hl, h2]⟩
    · exact ⟨1, s', hrun (m := 0) rfl, h2, h1⟩

/-! The log. -/

theorem sent_append (a b : List (Rec E)) : sent (a ++ b) = sent a ++ sent b := List.flatMap_append

theorem sent_take (log : List (Rec E)) (r : Nat) : ∃ e, sent log = sent (log.take r) ++ e :=
  ⟨sent (log.drop r), by rw [← sent_append, List.take_append_drop]⟩

theorem LInv.place {cs : Core E} (h : LInv g cs own log) {r : Nat} {k : Call} {f : Nat} {l : List E}
    (hr : log[r]? = some (.deq k f l)) : l = ((sent (log.take r)).drop f).take l.length := by
  obtain ⟨-, -, h3, -⟩ := h.recs r k f l hr
  obtain ⟨e1, he1⟩ := h.vals
  obtain ⟨e2, he2⟩ := sent_take log r
  have h4 := h.since r k f l hr
  rw [he1, he2, List.append_assoc, take_drop_append h4] at h3
  exact h3

/-- The place of the elements of a call. -/
def placeOf (log : List (Rec E)) (r : Nat) : Nat :=
  match log[r]? with
  | some (.deq _ f _) => f
  | _ => 0

theorem placeOf_eq {r : Nat} {k : Call} {f : Nat} {l : List E} (h : log[r]? = some (.deq k f l)) :
    placeOf log r = f := by
  unfold placeOf; rw [h]

theorem fifo_of (h : Inv c g own fate s) : Fifo s.log (placeOf s.log) where
  few := by
    rintro r k l ⟨f, hr⟩
    exact (h.log.recs r k f l hr).2.1
  run := by
    rintro r k l ⟨f, hr⟩
    rw [placeOf_eq hr]
    exact h.log.place hr
  once := by
    rintro r k l r' k' l' ⟨f, hr⟩ ⟨f', hr'⟩ i h1 h2 h3 h4
    rw [placeOf_eq hr] at h1 h2
    rw [placeOf_eq hr'] at h3 h4
    have h5 := h.log.recs r k f l hr
    have h6 := h.log.recs r' k' f' l' hr'
    have hi : i < s.core.head := Nat.lt_of_lt_of_le h2 h5.1
    have h7 := (h5.2.2.2.1 i hi).2 ⟨h1, h2⟩
    have h8 := (h6.2.2.2.1 i hi).2 ⟨h3, h4⟩
    rw [h7] at h8
    injection h8
  order := by
    rintro r k l r' k' l' ⟨f, hr⟩ ⟨f', hr'⟩ hb
    rw [placeOf_eq hr, placeOf_eq hr']
    exact (h.log.recs r k f l hr).2.2.2.2.2 r' hb k' f' l' hr'

/-- The elements of the calls with a number below `n`. -/
def upTo (own : Nat → Own) (n j : Nat) : Bool :=
  match own j with
  | .call r => decide (r < n)
  | .run _ => false

/-- The elements of one call. -/
def ofCall (own : Nat → Own) (n j : Nat) : Bool :=
  match own j with
  | .call r => decide (r = n)
  | .run _ => false

theorem taken_append (a b : List (Rec E)) : taken (a ++ b) = taken a ++ taken b := List.flatMap_append

theorem taken_count {cs : Core E} (h : LInv g cs own log) : ∀ n, n ≤ log.length →
    (taken (log.take n)).length = cnt (upTo own n) cs.head
  | 0, _ => by
    rw [List.take_zero, cnt_zero]
    · rfl
    · intro u _
      unfold upTo
      cases own u <;> simp
  | n + 1, hn => by
    have ih := taken_count h n (by omega)
    have hlt : n < log.length := by omega
    rw [List.take_add_one, taken_append, List.length_append, ih, List.getElem?_eq_getElem hlt]
    rw [cnt_or (p := upTo own n) (q := ofCall own n) (r := upTo own (n + 1))]
    · congr 1
      show (taken [log[n]]).length = _
      have h1 : taken [log[n]] = (log[n]).got := by unfold taken; simp
      rw [h1]
      have hg : log[n]? = some log[n] := List.getElem?_eq_getElem hlt
      have hof : ∀ j, ofCall own n j = true ↔ own j = .call n := by
        intro j
        unfold ofCall
        cases own j with
        | run t => simp
        | call r => simp
      have hnot : (∀ k f l, log[n]? ≠ some (.deq k f l)) → (log[n]).got = [] → (log[n]).got.length = cnt (ofCall own n) cs.head := by
        intro h2 h3
        rw [h3, cnt_zero]
        · rfl
        · intro u hu
          cases hc : ofCall own n u with
          | false => rfl
          | true =>
            obtain ⟨k, f, l, h4⟩ := h.owned u hu n ((hof u).1 hc)
            exact absurd h4 (h2 k f l)
      cases hrec : log[n] with
      | enq x ok =>
        rw [hrec] at hnot hg
        exact hnot (fun k f l e => by rw [hg] at e; cases e) rfl
      | bulk x ok =>
        rw [hrec] at hnot hg
        exact hnot (fun k f l e => by rw [hg] at e; cases e) rfl
      | deq k f l =>
        rw [hrec] at hg
        obtain ⟨h2, -, -, h3, -⟩ := h.recs n k f l hg
        rw [cnt_range (m := f) (d := l.length) h2 (fun u hu => by rw [hof, h3 u hu])]
        rfl
    · intro u hu
      unfold upTo ofCall
      cases own u with
      | run t => simp
      | call r =>
        simp only [decide_eq_true_eq]
        refine ⟨?_, by omega⟩
        rw [← Bool.decide_or]
        congr 1
        apply propext
        omega

/-- Without running calls every element below the head belongs to a call that has ended. -/
theorem quiet_owned (h : Inv c g own fate s) (hq : s.quiet) {j : Nat} (hj : j < s.head) :
    ∃ r k f l, own j = .call r ∧ s.log[r]? = some (.deq k f l) ∧ f ≤ j ∧ j < f + l.length := by
  cases ho : own j with
  | run t =>
    have h1 := h.cons t
    rw [hq t] at h1
    exact absurd ho (h1 j hj)
  | call r =>
    obtain ⟨k, f, l, h1⟩ := h.log.owned j hj r ho
    exact ⟨r, k, f, l, rfl, h1, ((h.log.recs r k f l h1).2.2.2.1 j hj).1 ho⟩

theorem quiet_head (h : Inv c g own fate s) (hq : s.quiet) : (taken s.log).length = s.head := by
  have h1 := taken_count h.log s.log.length (Nat.le_refl _)
  rw [List.take_length] at h1
  rw [h1]
  have h2 : cnt (upTo own s.log.length) s.core.head = cnt (fun _ => true) s.core.head := by
    refine cnt_congr fun u hu => ?_
    obtain ⟨r, k, f, l, h3, h4, -⟩ := quiet_owned h hq hu
    unfold upTo
    rw [h3]
    simp only [decide_eq_true_eq]
    exact lookup_lt h4
  rw [h2, cnt_true]; rfl

/-- Without overlap the elements come out in the order in which they were sent. -/
theorem serial_place (h : Inv c g own fate s) (hq : s.quiet) (hser : Serial s.log) :
    ∀ n, n ≤ s.log.length → taken (s.log.take n) = (sent s.log).take (taken (s.log.take n)).length ∧
      (∀ r k f l, r < n → s.log[r]? = some (.deq k f l) → l ≠ [] → f + l.length ≤ (taken (s.log.take n)).length) ∧
      ∀ j, j < (taken (s.log.take n)).length →
        ∃ r k f l, r < n ∧ s.log[r]? = some (.deq k f l) ∧ f ≤ j ∧ j < f + l.length
  | 0, _ => ⟨by rw [List.take_zero]; rfl, fun r _ _ _ hr => absurd hr (Nat.not_lt_zero _),
      fun j hj => absurd hj (Nat.not_lt_zero _)⟩
  | n + 1, hn => by
    obtain ⟨ih1, ih2, ih3⟩ := serial_place h hq hser n (by omega)
    have hlt : n < s.log.length := by omega
    have hg : s.log[n]? = some s.log[n] := List.getElem?_eq_getElem hlt
    have htk : taken (s.log.take (n + 1)) = taken (s.log.take n) ++ (s.log[n]).got := by
      rw [List.take_add_one, taken_append, hg]
      congr 1
      show taken [s.log[n]] = _
      unfold taken; simp
    have hcase : (s.log[n]).got = [] ∨ ∃ k f l, s.log[n]? = some (.deq k f l) ∧ (s.log[n]).got = l ∧ l ≠ [] := by
      cases hrec : s.log[n] with
      | enq x ok => exact .inl rfl
      | bulk x ok => exact .inl rfl
      | deq k f l =>
        rw [hrec] at hg
        by_cases e : l = []
        · exact .inl e
        · exact .inr ⟨k, f, l, hg, rfl, e⟩
    rcases hcase with hnil | ⟨k, f, l, hr, hgot, hne⟩
    · rw [htk, hnil, List.append_nil]
      refine ⟨ih1, ?_, fun j hj => ?_⟩
      · intro r k f l hrn hr hne
        by_cases e : r = n
        · subst e
          rw [hg] at hr
          injection hr with hr
          rw [hr] at hnil
          exact absurd hnil hne
        · exact ih2 r k f l (by omega) hr hne
      · obtain ⟨r, k, f, l, h1, h2⟩ := ih3 j hj
        exact ⟨r, k, f, l, by omega, h2⟩
    · have hrec := h.log.recs n k f l hr
      have hf1 : f + l.length ≤ s.head := hrec.1
      have hpos : 0 < l.length := List.length_pos_iff.2 hne
      have hord : ∀ (r : Nat) (k : Call) (f : Nat) (l : List E) (r' : Nat) (k' : Call) (f' : Nat) (l' : List E), s.log[r]? = some (.deq k f l) → s.log[r']? = some (.deq k' f' l') → r' < r →
          f' + l'.length ≤ f := fun r k f l r' k' f' l' h1 h2 h3 =>
        (h.log.recs r k f l h1).2.2.2.2.2 r' (hser r k l r' k' l' ⟨f, h1⟩ ⟨f', h2⟩ h3) k' f' l' h2
      have hS : f = (taken (s.log.take n)).length := by
        apply Nat.le_antisymm
        · apply Nat.le_of_not_lt
          intro hc
          obtain ⟨r', k', f', l', -, h2, h3, h4⟩ := quiet_owned h hq (j := (taken (s.log.take n)).length) (by omega)
          rcases Nat.lt_trichotomy r' n with h5 | h5 | h5
          · have := ih2 r' k' f' l' h5 h2 (fun e => by rw [e] at h4; simp at h4; omega)
            omega
          · subst h5
            rw [hr] at h2
            injection h2 with h2
            injection h2 with h6 h7 h8
            omega
          · have := hord r' k' f' l' n k f l h2 hr h5
            omega
        · apply Nat.le_of_not_lt
          intro hc
          obtain ⟨r', k', f', l', h1, h2, h3, h4⟩ := ih3 ((taken (s.log.take n)).length - 1) (by omega)
          have := hord n k f l r' k' f' l' hr h2 h1
          omega
      have hvals : l = ((sent s.log).drop f).take l.length := by
        have h1 := h.log.place hr
        obtain ⟨e2, he2⟩ := sent_take s.log n
        rw [he2, take_drop_append (h.log.since n k f l hr)]
        exact h1
      rw [htk, hgot, List.length_append]
      refine ⟨?_, ?_, ?_⟩
      · rw [List.take_add, ← ih1, ← hS, ← hvals]
      · intro r k' f' l' hrn hr' hne'
        by_cases e : r = n
        · subst e
          rw [hr] at hr'
          injection hr' with hr'
          injection hr' with h6 h7 h8
          rw [← h7, ← h8, hS]
          exact Nat.le_refl _
        · have := ih2 r k' f' l' (by omega) hr' hne'
          omega
      · intro j hj
        by_cases e : j < (taken (s.log.take n)).length
        · obtain ⟨r, k', f', l', h1, h2⟩ := ih3 j e
          exact ⟨r, k', f', l', by omega, h2⟩
        · exact ⟨n, k, f, l, by omega, hr, by omega, by omega⟩

set_option maxHeartbeats 1600000 in
/-- A call of a consumer while the others rest. -/
theorem lone (h : Inv c g own fate s) (hsa : Sane c s) (hq : s.quiet) (t : Nat) {max : Nat} (hmax : max ≠ 0) :
    ∃ n s', run c s (.deq t max :: List.replicate n (.cons t)) = some s' ∧ s'.pos t = .idle ∧
      s'.log = s.log ++ [.deq ⟨max, s.log.length⟩ s.head (((sent s.log).drop s.head).take max)] := by
  have hm := h.mem
  have hopt : s.opt = s.head + s.over := by
    refine h.tk.quiet (fun t => ?_) (fun t => ?_) (fun t bf m d o => ?_)
    · rw [hq t]; rfl
    · rw [hq t]; rfl
    · rw [hq t]; intro e; cases e
  have hle : s.head ≤ s.tail := hm.le
  have htl : s.tail = (sent s.log).length := h.log.tail
  let k : Call := ⟨max, s.log.length⟩
  have stp : ∀ {s1 s2 s3 : Sys E} {n}, consStep c s1 t = some s2 →
      run c s2 (List.replicate n (.cons t)) = some s3 → run c s1 (List.replicate (n + 1) (.cons t)) = some s3 := by
    intro s1 s2 s3 n h1 h2
    rw [List.replicate_succ]
    unfold run
    rw [show move c s1 (.cons t) = some s2 from h1]
    exact h2
  -- the first steps
  let s0 := s.go t (.tl k)
  have hcall : move c s (.deq t max) = some s0 := by
    show (match s.pos t with | .idle => _ | _ => _) = _
    rw [hq t]
    simp only
    rw [if_neg hmax]
  have hrun : ∀ {n s3}, run c s0 (List.replicate n (.cons t)) = some s3 →
      run c s (.deq t max :: List.replicate n (.cons t)) = some s3 := by
    intro n s3 h1
    unfold run
    rw [hcall]
    exact h1
  have h0 : Inv c g own fate s0 := cons_call h (hq t) hmax
  have hsa0 : Sane c s0 := sane_move hsa hcall
  have p0 : s0.pos t = .tl k := upd_self _ _ _
  have x0 : s0.tail = s.tail ∧ s0.over = s.over ∧ s0.opt = s.opt ∧ s0.head = s.head ∧ s0.log = s.log :=
    ⟨rfl, rfl, rfl, rfl, rfl⟩
  clear_value s0
  obtain ⟨s1, e1, p1, x1⟩ : ∃ s1, consStep c s0 t = some s1 ∧ s1.pos t = .ov k s.tail ∧
      s1.tail = s.tail ∧ s1.over = s.over ∧ s1.opt = s.opt ∧ s1.head = s.head ∧ s1.log = s.log :=
    ⟨s0.go t (.ov k s.tail), by rw [consStep.eq_def, p0, ← x0.1], upd_self _ _ _, x0⟩
  obtain ⟨s2, e2, p2, x2⟩ : ∃ s2, consStep c s1 t = some s2 ∧ s2.pos t = .op k s.tail s.over ∧
      s2.tail = s.tail ∧ s2.over = s.over ∧ s2.opt = s.opt ∧ s2.head = s.head ∧ s2.log = s.log :=
    ⟨s1.go t (.op k s.tail s.over), by rw [consStep.eq_def, p1, ← x1.2.1], upd_self _ _ _, x1⟩
  obtain ⟨y1, y2, y3, y4, y5⟩ := x2
  by_cases hz : s.head = s.tail
  · have e3 : consStep c s2 t = some (s2.ret t k s2.head []) := by
      rw [consStep.eq_def, p2]
      simp only
      rw [if_neg (by omega)]
    refine ⟨3, _, hrun (stp e1 (stp e2 (stp (n := 0) e3 rfl))), upd_self _ _ _, ?_⟩
    show s2.log ++ [Rec.deq k s2.head []] = _
    rw [y4, y5, List.drop_eq_nil_of_le (by omega), List.take_nil]
  · obtain ⟨d, hd⟩ : ∃ d, d = min (s.tail + s.over - s.opt) max := ⟨_, rfl⟩
    have hd0 : 0 < d := by omega
    have hd1 : d ≤ s.tail - s.head := by
      have := Nat.min_le_left (s.tail + s.over - s.opt) max
      omega
    obtain ⟨s3, e3, p3, z1, z2, z3, z4, z5⟩ : ∃ s3, consStep c s2 t = some s3 ∧ s3.pos t = .inc k d s.over ∧
        s3.tail = s.tail ∧ s3.over = s.over ∧ s3.opt = s.opt ∧ s3.head = s.head ∧ s3.log = s.log := by
      refine ⟨s2.go t (.inc k d s.over), ?_, upd_self _ _ _, y1, y2, y3, y4, y5⟩
      rw [consStep.eq_def, p2]
      simp only
      rw [if_pos (by omega), y3, hd]
    obtain ⟨s4, e4, p4, w1, w2, w3, w4⟩ : ∃ s4, consStep c s3 t = some s4 ∧ s4.pos t = .again k s.opt d s.over ∧
        s4.tail = s.tail ∧ s4.over = s.over ∧ s4.head = s.head ∧ s4.log = s.log :=
      ⟨{ s3.go t (.again k s.opt d s.over) with opt := s3.opt + d }, by rw [consStep.eq_def, p3, ← z3],
        upd_self _ _ _, z1, z2, z4, z5⟩
    obtain ⟨s5, e5, p5, v1, v2⟩ : ∃ s5, consStep c s4 t = some s5 ∧ s5.pos t = .head k d ∧
        s5.head = s.head ∧ s5.log = s.log := by
      refine ⟨s4.go t (.head k d), ?_, upd_self _ _ _, w3, w4⟩
      rw [consStep.eq_def, p4]
      simp only
      have h2 : min d (s.tail + s.over - s.opt) = d := by
        apply Nat.min_eq_left; omega
      rw [w1, if_pos (by omega), h2, if_neg (Nat.lt_irrefl _)]
    obtain ⟨s6, e6, p6, u2⟩ : ∃ s6, consStep c s5 t = some s6 ∧ s6.pos t = .idx k s.head d ∧ s6.log = s.log :=
      ⟨{ s5.go t (.idx k s.head d) with head := s5.head + d }, by rw [consStep.eq_def, p5, ← v1],
        upd_self _ _ _, v2⟩
    obtain ⟨o1, f1, i1⟩ := cons_step h0 e1
    obtain ⟨o2, f2, i2⟩ := cons_step i1 e2
    obtain ⟨o3, f3, i3⟩ := cons_step i2 e3
    obtain ⟨o4, f4, i4⟩ := cons_step i3 e4
    obtain ⟨o5, f5, i5⟩ := cons_step i4 e5
    obtain ⟨o6, f6, i6⟩ := cons_step i5 e6
    have a1 : Sane c s1 := sane_move (m := .cons t) hsa0 e1
    have a2 : Sane c s2 := sane_move (m := .cons t) a1 e2
    have a3 : Sane c s3 := sane_move (m := .cons t) a2 e3
    have a4 : Sane c s4 := sane_move (m := .cons t) a3 e4
    have a5 : Sane c s5 := sane_move (m := .cons t) a4 e5
    have a6 : Sane c s6 := sane_move (m := .cons t) a5 e6
    obtain ⟨n, s7, hr, hi, hl⟩ := finish (k := k) (f := s.head) (e := s.head + d) _ i6 a6 (Nat.le_refl _) (by rw [p6]; rfl)
    refine ⟨_, s7, hrun (stp e1 (stp e2 (stp e3 (stp e4 (stp e5 (stp e6 hr)))))), hi, ?_⟩
    rw [hl, u2]
    show s.log ++ [Rec.deq k s.head _] = _
    have hv : (g.vals.drop s.head).take (s.head + d - s.head) = ((sent s.log).drop s.head).take max := by
      obtain ⟨ex, hex⟩ := h.log.vals
      rw [Nat.add_sub_cancel_left, hex, take_drop_append (by omega)]
      have h1 : s.tail + s.over - s.opt = ((sent s.log).drop s.head).length := by
        rw [List.length_drop]; omega
      rw [hd, h1, Nat.min_comm, ← List.take_take, List.take_length]
    rw [hv]

/-! Failures. -/

theorem log_prod {ok : Bool} (h : prodStep c s ok = some s') (hs : s.spoilt = false) :
    s'.spoilt = false ∨ ∃ l, Rec.bulk l false ∈ s'.log := by
  rw [prodStep.eq_def] at h
  repeat' (first | split at h | (simp only at h; split at h))
  all_goals first
    | (cases h; done)
    | (simp only [Option.some.injEq] at h
       subst h
       first
         | exact .inl hs
         | (left; simp only [spoilt_putEntry, spoilt_putFront, spoilt_reset]; exact hs)
         | exact .inr ⟨_, List.mem_append_right _ (List.mem_singleton.2 rfl)⟩)

theorem same_putEntry (s : Sys E) (base b : Nat) : (putEntry s base b).log = s.log := by
  unfold putEntry; split <;> rfl

theorem same_putFront (s : Sys E) (f : Nat) : (putFront s f).log = s.log := by
  unfold putFront; split <;> rfl

theorem same_reset {fuel : Nat} (s : Sys E) (b : Nat) : (resetFrom s fuel b).log = s.log := by
  induction fuel generalizing s b with
  | zero => rfl
  | succ fuel ih =>
    unfold resetFrom
    simp only
    split
    · rfl
    · rw [ih]

theorem log_grows {m : Move E} (h : move c s m = some s') : ∃ e, s'.log = s.log ++ e := by
  have nil : ∃ e, s.log = s.log ++ e := ⟨[], (List.append_nil _).symm⟩
  cases m with
  | prod ok =>
    have h' : prodStep c s ok = some s' := h
    rw [prodStep.eq_def] at h'
    clear h
    repeat' (first | split at h' | (simp only at h'; split at h'))
    all_goals first
      | (cases h'; done)
      | (simp only [Option.some.injEq] at h'
         subst h'
         first
           | exact nil
           | exact ⟨_, rfl⟩
           | (simp only [same_putEntry, same_putFront, same_reset]; exact nil))
  | enq can x =>
    unfold move at h
    simp only at h
    split at h
    · injection h with h; subst h; exact nil
    · cases h
  | bulk can l =>
    unfold move at h
    simp only at h
    split at h
    · injection h with h; subst h
      unfold callBulk
      simp only
      split <;> exact nil
    · cases h
  | cons t =>
    have h' : consStep c s t = some s' := h
    rw [consStep.eq_def] at h'
    clear h
    repeat' (first | split at h' | (simp only at h'; split at h'))
    all_goals first
      | (cases h'; done)
      | (simp only [Option.some.injEq] at h'
         subst h'
         first
           | exact nil
           | exact ⟨_, rfl⟩)
  | deq t max =>
    unfold move at h
    simp only at h
    split at h
    · split at h
      · cases h
      · injection h with h; subst h; exact nil
    · cases h

theorem run_grows {ms : List (Move E)} (h : run c s ms = some s') : ∃ e, s'.log = s.log ++ e := by
  induction ms generalizing s with
  | nil => unfold run at h; injection h with h; subst h; exact ⟨[], (List.append_nil _).symm⟩
  | cons m ms ih =>
    unfold run at h
    split at h
    · cases h
    · next s1 h1 =>
      obtain ⟨e1, he1⟩ := log_grows h1
      obtain ⟨e2, he2⟩ := ih h
      exact ⟨e1 ++ e2, by rw [he2, he1, List.append_assoc]⟩

theorem unspoilt_run {ms : List (Move E)} (hs : s.spoilt = false) (h : run c s ms = some s')
    (hb : NoBulkFailed s'.log) : s'.spoilt = false := by
  induction ms generalizing s with
  | nil => unfold run at h; injection h with h; subst h; exact hs
  | cons m ms ih =>
    unfold run at h
    split at h
    · cases h
    · next s1 h1 =>
      refine ih ?_ h
      obtain ⟨e2, he2⟩ := run_grows h
      cases m with
      | prod ok =>
        rcases log_prod (c := c) (s := s) h1 hs with h3 | ⟨l, h3⟩
        · exact h3
        · exact absurd (by rw [he2]; exact List.mem_append_left _ h3) (hb l)
      | enq can x =>
        unfold move at h1
        simp only at h1
        split at h1
        · injection h1 with h1; subst h1; exact hs
        · cases h1
      | bulk can l =>
        unfold move at h1
        simp only at h1
        split at h1
        · injection h1 with h1; subst h1
          unfold callBulk
          simp only
          split <;> exact hs
        · cases h1
      | cons t =>
        have h1' : consStep c s t = some s1 := h1
        rw [spoilt_cons h1']; exact hs
      | deq t max =>
        unfold move at h1
        simp only at h1
        split at h1
        · split at h1
          · cases h1
          · injection h1 with h1; subst h1; exact hs
        · cases h1

theorem unspoilt (h : Reach c s) (hb : NoBulkFailed s.log) : s.spoilt = false := by
  obtain ⟨ok, ms, hr⟩ := h
  exact unspoilt_run (s := start c ok) rfl hr hb

/-! Memory that never runs out. -/

def canP : PPos E → Prop
  | .chk can _ => can = true
  | .grow can _ => can = true
  | .take can _ => can = true
  | .reuse k => k.can = true
  | .more k => k.can = true
  | .draw k => k.can = true
  | .opn k => k.can = true
  | _ => True

def okRec : Rec E → Prop
  | .enq _ ok => ok = true
  | .bulk _ ok => ok = true
  | _ => True

theorem rich_prod (h : prodStep c s true = some s') (hc : canP s.pp) (hl : ∀ r ∈ s.log, okRec r) :
    canP s'.pp ∧ ∀ r ∈ s'.log, okRec r := by
  have app : ∀ {x : Rec E}, okRec x → ∀ r ∈ s.log ++ [x], okRec r := by
    intro x hx r hr
    rcases List.mem_append.1 hr with h1 | h1
    · exact hl r h1
    · rw [List.mem_singleton.1 h1]; exact hx
  rw [prodStep.eq_def] at h
  split at h <;> rename_i hpp <;> rw [hpp] at hc
  all_goals repeat' (first | split at h | (simp only at h; split at h))
  all_goals first
    | (cases h; done)
    | (rename_i hcan; exact absurd (by simpa using hc) (by simpa using hcan))
    | (simp only [Option.some.injEq] at h
       subst h
       first
         | exact ⟨hc, hl⟩
         | exact ⟨trivial, hl⟩
         | exact ⟨hc, by simp only [same_putEntry, same_putFront, same_reset]; exact hl⟩
         | exact ⟨trivial, by simp only [same_putEntry, same_putFront, same_reset]; exact hl⟩
         | exact ⟨trivial, app rfl⟩
         | (exfalso; simp_all [canP]))

theorem rich_move {m : Move E} (h : move c s m = some s') (hm : Rich m) (hc : canP s.pp) (hl : ∀ r ∈ s.log, okRec r) :
    canP s'.pp ∧ ∀ r ∈ s'.log, okRec r := by
  cases m with
  | prod ok =>
    have hok : ok = true := hm
    subst hok
    exact rich_prod h hc hl
  | enq can x =>
    unfold move at h
    simp only at h
    split at h
    · injection h with h; subst h
      refine ⟨?_, hl⟩
      show canP (if _ then _ else _)
      split
      · exact hm
      · trivial
    · cases h
  | bulk can l =>
    unfold move at h
    simp only at h
    split at h
    · injection h with h; subst h
      unfold callBulk
      simp only
      split
      · exact ⟨trivial, hl⟩
      · exact ⟨hm, hl⟩
    · cases h
  | cons t =>
    have h' : consStep c s t = some s' := h
    have app : ∀ {k f l}, ∀ r ∈ s.log ++ [Rec.deq k f l], okRec r := by
      intro k f l r hr
      rcases List.mem_append.1 hr with h1 | h1
      · exact hl r h1
      · rw [List.mem_singleton.1 h1]; trivial
    rw [consStep.eq_def] at h'
    clear h
    repeat' (first | split at h' | (simp only at h'; split at h'))
    all_goals first
      | (cases h'; done)
      | (simp only [Option.some.injEq] at h'
         subst h'
         first
           | exact ⟨hc, hl⟩
           | exact ⟨hc, app⟩)
  | deq t max =>
    unfold move at h
    simp only at h
    split at h
    · split at h
      · cases h
      · injection h with h; subst h; exact ⟨hc, hl⟩
    · cases h

theorem rich_run {ms : List (Move E)} (h : run c s ms = some s') (hm : ∀ m ∈ ms, Rich m) (hc : canP s.pp)
    (hl : ∀ r ∈ s.log, okRec r) : ∀ r ∈ s'.log, okRec r := by
  induction ms generalizing s with
  | nil => unfold run at h; injection h with h; subst h; exact hl
  | cons m ms ih =>
    unfold run at h
    split at h
    · cases h
    · next s1 h1 =>
      obtain ⟨h2, h3⟩ := rich_move h1 (hm m List.mem_cons_self) hc hl
      exact ih h (fun m hm' => hm m (List.mem_cons_of_mem _ hm')) h2 h3

/-! Steps are possible. -/

theorem can_cons (h : s.pos t ≠ .idle) : ∃ s', consStep c s t = some s' := by
  rw [consStep.eq_def]
  split
  · next hp => exact absurd hp h
  all_goals repeat' (first | exact ⟨_, rfl⟩ | split | (simp only; split))

theorem can_prod (h : s.pp ≠ .idle) (ok : Bool) : ∃ s', prodStep c s ok = some s' := by
  rw [prodStep.eq_def]
  split
  · next hp => exact absurd hp h
  all_goals repeat' (first | exact ⟨_, rfl⟩ | split | (simp only; split))

theorem left_pos (h : Loc c (s.pos t)) (hi : s.pos t ≠ .idle) : 0 < left (s.pos t) := by
  obtain ⟨s', hs⟩ := can_cons (c := c) hi
  obtain ⟨⟨p, -, h2, -⟩, -⟩ := left_step h hs
  omega

theorem leftP_pos (h : LocP s.pp) (hi : s.pp ≠ .idle) (c : Cfg) : 0 < leftP s.pp := by
  obtain ⟨s', hs⟩ := can_prod (c := c) hi true
  have := leftP_step h hs
  omega

end Verif.TokenQueue
