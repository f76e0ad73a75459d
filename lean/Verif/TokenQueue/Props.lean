import Verif.TokenQueue.Lone
/-!
# Queues with a producer token: properties
-/
namespace Verif.TokenQueue

variable {E : Type} {c : Cfg} {s s' : Sys E}

/-- The sizes of `ConcurrentQueueDefaultTraits` (310-320): blocks of 32 elements, a first index of 32. -/
def c0 : Cfg := ⟨32, 16, by decide, by decide⟩

/-- `try_enqueue_bulk` of 225 elements takes seven blocks from the pool and fails at the eighth; then
`enqueue_bulk` of 1025 elements succeeds; then one consumer asks for `m` elements and makes `n` steps. -/
def w (m n : Nat) : List (Move Nat) :=
  [.bulk false (List.range 225)] ++ List.replicate 14 (.prod true) ++ [.prod false] ++
    [.bulk true (List.range 1025)] ++ List.replicate 1089 (.prod true) ++ [.deq 0 m] ++ List.replicate n (.cons 0)

/-- Two consumers at work while the producer adds three and then two elements. -/
def w2 : List (Move Nat) :=
  [.deq 0 2, .cons 0, .cons 0, .bulk true [7, 8, 9]] ++ List.replicate 9 (.prod true) ++ [.deq 1 1] ++
    List.replicate 12 (.cons 1) ++ [.cons 0] ++ [.enq true 5, .prod true, .prod true] ++
    [.deq 2 9] ++ List.replicate 14 (.cons 2)

theorem run_app {ms ms' : List (Move E)} : run c s (ms ++ ms') = (run c s ms).bind fun s1 => run c s1 ms' := by
  induction ms generalizing s with
  | nil => rfl
  | cons m ms ih =>
    rw [List.cons_append, run, run]
    cases move c s m with
    | none => rfl
    | some s1 => exact ih

/-! ## First in, first out -/

/-- C193: while no `enqueue_bulk` fails, every call of a consumer returns a run of elements sent before it
ended, no more than it was asked for, no element is taken twice, and a call that ended before another one
began took earlier elements. -/
theorem C193_fifo_partial (h : Reach c s) (hb : NoBulkFailed s.log) : ∃ place, Fifo s.log place := by
  obtain ⟨g, own, fate, hi⟩ := good_reach h (unspoilt h hb)
  exact ⟨_, fifo_of hi⟩

theorem w2_runs : ∃ s, run c0 (start c0 true) w2 = some s ∧
    s.log = [.bulk [7, 8, 9] true, .deq ⟨1, 1⟩ 0 [7], .deq ⟨2, 0⟩ 1 [], .enq 5 true, .deq ⟨9, 4⟩ 1 [8, 9, 5]] := by
  have h : ((run c0 (start c0 true) w2).map fun s => s.log) =
      some [.bulk [7, 8, 9] true, .deq ⟨1, 1⟩ 0 [7], .deq ⟨2, 0⟩ 1 [], .enq 5 true, .deq ⟨9, 4⟩ 1 [8, 9, 5]] := by
    decide +kernel
  cases hr : run c0 (start c0 true) w2 with
  | none => rw [hr] at h; cases h
  | some s => rw [hr] at h; injection h with h; exact ⟨s, rfl, h⟩

example : ∃ s : Sys Nat, Reach c0 s ∧ NoBulkFailed s.log ∧ IsDeq s.log 4 ⟨9, 4⟩ [8, 9, 5] := by
  obtain ⟨s, h1, h2⟩ := w2_runs
  refine ⟨s, ⟨true, _, h1⟩, ?_, ?_⟩
  · intro l; rw [h2]; simp
  · rw [h2]; exact ⟨1, rfl⟩

theorem w_runs : ∃ s l l', run c0 (start c0 true) (w 1 12) = some s ∧ s.pos 0 = .idle ∧ l' = List.range 1025 ∧
    s.log = [.bulk l false, .bulk l' true, .deq ⟨1, 2⟩ 0 [1024]] := by
  have h : ((run c0 (start c0 true) (w 1 12)).map fun s =>
      (decide (s.log = [.bulk (List.range 225) false, .bulk (List.range 1025) true, .deq ⟨1, 2⟩ 0 [1024]]),
        match s.pos 0 with | .idle => true | _ => false)) =
      some (true, true) := by
    decide +kernel
  cases hr : run c0 (start c0 true) (w 1 12) with
  | none => rw [hr] at h; cases h
  | some s =>
    rw [hr] at h
    injection h with h
    injection h with h1 h2
    refine ⟨s, _, _, rfl, ?_, rfl, of_decide_eq_true h1⟩
    cases hp : s.pos 0 <;> rw [hp] at h2 <;> first | rfl | cases h2

/-- C193: after an `enqueue_bulk` that failed the first call of a consumer may return the last of 1025
elements. -/
theorem C193_fifo_wrong : ∃ s : Sys Nat, Reach c0 s ∧ sent s.log = List.range 1025 ∧
    IsDeq s.log 2 ⟨1, 2⟩ [1024] ∧ (∀ r k l, IsDeq s.log r k l → r = 2) := by
  obtain ⟨s, l1, l2, h1, h2, h3, h4⟩ := w_runs
  have hsent : sent s.log = l2 := by
    rw [h4]
    show [] ++ (l2 ++ ([] ++ [])) = _
    rw [List.nil_append, List.append_nil, List.append_nil]
  have hdeq : ∀ r k l, IsDeq s.log r k l → r = 2 := by
    rintro r k l ⟨f, hr⟩
    rw [h4] at hr
    match r, hr with
    | 0, hr => cases hr
    | 1, hr => cases hr
    | 2, _ => rfl
    | r + 3, hr => cases hr
  refine ⟨s, ⟨true, _, h1⟩, by rw [hsent, h3], by rw [h4]; exact ⟨0, rfl⟩, hdeq⟩

/-! ## Nothing is lost -/

/-- C194: while no `enqueue_bulk` fails, whenever no call of a consumer is under way the calls have taken
exactly the first elements sent, none left out. -/
theorem C194_whole_partial (h : Reach c s) (hb : NoBulkFailed s.log) (hq : s.quiet) :
    ∃ place, Fifo s.log place ∧ (taken s.log).length ≤ (sent s.log).length ∧
      ∀ i, i < (taken s.log).length → ∃ r k l, IsDeq s.log r k l ∧ place r ≤ i ∧ i < place r + l.length := by
  obtain ⟨g, own, fate, hi⟩ := good_reach h (unspoilt h hb)
  have h1 := quiet_head hi hq
  have h2 : s.head ≤ s.tail := hi.mem.le
  have h3 : s.tail = (sent s.log).length := hi.log.tail
  refine ⟨_, fifo_of hi, by omega, fun i hlt => ?_⟩
  obtain ⟨r, k, f, l, -, h4, h5, h6⟩ := quiet_owned hi hq (j := i) (by omega)
  exact ⟨r, k, l, ⟨f, h4⟩, by rw [placeOf_eq h4]; exact h5, by rw [placeOf_eq h4]; exact h6⟩

/-- C194: if moreover no two calls of consumers overlapped, the elements came out in exactly the order in
which they were sent. -/
theorem C194_exact_partial (h : Reach c s) (hb : NoBulkFailed s.log) (hq : s.quiet) (hser : Serial s.log) :
    taken s.log <+: sent s.log := by
  obtain ⟨g, own, fate, hi⟩ := good_reach h (unspoilt h hb)
  have h1 := (serial_place hi hq hser s.log.length (Nat.le_refl _)).1
  rw [List.take_length] at h1
  rw [h1]
  exact List.take_prefix _ _

/-- One consumer, two calls. -/
def w3 : List (Move Nat) :=
  [.bulk true [7, 8, 9]] ++ List.replicate 9 (.prod true) ++ [.deq 0 2] ++ List.replicate 13 (.cons 0) ++
    [.deq 0 2] ++ List.replicate 12 (.cons 0)

theorem cons_other {t t' : Nat} (h : consStep c s t = some s') (hne : t' ≠ t) : s'.pos t' = s.pos t' := by
  rw [consStep.eq_def] at h
  repeat' (first | split at h | (simp only at h; split at h))
  all_goals first
    | (cases h; done)
    | (simp only [Option.some.injEq] at h
       subst h
       exact upd_ne hne)

theorem pos_run {ms : List (Move E)} (hr : run c s ms = some s') (t : Nat)
    (hn : ∀ m ∈ ms, ∀ max, m ≠ .cons t ∧ m ≠ .deq t max) : s'.pos t = s.pos t := by
  induction ms generalizing s with
  | nil => unfold run at hr; injection hr with hr; rw [hr]
  | cons m ms ih =>
    unfold run at hr
    split at hr
    · cases hr
    · next s1 h1 =>
      rw [ih hr (fun m hm => hn m (List.mem_cons_of_mem _ hm))]
      have hm := hn m List.mem_cons_self
      cases m with
      | prod ok => rw [pos_prod (c := c) (s := s) h1]
      | enq can x =>
        unfold move at h1
        simp only at h1
        split at h1
        · injection h1 with h1; rw [← h1]
        · cases h1
      | bulk can l =>
        unfold move at h1
        simp only at h1
        split at h1
        · injection h1 with h1; rw [← h1, callBulk_pos]
        · cases h1
      | cons t' =>
        have hne : t ≠ t' := fun e => (hm 0).1 (by rw [e])
        exact cons_other h1 hne
      | deq t' max =>
        have hne : t ≠ t' := fun e => (hm max).2 (by rw [e])
        unfold move at h1
        simp only at h1
        split at h1
        · split at h1
          · cases h1
          · injection h1 with h1; rw [← h1]; exact upd_ne hne
        · cases h1

theorem w3_runs : ∃ s, run c0 (start c0 true) w3 = some s ∧ s.quiet ∧ s.pp = .idle ∧
    s.log = [.bulk [7, 8, 9] true, .deq ⟨2, 1⟩ 0 [7, 8], .deq ⟨2, 2⟩ 2 [9]] := by
  have h : ((run c0 (start c0 true) w3).map fun s =>
      (decide (s.log = [.bulk [7, 8, 9] true, .deq ⟨2, 1⟩ 0 [7, 8], .deq ⟨2, 2⟩ 2 [9]]),
        match s.pos 0 with | .idle => true | _ => false, match s.pp with | .idle => true | _ => false)) =
      some (true, true, true) := by
    decide +kernel
  cases hr : run c0 (start c0 true) w3 with
  | none => rw [hr] at h; cases h
  | some s =>
    rw [hr] at h
    injection h with h
    injection h with h1 h2
    injection h2 with h2 h3
    refine ⟨s, rfl, fun t => ?_, ?_, of_decide_eq_true h1⟩
    · by_cases e : t = 0
      · subst e
        cases hp : s.pos 0 <;> rw [hp] at h2 <;> first | rfl | cases h2
      · rw [pos_run hr t]
        · rfl
        · intro m hm max
          simp only [w3, List.mem_append, List.mem_cons, List.not_mem_nil, or_false, List.mem_replicate] at hm
          rcases hm with ((((hm | ⟨-, hm⟩) | hm) | ⟨-, hm⟩) | hm) | ⟨-, hm⟩ <;> subst hm <;>
            (constructor <;> intro e' <;> injection e' <;> omega)
    · cases hp : s.pp <;> rw [hp] at h3 <;> first | rfl | cases h3

example : ∃ s : Sys Nat, Reach c0 s ∧ NoBulkFailed s.log ∧ s.quiet ∧ Serial s.log ∧ taken s.log = [7, 8, 9] := by
  obtain ⟨s, h1, h2, h3, h4⟩ := w3_runs
  refine ⟨s, ⟨true, _, h1⟩, ?_, h2, ?_, by rw [h4]; rfl⟩
  · intro l; rw [h4]; simp
  · rintro r k l r' k' l' ⟨f, hr⟩ ⟨f', hr'⟩ hlt
    rw [h4] at hr hr'
    match r, hr with
    | 0, hr => cases hr
    | 1, hr =>
      injection hr with hr
      injection hr with hk
      rw [← hk]; exact hlt
    | 2, hr =>
      injection hr with hr
      injection hr with hk
      rw [← hk]; exact hlt
    | r + 3, hr => cases hr

theorem w_quiet : ∃ s l l', run c0 (start c0 true) (w 1 12) = some s ∧ s.quiet ∧ l' = List.range 1025 ∧
    s.log = [.bulk l false, .bulk l' true, .deq ⟨1, 2⟩ 0 [1024]] := by
  obtain ⟨s, l, l', h1, h2, h3, h4⟩ := w_runs
  refine ⟨s, l, l', h1, fun t => ?_, h3, h4⟩
  by_cases e : t = 0
  · subst e; exact h2
  · rw [pos_run h1 t]
    · rfl
    · intro m hm max
      simp only [w, List.mem_append, List.mem_cons, List.not_mem_nil, or_false, List.mem_replicate] at hm
      rcases hm with (((((hm | ⟨-, hm⟩) | hm) | hm) | ⟨-, hm⟩) | hm) | ⟨-, hm⟩ <;> subst hm <;>
        (constructor <;> intro e' <;> injection e' <;> omega)

/-- C194: after an `enqueue_bulk` that failed the elements need not come out in their order, although
there is only one consumer. -/
theorem C194_exact_wrong : ∃ s : Sys Nat, Reach c0 s ∧ s.quiet ∧ Serial s.log ∧ ¬ taken s.log <+: sent s.log := by
  obtain ⟨s, l1, l2, h1, h2, h3, h4⟩ := w_quiet
  refine ⟨s, ⟨true, _, h1⟩, h2, ?_, ?_⟩
  · rintro r k l r' k' l' ⟨f, hr⟩ ⟨f', hr'⟩ hlt
    rw [h4] at hr hr'
    match r, hr with
    | 0, hr => cases hr
    | 1, hr => cases hr
    | 2, hr =>
      injection hr with hr
      injection hr with hk
      rw [← hk]; exact hlt
    | r + 3, hr => cases hr
  · rw [h4]
    rintro ⟨l, hl⟩
    have h5 : (1024 :: l : List Nat) = l2 := by
      refine Eq.trans ?_ (hl.trans ?_)
      · rfl
      · show [] ++ (l2 ++ ([] ++ [])) = _
        rw [List.nil_append, List.append_nil, List.append_nil]
    rw [h3] at h5
    have h6 := congrArg List.head? h5
    rw [List.head?_range] at h6
    simp at h6

/-! ## A consumer alone -/

/-- C195: while no `enqueue_bulk` fails, a call of a consumer that begins when no other is under way, and
during which the others do nothing, returns the oldest elements still there: as many as it asks for, or
all of them. The producer may have stopped in the middle of a call. -/
theorem C195_alone_partial (h : Reach c s) (hb : NoBulkFailed s.log) (hq : s.quiet) (t : Nat) {max : Nat}
    (hmax : max ≠ 0) :
    ∃ n s' k f, run c s (.deq t max :: List.replicate n (.cons t)) = some s' ∧ s'.pos t = .idle ∧
      s'.log = s.log ++ [.deq k f (((sent s.log).drop (taken s.log).length).take max)] := by
  obtain ⟨g, own, fate, hi⟩ := good_reach h (unspoilt h hb)
  obtain ⟨n, s', h1, h2, h3⟩ := lone hi (sane_reach h) hq t hmax
  exact ⟨n, s', _, _, h1, h2, by rw [quiet_head hi hq]; exact h3⟩

example : ∃ s : Sys Nat, Reach c0 s ∧ NoBulkFailed s.log ∧ s.quiet ∧
    ((sent s.log).drop (taken s.log).length).take 2 = [] := by
  obtain ⟨s, h1, h2, h3, h4⟩ := w3_runs
  exact ⟨s, ⟨true, _, h1⟩, by intro l; rw [h4]; simp, h2, by rw [h4]; rfl⟩

example : ∃ s : Sys Nat, Reach c0 s ∧ NoBulkFailed s.log ∧ s.quiet ∧
    ((sent s.log).drop (taken s.log).length).take 2 = [7, 8] := by
  obtain ⟨s, h1, -⟩ := w3_runs
  have h : run c0 (start c0 true) ([.bulk true [7, 8, 9]] ++ List.replicate 9 (.prod true) ++
    ([.deq 0 2] ++ List.replicate 13 (.cons 0) ++ [.deq 0 2] ++ List.replicate 12 (.cons 0))) = some s := by
    rw [← h1]; unfold w3; simp only [List.append_assoc]
  rw [run_app] at h
  have hl : ((run c0 (start c0 true) ([.bulk true [7, 8, 9]] ++ List.replicate 9 (.prod true))).map fun s => s.log) =
      some [.bulk [7, 8, 9] true] := by decide +kernel
  cases hr : run c0 (start c0 true) ([.bulk true [7, 8, 9]] ++ List.replicate 9 (.prod true)) with
  | none => rw [hr] at h; cases h
  | some s1 =>
    rw [hr] at hl
    injection hl with hl
    replace hl : s1.log = _ := hl
    refine ⟨s1, ⟨true, _, hr⟩, ?_, fun t => ?_, by rw [hl]; rfl⟩
    · intro l; rw [hl]; simp
    · rw [pos_run hr t]
      · rfl
      · intro m hm max
        simp only [List.mem_append, List.mem_cons, List.not_mem_nil, or_false, List.mem_replicate] at hm
        rcases hm with hm | ⟨-, hm⟩ <;> subst hm <;> (constructor <;> intro e' <;> cases e')

/-- C195: after an `enqueue_bulk` that failed it may return something else. -/
theorem C195_alone_wrong : ∃ s s' : Sys Nat, Reach c0 s ∧ taken s.log = [] ∧ sent s.log = List.range 1025 ∧
    run c0 s (.deq 0 1 :: List.replicate 12 (.cons 0)) = some s' ∧ taken s'.log = [1024] := by
  obtain ⟨s', l1, l2, h1, h2, h3, h4⟩ := w_quiet
  obtain ⟨ms, hms⟩ : ∃ ms : List (Move Nat), ms = [.bulk false (List.range 225)] ++ List.replicate 14 (.prod true) ++ [.prod false] ++
    [.bulk true (List.range 1025)] ++ List.replicate 1089 (.prod true) := ⟨_, rfl⟩
  have h : run c0 (start c0 true) (ms ++ (.deq 0 1 :: List.replicate 12 (.cons 0))) = some s' := by
    rw [← h1, hms]; unfold w; simp only [List.append_assoc, List.cons_append, List.nil_append]
  rw [run_app] at h
  have hl : ((run c0 (start c0 true) ms).map fun s => decide (s.log = [.bulk (List.range 225) false, .bulk (List.range 1025) true])) =
      some true := by rw [hms]; decide +kernel
  cases hr : run c0 (start c0 true) ms with
  | none => rw [hr] at h; cases h
  | some s =>
    rw [hr] at hl h
    injection hl with hl
    obtain ⟨l3, l4, h5, h6⟩ : ∃ l3 l4, l4 = List.range 1025 ∧ s.log = [.bulk l3 false, .bulk l4 true] :=
      ⟨_, _, rfl, of_decide_eq_true hl⟩
    refine ⟨s, s', ⟨true, _, hr⟩, by rw [h6]; rfl, ?_, h, by rw [h4]; rfl⟩
    rw [h6, ← h5]
    show [] ++ (l4 ++ []) = _
    rw [List.nil_append, List.append_nil]

/-! ## No call waits for another thread -/

/-- C196: whatever the others do, a call of a consumer ends after at most three steps of its own for each
element it asks for, and twelve; until then it can always make a step. -/
theorem C196_consumer (h : Reach c s) {t max : Nat} {ms : List (Move E)}
    (hr : run c s (.deq t max :: ms) = some s') (hn : ∀ m, .deq t m ∉ ms) :
    ms.countP (isCons t) ≤ 3 * max + 12 ∧ (ms.countP (isCons t) = 3 * max + 12 → s'.pos t = .idle) ∧
      (s'.pos t ≠ .idle → ∃ s'', move c s' (.cons t) = some s'') := by
  unfold run at hr
  split at hr
  · cases hr
  · next s1 h1 =>
    have hs1 : Sane c s1 := sane_move (sane_reach h) h1
    have hp : s1.pos t = .tl ⟨max, s.log.length⟩ := by
      unfold move at h1
      simp only at h1
      split at h1
      · split at h1
        · cases h1
        · injection h1 with h1; rw [← h1]; exact upd_self _ _ _
      · cases h1
    have h2 := left_run hs1 hr hn
    rw [hp] at h2
    have h3 : left (.tl ⟨max, s.log.length⟩ : DPos E) = 3 * max + 12 := rfl
    refine ⟨by omega, fun e => ?_, fun hi => can_cons hi⟩
    apply Classical.byContradiction
    intro hi
    have := left_pos ((sane_run hs1 hr).cons t) hi
    omega

theorem need_le (c : Cfg) (t n : Nat) : (t + n + c.B - 1) / c.B - (t + c.B - 1) / c.B ≤ n / c.B + 1 := by
  have hB := c.posB
  have h1 : (t + n + c.B - 1) / c.B < (t + c.B - 1) / c.B + n / c.B + 2 := by
    rw [Nat.div_lt_iff_lt_mul hB]
    have h2 := Nat.div_add_mod (t + c.B - 1) c.B
    have h3 := Nat.mod_lt (t + c.B - 1) hB
    have h4 := Nat.div_add_mod n c.B
    have h5 := Nat.mod_lt n hB
    rw [Nat.add_mul, Nat.add_mul, Nat.mul_comm _ c.B, Nat.mul_comm _ c.B]
    omega
  generalize (t + n + c.B - 1) / c.B = a at h1 ⊢
  generalize (t + c.B - 1) / c.B = b at h1 ⊢
  generalize n / c.B = d at h1 ⊢
  omega

/-- C196: a call of the producer for one element ends after at most six steps of its own. -/
theorem C196_enqueue (h : Reach c s) {can : Bool} {x : E} {ms : List (Move E)}
    (hr : run c s (.enq can x :: ms) = some s') (hn : ∀ m ∈ ms, starts m = false) :
    ms.countP isProd ≤ 6 ∧ (ms.countP isProd = 6 → s'.pp = .idle) ∧
      (s'.pp ≠ .idle → ∀ ok, ∃ s'', move c s' (.prod ok) = some s'') := by
  unfold run at hr
  split at hr
  · cases hr
  · next s1 h1 =>
    have hs1 : Sane c s1 := sane_move (sane_reach h) h1
    have hp : leftP s1.pp ≤ 6 := by
      unfold move at h1
      simp only at h1
      split at h1
      · injection h1 with h1
        rw [← h1]
        show leftP (if _ then _ else _) ≤ 6
        split
        · exact Nat.le_refl 6
        · exact (by decide : 2 ≤ 6)
      · cases h1
    have h2 := leftP_run hs1 hr hn
    refine ⟨by omega, fun e => ?_, fun hi ok => can_prod hi ok⟩
    apply Classical.byContradiction
    intro hi
    have := leftP_pos (sane_run hs1 hr).prod hi c
    omega

/-- C196: a call of the producer for several elements ends after at most one step of its own for each
element, two for each block of elements, and seven. -/
theorem C196_bulk (h : Reach c s) {can : Bool} {l : List E} {ms : List (Move E)}
    (hr : run c s (.bulk can l :: ms) = some s') (hn : ∀ m ∈ ms, starts m = false) :
    ms.countP isProd ≤ l.length + 2 * (l.length / c.B) + 7 ∧
      (ms.countP isProd = l.length + 2 * (l.length / c.B) + 7 → s'.pp = .idle) ∧
      (s'.pp ≠ .idle → ∀ ok, ∃ s'', move c s' (.prod ok) = some s'') := by
  unfold run at hr
  split at hr
  · cases hr
  · next s1 h1 =>
    have hs1 : Sane c s1 := sane_move (sane_reach h) h1
    have hp : leftP s1.pp ≤ l.length + 2 * (l.length / c.B) + 7 := by
      unfold move at h1
      simp only at h1
      split at h1
      · injection h1 with h1
        rw [← h1]
        have := need_le c s.tail l.length
        unfold callBulk
        simp only
        split
        · show l.length + 1 ≤ _
          omega
        · show 2 * _ + l.length + 5 ≤ _
          simp only
          omega
      · cases h1
    have h2 := leftP_run hs1 hr hn
    refine ⟨by omega, fun e => ?_, fun hi ok => can_prod hi ok⟩
    apply Classical.byContradiction
    intro hi
    have := leftP_pos (sane_run hs1 hr).prod hi c
    omega

example : ∃ (s s' : Sys Nat) (ms : List (Move Nat)), Reach c0 s ∧ run c0 s (.deq 0 2 :: ms) = some s' ∧ (∀ m, .deq 0 m ∉ ms) ∧
    ms.countP (isCons 0) = 3 := by
  obtain ⟨s', h1, -⟩ := w2_runs
  exact ⟨start c0 true, s', _, ⟨true, [], rfl⟩, h1, by intro m hm; simp [List.mem_replicate] at hm, by decide⟩

example : ∃ (s s' : Sys Nat) (ms : List (Move Nat)), Reach c0 s ∧ run c0 s (.bulk true [7, 8, 9] :: ms) = some s' ∧
    (∀ m ∈ ms, starts m = false) ∧ ms.countP isProd = 9 := by
  obtain ⟨s', h1, -⟩ := w3_runs
  exact ⟨start c0 true, s', _, ⟨true, [], rfl⟩, h1, by decide, by decide⟩

example : ∃ (s s' : Sys Nat), Reach c0 s ∧ run c0 s (.enq true 5 :: List.replicate 6 (.prod true)) = some s' := by
  have h : (run (E := Nat) c0 (start c0 true) (.enq true 5 :: List.replicate 6 (.prod true))).isSome = true := by decide +kernel
  obtain ⟨s', hs⟩ := Option.isSome_iff_exists.1 h
  exact ⟨start c0 true, s', ⟨true, [], rfl⟩, hs⟩

/-! ## Memory safety -/

/-- C197: while no `enqueue_bulk` fails, nothing undefined happens: no element is read that is not there,
no entry of an index that was not written, and no assertion fails. -/
theorem C197_safe_partial (h : Reach c s) (hb : NoBulkFailed s.log) : s.bad = false := by
  obtain ⟨g, own, fate, hi⟩ := good_reach h (unspoilt h hb)
  exact hi.bad

example : ∃ s : Sys Nat, Reach c0 s ∧ NoBulkFailed s.log := by
  obtain ⟨s, h1, h2⟩ := w2_runs
  exact ⟨s, ⟨true, _, h1⟩, by intro l; rw [h2]; simp⟩

/-- C197: after an `enqueue_bulk` that failed a call of a consumer may read an element that is not
there. -/
theorem C197_safe_wrong : ∃ s : Sys Nat, Reach c0 s ∧ s.bad = true := by
  have h : ((run c0 (start c0 true) (w 2 12)).map fun s => s.bad) = some true := by decide +kernel
  cases hr : run c0 (start c0 true) (w 2 12) with
  | none => rw [hr] at h; cases h
  | some s => rw [hr] at h; injection h with h; exact ⟨s, ⟨true, _, hr⟩, h⟩

/-! ## Calls of the producer succeed -/

/-- C198: if memory never runs out no `enqueue` and no `enqueue_bulk` returns false. -/
theorem C198_succeed {ok : Bool} {ms : List (Move E)} (hr : run c (start c ok) ms = some s) (hm : ∀ m ∈ ms, Rich m) :
    (∀ x, .enq x false ∉ s.log) ∧ NoBulkFailed s.log := by
  have h := rich_run (s := start c ok) hr hm trivial (fun r hr => by cases hr)
  refine ⟨fun x hx => ?_, fun l hl => ?_⟩
  · have h1 : false = true := h _ hx
    cases h1
  · have h1 : false = true := h _ hl
    cases h1

/-- C198: so then everything above holds. -/
theorem C198_all {ok : Bool} {ms : List (Move E)} (hr : run c (start c ok) ms = some s) (hm : ∀ m ∈ ms, Rich m) :
    s.bad = false ∧ ∃ place, Fifo s.log place :=
  ⟨C197_safe_partial ⟨ok, ms, hr⟩ (C198_succeed hr hm).2, C193_fifo_partial ⟨ok, ms, hr⟩ (C198_succeed hr hm).2⟩

example : ∃ s : Sys Nat, run c0 (start c0 true) w2 = some s ∧ (∀ m ∈ w2, Rich m) ∧ .enq 5 true ∈ s.log := by
  obtain ⟨s, h1, h2⟩ := w2_runs
  refine ⟨s, h1, fun m hm => ?_, by rw [h2]; simp⟩
  simp only [w2, List.mem_append, List.mem_cons, List.not_mem_nil, or_false, List.mem_replicate] at hm
  repeat' (first | (subst_vars; first | rfl | trivial) | (rcases hm with hm | hm) | (obtain ⟨-, hm⟩ := hm))

end Verif.TokenQueue
