import Verif.LightSema.Lemmas
/-!
# C153–C158: the semaphore of the blocking queue

`Reach n k s`: the state `s` comes up in some schedule of `k` threads on a semaphore that began
with `n` permits.
-/
namespace Verif.LightSema

/-! ### Signs -/

theorem tPost_nonneg (l : List Thread) : 0 ≤ sum tPost l :=
  sum_nonneg _ fun t _ => by
    rcases t with _ | ⟨op, p⟩
    · exact Int.le_refl _
    · cases p <;> simp [tPost, toPost]

theorem holding_nonneg (s : Sys) : 0 ≤ s.holding :=
  sum_nonneg _ fun t _ => by
    rcases t with _ | ⟨op, p⟩
    · exact Int.le_refl _
    · cases p <;> simp [holding, held]

theorem pos_nonneg (x : Int) : 0 ≤ pos x := by simp only [pos]; split <;> omega
theorem neg_nonneg (x : Int) : 0 ≤ neg x := by simp only [neg]; split <;> omega
theorem pos_neg (x : Int) : pos x - neg x = x := by simp only [pos, neg]; split <;> omega

theorem waits_count (l : List Thread) : sum tWaits l = ((l.filter Waiting).length : Nat) := by
  induction l with
  | nil => rfl
  | cons t l ih =>
    simp only [sum, ih]
    rcases t with _ | ⟨op, p⟩
    · simp [tWaits, Waiting]
    · cases p <;> simp [tWaits, waits, Waiting, List.filter_cons] <;> omega

theorem added_le {n : Nat} {s : Sys} (hi : Inv n s) : sum tAdded s.threads ≤ s.puttingIn := by
  refine sum_mono fun t ht => ?_
  rcases t with _ | ⟨op, p⟩
  · exact Int.le_refl _
  · have hf := hi.fine op p ht
    cases op <;> cases p <;>
      first | exact Int.le_refl _ | exact absurd hf id | exact hf

/-! ### C153: never more than was put in -/

/-- **C153** (never too many). In every schedule the permits that `wait`, `tryWait`, `waitMany`
and `tryWaitMany` have got are at most the permits at the beginning, those put in by calls of
`signal` that returned, and those of calls of `signal` that are running. -/
theorem C153_never_more {n k : Nat} {s : Sys} (h : Reach n k s) :
    s.granted + s.holding ≤ n + s.putIn + s.puttingIn := by
  have hi := reach_inv h
  have h1 := added_le hi
  have h2 := tPost_nonneg s.threads
  have h3 := pos_nonneg s.sh.count
  have h4 := hi.permits
  omega

theorem inv_none_lost {n : Nat} {s : Sys} (hi : Inv n s) (hq : Quiet s) :
    s.sh.count = n + s.putIn - s.granted ∧ 0 ≤ s.sh.count ∧ s.sh.sema = 0 := by
  have z : ∀ f : Thread → Int, f none = 0 → sum f s.threads = 0 :=
    fun f hf => sum_zero f (fun t ht => by rw [hq t ht, hf])
  have h1 := hi.waiters
  have h2 := hi.permits
  rw [z tPost rfl, z tWaits rfl] at h1
  rw [z tPost rfl, z tAdded rfl, show s.holding = 0 from z holding rfl] at h2
  have h3 := neg_nonneg s.sh.count
  have h4 := pos_neg s.sh.count
  have h5 := pos_nonneg s.sh.count
  omega

/-- **C153** (none lost). When no call is running, the count is exactly what was put in less what
was taken, and no wake-up is left over. -/
theorem C153_none_lost {n k : Nat} {s : Sys} (h : Reach n k s) (hq : Quiet s) :
    s.sh.count = n + s.putIn - s.granted ∧ 0 ≤ s.sh.count ∧ s.sh.sema = 0 :=
  inv_none_lost (reach_inv h) hq

/-- **C153** (the answer of `availableApprox`). Asked while no other call is running, it is what
was put in less what was taken. -/
theorem C153_available {n k : Nat} {s : Sys} {i : Nat} {c : Bool} (h : Reach n k s)
    (hq : Quiet s) (hl : i < s.threads.length) :
    ∃ r : Nat, (r : Int) = n + s.putIn - s.granted ∧ run s [.start i .available, .go i c] =
      some { s with log := (.available, some r) :: s.log } := by
  obtain ⟨h1, h2, _⟩ := C153_none_lost h hq
  have hn : s.threads[i] = none := hq _ (List.getElem_mem hl)
  have ht : s.threads[i]? = some none := by rw [List.getElem?_eq_getElem hl, hn]
  refine ⟨s.sh.count.toNat, by omega, ?_⟩
  have e1 : move s (.start i .available) = some (put s i .available s.sh (.at .read)) := by
    simp only [move, ht, begin]
  have e2 : move (put s i .available s.sh (.at .read)) (.go i c)
      = some { s with log := (.available, some s.sh.count.toNat) :: s.log } := by
    rw [move_go (put_get ht)]
    have hst : step .available s.sh .read c = some (s.sh, .ret (some s.sh.count.toNat)) := by
      have : (if 0 < s.sh.count then s.sh.count.toNat else 0) = s.sh.count.toNat := by split <;> omega
      simp only [step]
      rw [this]
    rw [show (put s i .available s.sh (.at .read)).sh = s.sh from rfl, hst]
    simp only [put, Option.map, List.set_set, set_same ht]
  simp only [run, e1, Option.bind, e2]

/-- Two permits, three threads: one takes two at once, one puts in five, one asks. -/
example : ∃ s, Reach 2 3 s ∧ Quiet s ∧ s.granted = 2 ∧ s.putIn = 5 ∧ s.sh.count = 5 :=
  ⟨_, ⟨[.start 0 (.waitMany 3 false), .start 1 (.signal 5), .go 0 true, .go 0 true, .go 1 true], rfl⟩,
    by decide, by decide, by decide, by decide⟩
/-- One permit put in and taken, three more on their way. -/
example : ∃ s, Reach 0 2 s ∧ s.granted = 1 ∧ s.putIn = 1 ∧ s.puttingIn = 3 :=
  ⟨_, ⟨[.start 1 (.signal 1), .go 1 true, .start 0 .tryWait, .go 0 true, .go 0 true,
    .start 1 (.signal 3)], rfl⟩, by decide, by decide, by decide⟩

/-! ### C154: no wake-up is lost -/

theorem stuck_pos {op : Op} {sh : Shared} {p : Pos} (hf : Fine op p) (h : step op sh p true = none) :
    p = .sleep ∧ sh.sema = 0 := by
  cases p with
  | sleep =>
    simp only [step, if_true] at h
    split at h
    · cases h
    · exact ⟨rfl, by omega⟩
  | test held old => simp only [step] at h; split at h <;> (try split at h) <;> cases h
  | spinTest left old => simp only [step] at h; split at h <;> cases h
  | adjTest old => simp only [step] at h; split at h <;> split at h <;> cases h
  | _ => cases h

theorem inv_no_lost_wakeup {n : Nat} {s : Sys} (hi : Inv n s)
    (hw : ∃ t ∈ s.threads, Waiting t) (hs : ∀ i, ¬ CanGo s i) :
    s.granted = n + s.putIn ∧ s.puttingIn = 0 := by
  have hstuck : ∀ t ∈ s.threads, t = none ∨ ∃ op, t = some (op, .sleep) ∧ s.sh.sema = 0 := by
    intro t ht
    obtain ⟨i, hl⟩ := List.getElem?_of_mem ht
    rcases t with _ | ⟨op, p⟩
    · exact .inl rfl
    · right
      have hf := hi.fine op p ht
      cases hst : step op s.sh p true with
      | none => obtain ⟨rfl, h2⟩ := stuck_pos hf hst; exact ⟨op, rfl, h2⟩
      | some r => exact absurd ⟨true, _, by rw [move_go hl, hst]; rfl⟩ (hs i)
  have z : ∀ f : Thread → Int, f none = 0 → (∀ op, Fine op .sleep → f (some (op, .sleep)) = 0) →
      sum f s.threads = 0 := by
    intro f h1 h2
    refine sum_zero f fun t ht => ?_
    rcases hstuck t ht with rfl | ⟨op, rfl, _⟩
    · exact h1
    · exact h2 op (hi.fine _ _ ht)
  obtain ⟨t, ht, hwt⟩ := hw
  have hsema : s.sh.sema = 0 := by
    rcases hstuck t ht with rfl | ⟨op, _, h0⟩
    · cases hwt
    · exact h0
  have h1 := hi.waiters
  have h2 := hi.permits
  rw [z tPost rfl (fun _ _ => rfl), waits_count] at h1
  rw [z tPost rfl (fun _ _ => rfl), z tAdded rfl (fun _ _ => rfl),
    show s.holding = 0 from z holding rfl (fun _ _ => rfl)] at h2
  have h3 : 0 < (s.threads.filter Waiting).length :=
    List.length_pos_of_mem (List.mem_filter.2 ⟨ht, hwt⟩)
  have h4 : pos s.sh.count = 0 := by
    simp only [neg] at h1
    simp only [pos]
    split <;> split at h1 <;> omega
  refine ⟨by omega, z puttingIn rfl fun op hf => ?_⟩
  cases op <;> first | rfl | exact absurd hf id

/-- **C154** (no lost wake-up). If some call is waiting and no thread can take a step, then all
the permits ever put in have been taken, and no call of `signal` is running. -/
theorem C154_no_lost_wakeup {n k : Nat} {s : Sys} (h : Reach n k s)
    (hw : ∃ t ∈ s.threads, Waiting t) (hs : ∀ i, ¬ CanGo s i) :
    s.granted = n + s.putIn ∧ s.puttingIn = 0 :=
  inv_no_lost_wakeup (reach_inv h) hw hs

theorem no_posts {n : Nat} {s : Sys} (hi : Inv n s) (hs : ∀ t ∈ s.threads, ¬ Signalling t) :
    sum tPost s.threads = 0 ∧ sum tAdded s.threads = 0 := by
  have hp : ∀ op p, some (op, p) ∈ s.threads → toPost p = 0 ∧ added op p = 0 := by
    intro op p ht
    have hf := hi.fine op p ht
    have hn := hs _ ht
    cases op <;> first | exact absurd trivial hn | (cases p <;> first | exact ⟨rfl, rfl⟩ | exact absurd hf id)
  constructor
  · refine sum_zero _ fun t ht => ?_
    rcases t with _ | ⟨op, p⟩
    · rfl
    · exact (hp op p ht).1
  · refine sum_zero _ fun t ht => ?_
    rcases t with _ | ⟨op, p⟩
    · rfl
    · exact (hp op p ht).2

/-- **C154** (free permits wake). When no call of `signal` is running and permits are left that
no call has taken, every sleeper can wake up with one. -/
theorem C154_wakes {n k : Nat} {s : Sys} {i : Nat} {op : Op} (h : Reach n k s)
    (hs : ∀ t ∈ s.threads, ¬ Signalling t) (hfree : s.granted + s.holding < n + s.putIn)
    (hi : s.threads[i]? = some (some (op, .sleep))) :
    ∃ s', move s (.go i true) = some s' ∧ s'.granted + s'.holding = s.granted + s.holding + 1 := by
  have inv := reach_inv h
  obtain ⟨h1, h2⟩ := no_posts inv hs
  have h3 := inv.waiters
  have h4 := inv.permits
  rw [h1, waits_count] at h3
  rw [h1, h2] at h4
  have h5 : 0 < (s.threads.filter Waiting).length :=
    List.length_pos_of_mem (List.mem_filter.2 ⟨List.mem_of_getElem? hi, rfl⟩)
  have hsema : 0 < s.sh.sema := by
    simp only [neg] at h3
    simp only [pos] at h4
    split at h3 <;> split at h4 <;> omega
  have hm : move s (.go i true) = some (put s i op { s.sh with sema := s.sh.sema - 1 } (got op)) := by
    rw [move_go hi]
    simp only [step, if_true]
    rw [if_pos hsema]
    rfl
  refine ⟨_, hm, ?_⟩
  have hf := inv.fine _ _ (List.mem_of_getElem? hi)
  have hw : Waits op := by cases op <;> first | exact trivial | exact hf | exact absurd hf id
  obtain ⟨_, _, _, _, g5⟩ := got_ok hw
  cases hg : got op with
  | «at» p =>
    rw [hg] at g5
    simp only [put, Sys.granted, Sys.holding]
    rw [sum_set _ hi]
    simp only [holding, held, Next.held] at *
    omega
  | ret r =>
    rw [hg] at g5
    simp only [put, Sys.granted, Sys.holding, sum]
    rw [sum_set _ hi]
    simp only [holding, held, Next.held] at *
    omega

/-- **C154** (no idle posts). A running call of `signal` never has more posts to make than calls
are waiting. -/
theorem C154_posts {n k j : Nat} {s : Sys} {op : Op} (h : Reach n k s)
    (hj : some (op, .post j) ∈ s.threads) : j ≤ s.waiters := by
  have inv := reach_inv h
  have h1 := inv.waiters
  have h2 : tPost (some (op, .post j)) ≤ sum tPost s.threads := sum_ge _ (fun t _ => by
    rcases t with _ | ⟨op, p⟩
    · exact Int.le_refl _
    · cases p <;> simp [tPost, toPost]) hj
  rw [waits_count] at h1
  have h3 := neg_nonneg s.sh.count
  have h4 : tPost (some (op, .post j)) = j := rfl
  simp only [Sys.waiters]
  omega

/-- From the beginning of a wait on an empty semaphore to the sleep. -/
theorem sleeps {s : Sys} {i : Nat} {op : Op} (hop : op = .wait (timed op) ∨ ∃ m, 0 < m ∧ op = .waitMany m (timed op))
    (ht : s.threads[i]? = some none) (hc : s.sh.count ≤ 0) :
    ∃ j, run s (.start i op :: List.replicate j (.go i true)) = some ⟨⟨s.sh.count - 1, s.sh.sema⟩, s.threads.set i (some (op, .sleep)), s.log⟩ := by
  obtain ⟨l, hl⟩ : ∃ l, spins = l + 1 := ⟨9999, rfl⟩
  have hb : begin op = .at (.load 0) := by
    rcases hop with h | ⟨m, hm, h⟩
    · rw [h]; rfl
    · rw [h]; simp only [begin]; rw [if_pos (Int.le_of_lt hm)]
  have hmiss : miss op 0 = spinNext spins := by
    rcases hop with h | ⟨m, hm, h⟩
    · rw [h]; rfl
    · rw [h]; simp only [miss]; rw [if_pos hm]
  have e1 : move s (.start i op) = some (put s i op s.sh (.at (.load 0))) := by
    simp only [move, ht, hb]
  have e2 : move (put s i op s.sh (.at (.load 0))) (.go i true)
      = some (put s i op s.sh (.at (.test 0 s.sh.count))) := by
    rw [move_go (put_get ht)]
    simp [step, put, List.set_set]
  have e3 : move (put s i op s.sh (.at (.test 0 s.sh.count))) (.go i true)
      = some (put s i op s.sh (.at (.spinLoad l))) := by
    rw [move_go (put_get ht)]
    simp only [step]
    rw [if_pos hc, hmiss, hl]
    simp [spinNext, put, List.set_set]
  have e4 : run (put s i op s.sh (.at (.spinLoad l))) (List.replicate (2 * (l + 1)) (.go i true))
      = some (put s i op s.sh (.at .sub)) := by
    rw [spun l (put_get ht) hc]
    simp [put, List.set_set]
  have e5 : move (put s i op s.sh (.at .sub)) (.go i true) = some
      ⟨⟨s.sh.count - 1, s.sh.sema⟩, s.threads.set i (some (op, .sleep)), s.log⟩ := by
    rw [move_go (put_get ht)]
    simp only [step]
    have : ¬ 0 < (put s i op s.sh (.at .sub)).sh.count := by
      have : (put s i op s.sh (.at .sub)).sh.count = s.sh.count := rfl
      omega
    rw [if_neg this]
    simp [put, List.set_set]
  refine ⟨2 + (2 * (l + 1) + 1), ?_⟩
  have hms : (.start i op :: List.replicate (2 + (2 * (l + 1) + 1)) (.go i true) : List Move)
      = [.start i op, .go i true, .go i true] ++ (List.replicate (2 * (l + 1)) (.go i true) ++ [.go i true]) := by
    rw [← List.replicate_append_replicate, ← List.replicate_append_replicate]
    rfl
  rw [hms, run_append]
  have : run s [.start i op, .go i true, .go i true] = some (put s i op s.sh (.at (.spinLoad l))) := by
    simp only [run, e1, e2, e3, Option.bind]
  rw [this]
  simp only [Option.bind]
  rw [run_append, e4]
  simp only [Option.bind, run, e5]

/-- A sleeper with a timeout and an idle thread. -/
def asleep (t : Bool) : Sys := ⟨⟨-1, 0⟩, [some (.wait t, .sleep), none], []⟩

theorem asleep_reach (t : Bool) : Reach 0 2 (asleep t) := by
  obtain ⟨j, h⟩ := sleeps (s := init 0 2) (i := 0) (op := .wait t) (.inl rfl) rfl (by decide)
  exact ⟨_, h⟩

/-- A sleeper and nobody else: no thread can take a step, nothing was put in. -/
example : Reach 0 2 (asleep false) ∧ (∃ t ∈ (asleep false).threads, Waiting t) ∧ ∀ i, ¬ CanGo (asleep false) i := by
  refine ⟨asleep_reach _, ⟨_, List.mem_cons_self, rfl⟩, ?_⟩
  rintro i ⟨c, s', h⟩
  match i, c with
  | 0, true => cases h
  | 0, false => cases h
  | 1, _ => cases h
  | i + 2, _ => cases h
/-- A sleeper, and two permits put in: one wakes it, one stays in the count. -/
example : ∃ s, Reach 0 2 s ∧ (∀ t ∈ s.threads, ¬ Signalling t) ∧ s.granted + s.holding < (0 : Nat) + s.putIn ∧
    s.threads[0]? = some (some (.wait false, .sleep)) ∧ s.sh = ⟨1, 1⟩ := by
  refine ⟨_, reach_run (ms := [.start 1 (.signal 2), .go 1 true, .go 1 true]) (asleep_reach false) rfl, ?_, ?_⟩
  · decide
  · decide
/-- A call of `signal` with one post to make. -/
example : ∃ s, Reach 0 2 s ∧ some (.signal 5, .post 1) ∈ s.threads ∧ s.waiters = 1 :=
  ⟨_, reach_run (ms := [.start 1 (.signal 5), .go 1 true]) (asleep_reach false) rfl, by decide, by decide⟩

/-! ### C155: the end of a timed wait -/

theorem load_one {s : Sys} {i : Nat} {m : Int} {t : Bool} (ht : s.threads[i]? = some (some (.waitMany m t, .load 1))) :
    ∃ s', run s [.go i true, .go i true] = some s' ∧ s'.threads[i]? = some none := by
  have e1 : move s (.go i true) = some (put s i (.waitMany m t) s.sh (.at (.test 1 s.sh.count))) := by
    rw [move_go ht]; rfl
  have ht2 := put_get (op := .waitMany m t) (p := .test 1 s.sh.count) (sh := s.sh) ht
  have hr : ∃ sh r, step (.waitMany m t) s.sh (.test 1 s.sh.count) true = some (sh, .ret r) := by
    simp only [step]
    split
    · obtain ⟨q, hq⟩ := checked_ret (.waitMany m t) 1
      exact ⟨_, q, by rw [← hq]; rfl⟩
    · simp only [and_self, if_true]
      obtain ⟨q, hq⟩ := checked_ret (.waitMany m t) (1 + (s.sh.count - taken (.waitMany m t) 1 s.sh.count).toNat)
      exact ⟨_, q, by rw [← hq]; rfl⟩
  obtain ⟨sh, r, hr⟩ := hr
  refine ⟨put (put s i (.waitMany m t) s.sh (.at (.test 1 s.sh.count))) i (.waitMany m t) sh (.ret r), ?_, put_ret_get ht2⟩
  simp only [run, e1, Option.bind]
  rw [move_go ht2, show (put s i (.waitMany m t) s.sh (.at (.test 1 s.sh.count))).sh = s.sh from rfl, hr]
  rfl

/-- **C155** (timed waits end, partial). When no call of `signal` is running, a sleeper whose time
is up is out of its call within five steps of its own, whatever the other threads were doing.
Missing: it does not hold while a call of `signal` is running (`C155_wrong`). -/
theorem C155_ends_partial {n k : Nat} {s : Sys} {i : Nat} {op : Op} (h : Reach n k s)
    (hs : ∀ t ∈ s.threads, ¬ Signalling t) (hi : s.threads[i]? = some (some (op, .sleep)))
    (ht : timed op = true) :
    ∃ j ≤ 4, ∃ s', run s (.go i false :: List.replicate j (.go i true)) = some s' ∧
      s'.threads[i]? = some none := by
  have inv := reach_inv h
  obtain ⟨h1, h2⟩ := no_posts inv hs
  have h3 := inv.waiters
  rw [h1, waits_count] at h3
  have h5 : 0 < (s.threads.filter Waiting).length :=
    List.length_pos_of_mem (List.mem_filter.2 ⟨List.mem_of_getElem? hi, rfl⟩)
  have e1 : move s (.go i false) = some (put s i op s.sh (.at .adjLoad)) := by
    rw [move_go hi]
    simp [step, ht]
  have e2 : move (put s i op s.sh (.at .adjLoad)) (.go i true) = some (put s i op s.sh (.at (.adjTest s.sh.count))) := by
    rw [move_go (put_get hi)]
    simp [step, put, List.set_set]
  by_cases hc : 0 ≤ s.sh.count
  · have hsema : 0 < s.sh.sema := by
      simp only [neg] at h3
      split at h3 <;> omega
    have e3 : move (put s i op s.sh (.at (.adjTest s.sh.count))) (.go i true)
        = some (put s i op { s.sh with sema := s.sh.sema - 1 } (got op)) := by
      rw [move_go (put_get hi)]
      simp only [step]
      have hx : 0 < (put s i op s.sh (.at (.adjTest s.sh.count))).sh.sema := hsema
      rw [if_pos hc, if_pos hx]
      cases got op <;> simp [put, List.set_set]
    have key : ∀ s2, some (put s i op { s.sh with sema := s.sh.sema - 1 } (got op)) = some s2 →
        s2.threads[i]? = some none ∨ ∃ m t, s2.threads[i]? = some (some (.waitMany m t, .load 1)) := by
      intro s2 e
      cases e
      cases op with
      | waitMany m t =>
        simp only [got]
        split
        · exact .inr ⟨m, t, put_get hi⟩
        · obtain ⟨q, hq⟩ := checked_ret (.waitMany m t) 1
          rw [hq]; exact .inl (put_ret_get hi)
      | _ => exact .inl (put_ret_get hi)
    rcases key _ rfl with hr | ⟨m, t, hr⟩
    · exact ⟨2, by omega, _, by simp only [List.replicate, run, e1, e2, e3, Option.bind], hr⟩
    · obtain ⟨s', hr1, hr2⟩ := load_one hr
      refine ⟨4, by omega, s', ?_, hr2⟩
      simp only [List.replicate, run, e1, e2, e3, Option.bind] at hr1 ⊢
      exact hr1
  · have e3 : move (put s i op s.sh (.at (.adjTest s.sh.count))) (.go i true)
        = some (put (put s i op s.sh (.at (.adjTest s.sh.count))) i op
            { s.sh with count := s.sh.count + 1 } (checked op 0)) := by
      rw [move_go (put_get hi)]
      simp only [step]
      have hx : (put s i op s.sh (.at (.adjTest s.sh.count))).sh.count = s.sh.count := rfl
      rw [if_neg hc, if_pos hx]
      rfl
    obtain ⟨q, hq⟩ := checked_ret op 0
    rw [hq] at e3
    have hend := put_ret_get (op := op) (r := q) (sh := { s.sh with count := s.sh.count + 1 })
      (put_get (op := op) (p := .adjTest s.sh.count) (sh := s.sh) hi)
    exact ⟨2, by omega, _, by simp only [List.replicate, run, e1, e2, e3, Option.bind], hend⟩

/-- **C155** (refuted: a timeout bounds the wait). While a call of `signal` stands still between
its addition and its post, a waiter whose time is up goes round and round: however many steps it
takes, it is not out of its call. -/
theorem C155_wrong : ∃ s, Reach 0 2 s ∧ s.threads[0]? = some (some (.wait true, .adjLoad)) ∧
    ∀ cs : List Bool, ∃ s', run s (cs.map (.go 0)) = some s' ∧ s'.threads[0]? ≠ some none := by
  refine ⟨⟨⟨0, 0⟩, [some (.wait true, .adjLoad), some (.signal 1, .post 1)], []⟩,
    reach_run (ms := [.start 1 (.signal 1), .go 1 true, .go 0 false]) (asleep_reach true) rfl, rfl, ?_⟩
  have both : ∀ (cs : List Bool),
      (∃ s', run ⟨⟨0, 0⟩, [some (.wait true, .adjLoad), some (.signal 1, .post 1)], []⟩ (cs.map (.go 0)) = some s' ∧
        s'.threads[0]? ≠ some none) ∧
      (∃ s', run ⟨⟨0, 0⟩, [some (.wait true, .adjTest 0), some (.signal 1, .post 1)], []⟩ (cs.map (.go 0)) = some s' ∧
        s'.threads[0]? ≠ some none) := by
    intro cs
    induction cs with
    | nil => exact ⟨⟨_, rfl, by decide⟩, ⟨_, rfl, by decide⟩⟩
    | cons c cs ih => exact ⟨ih.2, ih.1⟩
  exact fun cs => (both cs).1

example : ∃ s, Reach 0 2 s ∧ (∀ t ∈ s.threads, ¬ Signalling t) ∧
    s.threads[0]? = some (some (.wait true, .sleep)) ∧ timed (.wait true) = true := by
  exact ⟨_, asleep_reach true, by decide, rfl, rfl⟩

/-! ### C156: what the calls return -/

/-- **C156** (results). Every call that returned did so with a result of its kind. -/
theorem C156_results {n k : Nat} {s : Sys} {op : Op} {r : Option Nat} (h : Reach n k s)
    (hl : (op, r) ∈ s.log) : Result op r := (reach_inv h).results op r hl

/-- **C156** (`wait()` means it). A call of `wait` without a timeout that returned did get a
permit. -/
theorem C156_wait_true {n k : Nat} {s : Sys} {r : Option Nat} (h : Reach n k s)
    (hl : (.wait false, r) ∈ s.log) : r = some 1 := by
  rcases C156_results h hl with h | ⟨h, _⟩
  · exact h
  · cases h

/-- **C156** (between one and `max`). A call of `waitMany` without a timeout for at least one
permit that returned did get at least one and at most `max`. -/
theorem C156_wait_many {n k : Nat} {s : Sys} {m : Int} {r : Option Nat} (h : Reach n k s) (hm : 0 < m)
    (hl : (.waitMany m false, r) ∈ s.log) : ∃ j : Nat, r = some j ∧ 1 ≤ j ∧ (j : Int) ≤ m := by
  rcases C156_results h hl with ⟨h, _⟩ | ⟨h, _⟩ | ⟨h, _⟩ | h
  · omega
  · omega
  · cases h
  · exact h

/-- **C156** (refuted: `waitMany` takes any `max` that is not negative). Every call of
`waitMany(0)` fails its own `assert`, though it lets 0 in. -/
theorem C156_zero_wrong {n k : Nat} {s : Sys} {r : Option Nat} (h : Reach n k s)
    (hl : (.waitMany 0 false, r) ∈ s.log) : r = none := by
  rcases C156_results h hl with ⟨h, _⟩ | ⟨_, _, h⟩ | ⟨h, _⟩ | ⟨j, _, h1, h2⟩
  · omega
  · exact h
  · cases h
  · omega

/-- **C156** (no false "nothing there"). A call of `tryWait`, or of `tryWaitMany` for at least one
permit, during which the count is above zero all the time does not come back empty-handed:
the step with which it returns gives it at least one. -/
theorem C156_try {s s' s'' : Sys} {i : Nat} {op : Op} {p : Pos} {c : Bool} {ms : List Move}
    (hop : op = .tryWait ∨ ∃ m, 0 < m ∧ op = .tryWaitMany m)
    (h0 : s.threads[i]? = some (some (op, .load 0))) (hn : NoStart i ms) (ha : AlwaysSome s ms)
    (hr : run s ms = some s') (hp : s'.threads[i]? = some (some (op, p)))
    (hm : move s' (.go i c) = some s'') (he : s''.threads[i]? = some none) :
    ∃ r : Nat, 1 ≤ r ∧ s''.log = (op, some r) :: s'.log := by
  have inv : ∀ (ms : List Move) (s : Sys), NoStart i ms → AlwaysSome s ms → run s ms = some s' →
      (s.threads[i]? = some none ∨ s.threads[i]? = some (some (op, .load 0)) ∨
        ∃ old, 0 < old ∧ s.threads[i]? = some (some (op, .test 0 old))) →
      0 < s'.sh.count ∧ (s'.threads[i]? = some none ∨ s'.threads[i]? = some (some (op, .load 0)) ∨
        ∃ old, 0 < old ∧ s'.threads[i]? = some (some (op, .test 0 old))) := by
    intro ms
    induction ms with
    | nil =>
      intro s _ ha hr h
      injection hr with hr
      subst hr
      exact ⟨ha [] [] _ rfl rfl, h⟩
    | cons m ms ih =>
      intro s hn ha hr h
      simp only [run] at hr
      cases hm : move s m with
      | none => rw [hm] at hr; cases hr
      | some s1 =>
        rw [hm] at hr
        have hc : 0 < s.sh.count := ha [] (m :: ms) s rfl rfl
        refine ih s1 (fun m' hm' => hn m' (List.mem_cons_of_mem _ hm')) ?_ hr ?_
        · intro ms1 ms2 s2 e1 e2
          refine ha (m :: ms1) ms2 s2 (by rw [e1]; rfl) ?_
          simp only [run, hm, Option.bind]
          exact e2
        · by_cases hg : ∃ c, m = .go i c
          · obtain ⟨c, rfl⟩ := hg
            obtain ⟨op', p', r, e1, e2, rfl⟩ := go_split hm
            rcases h with h | h | ⟨old, ho, h⟩
            · rw [h] at e1; cases e1
            · rw [h] at e1; cases e1
              cases e2
              exact .inr (.inr ⟨_, hc, put_get h⟩)
            · rw [h] at e1; cases e1
              simp only [step] at e2
              rw [if_neg (by omega)] at e2
              split at e2
              · cases e2
                obtain ⟨q, hq⟩ := checked_ret op (0 + (old - taken op 0 old).toNat)
                simp only [hit, hq]
                exact .inl (put_ret_get h)
              · cases e2
                exact .inr (.inr ⟨_, hc, put_get h⟩)
          · rw [move_other hm (hn m List.mem_cons_self) (fun c e => hg ⟨c, e⟩)]
            exact h
  obtain ⟨hc, h⟩ := inv ms s hn ha hr (.inr (.inl h0))
  obtain ⟨op', p', r, e1, e2, rfl⟩ := go_split hm
  rcases h with h | h | ⟨old, ho, h⟩
  · rw [h] at e1; cases e1
  · rw [h] at e1; cases e1; cases e2
    rw [put_get h] at he; cases he
  · rw [h] at e1; cases e1
    simp only [step] at e2
    rw [if_neg (by omega)] at e2
    split at e2
    · cases e2
      rcases hop with rfl | ⟨m, hm, rfl⟩
      · exact ⟨0 + (old - (old - 1)).toNat, by omega, rfl⟩
      · refine ⟨_, ?_, rfl⟩
        simp only [taken]
        split <;> omega
    · cases e2
      rw [put_get h] at he; cases he

example : ∃ s, Reach 3 2 s ∧ (.waitMany 5 false, some 3) ∈ s.log ∧ (.waitMany 0 false, none) ∈ s.log ∧
    (.tryWait, some 0) ∈ s.log :=
  ⟨_, ⟨[.start 0 (.waitMany 0 false), .go 0 true, .go 0 true, .start 0 (.waitMany 5 false), .go 0 true, .go 0 true,
    .start 1 .tryWait, .go 1 true, .go 1 true], rfl⟩, by decide, by decide, by decide⟩
example : ∃ s, Reach 0 2 s ∧ (.wait false, some 1) ∈ s.log :=
  ⟨_, reach_run (ms := [.start 1 (.signal 1), .go 1 true, .go 1 true, .go 0 true]) (asleep_reach false) rfl, by decide⟩
/-- Two threads try for the last but one permit; the loser of the race gets the last. -/
example : ∃ s s' s'', s.threads[0]? = some (some (.tryWait, .load 0)) ∧
    run s [.go 0 true, .go 1 true, .go 1 true, .go 0 true] = some s' ∧
    AlwaysSome s [.go 0 true, .go 1 true, .go 1 true, .go 0 true] ∧
    move s' (.go 0 true) = some s'' ∧ s''.threads[0]? = some none ∧ s''.log = [(.tryWait, some 1), (.tryWait, some 1)] := by
  refine ⟨⟨⟨2, 0⟩, [some (.tryWait, .load 0), some (.tryWait, .load 0)], []⟩, _, _, rfl, rfl, ?_, rfl, rfl, rfl⟩
  intro ms1 ms2 s' h1 h2
  match ms1, h1 with
  | [], _ => cases h2; decide
  | [_], h => cases h; cases h2; decide
  | [_, _], h => cases h; cases h2; decide
  | [_, _, _], h => cases h; cases h2; decide
  | [_, _, _, _], h => cases h; cases h2; decide
  | _ :: _ :: _ :: _ :: _ :: _, h => cases h

/-! ### C157: how long the calls take -/

theorem at_hand_steps {s : Sys} {i : Nat} {op : Op} (ht : s.threads[i]? = some none)
    (hw : 0 < wanted op) (hc : 0 < s.sh.count) :
    move s (.start i op) = some (put s i op s.sh (.at (.load 0))) ∧
    move (put s i op s.sh (.at (.load 0))) (.go i true) = some (put s i op s.sh (.at (.test 0 s.sh.count))) ∧
    move (put s i op s.sh (.at (.test 0 s.sh.count))) (.go i true) = some { s with
      sh := ⟨s.sh.count - min (wanted op) s.sh.count, s.sh.sema⟩
      log := (op, some (min (wanted op) s.sh.count).toNat) :: s.log } := by
  have hb : begin op = .at (.load 0) := by
    cases op <;> simp only [begin, wanted] at * <;> first | rfl | (rw [if_pos (by omega)]; done) | omega
  have e1 : move s (.start i op) = some (put s i op s.sh (.at (.load 0))) := by
    simp only [move, ht, hb]
  have e2 : move (put s i op s.sh (.at (.load 0))) (.go i true)
      = some (put s i op s.sh (.at (.test 0 s.sh.count))) := by
    rw [move_go (put_get ht)]
    simp [step, put, List.set_set]
  have htk : taken op 0 s.sh.count = s.sh.count - min (wanted op) s.sh.count := by
    cases op <;> simp only [taken, wanted] at * <;> first | omega | (split <;> omega)
  have hck : checked op (0 + (min (wanted op) s.sh.count).toNat) = .ret (some (min (wanted op) s.sh.count).toNat) := by
    obtain ⟨j, hj⟩ : ∃ j, (min (wanted op) s.sh.count).toNat = j + 1 :=
      ⟨(min (wanted op) s.sh.count).toNat - 1, by omega⟩
    rw [hj, Nat.zero_add]
    cases op with
    | waitMany m t => cases t <;> rfl
    | _ => rfl
  have e3 : move (put s i op s.sh (.at (.test 0 s.sh.count))) (.go i true)
      = some { s with
        sh := ⟨s.sh.count - min (wanted op) s.sh.count, s.sh.sema⟩
        log := (op, some (min (wanted op) s.sh.count).toNat) :: s.log } := by
    rw [move_go (put_get ht)]
    simp only [step]
    have hx : (True ∧ (put s i op s.sh (.at (.test 0 s.sh.count))).sh.count = s.sh.count) := ⟨trivial, rfl⟩
    rw [if_neg (by omega), if_pos hx]
    simp only [hit, htk]
    rw [show s.sh.count - (s.sh.count - min (wanted op) s.sh.count) = min (wanted op) s.sh.count by omega, hck]
    simp [put, List.set_set, set_same ht]
  exact ⟨e1, e2, e3⟩

/-- **C157** (with permits at hand). A call that asks for at least one permit while some are there
and no one interferes takes two steps, gets the smaller of what it asks for and what there is, and
leaves the rest. -/
theorem C157_at_hand {s : Sys} {i : Nat} {op : Op} (ht : s.threads[i]? = some none)
    (hw : 0 < wanted op) (hc : 0 < s.sh.count) :
    run s [.start i op, .go i true, .go i true] =
      some { s with
        sh := ⟨s.sh.count - min (wanted op) s.sh.count, s.sh.sema⟩
        log := (op, some (min (wanted op) s.sh.count).toNat) :: s.log } := by
  obtain ⟨e1, e2, e3⟩ := at_hand_steps ht hw hc
  simp only [run, e1, e2, e3, Option.bind]

theorem toRelease_le (old : Int) (n : Nat) : (toRelease old n).toNat ≤ n := by
  simp only [toRelease]
  split <;> omega

theorem posts_cases (k : Nat) : posts k = .ret (some 0) ∨ (posts k = .at (.post k) ∧ 0 < k) := by
  unfold posts
  split
  · exact .inl rfl
  · exact .inr ⟨rfl, by omega⟩

/-- **C157** (`signal` is wait-free). Whatever the other threads do, a call of `signal(n)` is over
after at most `n + 1` steps of its own: while it is not over it has taken at most `n`. -/
theorem C157_signal {s s' : Sys} {i : Nat} {n : Nat} {ms : List Move}
    (h0 : s.threads[i]? = some (some (.signal n, .add))) (hn : NoStart i ms)
    (hr : run s ms = some s') (hp : s'.threads[i]? ≠ some none) : stepsOf i ms ≤ n := by
  have inv : ∀ (ms : List Move) (s : Sys) (d : Nat), NoStart i ms → run s ms = some s' →
      (s.threads[i]? = some none ∨ (s.threads[i]? = some (some (.signal n, .add)) ∧ d = 0) ∨
        ∃ k, 0 < k ∧ d + k ≤ n + 1 ∧ s.threads[i]? = some (some (.signal n, .post k))) →
      d + stepsOf i ms ≤ n := by
    intro ms
    induction ms with
    | nil =>
      intro s d _ hr h
      cases hr
      rcases h with h | ⟨_, h⟩ | ⟨k, h1, h2, h3⟩
      · exact absurd h hp
      · rw [h]; simp [stepsOf]
      · simp [stepsOf]; omega
    | cons m ms ih =>
      intro s d hn hr h
      simp only [run] at hr
      cases hm : move s m with
      | none => rw [hm] at hr; cases hr
      | some s1 =>
        rw [hm] at hr
        have hn' : NoStart i ms := fun m' hm' => hn m' (List.mem_cons_of_mem _ hm')
        by_cases hg : ∃ c, m = .go i c
        · obtain ⟨c, rfl⟩ := hg
          have hst : stepsOf i (.go i c :: ms) = stepsOf i ms + 1 := by simp [stepsOf]
          obtain ⟨op', p', r, e1, e2, rfl⟩ := go_split hm
          have hx := ih _ (d + 1) hn' hr ?_
          · omega
          · rcases h with h | ⟨h, hd⟩ | ⟨k, h1, h2, h⟩
            · rw [h] at e1; cases e1
            · rw [h] at e1; cases e1
              cases e2
              have hle : (toRelease s.sh.count (amount (.signal n))).toNat ≤ n := toRelease_le _ n
              rcases posts_cases (toRelease s.sh.count (amount (.signal n))).toNat with hz | ⟨hz, hk⟩
              · rw [hz]; exact .inl (put_ret_get h)
              · rw [hz]; exact .inr (.inr ⟨_, hk, by omega, put_get h⟩)
            · rw [h] at e1; cases e1
              cases e2
              rcases posts_cases (k - 1) with hz | ⟨hz, hk⟩
              · rw [hz]; exact .inl (put_ret_get h)
              · rw [hz]; exact .inr (.inr ⟨_, hk, by omega, put_get h⟩)
        · have hst : stepsOf i (m :: ms) = stepsOf i ms := by
            cases m with
            | start j op => simp [stepsOf]
            | go j c =>
              have : (j == i) = false := by
                simp only [beq_eq_false_iff_ne]
                exact fun e => hg ⟨c, by rw [e]⟩
              simp [stepsOf, this]
          rw [hst]
          refine ih s1 d hn' hr ?_
          rw [move_other hm (hn m List.mem_cons_self) (fun c e => hg ⟨c, e⟩)]
          exact h
  have := inv ms s 0 hn hr (.inr (.inl ⟨h0, rfl⟩))
  omega

example : run (init 7 1) [.start 0 (.tryWaitMany 4), .go 0 true, .go 0 true]
    = some ⟨⟨3, 0⟩, [none], [(.tryWaitMany 4, some 4)]⟩ := rfl
/-- A sleeper that is to be woken: `signal(1)` takes two steps, after the first it is not over. -/
example : ∃ s s', Reach 0 2 s ∧ s.threads[1]? = some (some (.signal (1 : Nat), .add)) ∧ run s [.go 1 true] = some s' ∧
    s'.threads[1]? ≠ some none :=
  ⟨_, _, reach_run (ms := [.start 1 (.signal 1)]) (asleep_reach false) rfl, rfl, rfl, by decide⟩

/-! ### C158: the deadline -/

/-- **C158**. The deadline of a timed wait is a time `sem_timedwait` takes, and lies exactly the
timeout after now. -/
theorem C158_deadline (now : Time) (usecs : Nat) (h : now.Valid) :
    (deadline now usecs).Valid ∧ (deadline now usecs).nanos = now.nanos + usecs * 1000 := by
  obtain ⟨h1, h2⟩ := h
  have hd := Nat.div_add_mod usecs 1000000
  have hm := Nat.mod_lt usecs (by decide : 1000000 > 0)
  simp only [deadline]
  generalize usecs / 1000000 = q at *
  generalize usecs % 1000000 = r at *
  split <;> simp only [Time.Valid, Time.nanos] at * <;> omega

example : (⟨1700000000, 999999999⟩ : Time).Valid ∧ deadline ⟨1700000000, 999999999⟩ 2000001
    = ⟨1700000003, 999⟩ := by unfold Time.Valid; decide

end Verif.LightSema
