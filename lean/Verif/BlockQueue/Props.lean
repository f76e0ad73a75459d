import Verif.BlockQueue.Lemmas
import Verif.LightSema.Props
/-!
# C159–C164: the blocking queue

`Reach k s`: the state `s` comes up in some schedule of `k` threads on a new queue. The inner
queue is a bag that loses nothing (see `Model`).
-/
namespace Verif.BlockQueue
open LightSema (sum sum_set sum_zero sum_nonneg sum_ge)

theorem run_append (ms ms' : List Move) : ∀ (s : Sys), run s (ms ++ ms') = (run s ms).bind fun t => run t ms' := by
  induction ms with
  | nil => intro s; rfl
  | cons m ms ih =>
    intro s
    simp only [List.cons_append, run]
    cases move s m with
    | none => rfl
    | some t => exact ih t

theorem reach_run {k : Nat} {s s' : Sys} {ms : List Move} (h : Reach k s) (hr : run s ms = some s') :
    Reach k s' := by
  obtain ⟨ms0, h⟩ := h
  refine ⟨ms0 ++ ms, ?_⟩
  rw [run_append, h]
  exact hr

theorem sem_quiet {s : Sys} (hi : Inv s) (hq : Quiet s) : LightSema.Quiet s.sem := by
  intro t ht
  obtain ⟨i, hl⟩ := List.getElem?_of_mem ht
  have hlt : i < s.locals.length := by rw [← hi.len]; exact (List.getElem?_eq_some_iff.1 hl).1
  have h1 := hi.same i _ _ (List.getElem?_eq_getElem hlt) hl
  rw [hq _ (List.getElem_mem hlt)] at h1
  exact h1

theorem puttingIn_nonneg {n : Nat} {s : LightSema.Sys} (hi : LightSema.Inv n s) : 0 ≤ s.puttingIn := by
  have h1 := LightSema.added_le hi
  have h2 : 0 ≤ sum LightSema.tAdded s.threads := sum_nonneg _ fun t ht => by
    rcases t with _ | ⟨op, p⟩
    · exact Int.le_refl _
    · have hf := hi.fine op p ht
      cases p <;> simp only [LightSema.tAdded, LightSema.added] <;> try exact Int.le_refl _
      cases op <;> first | exact hf.1 | exact absurd hf id
  omega

/-- What is in the bag: what is free, and what the loops are still to get. -/
theorem bag_len {s : Sys} (hi : Inv s) :
    (s.bag.length : Int) = s.sem.putIn + s.sem.puttingIn - s.sem.granted + sum lefts s.locals := by
  have h1 := hi.put
  have h2 := hi.grant
  have h3 := hi.all
  simp only [putAll] at h1
  omega

/-! ### C159: nothing is lost, nothing comes twice -/

/-- **C159**. In every schedule every item is, as often as it was put in, either still in the
queue or handed out, to calls that returned and to calls that are running. -/
theorem C159_conserved {k : Nat} {s : Sys} (h : Reach k s) (x : Int) :
    (s.added.count x : Int) = s.bag.count x + s.gotCount x := (reach_inv h).each x

/-- One thread puts in two sevens and a nine, another gets a seven. -/
example : ∃ s, Reach 2 s ∧ s.added.count 7 = 2 ∧ s.bag.count 7 = 1 ∧ s.gotCount 7 = 1 ∧
    s.log = [(.tryDequeue, .got [7]), (.enqueue [7, 9, 7], .added true)] :=
  ⟨_, ⟨[.start 0 (.enqueue [7, 9, 7]), .inner 0 true, .sem 0 true, .start 1 .tryDequeue, .sem 1 true, .sem 1 true,
    .take 1 [], .take 1 [7]], rfl⟩, by decide, by decide, by decide, by decide⟩

/-! ### C160: who gets past the semaphore finds its items -/

/-- **C160** (enough for all). In every schedule the queue holds at least as many items as all the
calls that are past the semaphore are still to get. -/
theorem C160_enough {k : Nat} {s : Sys} (h : Reach k s) :
    sum (fun l => (leftOf l : Int)) s.locals ≤ s.bag.length := by
  have hi := reach_inv h
  have h1 := bag_len hi
  have h2 := hi.sem.permits
  have h3 := LightSema.tPost_nonneg s.sem.threads
  have h4 := LightSema.pos_nonneg s.sem.sh.count
  have h5 := LightSema.added_le hi.sem
  have h6 := LightSema.holding_nonneg s.sem
  show sum lefts s.locals ≤ _
  omega

/-- **C160** (one round is enough). A call that is past the semaphore is over after one inner call
that gives it what is there. -/
theorem C160_finds {k : Nat} {s : Sys} {i : Nat} {op : Op} {left : Nat} {got : List Int} (h : Reach k s)
    (hl : s.locals[i]? = some (.draining op left got)) :
    left ≤ s.bag.length ∧ ∃ picks s', move s (.take i picks) = some s' ∧ s'.locals[i]? = some .idle ∧
      s'.log = (op, .got (got ++ picks)) :: s.log ∧ picks.length = left := by
  have h1 := C160_enough h
  have h2 : (leftOf (.draining op left got) : Int) ≤ sum (fun l => (leftOf l : Int)) s.locals :=
    sum_ge (fun l => (leftOf l : Int)) (fun _ _ => Int.natCast_nonneg _) (List.mem_of_getElem? hl)
  have hle : left ≤ s.bag.length := by
    simp only [leftOf] at h2
    simp only [leftOf] at h1
    omega
  have hlt := (List.getElem?_eq_some_iff.1 hl).1
  obtain ⟨picks, bag', p1, p2⟩ := takeOut_some (picks := List.replicate left 0) (bag := s.bag) (by simpa using hle)
  rw [List.length_replicate] at p1
  refine ⟨hle, picks, finish { s with bag := bag' } i op (.got (got ++ picks)), ?_, ?_, rfl, p1⟩
  · simp only [move, hl]
    rw [if_pos (by omega), p2]
    simp only [Option.map, drain]
    rw [if_pos (by omega)]
  · simp [finish, hlt]

/-- Three items, two calls in their loops. -/
example : ∃ s, Reach 3 s ∧ s.locals = [.idle, .draining .tryDequeue 1 [], .draining (.tryBulk 5) 1 [4]] ∧
    s.bag.length = 2 :=
  ⟨_, ⟨[.start 0 (.enqueue [4, 5, 6]), .inner 0 true, .sem 0 true, .start 1 .tryDequeue, .sem 1 true, .sem 1 true,
    .start 2 (.tryBulk 5), .sem 2 true, .sem 2 true, .take 2 [4]], rfl⟩, by decide, by decide⟩

/-! ### C161: no one waits for what is there -/

/-- **C161** (no lost wake-up). If a call is waiting in the semaphore and no thread can do
anything, the queue is empty. -/
theorem C161_no_lost_wakeup {k : Nat} {s : Sys} (h : Reach k s)
    (hw : ∃ op, .calling op ∈ s.locals) (hs : ∀ i, ¬ CanGo s i) : s.bag = [] := by
  have hi := reach_inv h
  have hno : ∀ l ∈ s.locals, leftOf l = 0 := by
    intro l hl
    obtain ⟨i, hx⟩ := List.getElem?_of_mem hl
    cases l with
    | draining op left got =>
      obtain ⟨h1, picks, s', h2, _, _, h5⟩ := C160_finds h hx
      have hf := (hi.local_ _ hl).1
      exact absurd (.inr (.inr ⟨picks, s', by intro e; rw [e] at h5; simp at h5; omega, h2⟩)) (hs i)
    | _ => rfl
  have hmove : ∀ i, ¬ LightSema.CanGo s.sem i := by
    rintro i ⟨c, sem, hm⟩
    obtain ⟨op', p, r, e1, e2, rfl⟩ := LightSema.go_split hm
    have hlt : i < s.locals.length := by rw [← hi.len]; exact (List.getElem?_eq_some_iff.1 e1).1
    have hmt := hi.same i _ _ (List.getElem?_eq_getElem hlt) e1
    cases hc : s.locals[i] with
    | calling op =>
      rw [hc] at hmt
      have hl : s.locals[i]? = some (.calling op) := by rw [List.getElem?_eq_getElem hlt, hc]
      refine hs i (.inr (.inl ⟨c, ?_⟩))
      simp only [move, hl, hm, Option.bind]
      obtain ⟨sh', nx⟩ := r
      have hk := LightSema.step_ok (hi.sem.fine _ _ (List.mem_of_getElem? e1)) e2
      obtain ⟨q, hq⟩ := hmt
      cases hq
      cases nx with
      | «at» p' =>
        simp only [LightSema.put_get e1]
        exact ⟨_, rfl⟩
      | ret r' =>
        simp only [LightSema.put_ret_get e1]
        simp only [LightSema.put]
        cases r' with
        | none => exact ⟨_, rfl⟩
        | some r' =>
          cases op with
          | waitDequeue =>
            rcases hk.fine with e | ⟨e, _⟩ <;> cases e
            exact ⟨_, rfl⟩
          | _ => exact ⟨_, rfl⟩
    | _ => rw [hc] at hmt; cases hmt
  obtain ⟨op, hop⟩ := hw
  obtain ⟨i, hx⟩ := List.getElem?_of_mem hop
  have hlt : i < s.sem.threads.length := by rw [hi.len]; exact (List.getElem?_eq_some_iff.1 hx).1
  obtain ⟨p, hp⟩ := hi.same i _ _ hx (List.getElem?_eq_getElem hlt)
  have hmem : some (semOp op, p) ∈ s.sem.threads := by rw [← hp]; exact List.getElem_mem hlt
  have hwait : ∃ t ∈ s.sem.threads, LightSema.Waiting t := by
    refine ⟨_, hmem, ?_⟩
    have hf := hi.sem.fine _ _ hmem
    cases hst : LightSema.step (semOp op) s.sem.sh p true with
    | none => obtain ⟨rfl, _⟩ := LightSema.stuck_pos hf hst; rfl
    | some r =>
      refine absurd ⟨true, LightSema.put s.sem i (semOp op) r.1 r.2, ?_⟩ (hmove i)
      · rw [LightSema.move_go (by rw [List.getElem?_eq_getElem hlt, hp]), hst]; rfl
  obtain ⟨g1, g2⟩ := LightSema.inv_no_lost_wakeup hi.sem hwait hmove
  have hb := bag_len hi
  have hz : sum lefts s.locals = 0 := sum_zero _ fun l hl => by simp only [lefts, hno l hl]; rfl
  exact List.eq_nil_of_length_eq_zero (by omega)

/-- Steps of the semaphore in which its call does not end. -/
theorem mirror {i : Nat} {op : Op} {ls : List Local} {b a : List Int} {g : List (Op × Res)}
    (hl : ls[i]? = some (.calling op)) (n : Nat) : ∀ {sem sem' : LightSema.Sys},
    LightSema.run sem (List.replicate n (.go i true)) = some sem' → sem'.threads[i]? ≠ some none →
    run ⟨sem, ls, b, a, g⟩ (List.replicate n (.sem i true)) = some ⟨sem', ls, b, a, g⟩ := by
  induction n with
  | zero => intro sem sem' h _; cases h; rfl
  | succ n ih =>
    intro sem sem' h hn
    rw [List.replicate_succ] at h ⊢
    simp only [LightSema.run] at h
    cases hm : LightSema.move sem (.go i true) with
    | none => rw [hm] at h; cases h
    | some sem1 =>
      rw [hm] at h
      simp only [Option.bind] at h
      have h1 : sem1.threads[i]? ≠ some none := by
        intro e
        cases n with
        | zero => cases h; exact hn e
        | succ n =>
          rw [List.replicate_succ] at h
          simp only [LightSema.run, LightSema.move, e, Option.bind] at h
          cases h
      have h2 : move ⟨sem, ls, b, a, g⟩ (.sem i true) = some ⟨sem1, ls, b, a, g⟩ := by
        simp only [move, hl, hm, Option.bind]
        split
        · rename_i e _; exact absurd e h1
        · rfl
      simp only [run, h2, Option.bind]
      exact ih h hn

/-- A call of `wait_dequeue` on an empty queue, and an idle thread. -/
def waiting : Sys := ⟨LightSema.asleep false, [.calling .waitDequeue, .idle], [], [], []⟩

theorem waiting_reach : Reach 2 waiting := by
  obtain ⟨j, h⟩ := LightSema.sleeps (s := LightSema.init 0 2) (i := 0) (op := .wait false) (.inl rfl) rfl (by decide)
  refine ⟨.start 0 .waitDequeue :: List.replicate j (.sem 0 true), ?_⟩
  exact mirror (i := 0) (op := .waitDequeue) rfl j h (by decide)

/-- It waits, and no thread can do anything. -/
example : Reach 2 waiting ∧ (∃ op, .calling op ∈ waiting.locals) ∧ ∀ i, ¬ CanGo waiting i := by
  refine ⟨waiting_reach, ⟨_, List.mem_cons_self⟩, ?_⟩
  rintro i (⟨ok, s', h⟩ | ⟨c, s', h⟩ | ⟨picks, s', _, h⟩)
  · match i with
    | 0 => cases h
    | 1 => cases h
    | i + 2 => cases h
  · match i, c with
    | 0, true => cases h
    | 0, false => cases h
    | 1, _ => cases h
    | i + 2, _ => cases h
  · match i with
    | 0 => cases h
    | 1 => cases h
    | i + 2 => cases h
/-- An item comes, the call wakes up and gets it. -/
example : ∃ s, Reach 2 s ∧ s.log = [(.waitDequeue, .got [8]), (.enqueue [8], .added true)] :=
  ⟨_, reach_run (ms := [.start 1 (.enqueue [8]), .inner 1 true, .sem 1 true, .sem 1 true, .sem 0 true, .take 0 [8]])
    waiting_reach rfl, rfl⟩

/-! ### C162: the size -/

theorem quiet_count {s : Sys} (hi : Inv s) (hq : Quiet s) :
    s.sem.sh.count = s.bag.length ∧ s.sem.puttingIn = 0 := by
  have hsq := sem_quiet hi hq
  obtain ⟨h1, _, _⟩ := LightSema.inv_none_lost hi.sem hsq
  have h2 := bag_len hi
  have h3 : s.sem.puttingIn = 0 := sum_zero _ fun t ht => by rw [hsq t ht]; rfl
  have h4 : sum lefts s.locals = 0 := sum_zero _ fun l hl => by rw [hq l hl]; rfl
  exact ⟨by omega, h3⟩

/-- **C162**. Asked while no other call is running, `size_approx` is the number of items in the
queue. -/
theorem C162_size {k : Nat} {s : Sys} {i : Nat} (c : Bool) (h : Reach k s) (hq : Quiet s)
    (hl : i < s.locals.length) :
    ∃ s', run s [.start i .size, .sem i c] = some s' ∧ s'.log = (.size, .size s.bag.length) :: s.log ∧
      s'.bag = s.bag ∧ Quiet s' := by
  have hi := reach_inv h
  obtain ⟨hc, _⟩ := quiet_count hi hq
  have hid : s.locals[i]? = some .idle := by
    rw [List.getElem?_eq_getElem hl, hq _ (List.getElem_mem hl)]
  have ht := none_of hi hid (fun _ => by simp)
  have m1 : LightSema.move s.sem (.start i .available)
      = some (LightSema.put s.sem i .available s.sem.sh (.at .read)) := by
    simp only [LightSema.move, ht, LightSema.begin]
  have e1 : move s (.start i .size)
      = some ⟨LightSema.put s.sem i .available s.sem.sh (.at .read), s.locals.set i (.calling .size), s.bag, s.added, s.log⟩ := by
    simp only [move, hid, call, semOp, m1, Option.map, LightSema.put_get ht, goOn]
  have hst : LightSema.step .available s.sem.sh .read c = some (s.sem.sh, .ret (some s.bag.length)) := by
    have : (if 0 < s.sem.sh.count then s.sem.sh.count.toNat else 0) = s.bag.length := by split <;> omega
    simp only [LightSema.step]
    rw [this]
  have hloc : (s.locals.set i (.calling .size))[i]? = some (.calling .size) := by simp [hl]
  refine ⟨⟨LightSema.put (LightSema.put s.sem i .available s.sem.sh (.at .read)) i .available s.sem.sh
      (.ret (some s.bag.length)), s.locals, s.bag, s.added, (.size, .size s.bag.length) :: s.log⟩, ?_, rfl, rfl, hq⟩
  simp only [run, e1, Option.bind]
  have ht1 := LightSema.put_get (op := .available) (p := .read) (sh := s.sem.sh) ht
  have m2 : LightSema.move (LightSema.put s.sem i .available s.sem.sh (.at .read)) (.go i c)
      = some (LightSema.put (LightSema.put s.sem i .available s.sem.sh (.at .read)) i .available s.sem.sh
      (.ret (some s.bag.length))) := by
    rw [LightSema.move_go ht1, show (LightSema.put s.sem i .available s.sem.sh (.at .read)).sh = s.sem.sh from rfl, hst]
    rfl
  simp only [move, hloc, m2, Option.bind, LightSema.put_ret_get ht1]
  simp only [LightSema.put, answered, finish, List.set_set, LightSema.set_same hid]

example : ∃ s, Reach 1 s ∧ Quiet s ∧ s.bag = [1, 2, 3] ∧ 0 < s.locals.length :=
  ⟨_, ⟨[.start 0 (.enqueue [1, 2, 3]), .inner 0 true, .sem 0 true], rfl⟩, by decide, by decide, by decide⟩

/-! ### C163: a call on its own gets what is there -/

theorem signed_small {m : Nat} (h : m < 2 ^ 63) : signed m = m := by
  unfold signed
  rw [if_pos h]

theorem wanted_sem {op : Op} (hg : Gets op) (hb : wanted op < 2 ^ 63) :
    LightSema.wanted (semOp op) = wanted op := by
  cases op with
  | enqueue _ => exact absurd hg id
  | size => exact absurd hg id
  | tryBulk m => exact signed_small hb
  | waitBulk m => exact signed_small hb
  | waitBulkTimed m => exact signed_small hb
  | _ => rfl

/-- **C163**. A call for items on its own, on a queue that is not empty, does not wait: after two
steps of the semaphore it is in its loop, gets as many as it asks for or as there are, whichever
is less, whatever items the inner queue gives, and leaves the others. -/
theorem C163_alone {k : Nat} {s : Sys} {i : Nat} {op : Op} {picks bag' : List Int} (h : Reach k s) (hq : Quiet s)
    (hl : i < s.locals.length) (hg : Gets op) (hw : 0 < wanted op) (hb : wanted op < 2 ^ 63)
    (hne : s.bag ≠ []) (hp : picks.length = min (wanted op) s.bag.length) (ht : takeOut s.bag picks = some bag') :
    ∃ s', run s [.start i op, .sem i true, .sem i true, .take i picks] = some s' ∧
      s'.log = (op, .got picks) :: s.log ∧ s'.bag = bag' ∧ Quiet s' := by
  have hi := reach_inv h
  obtain ⟨hc, _⟩ := quiet_count hi hq
  have hpos : 0 < s.bag.length := List.length_pos_iff.2 hne
  have hid : s.locals[i]? = some .idle := by
    rw [List.getElem?_eq_getElem hl, hq _ (List.getElem_mem hl)]
  have hth := none_of hi hid (fun _ => by simp)
  have hws := wanted_sem hg hb
  obtain ⟨m1, m2, m3⟩ := LightSema.at_hand_steps (op := semOp op) hth (by omega) (by omega)
  rw [hws, hc] at m3
  have hmin : (min (wanted op : Int) s.bag.length).toNat = min (wanted op) s.bag.length := by omega
  rw [hmin] at m3
  have hloc : (s.locals.set i (.calling op))[i]? = some (.calling op) := by simp [hl]
  have e1 : move s (.start i op) = some ⟨LightSema.put s.sem i (semOp op) s.sem.sh (.at (.load 0)),
      s.locals.set i (.calling op), s.bag, s.added, s.log⟩ := by
    have : call s i op = some ⟨LightSema.put s.sem i (semOp op) s.sem.sh (.at (.load 0)),
      s.locals.set i (.calling op), s.bag, s.added, s.log⟩ := by
      simp only [call, m1, Option.map, LightSema.put_get hth, goOn]
    cases op with
    | enqueue _ => exact absurd hg id
    | size => exact absurd hg id
    | _ => simp only [move, hid]; exact this
  have e2 : move ⟨LightSema.put s.sem i (semOp op) s.sem.sh (.at (.load 0)),
      s.locals.set i (.calling op), s.bag, s.added, s.log⟩ (.sem i true)
      = some ⟨LightSema.put s.sem i (semOp op) s.sem.sh (.at (.test 0 s.sem.sh.count)),
      s.locals.set i (.calling op), s.bag, s.added, s.log⟩ := by
    simp only [move, hloc, m2, Option.bind, LightSema.put_get hth]
  rw [hc] at e2
  have hans : ∀ t : Sys, answered t i op (some (min (wanted op) s.bag.length))
      = some (goOn t i (.draining op (min (wanted op) s.bag.length) [])) := by
    intro t
    have hm1 : ¬ min (wanted op) s.bag.length = 0 := by omega
    cases op with
    | enqueue _ => exact absurd hg id
    | size => exact absurd hg id
    | tryBulk m => simp only [answered, drain, if_neg hm1]
    | waitBulk m => simp only [answered, drain, if_neg hm1]
    | waitBulkTimed m => simp only [answered, drain, if_neg hm1]
    | _ =>
      simp only [wanted, Nat.min_eq_left (show 1 ≤ s.bag.length from hpos)]
      rfl
  have e3 := fun (x : LightSema.Sys) (hx : LightSema.move (LightSema.put s.sem i (semOp op) s.sem.sh
        (.at (.test 0 s.bag.length))) (.go i true) = some x) (h1 : x.threads[i]? = some none)
      (h2 : ∃ rest, x.log = (semOp op, some (min (wanted op) s.bag.length)) :: rest) =>
    show move ⟨LightSema.put s.sem i (semOp op) s.sem.sh (.at (.test 0 s.bag.length)),
      s.locals.set i (.calling op), s.bag, s.added, s.log⟩ (.sem i true)
      = some ⟨x, s.locals.set i (.draining op (min (wanted op) s.bag.length) []), s.bag, s.added, s.log⟩ by
        obtain ⟨rest, h2⟩ := h2
        simp only [move, hloc, hx, Option.bind, h1, h2]
        rw [hans]
        simp only [goOn, List.set_set]
  have e3 := e3 _ m3 hth ⟨_, rfl⟩
  refine ⟨⟨{ s.sem with
      sh := ⟨s.bag.length - min (wanted op : Int) s.bag.length, s.sem.sh.sema⟩
      log := (semOp op, some (min (wanted op) s.bag.length)) :: s.sem.log }, s.locals, bag', s.added,
      (op, .got picks) :: s.log⟩, ?_, ?_, ?_, ?_⟩
  · simp only [run, e1, e2, e3, Option.bind]
    have hloc2 : (s.locals.set i (.draining op (min (wanted op) s.bag.length) []))[i]?
        = some (.draining op (min (wanted op) s.bag.length) []) := by simp [hl]
    simp only [move, hloc2]
    rw [if_pos (by omega), ht]
    simp only [Option.map, drain]
    rw [if_pos (by omega)]
    simp only [finish, List.set_set, LightSema.set_same hid, List.nil_append]
  · rfl
  · rfl
  · exact hq

example : ∃ s, Reach 1 s ∧ Quiet s ∧ s.bag = [1, 2, 3] ∧ 0 < s.locals.length ∧ Gets (.waitBulk 2) ∧
    ([3, 1] : List Int).length = min (wanted (.waitBulk 2)) s.bag.length ∧ takeOut s.bag [3, 1] = some [2] :=
  ⟨_, ⟨[.start 0 (.enqueue [1, 2, 3]), .inner 0 true, .sem 0 true], rfl⟩, by decide, by decide, by decide, trivial,
    by decide, by decide⟩

/-! ### C164: what the calls return -/

/-- **C164** (results). Every call that returned did so with a result of its kind: a call for at
most `max` items never gets more, `wait_dequeue` gets exactly one, `wait_dequeue_bulk` at least
one. -/
theorem C164_results {k : Nat} {s : Sys} {op : Op} {r : Res} (h : Reach k s) (hl : (op, r) ∈ s.log) :
    Result op r := (reach_inv h).log op r hl

/-- **C164** (refuted: a call for no items returns). `wait_dequeue_bulk(items, 0)` never returns,
whatever the queue holds. -/
theorem C164_zero_wrong {k : Nat} {s : Sys} (h : Reach k s) (r : Res) : (.waitBulk 0, r) ∉ s.log := by
  intro hl
  obtain ⟨items, _, h1, h2⟩ := C164_results h hl
  omega

/-- **C164** (refuted: "as many as there are"). A bulk call with a `max` of `2 ^ 63` or more, such
as `SIZE_MAX`, fails an `assert` at once, whatever the queue holds. -/
theorem C164_huge_wrong {k : Nat} {s : Sys} {i : Nat} {op : Op} {max : Nat} (h : Reach k s)
    (hi : s.locals[i]? = some .idle) (hop : op = .tryBulk max ∨ op = .waitBulk max ∨ op = .waitBulkTimed max)
    (h1 : 2 ^ 63 ≤ max) (h2 : max < 2 ^ 64) :
    ∃ s', move s (.start i op) = some s' ∧ s'.locals[i]? = some .aborted := by
  have inv := reach_inv h
  have hth := none_of inv hi (fun _ => by simp)
  have hneg : ¬ 0 ≤ signed max := by
    unfold signed
    split <;> omega
  have hb : LightSema.begin (semOp op) = .ret none := by
    rcases hop with rfl | rfl | rfl <;> simp only [semOp, LightSema.begin] <;> rw [if_neg hneg]
  have m1 : LightSema.move s.sem (.start i (semOp op)) = some (LightSema.put s.sem i (semOp op) s.sem.sh (.ret none)) := by
    simp only [LightSema.move, hth, hb]
  have hc : call s i op = some (goOn { s with sem := LightSema.put s.sem i (semOp op) s.sem.sh (.ret none) } i .aborted) := by
    simp only [call, m1, Option.map, LightSema.put_ret_get hth]
  have hlt := (List.getElem?_eq_some_iff.1 hi).1
  refine ⟨goOn { s with sem := LightSema.put s.sem i (semOp op) s.sem.sh (.ret none) } i .aborted, ?_, ?_⟩
  · rcases hop with rfl | rfl | rfl <;> simp only [move, hi] <;> exact hc
  · simp [goOn, hlt]

example : ∃ s, Reach 1 s ∧ (.waitBulk 5, .got [1, 2]) ∈ s.log ∧ s.bag = [] :=
  ⟨_, ⟨[.start 0 (.enqueue [1, 2]), .inner 0 true, .sem 0 true, .start 0 (.waitBulk 5), .sem 0 true, .sem 0 true,
    .take 0 [1], .take 0 [2]], rfl⟩, by decide, by decide⟩
/-- With an item in the queue, a call for none stops at its `assert`. -/
example : ∃ s, Reach 1 s ∧ s.bag = [1] ∧ s.locals = [.aborted] :=
  ⟨_, ⟨[.start 0 (.enqueue [1]), .inner 0 true, .sem 0 true, .start 0 (.waitBulk 0), .sem 0 true, .sem 0 true],
    rfl⟩, by decide, by decide⟩

end Verif.BlockQueue
