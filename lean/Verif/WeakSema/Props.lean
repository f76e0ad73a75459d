import Verif.WeakSema.Exact
/-!
# The semaphore of the blocking queue, on the memory of C++
-/
namespace Verif.WeakSema
open Verif.Weak (View TView Mem Msg join bot upto msgAt newest push load store rmw write Below MemOk TvOk)
open Verif.LightSema (Op Pos Next)

/-! ## C230: permits hand over what is known -/

/-- Every permit taken is a permit of its own that was put in, and who took it knows what was known to the one that put it in. -/
theorem C230_matched {base k : Nat} {s : Sys} (h : Reach base k s) : Matched s.given s.took := by
  obtain ⟨ow, fast, kern, ps, inv⟩ := h.good
  exact ⟨ps, inv.psTook, inv.psDup, fun p hp => (inv.psOk p hp).2⟩

/-- What was known to all that put in permits is known to whoever has taken one. -/
theorem C230_common {base k : Nat} {s : Sys} (h : Reach base k s) {v : View Loc} (hv : ∀ u ∈ s.given, Below v u) : ∀ g ∈ s.took, Below v g := by
  obtain ⟨ps, h1, _, h3⟩ := C230_matched h
  intro g hg
  rw [← h1] at hg
  obtain ⟨p, hp, rfl⟩ := List.mem_map.mp hg
  obtain ⟨u, hu, hb⟩ := h3 p hp
  exact (hv u (List.mem_of_getElem? hu)).trans hb

/-- At most as many permits are taken as were put in. -/
theorem C230_bound {base k : Nat} {s : Sys} (h : Reach base k s) : s.took.length ≤ s.given.length := by
  obtain ⟨ps, h1, h2, h3⟩ := C230_matched h
  rw [← h1, List.length_map, ← List.length_map (f := (·.1)) (as := ps), ← List.length_range (n := s.given.length)]
  refine List.Nodup.length_le_of_subset h2 fun n hn => ?_
  obtain ⟨p, hp, rfl⟩ := List.mem_map.mp hn
  obtain ⟨u, hu, _⟩ := h3 p hp
  obtain ⟨hl, _⟩ := List.getElem?_eq_some_iff.mp hu
  exact List.mem_range.mpr hl

/-- A permit is recorded by the thread that moves, with what it knows right after. -/
theorem C230_record {base k : Nat} {s s' : Sys} (h : Reach base k s) {i w : Nat} {c : Bool} (hm : move s (.go i w c) = some s') :
    ∃ th n, s'.threads[i]? = some th ∧ s'.took = s.took ++ List.replicate n th.tv.cur := by
  obtain ⟨th, hi, hm⟩ := Option.bind_eq_some_iff.mp hm
  unfold act at hm
  dsimp only at hm
  split at hm
  · rename_i op p e
    obtain ⟨nx, tv, n, d⟩ := step_did (h.bal.fors i th hi op p e) hm
    have hl : i < s.threads.length := (List.getElem?_eq_some_iff.mp hi).1
    exact ⟨_, n, by rw [d.threads, List.getElem?_set_self hl], d.took⟩
  · cases hm

/-- Who takes permits without the help of `m_sema` knows all that was known to anybody that put in permits before. -/
theorem C230_fast {base k : Nat} {s s' : Sys} (h : Reach base k s) {i w : Nat} {c : Bool} (hm : move s (.go i w c) = some s') (ht : s'.took ≠ s.took)
    (hs : s'.mem .sema = s.mem .sema) {u : View Loc} (hu : u ∈ s.given) : Sees s' i u := by
  obtain ⟨ow, fast, kern, ps, inv⟩ := h.good
  obtain ⟨th, hi, hm⟩ := Option.bind_eq_some_iff.mp hm
  unfold act at hm
  dsimp only at hm
  split at hm
  · rename_i op p e
    obtain ⟨nx, tv, n, d⟩ := step_did (h.bal.fors i th hi op p e) hm
    have hl : i < s.threads.length := (List.getElem?_eq_some_iff.mp hi).1
    refine ⟨_, by rw [d.threads, List.getElem?_set_self hl], (inv.all u hu).trans (d.all ?_ hs)⟩
    by_cases e : n = 0
    · exact absurd (by rw [d.took, e]; simp) ht
    · omega
  · cases hm

/-- What a thread knows it keeps knowing. -/
theorem C230_kept {base k : Nat} {s s' : Sys} (h : Reach base k s) {i : Nat} {u : View Loc} (hu : Sees s i u) {ms : List Move} (hr : run s ms = some s') : Sees s' i u :=
  run_sees h.bal hu hr

/-- Values handed over with permits: once thread `i` knows what was known to one that put in permits, it reads nothing older, of
any location of the program; and what nobody has changed since, it changes without a race. -/
theorem C230_handover {base k : Nat} {s s' : Sys} (h : Reach base k s) {i : Nat} {u : View Loc} (hu : Sees s i u) {ms : List Move} (hr : run s ms = some s')
    {th : Th} (hth : s'.threads[i]? = some th) (x : Nat) :
    (∀ w acq, load acq s'.mem th.tv (.user x) w ≠ none → u (.user x) ≤ w) ∧
      (u (.user x) = (s'.mem (.user x)).length → ∀ v, (write s'.mem th.tv (.user x) v).2.2 = true) := by
  obtain ⟨y, hy, hb⟩ := C230_kept h hu hr
  rw [hth] at hy
  cases hy
  refine ⟨fun w acq hne => ?_, fun he v => ?_⟩
  · by_cases hc : th.tv.cur (.user x) ≤ w
    · exact Nat.le_trans (hb _) hc
    · exact absurd (by unfold load; rw [if_neg hc]) hne
  · obtain ⟨ow, fast, kern, ps, inv⟩ := h.good.run hr
    have hok := (inv.tvOk i th hth).cur (.user x)
    have := hb (.user x)
    exact decide_eq_true (by omega)

/-- Calls return with permits that were taken: never with more than were put in, and with all that were taken once no call is
running. -/
theorem C230_returned {base k : Nat} {s : Sys} (h : Reach base k s) : returned s.log ≤ s.took.length ∧ (Idle s → returned s.log = s.took.length) := by
  have hb := h.bal.sum
  refine ⟨by omega, fun hi => ?_⟩
  have h0 : (s.threads.map callHeld).sum = 0 := by
    rw [show s.threads.map callHeld = List.replicate s.threads.length 0 from List.eq_replicate_iff.mpr ⟨List.length_map .., fun b hb => by
      obtain ⟨x, hx, rfl⟩ := List.mem_map.mp hb
      unfold callHeld
      rw [hi x hx]⟩, List.sum_replicate_nat]
    omega
  omega

/-! ## C153 and C154 on the memory of C++: no permit and no wake-up is lost -/

/-- When no call is running, the newest count is what was put in and not taken, `m_sema` has nothing in it, and what calls
returned with is what was taken. -/
theorem C153_memory {base k : Nat} {s : Sys} (h : Reach base k s) (hi : Idle s) :
    s.count = s.given.length - s.took.length ∧ s.sema = 0 ∧ returned s.log = s.took.length ∧ 0 ≤ s.count := by
  have h1 := h.exact.perm
  have h2 := h.exact.wake
  have hb := C230_bound h
  rw [total_zero fun x hx => by rw [hi x hx]; rfl] at h1 h2
  rw [total_zero fun x hx => by rw [hi x hx]; rfl] at h2
  refine ⟨by omega, ?_, (C230_returned h).2 hi, by omega⟩
  unfold below0 at h2
  split at h2 <;> omega

/-- While no call of `signal` is running and not all permits are taken, every sleeper can wake up with one. -/
theorem C154_memory {base k : Nat} {s : Sys} (h : Reach base k s) (hn : NoSignal s) (hf : s.took.length < s.given.length) {i : Nat} (hs : Sleeps s i) :
    ∃ s', move s (.go i 0 true) = some s' ∧ s'.took.length = s.took.length + 1 ∧ ¬ Sleeps s' i := by
  have h1 := h.exact.perm
  have h2 := h.exact.wake
  obtain ⟨tv, op, hi⟩ := hs
  rw [total_zero (f := fun x => owes x.call) fun x hx => by
    obtain ⟨j, hj⟩ := List.getElem?_of_mem hx
    cases hc : x.call with
    | none => rfl
    | some c =>
      obtain ⟨o, p⟩ := c
      cases p with
      | post r =>
        obtain ⟨n, rfl⟩ := h.bal.fors j x hj o (.post r) hc
        exact absurd hc (hn x hx n _)
      | _ => rfl] at h2
  have h3 := total_pos (f := fun x => waits x.call) (List.mem_of_getElem? hi)
  have h4 : waits (some (op, .sleep)) = 1 := rfl
  dsimp only at h3
  rw [h4] at h3
  have hpos : 0 < s.sema := by
    unfold below0 at h2
    split at h2 <;> omega
  have hm : move s (.go i 0 true) = some (pass s i ⟨tv, some (op, .sleep)⟩ op) := by
    show s.threads[i]?.bind (fun th => act s th (.go i 0 true)) = _
    rw [hi]
    show (if 0 < s.sema then some (pass s i ⟨tv, some (op, .sleep)⟩ op) else none) = _
    rw [if_pos hpos]
  have hfor : takes op = true := h.bal.fors i _ hi op .sleep rfl
  have d := did_pass (s := s) (i := i) (th := ⟨tv, some (op, .sleep)⟩) hfor
  refine ⟨_, hm, by rw [d.took, List.length_append, List.length_replicate], ?_⟩
  rintro ⟨tv', op', e⟩
  have hl : i < s.threads.length := (List.getElem?_eq_some_iff.mp hi).1
  rw [d.threads, List.getElem?_set_self hl] at e
  have e' := congrArg Th.call (Option.some.inj e)
  have hw := (got_calm op).1
  rw [show callOf op (LightSema.got op) = some (op', .sleep) from e'] at hw
  cases hw

/-- Thread 0 changes a value and puts in two permits; thread 1 takes one by `tryWait` and thread 2 one by `wait`. -/
def fastPath : List Move := [.change 0 5 9, .start 0 (.signal 2), .go 0 0 true, .start 1 .tryWait, .go 1 1 true, .go 1 0 true,
  .start 2 (.wait false), .go 2 2 true, .go 2 0 true]

example : ∃ s, Reach 0 3 s ∧ s.given.map (· (.user 5)) = [1, 1] ∧ s.took.map (· (.user 5)) = [1, 1] ∧ s.log = [(.wait false, some 1), (.tryWait, some 1), (.signal 2, some 0)] ∧ Idle s := by
  refine ⟨_, ⟨fastPath, rfl⟩, by decide, by decide, by decide, ?_⟩
  intro th hth
  simp only [fastPath, run, move, act, step] at hth
  revert th
  decide

/-! ### A thread that sleeps -/

theorem load_empty {mem : Mem Loc} {tv : TView Loc} {l : Loc} (hm : mem l = []) (hc : tv.cur l = 0) : load false mem tv l 0 = some (0, tv) := by
  unfold load
  rw [hm, if_pos (Nat.le_of_eq hc)]
  have h : ∀ v : View Loc, join (join v (upto l 0)) bot = v := by
    intro v
    funext x
    have : upto l 0 x = 0 := by unfold upto; split <;> rfl
    show max (max (v x) (upto l 0 x)) 0 = v x
    rw [this]
    omega
  show some (0, TView.mk (join (join tv.cur (upto l 0)) bot) (join (join tv.acq (upto l 0)) bot)) = some (0, tv)
  rw [h, h]

theorem go_at {s : Sys} {i w : Nat} {c : Bool} {tv : TView Loc} {op : Op} {p : Pos} (hi : s.threads[i]? = some ⟨tv, some (op, p)⟩) :
    move s (.go i w c) = step s i ⟨tv, some (op, p)⟩ op p w c := by
  show s.threads[i]?.bind (fun th => act s th (.go i w c)) = _
  rw [hi]
  rfl

/-- Thread `i` at another position. -/
def placed (s : Sys) (i : Nat) (tv : TView Loc) (op : Op) (p : Pos) : Sys := { s with threads := s.threads.set i ⟨tv, some (op, p)⟩ }

theorem placed_get {s : Sys} {i : Nat} {th : Th} (hi : s.threads[i]? = some th) (tv : TView Loc) (op : Op) (p : Pos) :
    (placed s i tv op p).threads[i]? = some ⟨tv, some (op, p)⟩ := List.getElem?_set_self (List.getElem?_eq_some_iff.mp hi).1

theorem placed_placed (s : Sys) (i : Nat) (tv : TView Loc) (op : Op) (p q : Pos) : placed (placed s i tv op p) i tv op q = placed s i tv op q := by
  simp [placed, List.set_set]

theorem look_empty {s : Sys} {i : Nat} {tv : TView Loc} {op : Op} {c : Option (Op × Pos)} (hm : s.mem .count = []) (hb : s.base = 0) (hc : tv.cur .count = 0) (f : Int → Option Next) :
    look false s i ⟨tv, c⟩ op 0 f = (f 0).map fun n => to s i op tv n := by
  unfold look
  rw [load_empty hm hc]
  show (f (s.cnt 0)).map _ = _
  rw [show s.cnt 0 = 0 from by unfold Sys.cnt; rw [hb]; decide]

theorem spun {op : Op} {tv : TView Loc} (hc : tv.cur .count = 0) {i : Nat} : ∀ (left : Nat) {s : Sys} {th : Th}, s.threads[i]? = some th → s.mem .count = [] → s.base = 0 →
    run (placed s i tv op (.spinLoad left)) (List.replicate (2 * (left + 1)) (.go i 0 true)) = some (placed s i tv op .sub) := by
  intro left
  induction left with
  | zero =>
    intro s th hi hm hb
    have e1 : move (placed s i tv op (.spinLoad 0)) (.go i 0 true) = some (placed s i tv op (.spinTest 0 0)) := by
      rw [go_at (placed_get hi tv op _)]
      unfold step
      dsimp only
      rw [look_empty (s := placed s i tv op (.spinLoad 0)) hm hb hc]
      exact congrArg some (placed_placed s i tv op _ _)
    have e2 : move (placed s i tv op (.spinTest 0 0)) (.go i 0 true) = some (placed s i tv op .sub) := by
      rw [go_at (placed_get hi tv op _)]
      exact congrArg some (placed_placed s i tv op _ _)
    show (move _ _).bind _ = _
    rw [e1]
    show (move _ _).bind _ = _
    rw [e2]
    rfl
  | succ left ih =>
    intro s th hi hm hb
    have e1 : move (placed s i tv op (.spinLoad (left + 1))) (.go i 0 true) = some (placed s i tv op (.spinTest (left + 1) 0)) := by
      rw [go_at (placed_get hi tv op _)]
      unfold step
      dsimp only
      rw [look_empty (s := placed s i tv op (.spinLoad (left + 1))) hm hb hc]
      exact congrArg some (placed_placed s i tv op _ _)
    have e2 : move (placed s i tv op (.spinTest (left + 1) 0)) (.go i 0 true) = some (placed s i tv op (.spinLoad left)) := by
      rw [go_at (placed_get hi tv op _)]
      exact congrArg some (placed_placed s i tv op _ _)
    rw [show 2 * (left + 1 + 1) = 2 * (left + 1) + 1 + 1 from by omega]
    show (move _ _).bind _ = _
    rw [e1]
    show (move _ _).bind _ = _
    rw [e2]
    exact ih hi hm hb

theorem run_append (s : Sys) (a b : List Move) : run s (a ++ b) = (run s a).bind fun t => run t b := by
  induction a generalizing s with
  | nil => rfl
  | cons m a ih =>
    show (move s m).bind _ = ((move s m).bind _).bind _
    cases move s m with
    | none => rfl
    | some t => exact ih t

/-- Thread 1 waits on a semaphore with nothing in it and is about to sleep. -/
def tired : Sys := placed (init 0 2) 1 ⟨bot, bot⟩ (.wait false) .sub

theorem tired_reach : ∃ ms, run (init 0 2) ms = some tired := by
  obtain ⟨l, hl⟩ : ∃ l, LightSema.spins = l + 1 := ⟨9999, rfl⟩
  have hi : (init 0 2).threads[1]? = some ⟨⟨bot, bot⟩, none⟩ := rfl
  have e1 : move (init 0 2) (.start 1 (.wait false)) = some (placed (init 0 2) 1 ⟨bot, bot⟩ (.wait false) (.load 0)) := rfl
  have e2 : move (placed (init 0 2) 1 ⟨bot, bot⟩ (.wait false) (.load 0)) (.go 1 0 true) = some (placed (init 0 2) 1 ⟨bot, bot⟩ (.wait false) (.test 0 0)) := by
    rw [go_at (placed_get hi _ _ _)]
    unfold step
    dsimp only
    rw [look_empty (s := placed (init 0 2) 1 ⟨bot, bot⟩ (.wait false) (.load 0)) rfl rfl rfl]
    exact congrArg some (placed_placed _ _ _ _ _ _)
  have e3 : move (placed (init 0 2) 1 ⟨bot, bot⟩ (.wait false) (.test 0 0)) (.go 1 0 true) = some (placed (init 0 2) 1 ⟨bot, bot⟩ (.wait false) (.spinLoad l)) := by
    rw [go_at (placed_get hi _ _ _)]
    show some (to _ 1 (.wait false) ⟨bot, bot⟩ (LightSema.spinNext LightSema.spins)) = _
    rw [hl]
    exact congrArg some (placed_placed _ _ _ _ _ _)
  refine ⟨.start 1 (.wait false) :: .go 1 0 true :: .go 1 0 true :: List.replicate (2 * (l + 1)) (.go 1 0 true), ?_⟩
  rw [run, e1, Option.bind_some, run, e2, Option.bind_some, run, e3, Option.bind_some]
  exact spun rfl l hi rfl rfl

/-- Thread 1 sleeps, thread 0 changes a value and puts in a permit, which it has to post; thread 1 wakes up with it. -/
example : ∃ s, Reach 0 2 s ∧ s.given.map (· (.user 5)) = [1] ∧ s.took.map (· (.user 5)) = [1] ∧ s.sema = 0 ∧ (s.mem .sema).length = 2 ∧
    s.log = [(.wait false, some 1), (.signal 1, some 0)] := by
  obtain ⟨ms, hr⟩ := tired_reach
  have hs : ∃ s, run tired [.go 1 0 true, .change 0 5 9, .start 0 (.signal 1), .go 0 0 true, .go 0 0 true, .go 1 0 true] = some s ∧
    s.given.map (· (.user 5)) = [1] ∧ s.took.map (· (.user 5)) = [1] ∧ s.sema = 0 ∧ (s.mem .sema).length = 2 ∧
    s.log = [(.wait false, some 1), (.signal 1, some 0)] := ⟨_, rfl, by decide⟩
  obtain ⟨s, h1, h2⟩ := hs
  exact ⟨s, ⟨ms ++ _, by rw [run_append, hr, Option.bind_some]; exact h1⟩, h2⟩

/-- The permit is posted, and thread 1 still sleeps. -/
example : ∃ s, Reach 0 2 s ∧ NoSignal s ∧ s.took.length < s.given.length ∧ Sleeps s 1 := by
  obtain ⟨ms, hr⟩ := tired_reach
  have hs : ∃ s, run tired [.go 1 0 true, .start 0 (.signal 1), .go 0 0 true, .go 0 0 true] = some s ∧
    s.took.length < s.given.length ∧ s.threads.map (·.call) = [none, some (.wait false, .sleep)] := ⟨_, rfl, by decide⟩
  obtain ⟨s, h1, h2, h3⟩ := hs
  refine ⟨s, ⟨ms ++ _, by rw [run_append, hr, Option.bind_some]; exact h1⟩, ?_, h2, ?_⟩
  · intro th hth n p e
    have := List.mem_map_of_mem (f := (·.call)) hth
    rw [h3, e] at this
    simp at this
  · have := congrArg (·[1]?) h3
    simp only [List.getElem?_map] at this
    cases hx : s.threads[1]? with
    | none => rw [hx] at this; cases this
    | some x =>
      rw [hx] at this
      obtain ⟨tv, c⟩ := x
      cases this
      exact ⟨tv, _, hx⟩

/-- The moves of `C230_fast` and of `C230_handover`: thread 1 takes a permit that thread 0 put in. -/
example : ∃ s s', Reach 0 3 s ∧ move s (.go 1 0 true) = some s' ∧ s'.took.length = 1 ∧ s.took.length = 0 ∧ (s'.mem .sema).length = 0 ∧ s.given.map (· (.user 5)) = [1, 1] :=
  ⟨_, _, ⟨fastPath.take 5, rfl⟩, rfl, by decide, by decide, by decide, by decide⟩

end Verif.WeakSema
