import Verif.UuidClock.Inv
/-! # Time-based UUIDs of many processes and threads (C213 to C216) -/
namespace Verif.UuidClock

open Verif.JString (Str)
open Verif.LibUuid (TimeVal Clock clockReg tryClock startClock clocks backSteps timestampOf)
open Verif.Uuid (value equals)

/-! ## UUIDs from results -/

theorem timeUUID_ok (m : Sem) (fuel : Nat) (hf : 36 < fuel) {reg : BitVec 64} {seq : BitVec 16} (hr : reg.toNat < 2 ^ 60) (hs : seq.toNat < 2 ^ 14)
    {node : List Byte} (hn : node.length = 6) :
    ∃ u, timeUUID m fuel reg seq node = .ok u ∧ timestampOf (value u) = reg.toNat ∧ Uuid.clockSequenceOf (value u) = seq.toNat := by
  obtain ⟨p, k1, k2, _, _, k3, k4, _⟩ := LibUuid.C79_time reg seq node hs hn
  obtain ⟨u, q1, q2⟩ := LibUuid.javaOf_ok m p k2 fuel hf
  refine ⟨u, ?_, ?_, ?_⟩
  · unfold timeUUID
    rw [k1, Outcome.bind_eq, Outcome.bind_ok, q1]
  · rw [q2, k3, Nat.mod_eq_of_lt hr]
  · rw [q2, k4]

theorem timeUUID_ne (m : Sem) (fuel : Nat) (hf : 36 < fuel) {x y : BitVec 64 × BitVec 16} (hx : x.1.toNat < 2 ^ 60 ∧ x.2.toNat < 2 ^ 14)
    (hy : y.1.toNat < 2 ^ 60 ∧ y.2.toNat < 2 ^ 14) (hne : x ≠ y) {n n' : List Byte} (hn : n.length = 6) (hn' : n'.length = 6) :
    ∃ u v, timeUUID m fuel x.1 x.2 n = .ok u ∧ timeUUID m fuel y.1 y.2 n' = .ok v ∧ equals u v = false := by
  obtain ⟨u, a1, a2, a3⟩ := timeUUID_ok m fuel hf hx.1 hx.2 hn
  obtain ⟨v, b1, b2, b3⟩ := timeUUID_ok m fuel hf hy.1 hy.2 hn'
  refine ⟨u, v, a1, b1, ?_⟩
  cases he : equals u v with
  | false => rfl
  | true =>
    exfalso
    unfold equals at he
    rw [Bool.and_eq_true, beq_iff_eq, beq_iff_eq] at he
    have huv : u = v := by
      cases u
      cases v
      simp only at he
      rw [he.1, he.2]
    subst huv
    apply hne
    obtain ⟨x1, x2⟩ := x
    obtain ⟨y1, y2⟩ := y
    have e1 : x1 = y1 := BitVec.eq_of_toNat_eq (a2.symm.trans b2)
    have e2 : x2 = y2 := BitVec.eq_of_toNat_eq (a3.symm.trans b3)
    rw [e1, e2]

theorem results_small {E T k} {s : St} {l : List Ev} {g : Ghost} (h : Inv E T k s l g) (hf : FineClock (readings l)) :
    ∀ x ∈ results l, x.2.1.toNat < 2 ^ 60 ∧ x.2.2.toNat < 2 ^ 14 := by
  intro x hx
  have h1 := h.known x hx
  have h2 := h.file
  match g, h1, h2 with
  | none, h1, _ => cases h1
  | some (n, r, tvs), h1, h2 => exact (chain_distinct hf h2.1 r).2 _ h1

/-- Whether a step opens the file if it has to. -/
def opens : Act → Bool
  | .go _ i => i.opened
  | _ => true

theorem allOpen_of {as : List Act} (h : as.all opens = true) : AllOpen as :=
  fun _ _ hm => List.all_eq_true.mp h _ hm

theorem fine_replicate {tv : TimeVal} {n : Nat} (h : Sensible tv) (hn : n ≤ 9) : FineClock (List.replicate n tv) := by
  refine ⟨fun v hv => ?_, fun v => ?_, ?_⟩
  · rw [List.eq_of_mem_replicate hv]
    exact h
  · have := List.count_le_length (a := v) (l := List.replicate n tv)
    rw [List.length_replicate] at this
    omega
  · have hb : ∀ n, backSteps (List.replicate n tv) = 0 := by
      intro n
      have hne : ¬ Earlier tv tv := by unfold Earlier; omega
      induction n with
      | zero => rfl
      | succ n ih =>
        cases n with
        | zero => rfl
        | succ n =>
          rw [List.replicate_succ, List.replicate_succ, backSteps_cons, if_neg hne, ← List.replicate_succ, ih]
    rw [hb]
    decide

/-! ## C213 -/

/-- A run used below: process 0 saves and is killed before it returns, process 1 gets a
UUID in the same microsecond. -/
def crashRun : List Act :=
  let i (sec usec : Int) : Input := ⟨true, true, ⟨sec, usec⟩, 0x1234#16⟩
  [.call 0] ++ List.replicate 9 (.go 0 (i 100 7)) ++ [.call 1, .go 1 (i 0 0), .kill 0] ++ List.replicate 11 (.go 1 (i 100 7)) ++
  [.call 0] ++ List.replicate 12 (.go 0 (i 100 7))

/-- C213 (part: one thread per process, the file can be opened, and the clock is fine
enough and rarely set back): whatever the interleaving of the processes and wherever
processes are killed, no two calls return the same UUID. Missing: threads of one process,
see `C213_threads_wrong`, and a file that cannot be opened, see `C213_unopened_wrong`. -/
theorem C213_distinct_partial {f : Option Str} {as : List Act} {s : St} {l : List Ev} (hfile : scan (f.getD []) = none)
    (hopen : AllOpen as) (hr : runs id as (start f) = some (s, l)) (hf : FineClock (readings l)) (m : Sem) (fuel : Nat) (hfuel : 36 < fuel) :
    (results l).Pairwise fun x y => ∀ n n' : List Byte, n.length = 6 → n'.length = 6 →
      ∃ u v, timeUUID m fuel x.2.1 x.2.2 n = .ok u ∧ timeUUID m fuel y.2.1 y.2.2 n' = .ok v ∧ equals u v = false := by
  obtain ⟨g, h⟩ := inv_runs (l := []) (inv_start hfile) (by simpa using hf) hopen hr
  rw [List.nil_append] at h
  have hs := results_small h hf
  exact h.distinct.imp_of_mem fun {x y} hx hy hne n n' hn hn' => timeUUID_ne m fuel hfuel (hs x hx) (hs y hy) hne hn hn'

/-- The run ends with two results and meets the conditions. -/
example : AllOpen crashRun ∧ scan ((none : Option Str).getD []) = none ∧ ∃ s l, runs id crashRun (start none) = some (s, l) ∧
    (results l).length = 2 ∧ FineClock (readings l) := by
  refine ⟨allOpen_of rfl, rfl, _, _, rfl, by decide +kernel, ?_⟩
  exact fine_replicate (tv := ⟨100, 7⟩) (n := 4) (by unfold Sensible; decide) (by decide)

/-- Two threads of a process compare their readings before either saves. -/
def twoThreads (i : Input) : List Act :=
  [.call 0] ++ List.replicate 5 (.go 0 i) ++ [.call 1] ++ List.replicate 5 (.go 1 i) ++ [.go 0 i, .go 1 i, .go 0 i, .go 0 i, .go 1 i, .go 1 i] ++
  List.replicate 4 (.go 0 i) ++ List.replicate 4 (.go 1 i)

/-- C213 fails for two threads of one process, even with a fine clock: the lock of the
file does not keep threads of a process apart, and the variables are shared. For every
time and all random bytes there is a run in which two calls return the same UUID. -/
theorem C213_threads_wrong (tv : TimeVal) (h : Sensible tv) (rnd : BitVec 16) :
    ∃ (as : List Act) (s : St) (l : List Ev) (x : BitVec 64 × BitVec 16), AllOpen as ∧ runs (fun _ => 0) as (start none) = some (s, l) ∧
      readings l = [tv, tv, tv] ∧ FineClock (readings l) ∧ results l = [(0, x), (1, x)] := by
  obtain ⟨h1, h2, h3, h4⟩ := h
  have e1 : scan [] = none := rfl
  have e2 : ¬ (tv.sec - 1 = 0 ∧ tv.usec = 0) := by omega
  have e3 : ¬ (tv.sec < tv.sec - 1 ∨ tv.sec = tv.sec - 1 ∧ tv.usec < tv.usec) := by omega
  have e4 : ¬ (tv.sec = tv.sec - 1 ∧ tv.usec = tv.usec) := by omega
  have hb : branch ⟨0, ⟨tv.sec - 1, tv.usec⟩, rnd &&& 0x3FFF#16⟩ tv = some .later := by
    unfold branch
    rw [if_neg e3, if_neg e4]
  have hrun : ∃ s l x, runs (fun _ => 0) (twoThreads ⟨true, true, tv, rnd⟩) (start none) = some (s, l) ∧ readings l = [tv, tv, tv] ∧
      results l = [(0, x), (1, x)] := by
    simp only [twoThreads, List.replicate, List.cons_append, List.nil_append, runs, step, advance, start, set, Proc.fresh, take,
      Option.map_some, Option.getD_some, Option.getD_none, e1, e2, hb, ite_true, ite_false, if_true, if_false, reduceIte,
      Option.isSome_none, Option.isSome_some, Bool.false_eq_true, Nat.zero_ne_one, Nat.one_ne_zero, true_and, and_true, or_true, true_or, reduceCtorEq]
    exact ⟨_, _, (clockReg tv 0, rnd &&& 0x3FFF#16), rfl, rfl, rfl⟩
  obtain ⟨s, l, x, k1, k2, k3⟩ := hrun
  refine ⟨_, s, l, x, ?_, k1, k2, ?_, k3⟩
  · exact allOpen_of rfl
  · rw [k2]
    refine ⟨fun v hv => ?_, fun v => ?_, ?_⟩
    · have : v = tv := by simpa using hv
      rw [this]
      exact ⟨h1, h2, h3, h4⟩
    · exact Nat.le_trans (List.count_le_length) (by simp)
    · have hn : ¬ Earlier tv tv := by unfold Earlier; omega
      rw [backSteps_cons, backSteps_cons, if_neg hn]
      show 0 + (0 + 0) < 2 ^ 14
      omega

example : Sensible ⟨100, 7⟩ := by unfold Sensible; decide

/-- C213 fails if processes cannot open the file: `uuid_generate_time_safe` would say so,
`UUID.timeUUID` ignores it. Processes that read the same time and the same two random
bytes return the same UUID. -/
theorem C213_unopened_wrong (tv : TimeVal) (h : Sensible tv) (rnd : BitVec 16) (f : Option Str) :
    ∃ (as : List Act) (s : St) (l : List Ev) (x : BitVec 64 × BitVec 16), runs id as (start f) = some (s, l) ∧
      readings l = [tv, tv, tv, tv] ∧ results l = [(0, x), (1, x)] := by
  obtain ⟨h1, h2, h3, h4⟩ := h
  have e3 : ¬ (tv.sec < tv.sec - 1 ∨ tv.sec = tv.sec - 1 ∧ tv.usec < tv.usec) := by omega
  have e4 : ¬ (tv.sec = tv.sec - 1 ∧ tv.usec = tv.usec) := by omega
  have hb : branch ⟨0, ⟨tv.sec - 1, tv.usec⟩, rnd &&& 0x3FFF#16⟩ tv = some .later := by
    unfold branch
    rw [if_neg e3, if_neg e4]
  refine ⟨[.call 0] ++ List.replicate 8 (.go 0 ⟨false, true, tv, rnd⟩) ++ [.call 1] ++ List.replicate 8 (.go 1 ⟨false, true, tv, rnd⟩), ?_⟩
  simp only [List.replicate, List.cons_append, List.nil_append, runs, step, advance, start, set, Proc.fresh, take, id,
    Option.map_some, hb, ite_true, ite_false, if_true, if_false, reduceIte,
    Option.isSome_none, Option.isSome_some, Bool.false_eq_true, Nat.zero_ne_one, Nat.one_ne_zero, true_and, and_true, or_true, true_or, reduceCtorEq]
  exact ⟨_, _, (clockReg tv 0, rnd &&& 0x3FFF#16), rfl, rfl, rfl⟩

/-! ## C214 -/

/-- Where the lock may be held. -/
def inside : Pc → Bool
  | .start => false
  | .lock => false
  | .ret _ => false
  | _ => true

/-- The holder of the lock has a thread that will release it. -/
def Held (who : Nat → Nat) (s : St) : Prop :=
  ∀ p, s.holder = some p → ∃ t pc, who t = p ∧ s.cur t = some pc ∧ inside pc = true ∧ (s.proc p).fd = .opened

/-- What a step does to the lock. -/
theorem advance_lock {t p : Nat} {i : Input} {s s' : St} {l : List Ev} {pc : Pc} (hs : advance t p i s pc = some (s', l)) :
    (∀ u, u ≠ t → s'.cur u = s.cur u) ∧ (∀ q, (s.proc q).fd = .opened → (s'.proc q).fd = .opened) ∧
    ((s'.holder = s.holder ∧ (inside pc = true → (s.proc p).fd = .opened → (∃ pc', s'.cur t = some pc' ∧ inside pc' = true) ∨ s.holder ≠ some p)) ∨
     (s'.holder = some p ∧ s'.cur t = some .read ∧ (s.proc p).fd = .opened) ∨ s'.holder = none) := by
  have hfd : ∀ (v : Proc), ((s.proc p).fd = .opened → v.fd = .opened) → ∀ q, (s.proc q).fd = .opened → (set s.proc p v q).fd = .opened := by
    intro v hv q hq
    by_cases h : q = p
    · subst h; rw [set_eq]; exact hv hq
    · rw [set_ne _ _ h]; exact hq
  cases pc with
  | start =>
    rw [advance] at hs
    split at hs
    · rename_i hu
      split at hs
      · cases hs
        exact ⟨fun u hu => set_ne _ _ hu, hfd _ (fun _ => rfl), .inl ⟨rfl, fun q => nomatch q⟩⟩
      · cases hs
        exact ⟨fun u hu => set_ne _ _ hu, hfd _ (fun q => by rw [hu] at q; cases q), .inl ⟨rfl, fun q => nomatch q⟩⟩
    · cases hs
      exact ⟨fun u hu => set_ne _ _ hu, fun q hq => hq, .inl ⟨rfl, fun q => nomatch q⟩⟩
  | lock =>
    rw [advance] at hs
    split at hs
    · rename_i ho
      split at hs
      · cases hs
        exact ⟨fun u hu => set_ne _ _ hu, fun q hq => hq, .inr (.inl ⟨rfl, set_eq _ _ _, ho⟩)⟩
      · cases hs
    · cases hs
      exact ⟨fun u hu => set_ne _ _ hu, fun q hq => hq, .inl ⟨rfl, fun q => nomatch q⟩⟩
  | read =>
    rw [advance] at hs
    split at hs
    · cases hs
      exact ⟨fun u hu => set_ne _ _ hu, hfd _ (fun q => q), .inl ⟨rfl, fun _ _ => .inl ⟨_, set_eq _ _ _, rfl⟩⟩⟩
    · cases hs
      exact ⟨fun u hu => set_ne _ _ hu, fun q hq => hq, .inl ⟨rfl, fun _ _ => .inl ⟨_, set_eq _ _ _, rfl⟩⟩⟩
  | init =>
    rw [advance] at hs
    split at hs
    · cases hs
      exact ⟨fun u hu => set_ne _ _ hu, hfd _ (fun q => q), .inl ⟨rfl, fun _ _ => .inl ⟨_, set_eq _ _ _, rfl⟩⟩⟩
    · cases hs
      exact ⟨fun u hu => set_ne _ _ hu, fun q hq => hq, .inl ⟨rfl, fun _ _ => .inl ⟨_, set_eq _ _ _, rfl⟩⟩⟩
  | time =>
    rw [advance] at hs
    cases hs
    exact ⟨fun u hu => set_ne _ _ hu, fun q hq => hq, .inl ⟨rfl, fun _ _ => .inl ⟨_, set_eq _ _ _, rfl⟩⟩⟩
  | compare tv =>
    rw [advance] at hs
    split at hs
    · cases hs
      exact ⟨fun u hu => set_ne _ _ hu, fun q hq => hq, .inl ⟨rfl, fun _ _ => .inl ⟨_, set_eq _ _ _, rfl⟩⟩⟩
    · cases hs
      exact ⟨fun u hu => set_ne _ _ hu, fun q hq => hq, .inl ⟨rfl, fun _ _ => .inl ⟨_, set_eq _ _ _, rfl⟩⟩⟩
  | update tv b =>
    rw [advance] at hs
    cases hs
    exact ⟨fun u hu => set_ne _ _ hu, hfd _ (fun q => q), .inl ⟨rfl, fun _ _ => .inl ⟨_, set_eq _ _ _, rfl⟩⟩⟩
  | make tv =>
    rw [advance] at hs
    cases hs
    refine ⟨fun u hu => set_ne _ _ hu, fun q hq => hq, .inl ⟨rfl, fun _ ho => .inl ⟨_, set_eq _ _ _, ?_⟩⟩⟩
    rw [if_pos ho]
    rfl
  | save reg =>
    rw [advance] at hs
    cases hs
    exact ⟨fun u hu => set_ne _ _ hu, fun q hq => hq, .inl ⟨rfl, fun _ _ => .inl ⟨_, set_eq _ _ _, rfl⟩⟩⟩
  | trunc reg len =>
    rw [advance] at hs
    split at hs
    · cases hs
      exact ⟨fun u hu => set_ne _ _ hu, fun q hq => hq, .inl ⟨rfl, fun _ _ => .inl ⟨_, set_eq _ _ _, rfl⟩⟩⟩
    · cases hs
      exact ⟨fun u hu => set_ne _ _ hu, fun q hq => hq, .inl ⟨rfl, fun _ _ => .inl ⟨_, set_eq _ _ _, rfl⟩⟩⟩
  | unlock reg =>
    rw [advance] at hs
    cases hs
    refine ⟨fun u hu => set_ne _ _ hu, fun q hq => hq, ?_⟩
    by_cases h : s.holder = some p
    · exact .inr (.inr (if_pos h))
    · exact .inl ⟨if_neg h, fun _ _ => .inr h⟩
  | ret reg =>
    rw [advance] at hs
    cases hs
    exact ⟨fun u hu => set_ne _ _ hu, fun q hq => hq, .inl ⟨rfl, fun q => nomatch q⟩⟩

theorem held_step {who : Nat → Nat} {s s' : St} {l : List Ev} {a : Act} (h : Held who s) (hs : step who s a = some (s', l)) : Held who s' := by
  cases a with
  | call t =>
    rw [step] at hs
    split at hs
    · cases hs
    · rename_i hn
      cases hs
      intro p hp
      obtain ⟨u, pc, h1, h2, h3⟩ := h p hp
      have hu : u ≠ t := by
        intro q
        subst q
        rw [h2] at hn
        exact hn rfl
      exact ⟨u, pc, h1, by rw [← h2]; exact set_ne _ _ hu, h3⟩
  | go t i =>
    rw [step] at hs
    cases hc : s.cur t with
    | none => rw [hc] at hs; cases hs
    | some pc =>
      rw [hc] at hs
      obtain ⟨k1, k2, k3⟩ := advance_lock hs
      intro p hp
      rcases k3 with ⟨q1, q2⟩ | ⟨q1, q2, q3⟩ | q1
      · rw [q1] at hp
        obtain ⟨u, pc', h1, h2, h3, h4⟩ := h p hp
        by_cases hu : u = t
        · subst hu
          rw [hc] at h2
          cases h2
          rcases q2 h3 (by rw [h1]; exact h4) with ⟨pc', q3, q4⟩ | q3
          · exact ⟨u, pc', h1, q3, q4, k2 p h4⟩
          · exact absurd (by rw [h1]; exact hp) q3
        · exact ⟨u, pc', h1, by rw [k1 u hu]; exact h2, h3, k2 p h4⟩
      · rw [q1] at hp
        cases hp
        exact ⟨t, .read, rfl, q2, rfl, k2 _ q3⟩
      · rw [q1] at hp
        cases hp
  | kill q =>
    rw [step] at hs
    cases hs
    intro p hp
    by_cases hq : s.holder = some q
    · simp only [if_pos hq] at hp
      cases hp
    · simp only [if_neg hq] at hp
      have hne : p ≠ q := fun e => hq (e ▸ hp)
      obtain ⟨u, pc', h1, h2, h3, h4⟩ := h p hp
      refine ⟨u, pc', h1, ?_, h3, by simp only [set_ne _ _ hne]; exact h4⟩
      show (if who u = q then none else s.cur u) = some pc'
      rw [if_neg (by rw [h1]; exact hne), h2]

theorem held_runs {who : Nat → Nat} {as : List Act} : ∀ {s s' : St} {l : List Ev}, Held who s → runs who as s = some (s', l) → Held who s' := by
  induction as with
  | nil => intro s s' l h hr; cases hr; exact h
  | cons a as ih =>
    intro s s' l h hr
    unfold runs at hr
    cases hs : step who s a with
    | none => rw [hs] at hr; cases hr
    | some x =>
      rw [hs] at hr
      simp only at hr
      cases hr2 : runs who as x.1 with
      | none => rw [hr2] at hr; cases hr
      | some y =>
        rw [hr2] at hr
        cases hr
        exact ih (held_step h hs) hr2

/-- Only the lock makes a thread wait. -/
theorem advance_some {t p : Nat} (i : Input) {s : St} {pc : Pc} (h : pc = .lock → s.holder = none ∨ s.holder = some p) :
    ∃ r, advance t p i s pc = some r := by
  cases pc <;> rw [advance]
  case lock =>
    split
    · rw [if_pos (h rfl)]; exact ⟨_, rfl⟩
    · exact ⟨_, rfl⟩
  all_goals first
    | exact ⟨_, rfl⟩
    | (split <;> first | exact ⟨_, rfl⟩ | (split <;> exact ⟨_, rfl⟩))

/-- C214: whatever the threads and processes do, whatever calls of the system fail, and
wherever processes are killed: if a thread waits for the lock of the file, the process
that holds the lock lives and has a thread in a call that can make its next step. -/
theorem C214_holder (who : Nat → Nat) {f : Option Str} {as : List Act} {s : St} {l : List Ev} (hr : runs who as (start f) = some (s, l))
    {t : Nat} (hw : Waits who s t) :
    ∃ u pc, s.holder = some (who u) ∧ who u ≠ who t ∧ s.cur u = some pc ∧ ∀ i, ∃ r, step who s (.go u i) = some r := by
  obtain ⟨_, p, h1, h2⟩ := hw
  obtain ⟨u, pc, k1, k2, k3, _⟩ := held_runs (who := who) (fun q hq => by cases hq) hr p h1
  subst k1
  refine ⟨u, pc, h1, h2, k2, fun i => ?_⟩
  rw [step, k2]
  refine advance_some i fun e => ?_
  subst e
  cases k3

/-- C214: a thread in a call that does not wait for the lock can make its next step. -/
theorem C214_go (who : Nat → Nat) {s : St} {t : Nat} {pc : Pc} (hc : s.cur t = some pc) (hw : ¬ Waits who s t) (i : Input) :
    ∃ r, step who s (.go t i) = some r := by
  rw [step, hc]
  refine advance_some i fun e => ?_
  subst e
  cases hh : s.holder with
  | none => exact .inl rfl
  | some p =>
    by_cases hp : p = who t
    · exact .inr (by rw [hp])
    · exact absurd ⟨hc, p, hh, hp⟩ hw

/-- A state in which a thread waits. -/
example : ∃ s l, runs id ([.call 0] ++ List.replicate 4 (.go 0 ⟨true, true, ⟨100, 7⟩, 0#16⟩) ++ [.call 1, .go 1 ⟨true, true, ⟨100, 7⟩, 0#16⟩]) (start none) =
    some (s, l) ∧ Waits id s 1 :=
  ⟨_, _, rfl, rfl, 0, rfl, by decide⟩

/-! ## C215 -/

/-- Steps that a call still makes. -/
def rank : Option Pc → Nat
  | none => 0
  | some .start => 12
  | some .lock => 11
  | some .read => 10
  | some .init => 9
  | some .time => 8
  | some (.compare _) => 7
  | some (.update _ _) => 6
  | some (.make _) => 5
  | some (.save _) => 4
  | some (.trunc _ _) => 3
  | some (.unlock _) => 2
  | some (.ret _) => 1

theorem rank_go {E T k} {s s' : St} {l l' : List Ev} {g : Ghost} (h : Inv E T k s l g) (hf : FineClock (readings l)) {t : Nat} {i : Input} {pc : Pc}
    (hc : s.cur t = some pc) (hs : advance t t i s pc = some (s', l')) : rank (s'.cur t) + 1 ≤ rank (s.cur t) := by
  have hpt := h.threads t
  rw [hc] at hpt ⊢
  cases pc with
  | compare tv =>
    cases hpt with
    | compare n r tvs tv a b c d =>
      obtain ⟨br, hb⟩ := chain_moves hf c.2 r
      rw [← d] at hb
      rw [advance, hb] at hs
      cases hs
      simp only [set_eq, rank]
      omega
  | make tv =>
    rw [advance] at hs
    cases hs
    simp only [set_eq]
    split <;> simp only [rank] <;> omega
  | _ =>
    rw [advance] at hs
    first
    | (cases hs; simp only [set_eq, rank]; omega)
    | (split at hs <;> first
        | (cases hs; simp only [set_eq, rank]; omega)
        | (cases hs; done)
        | (split at hs <;> first | (cases hs; simp only [set_eq, rank]; omega) | (cases hs; done)))

theorem rank_le : ∀ c, rank c ≤ 12 := by
  intro c
  cases c with
  | none => simp [rank]
  | some pc => cases pc <;> simp [rank]

theorem steps_runs {E T k} {t : Nat} {as : List Act} : ∀ {s s' : St} {l l' : List Ev} {g : Ghost}, Inv E T k s l g → FineClock (readings (l ++ l')) →
    AllOpen as → runs id as s = some (s', l') → steps t as + rank (s'.cur t) ≤ 12 * calls t as + rank (s.cur t) := by
  induction as with
  | nil =>
    intro s s' l l' g h _ _ hr
    cases hr
    simp [steps, calls]
  | cons a as ih =>
    intro s s' l l' g h hf ho hr
    unfold runs at hr
    cases hs : step id s a with
    | none => rw [hs] at hr; cases hr
    | some x =>
      obtain ⟨s₁, l₁⟩ := x
      rw [hs] at hr
      simp only at hr
      cases hr2 : runs id as s₁ with
      | none => rw [hr2] at hr; cases hr
      | some y =>
        obtain ⟨s₂, l₂⟩ := y
        rw [hr2] at hr
        cases hr
        have hf1 : FineClock (readings (l ++ l₁)) := hf.mono (by
          rw [← List.append_assoc, readings_append (l ++ l₁)]
          exact List.sublist_append_left _ _)
        obtain ⟨g1, h1⟩ := inv_step h hf1 (fun t i e => ho t i (e ▸ List.mem_cons_self)) hs
        have h2 := ih (l := l ++ l₁) h1 (by rw [List.append_assoc]; exact hf) (fun t i m => ho t i (List.mem_cons_of_mem _ m)) hr2
        have hf0 : FineClock (readings l) := hf1.mono (by rw [readings_append]; exact List.sublist_append_left _ _)
        show steps t (a :: as) + rank (s₂.cur t) ≤ _
        cases a with
        | call u =>
          rw [steps, calls]
          · rw [step] at hs
            split at hs
            · cases hs
            · cases hs
              by_cases hu : t = u
              · subst hu
                have e : rank (set s.cur t (some .start) t) = 12 := by rw [set_eq]; rfl
                simp only at h2
                rw [e] at h2
                rw [if_pos rfl]
                omega
              · simp only [set_ne _ _ hu] at h2
                rw [if_neg (fun e => hu e.symm)]
                omega
          all_goals simp
        | go u i =>
          rw [steps, calls]
          · rw [step] at hs
            cases hc : s.cur u with
            | none => rw [hc] at hs; cases hs
            | some pc =>
              rw [hc] at hs
              by_cases hu : u = t
              · subst hu
                have := rank_go h hf0 hc hs
                rw [if_pos rfl]
                omega
              · have e := (advance_lock hs).1 t (fun e => hu e.symm)
                rw [if_neg hu]
                rw [e] at h2
                omega
          all_goals simp
        | kill p =>
          rw [steps, calls]
          · rw [step] at hs
            cases hs
            have : rank (if id t = p then none else s.cur t) ≤ rank (s.cur t) := by
              split
              · exact Nat.zero_le _
              · exact Nat.le_refl _
            simp only at h2
            omega
          all_goals simp

/-- C215 (part: one thread per process, the file can be opened, and the clock is fine
enough and rarely set back): a thread makes at most twelve steps in each of its calls,
whatever the others do, so calls end. Missing: clocks that stand still, see
`C215_stuck_wrong`. -/
theorem C215_steps_partial {f : Option Str} {as : List Act} {s : St} {l : List Ev} (hfile : scan (f.getD []) = none)
    (hopen : AllOpen as) (hr : runs id as (start f) = some (s, l)) (hf : FineClock (readings l)) (t : Nat) :
    steps t as ≤ 12 * calls t as := by
  have := steps_runs (t := t) (l := []) (inv_start hfile) (by simpa using hf) hopen hr
  have h0 : rank ((start f).cur t) = 0 := rfl
  omega

example : steps 1 crashRun = 12 ∧ calls 1 crashRun = 1 := by decide

theorem runs_append {who : Nat → Nat} : ∀ {as bs : List Act} {s s' s'' : St} {l l' : List Ev}, runs who as s = some (s', l) → runs who bs s' = some (s'', l') →
    runs who (as ++ bs) s = some (s'', l ++ l') := by
  intro as
  induction as with
  | nil => intro bs s s' s'' l l' h h'; cases h; exact h'
  | cons a as ih =>
    intro bs s s' s'' l l' h h'
    rw [List.cons_append]
    unfold runs at h ⊢
    cases hs : step who s a with
    | none => rw [hs] at h; cases h
    | some x =>
      rw [hs] at h
      simp only at h ⊢
      cases hr : runs who as x.1 with
      | none => rw [hr] at h; cases h
      | some y =>
        rw [hr] at h
        cases h
        rw [ih hr h', List.append_assoc]
        rfl

theorem stuck_loop (i : Input) : ∀ (n : Nat) (s : St), (s.proc 0).clk.adjustment = 10 → (s.proc 0).clk.last = i.now →
    s.cur 0 = some .time → ∃ s' l, runs id (List.replicate (n + n) (.go 0 i)) s = some (s', l) ∧ results l = [] ∧ s'.holder = s.holder ∧
      ∀ v ∈ readings l, v = i.now := by
  intro n
  induction n with
  | zero => intro s _ _ h; exact ⟨s, [], rfl, rfl, rfl, fun v hv => nomatch hv⟩
  | succ n ih =>
    intro s h1 h2 h3
    have hb : branch (s.proc 0).clk i.now = none := by
      unfold branch
      rw [h1, h2, if_neg (by omega), if_pos ⟨rfl, rfl⟩, if_pos (by omega)]
    obtain ⟨s', l, k1, k2, k3, k4⟩ := ih { s with cur := set (set s.cur 0 (some (.compare i.now))) 0 (some .time) } h1 h2 (by simp only [set_eq])
    refine ⟨s', .reading i.now :: l, ?_, k2, k3, ?_⟩
    · rw [show n + 1 + (n + 1) = n + n + 1 + 1 by omega, List.replicate_succ, List.replicate_succ, runs, step, h3]
      simp only [advance, id]
      rw [runs, step]
      simp only [set_eq, advance, id, hb, k1, Option.map_some, List.nil_append, List.singleton_append]
    · intro v hv
      rcases List.mem_cons.mp hv with hv | hv
      · exact hv
      · exact k4 v hv

theorem counts_go (i : Input) : ∀ n, steps 0 (List.replicate n (.go 0 i)) = n ∧ calls 0 (List.replicate n (.go 0 i)) = 0 ∧
    AllOpen (List.replicate n (.go 0 { i with opened := true })) := by
  intro n
  induction n with
  | zero => exact ⟨rfl, rfl, fun _ _ h => nomatch h⟩
  | succ n ih =>
    obtain ⟨h1, h2, h3⟩ := ih
    rw [List.replicate_succ, List.replicate_succ]
    refine ⟨?_, ?_, ?_⟩
    · rw [steps, h1, if_pos rfl]; omega
    · rw [calls, h2]; simp
    · intro t j hm
      rcases List.mem_cons.mp hm with hm | hm
      · cases hm; rfl
      · exact h3 t j hm

/-- C215 fails for a clock that stands still: the file holds a state in which eleven
calls were made in one microsecond, and as long as the clock shows this microsecond
another call reads it again and again, with the file locked. -/
theorem C215_stuck_wrong (tv : TimeVal) (h : Sensible tv) (seq : BitVec 16) (hq : seq.toNat < 2 ^ 14) (n : Nat) :
    ∃ (as : List Act) (s : St) (l : List Ev), AllOpen as ∧ runs id as (start (some (text ⟨10, tv, seq⟩))) = some (s, l) ∧
      calls 0 as = 1 ∧ n ≤ steps 0 as ∧ results l = [] ∧ (∀ v ∈ readings l, v = tv) ∧ s.holder = some 0 := by
  obtain ⟨h1, h2, h3, h4⟩ := h
  have hscan : scan (text ⟨10, tv, seq⟩) = some ⟨10, tv, seq⟩ := by
    have := scan_text (c := ⟨10, tv, seq⟩) ⟨by simp only; omega, h2, h3, h4, by simp, by simp, hq⟩ []
    rwa [List.append_nil] at this
  have e2 : ¬ (tv.sec = 0 ∧ tv.usec = 0) := by omega
  have hpre : ∃ s₁, runs id [.call 0, .go 0 ⟨true, true, tv, 0#16⟩, .go 0 ⟨true, true, tv, 0#16⟩, .go 0 ⟨true, true, tv, 0#16⟩, .go 0 ⟨true, true, tv, 0#16⟩]
      (start (some (text ⟨10, tv, seq⟩))) = some (s₁, []) ∧ (s₁.proc 0).clk = ⟨10, tv, seq⟩ ∧ s₁.cur 0 = some .time ∧ s₁.holder = some 0 := by
    simp only [runs, step, advance, start, set, Proc.fresh, id, Option.map_some, Option.getD_some, hscan, e2, ite_true, ite_false, if_true, if_false, reduceIte,
      Option.isSome_none, Option.isSome_some, Bool.false_eq_true, Nat.zero_ne_one, Nat.one_ne_zero, true_and, and_true, or_true, true_or, reduceCtorEq]
    exact ⟨_, rfl, rfl, rfl, rfl⟩
  obtain ⟨s₁, k1, k2, k3, k4⟩ := hpre
  obtain ⟨s₂, l, q1, q2, q3, q4⟩ := stuck_loop ⟨true, true, tv, 0#16⟩ n s₁ (by rw [k2]) (by rw [k2]) k3
  obtain ⟨c1, c2, c3⟩ := counts_go ⟨true, true, tv, 0#16⟩ (n + n)
  refine ⟨_, s₂, [] ++ l, ?_, runs_append k1 q1, ?_, ?_, q2, q4, by rw [q3, k4]⟩
  · intro t i hm
    rcases List.mem_append.mp hm with hm | hm
    · simp at hm
      rw [hm.2]
    · exact c3 t i hm
  · simp only [List.cons_append, List.nil_append, calls, c2]
    rfl
  · simp only [List.cons_append, List.nil_append, steps, c1]
    omega

/-! ## C216 -/

/-- C216 (part, as above): while the clock is not set back, a call that begins after
another call returned, in whatever process, returns a UUID with a later timestamp. `as`
is what happened before: some calls returned, and thread `t` is in no call. `bs` is what
happened then. -/
theorem C216_order_partial {f : Option Str} {as bs : List Act} {s s' : St} {l l' : List Ev} (hfile : scan (f.getD []) = none)
    (hopen : AllOpen (as ++ bs)) (hr : runs id as (start f) = some (s, l)) (hr' : runs id bs s = some (s', l'))
    (hf : FineClock (readings (l ++ l'))) (hback : backSteps (readings (l ++ l')) = 0) {t : Nat} (hidle : s.cur t = none)
    {x y : Nat × BitVec 64 × BitVec 16} (hx : x ∈ results l) (hy : y ∈ results l') (ht : y.1 = t) (m : Sem) (fuel : Nat) (hfuel : 36 < fuel)
    {n n' : List Byte} (hn : n.length = 6) (hn' : n'.length = 6) :
    ∃ u v, timeUUID m fuel x.2.1 x.2.2 n = .ok u ∧ timeUUID m fuel y.2.1 y.2.2 n' = .ok v ∧ timestampOf (value u) < timestampOf (value v) := by
  have hf1 : FineClock (readings l) := hf.mono (by rw [readings_append]; exact List.sublist_append_left _ _)
  obtain ⟨g, h⟩ := inv_runs (l := []) (inv_start hfile) (by simpa using hf1) (fun t i hm => hopen t i (List.mem_append_left _ hm)) hr
  rw [List.nil_append] at h
  obtain ⟨g', h'⟩ := inv_runs h.mark hf (fun t i hm => hopen t i (List.mem_append_right _ hm)) hr'
  have hs := results_small h' hf
  rw [results_append] at hs
  have hlt := h'.done y (by rw [results_append, List.drop_left]; exact hy) (by rw [ht]; exact hidle) hback x.2 (List.mem_map.mpr ⟨x, hx, rfl⟩)
  obtain ⟨hx1, hx2⟩ := hs x (List.mem_append_left _ hx)
  obtain ⟨hy1, hy2⟩ := hs y (List.mem_append_right _ hy)
  obtain ⟨u, a1, a2, _⟩ := timeUUID_ok m fuel hfuel hx1 hx2 hn
  obtain ⟨v, b1, b2, _⟩ := timeUUID_ok m fuel hfuel hy1 hy2 hn'
  exact ⟨u, v, a1, b1, by rw [a2, b2]; exact hlt⟩

/-- Process 1 returned, then process 0 calls, within one microsecond. -/
example : ∃ s s' l l', runs id (crashRun.take 24) (start none) = some (s, l) ∧ runs id (crashRun.drop 24) s = some (s', l') ∧ s.cur 0 = none ∧
    (results l).length = 1 ∧ (results l').length = 1 ∧ FineClock (readings (l ++ l')) ∧ backSteps (readings (l ++ l')) = 0 := by
  refine ⟨_, _, _, _, rfl, rfl, rfl, by decide +kernel, by decide +kernel, ?_, by decide +kernel⟩
  exact fine_replicate (tv := ⟨100, 7⟩) (n := 4) (by unfold Sensible; decide) (by decide)

end Verif.UuidClock
