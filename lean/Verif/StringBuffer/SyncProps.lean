import Verif.StringBuffer.SyncHist
import Verif.StringBuffer.Props
/-!
# Properties of `StringBuffer` shared by threads
-/
namespace Verif.StringBuffer.Sync

open Verif.StringBuilder (SB)
open Verif.StringBuffer (Op Ans Txt Holds)

/-! ## C209: calls take effect one at a time -/

/-- C209 (partial): for any number of threads making any calls of methods that take the
mutex on any number of buffers, and for every schedule, the calls look as if each had
happened in one moment between its begin and its end; a buffer whose mutex is free is
the one these calls lead to; and every thread makes its calls in its own order.

Missing: `length`, `ensureCapacity` and `getValue`, which take no mutex, and calls that
read another buffer. -/
theorem C209_linearizable_partial (sem : Sem) (m₀ : Nat → SB) (todo : Nat → List Call) (hall : ∀ t, ∀ c ∈ todo t, Guarded c)
    (sched : List Nat) (s : St) (l : List Ev) (h : runs sem sched (start m₀ todo) = some (s, l)) (hu : s.ub = false) :
    ∃ m, LinearizableTo sem m₀ (l.filter Ev.seen) m ∧ (∀ o, s.owner o = none → (s.objs o).s = m o) ∧
      ∀ t, begun t l ++ s.todo t = todo t := by
  obtain ⟨ph, m, g⟩ := (good_runs hall sched _ s [] l _ m₀ rfl (good_start m₀ todo) h).1 hu
  exact ⟨m, ⟨l, rfl, ⟨ph, g.follows⟩, g.replays⟩, fun o ho => (g.objs o ho).1, g.begins⟩

/-- C209 (safety): nothing undefined happens in such a run unless one of the calls in
progress is undefined when the calls that took effect, and then it, are made one after
the other. -/
theorem C209_safe (sem : Sem) (m₀ : Nat → SB) (todo : Nat → List Call) (hall : ∀ t, ∀ c ∈ todo t, Guarded c)
    (sched : List Nat) (s : St) (l : List Ev) (h : runs sem sched (start m₀ todo) = some (s, l)) (hu : s.ub = true) :
    ∃ m t c, LinearizableTo sem m₀ (l.filter Ev.seen) m ∧ c ∈ todo t ∧ effect sem c m = .ub := by
  obtain ⟨t, c, ph, m, hf, hr, hb, hp, he⟩ := (good_runs hall sched _ s [] l _ m₀ rfl (good_start m₀ todo) h).2 hu
  refine ⟨m, t, c, ⟨l, rfl, ⟨ph, hf⟩, hr⟩, (hb t).subset ?_, he⟩
  have := hf.inOrder t
  rw [hp] at this
  simp only [Phase.open, List.nil_append] at this
  rw [List.nil_append, this]
  simp

/-- A new buffer with room for 16 characters. -/
def new16 : SB := ⟨Block.calloc 16, 0, 16⟩

/-- Two threads with one call each. -/
def two (c d : Call) : Nat → List Call
  | 0 => [c]
  | 1 => [d]
  | _ => []

example : ofCapacity 16 = .ok new16 := rfl

/-- Appending U+10401, two characters in this representation. -/
def wide : Call := .op 0 (.appendCodePoint 0x10401#32)

/-- C209 is false for `length`: while one thread appends a code point that takes two
characters to an empty buffer, another one is told that the length is 1. -/
theorem C209_length_wrong (sem : Sem) :
    ∃ sched s l, runs sem sched (start (fun _ => new16) (two wide (.op 0 .length))) = some (s, l) ∧ s.ub = false ∧
      Ev.res 1 (.op 0 .length) (.ok (.int 1)) ∈ l ∧ ¬ Linearizable sem (fun _ => new16) (l.filter Ev.seen) := by
  refine ⟨[0, 0, 0, 0, 0, 0, 0, 0, 0, 1, 1, 1], _, [.inv 0 wide, .inv 1 (.op 0 .length), .res 1 (.op 0 .length) (.ok (.int 1))], rfl, rfl,
    by simp, ?_⟩
  intro hl
  obtain ⟨o, m', hr, hc, hb, ha⟩ := hl.bound
  have h1 : (Call.op 0 .length, Except.ok (Ans.int 1)) ∈ o := ha 1 _ _ (by simp [List.filter, Ev.seen])
  have hc : o.length ≤ 2 := hc
  have hb : ∀ c r, (c, r) ∈ o → c = wide ∨ c = .op 0 .length := by
    intro c r h
    obtain ⟨t, h⟩ := hb c r h
    simp only [List.filter, Ev.seen, List.mem_cons, List.not_mem_nil, or_false, Ev.inv.injEq, reduceCtorEq] at h
    rcases h with ⟨_, h⟩ | ⟨_, h⟩
    · exact .inl h
    · exact .inr h
  have e0 : effect sem (.op 0 .length) (fun _ => new16) = .ret (set (fun _ => new16) 0 new16) (.int 0) := rfl
  match o, hc, hr, hb, h1 with
  | [], _, _, _, h1 => cases h1
  | [(c, r)], _, ⟨m₁, h, _⟩, _, h1 =>
    simp only [List.mem_singleton, Prod.mk.injEq] at h1
    obtain ⟨rfl, rfl⟩ := h1
    rw [e0] at h; cases h
  | [(c, r), (c', r')], _, ⟨m₁, h, m₂, h', _⟩, hb, h1 =>
    rcases hb c r (by simp) with rfl | rfl
    · simp only [List.mem_cons, Prod.mk.injEq, List.not_mem_nil, or_false] at h1
      rcases h1 with ⟨h1, _⟩ | ⟨rfl, rfl⟩
      · cases h1
      · have e1 : ∃ m, effect sem wide (fun _ => new16) = .ret m .unit ∧ (m 0).len = 2 := ⟨_, rfl, rfl⟩
        obtain ⟨m, e1, e2⟩ := e1
        rw [e1] at h
        cases r with
        | error e => cases h
        | ok v =>
          cases h
          have : effect sem (.op 0 .length) m₁ = .ret (set m₁ 0 (m₁ 0)) (.int (m₁ 0).len) := rfl
          rw [this, e2] at h'
          cases h'
    · rw [e0] at h
      cases r with
      | error e => cases h
      | ok v =>
        cases h
        simp only [List.mem_cons, Prod.mk.injEq, List.not_mem_nil, or_false] at h1
        rcases h1 with ⟨_, h1⟩ | ⟨rfl, rfl⟩
        · cases h1
        · cases h'
  | _ :: _ :: _ :: _, hc, _, _, _ => simp only [List.length_cons] at hc; omega

/-- The hypotheses of `C209_linearizable_partial` hold of runs in which calls overlap:
here the second thread begins while the first holds the mutex, and both end. -/
example (sem : Sem) : ∃ s l, runs sem [0, 0, 0, 1, 0, 0, 0, 0, 0, 0, 0, 0, 1, 1, 1, 1, 1] (start (fun _ => new16) (two (.op 0 (.append (txt "ab"))) (.op 0 .toString))) = some (s, l) ∧
    s.ub = false := ⟨_, _, rfl, rfl⟩

/-- C209 is false for `ensureCapacity`: it frees the block another thread is about to
write, although neither order of the two calls is undefined. -/
theorem C209_ensureCapacity_wrong (sem : Sem) :
    (∃ sched s l, runs sem sched (start (fun _ => new16) (two (.op 0 (.append (txt "a"))) (.op 0 (.ensureCapacity 20)))) = some (s, l) ∧
      s.ub = true) ∧
    (∃ m, Replays sem (fun _ => new16) [(.op 0 (.append (txt "a")), .ok .unit), (.op 0 (.ensureCapacity 20), .ok .unit)] m) ∧
    ∃ m, Replays sem (fun _ => new16) [(.op 0 (.ensureCapacity 20), .ok .unit), (.op 0 (.append (txt "a")), .ok .unit)] m :=
  ⟨⟨[0, 0, 0, 0, 0, 1, 1, 1, 1, 1, 1, 0, 0], _, _, rfl, rfl⟩, ⟨_, _, rfl, _, rfl, rfl⟩, ⟨_, _, rfl, _, rfl, rfl⟩⟩

/-- C209 is false for `append(other)`: it reads the other buffer's block while another
thread moves that buffer's text to a larger block. -/
theorem C209_appendBuffer_wrong (sem : Sem) :
    (∃ sched s l, runs sem sched (start (fun _ => new16) (two (.appendBuffer 0 1) (.op 1 (.append (txt "a text of 17 char"))))) = some (s, l) ∧
      s.ub = true) ∧
    (∃ m, Replays sem (fun _ => new16) [(.appendBuffer 0 1, .ok .unit), (.op 1 (.append (txt "a text of 17 char")), .ok .unit)] m) :=
  ⟨⟨[0, 0, 0, 1, 1, 1, 1, 1, 1, 1, 1, 0], _, _, rfl, rfl⟩, ⟨_, _, rfl, _, rfl, rfl⟩⟩

/-- A new buffer without room. -/
def new0 : SB := ⟨[], 0, 0⟩

example : ofCapacity 0 = .ok new0 := rfl

/-- C209 is false for `o = other`: the capacity of the other buffer is read before another thread makes it larger, the
text afterwards, which is then written behind the end of the new block. -/
theorem C209_assign_wrong (sem : Sem) :
    (∃ sched s l, runs sem sched (start (fun _ => new0) (two (.assign 0 1) (.op 1 (.append (txt "a"))))) = some (s, l) ∧
      s.ub = true) ∧
    (∃ m, Replays sem (fun _ => new0) [(.assign 0 1, .ok .unit), (.op 1 (.append (txt "a")), .ok .unit)] m) ∧
    ∃ m, Replays sem (fun _ => new0) [(.op 1 (.append (txt "a")), .ok .unit), (.assign 0 1, .ok .unit)] m :=
  ⟨⟨[0, 0, 0, 0, 0, 1, 1, 1, 1, 1, 1, 1, 1, 1, 1, 1, 1, 1, 1, 1, 1, 0, 0, 0, 0, 0, 0, 0, 0], _, _, rfl, rfl⟩, ⟨_, _, rfl, _, rfl, rfl⟩,
    ⟨_, _, rfl, _, rfl, rfl⟩⟩

/-- C209 is false for `o = other` without anything undefined: the other buffer holds first no text and then "a", and its copy
has a NUL as its text, which neither order of the two calls gives. -/
theorem C209_assign_torn_wrong (sem : Sem) :
    (∃ sched s l, runs sem sched (start (fun _ => new16) (two (.assign 0 1) (.op 1 (.append (txt "a"))))) = some (s, l) ∧
      s.ub = false ∧ s.cur 0 = none ∧ s.cur 1 = none ∧ Holds (s.objs 0).s ⟨[0#8], 16, true⟩) ∧
    (∃ m, Replays sem (fun _ => new16) [(.assign 0 1, .ok .unit), (.op 1 (.append (txt "a")), .ok .unit)] m ∧
      Holds (m 0) ⟨[], 16, true⟩) ∧
    ∃ m, Replays sem (fun _ => new16) [(.op 1 (.append (txt "a")), .ok .unit), (.assign 0 1, .ok .unit)] m ∧
      Holds (m 0) ⟨txt "a", 16, true⟩ := by
  refine ⟨⟨[0, 0, 0, 0, 0, 0, 0, 0, 0, 0, 0, 0, 1, 1, 1, 1, 1, 1, 1, 1, 1, 1, 1, 0, 0, 0, 0, 0, 0], _, _, rfl, rfl, rfl, rfl, ?_⟩, ⟨_, ⟨_, rfl, _, rfl, rfl⟩, ?_⟩,
    ⟨_, ⟨_, rfl, _, rfl, rfl⟩, ?_⟩⟩
  · exact ⟨rfl, rfl, rfl, List.replicate 15 (some 0#8), rfl, fun _ x hx => (List.mem_replicate.mp hx).2⟩
  · exact ⟨rfl, rfl, rfl, List.replicate 16 (some 0#8), rfl, fun _ x hx => (List.mem_replicate.mp hx).2⟩
  · exact ⟨rfl, rfl, rfl, List.replicate 15 (some 0#8), rfl, fun _ x hx => (List.mem_replicate.mp hx).2⟩

theorem zeroed {s : SB} {a : Txt} (h : Holds s a) :
    Holds { s with mem := Block.calloc s.cap.toNat } ⟨List.replicate a.text.length 0#8, a.cap, true⟩ := by
  have hle := h.len_le
  obtain ⟨hl, hc, -, -⟩ := h
  refine ⟨by simp [hl], hc, ?_, List.replicate (a.cap - a.text.length) (some 0#8), ?_, ?_⟩
  · simp [Block.calloc, hc]
  · simp only [Block.calloc, hc, List.map_replicate, List.replicate_append_replicate, Int.toNat_natCast]
    rw [Nat.add_sub_cancel' hle]
  · intro _ x hx
    exact (List.mem_replicate.mp hx).2

/-- The characters of a buffer and what a new block holds once they are stored. -/
theorem copied {s : SB} {a : Txt} (h : Holds s a) :
    ∃ m, s.mem.load 0 s.len.toNat = .ok a.text ∧ (Block.calloc s.cap.toNat).store 0 a.text = .ok m ∧
      Holds ⟨m, s.len, s.cap⟩ ⟨a.text, a.cap, true⟩ := by
  have hle := h.len_le
  obtain ⟨r, h1, h2⟩ := C40_copy s a h
  obtain ⟨hl, hc, hm, rest, hr, hz⟩ := h
  have h3 := Block.load_of a.text rest 0 a.text.length (by omega)
  rw [List.drop_zero, List.take_length, ← hr] at h3
  have h3 : s.mem.load 0 s.len.toNat = .ok a.text := by rw [hl]; exact h3
  unfold copy at h1
  rw [h3, Outcome.bind_ok] at h1
  cases hs : (Block.calloc s.cap.toNat).store 0 a.text with
  | ok m => rw [hs, Outcome.bind_ok] at h1; cases h1; exact ⟨m, h3, rfl, h2⟩
  | throw e => rw [hs] at h1; cases h1
  | ub => rw [hs] at h1; cases h1
  | diverge => rw [hs] at h1; cases h1

/-- C209 (partial): `o = other` of two buffers while no other thread runs ends, makes the first a copy of the second, and changes
no other buffer. -/
theorem C209_assign_alone_partial (sem : Sem) (m₀ : Nat → SB) (todo : Nat → List Call) (t o other : Nat) (rest : List Call)
    (ht : todo t = .assign o other :: rest) (hne : o ≠ other) (a : Txt) (h : Holds (m₀ other) a) :
    ∃ s l, runs sem (List.replicate 18 t) (start m₀ todo) = some (s, l) ∧ s.ub = false ∧ s.cur t = none ∧ s.todo t = rest ∧
      Holds (s.objs o).s ⟨a.text, a.cap, true⟩ ∧ ∀ o', o' ≠ o → (s.objs o').s = m₀ o' := by
  obtain ⟨m, h1, h2, h3⟩ := copied h
  have hne' : ¬ other = o := fun e => hne e.symm
  simp [List.replicate, runs, step, start, ht, set, advance, code, Prog.guard, assign, Prog.after, Prog.release, Prog.bind, Prog.onOk,
    bind, getPtr, Sync.release, getCap, allocate, setPtr, getLen, look, change, setLen, setCap, give, Obj.of, written, hne, hne', h1, h2,
    releaseEv]
  refine ⟨h3, fun o' ho => ?_⟩
  by_cases he : o' = other
  · subst he; simp [ho]
  · simp [ho, he]

/-- A buffer assigned to itself while no other thread runs: the call ends (the mutex is taken once), and every character is NUL. -/
theorem C209_assign_self (sem : Sem) (m₀ : Nat → SB) (todo : Nat → List Call) (t o : Nat) (rest : List Call)
    (ht : todo t = .assign o o :: rest) (a : Txt) (h : Holds (m₀ o) a) :
    ∃ s l, runs sem (List.replicate 18 t) (start m₀ todo) = some (s, l) ∧ s.ub = false ∧ s.cur t = none ∧ s.todo t = rest ∧
      Holds (s.objs o).s ⟨List.replicate a.text.length 0#8, a.cap, true⟩ ∧ ∀ o', o' ≠ o → (s.objs o').s = m₀ o' := by
  have hz : Holds { m₀ o with mem := Block.calloc (m₀ o).cap.toNat } ⟨List.replicate a.text.length 0#8, a.cap, true⟩ := zeroed h
  obtain ⟨m, h1, h2, h3⟩ := copied hz
  simp only at h1 h2 h3
  simp [List.replicate, runs, step, start, ht, set, advance, code, Prog.guard, assign, Prog.after, Prog.release, Prog.bind, Prog.onOk,
    bind, getPtr, Sync.release, getCap, allocate, setPtr, getLen, look, change, setLen, setCap, give, Obj.of, written, h1, h2,
    releaseEv]
  exact ⟨h3, fun o' ho => by simp [ho]⟩

/-- Buffer 1 holds "ab". -/
example (sem : Sem) : ∃ s l, runs sem (List.replicate 18 0) (start (fun o => if o = 1 then ⟨[some 97#8, some 98#8, some 0#8], 2, 3⟩ else new16)
    (two (.assign 0 1) (.op 1 .toString))) = some (s, l) ∧ s.ub = false ∧ s.cur 0 = none ∧ s.todo 0 = [] ∧
      Holds (s.objs 0).s ⟨txt "ab", 3, true⟩ ∧ ∀ o', o' ≠ 0 → (s.objs o').s = if o' = 1 then ⟨[some 97#8, some 98#8, some 0#8], 2, 3⟩ else new16 :=
  C209_assign_alone_partial sem _ _ 0 0 1 [] rfl (by decide) ⟨txt "ab", 3, true⟩ ⟨rfl, rfl, rfl, [some 0#8], rfl, by simp⟩

/-! ## C210: no data races -/

theorem touch_inside {o : Nat} {q : Prog Ans} (hq : Own o q) {o' : Nat} {l : Loc} {w : Bool}
    (h : touches (q.after (Prog.release o)) = some (o', l, w)) : o' = o := by
  cases q with
  | out x => cases x <;> cases h
  | acc o₁ l₁ w₁ f k => cases h; exact hq.1
  | lock _ _ => exact hq.elim
  | unlock _ _ => exact hq.elim

/-- Who is about to touch an object holds its mutex. -/
theorem touch_owner {sem : Sem} {m₀ : Nat → SB} {todo : Nat → List Call} {s : St} {l : List Ev} {ph : Nat → Phase} {m : Nat → SB}
    (g : Good sem m₀ todo s l ph m) {t o : Nat} {lo : Loc} {w : Bool} (h : nextAccess s t = some (o, lo, w)) : s.owner o = some t := by
  have gt := g.threads t
  unfold nextAccess at h
  cases hc : s.cur t with
  | none => rw [hc] at h; cases h
  | some x =>
    rw [hc] at h gt
    cases gt with
    | fresh o c hp hl hf => cases h
    | inside o' c q b hp hl ho hu hq hb hm hr => rw [touch_inside hq h]; exact ho
    | done c r hp hf => cases r <;> cases h

/-- C210 (partial): threads that call methods taking the mutex never race. -/
theorem C210_race_free_partial (sem : Sem) (m₀ : Nat → SB) (todo : Nat → List Call) (hall : ∀ t, ∀ c ∈ todo t, Guarded c)
    (sched : List Nat) (s : St) (l : List Ev) (h : runs sem sched (start m₀ todo) = some (s, l)) (hu : s.ub = false) : ¬ Race s := by
  obtain ⟨ph, m, g⟩ := (good_runs hall sched _ s [] l _ m₀ rfl (good_start m₀ todo) h).1 hu
  rintro ⟨t, u, o, lo, w, w', hne, h1, h2, _⟩
  have := (touch_owner g h1).symm.trans (touch_owner g h2)
  exact hne (Option.some.inj this)

/-- C210 is false for `length`, `ensureCapacity`, `getValue` and `append(other)`. -/
theorem C210_race_wrong (sem : Sem) :
    (∃ sched s l, runs sem sched (start (fun _ => new16) (two (.op 0 (.append (txt "a"))) (.op 0 .length))) = some (s, l) ∧ Race s) ∧
    (∃ sched s l, runs sem sched (start (fun _ => new16) (two (.op 0 (.append (txt "a text of 17 char"))) (.op 0 (.ensureCapacity 20)))) = some (s, l) ∧ Race s) ∧
    (∃ sched s l, runs sem sched (start (fun _ => new16) (two (.op 0 (.append (txt "a"))) (.getValue 0))) = some (s, l) ∧ Race s) ∧
    ∃ sched s l, runs sem sched (start (fun _ => new16) (two (.op 0 (.append (txt "a"))) (.appendBuffer 1 0))) = some (s, l) ∧ Race s :=
  ⟨⟨[0, 0, 0, 0, 0, 0, 0, 0, 1], _, _, rfl, 0, 1, 0, .len, true, false, by decide, rfl, rfl, rfl⟩,
   ⟨[0, 0, 0, 0, 0, 1], _, _, rfl, 0, 1, 0, .cap, true, false, by decide, rfl, rfl, rfl⟩,
   ⟨[0, 0, 0, 0, 0, 0, 1, 1], _, _, rfl, 0, 1, 0, .block, true, false, by decide, rfl, rfl, rfl⟩,
   ⟨[0, 0, 0, 0, 0, 0, 1, 1, 1], _, _, rfl, 0, 1, 0, .block, true, false, by decide, rfl, rfl, rfl⟩⟩

/-- C210 is false for `o = other`: the length of the other buffer is read while another thread writes it. -/
theorem C210_assign_wrong (sem : Sem) :
    ∃ sched s l, runs sem sched (start (fun _ => new16) (two (.op 0 (.append (txt "a"))) (.assign 1 0))) = some (s, l) ∧ Race s :=
  ⟨[0, 0, 0, 0, 0, 0, 0, 0, 1, 1, 1, 1, 1, 1, 1], _, _, rfl, 0, 1, 0, .len, true, false, by decide, rfl, rfl, rfl⟩

/-! ## C211: no deadlock -/

/-- C211 (partial): a thread that holds the mutex of a buffer never waits for another. -/
theorem C211_holder_partial (sem : Sem) (m₀ : Nat → SB) (todo : Nat → List Call) (hall : ∀ t, ∀ c ∈ todo t, Guarded c)
    (sched : List Nat) (s : St) (l : List Ev) (h : runs sem sched (start m₀ todo) = some (s, l)) (hu : s.ub = false)
    (t o : Nat) (ho : s.owner o = some t) : ¬ Waits s t := by
  obtain ⟨ph, m, g⟩ := (good_runs hall sched _ s [] l _ m₀ rfl (good_start m₀ todo) h).1 hu
  rintro ⟨c, q, o', u, hc, ha, _⟩
  have gt := g.threads t
  rw [hc] at gt
  generalize hx : some (c, q) = x at gt
  cases gt with
  | idle hp hf => cases hx
  | fresh o₁ d hp hl hf => exact hf o ho
  | inside o₁ d q' b hp hl hw hq' hq hb hm hr =>
    cases hx
    cases q' with
    | out x => cases x <;> cases ha
    | acc o₁ l₁ w₁ f k => cases ha
    | lock _ _ => exact hq.elim
    | unlock _ _ => exact hq.elim
  | done d r hp hf => exact hf o ho

/-- A thread that cannot go on although its mutex is free or its own. -/
theorem stuck {sem : Sem} {m₀ : Nat → SB} {todo : Nat → List Call} {s : St} {l : List Ev} {ph : Nat → Phase} {m : Nat → SB}
    (g : Good sem m₀ todo s l ph m) (hu : s.ub = false) {t : Nat} (h : step sem t s = none) :
    (s.cur t = none ∧ s.todo t = []) ∨ (∃ o u, (s.owner o = some u)) ∧ Waits s t ∨ ∃ c, ph t = .busy c ∧ effect sem c m = .diverge := by
  have gt := g.threads t
  unfold Sync.step at h
  rw [hu] at h
  simp only [Bool.false_eq_true, if_false] at h
  cases hc : s.cur t with
  | none =>
    rw [hc] at h
    left
    cases ht : s.todo t with
    | nil => exact ⟨rfl, rfl⟩
    | cons c cs => rw [ht] at h; cases h
  | some x =>
    obtain ⟨c, q⟩ := x
    rw [hc] at h gt
    simp only at h
    generalize hx : some (c, q) = x at gt
    cases gt with
    | idle hp hf => cases hx
    | fresh o d hp hl hf =>
      cases hx
      simp only [advance] at h
      cases ho : s.owner o with
      | none => rw [ho] at h; cases h
      | some u => exact .inr (.inl ⟨⟨o, u, ho⟩, _, _, o, u, hc, rfl, ho⟩)
    | inside o d q' b hp hl hw hun hq hb hm hr =>
      cases hx
      cases q' with
      | lock _ _ => exact hq.elim
      | unlock _ _ => exact hq.elim
      | acc o₁ l₁ w₁ f k =>
        simp only [Prog.after, advance] at h
        split at h <;> cases h
      | out x =>
        cases x with
        | ok v => cases h
        | throw e => cases h
        | ub => cases h
        | diverge =>
          refine .inr (.inr ⟨_, hp, ?_⟩)
          have he := end_effect (s := s) hb hm hr
          rw [effect_op]
          unfold onObj
          rw [show StringBuffer.step sem d (m o) = .diverge from he]
    | done d r hp hf => cases hx; cases r <;> cases h

/-- Who holds a mutex can go on, unless the call runs forever when made alone. -/
theorem holder_moves {sem : Sem} {m₀ : Nat → SB} {todo : Nat → List Call} {s : St} {l : List Ev} {ph : Nat → Phase} {m : Nat → SB}
    (g : Good sem m₀ todo s l ph m) (hu : s.ub = false) {o u : Nat} (ho : s.owner o = some u) (h : step sem u s = none) :
    ∃ c, ph u = .busy c ∧ effect sem c m = .diverge := by
  have gt := g.threads u
  rcases stuck g hu h with h | ⟨_, c, q, o', v, hc, ha, _⟩ | h
  · rw [h.1] at gt
    cases gt with
    | idle hp hf => exact (hf o ho).elim
  · rw [hc] at gt
    generalize hx : some (c, q) = x at gt
    cases gt with
    | idle hp hf => cases hx
    | fresh o₁ d hp hl hf => exact (hf o ho).elim
    | inside o₁ d q' b hp hl hw hq' hq hb hm hr =>
      cases hx
      cases q' with
      | out x => cases x <;> cases ha
      | acc o₁ l₁ w₁ f k => cases ha
      | lock _ _ => exact hq.elim
      | unlock _ _ => exact hq.elim
    | done d r hp hf => exact (hf o ho).elim
  · exact h

/-- C211 (partial): threads that call methods taking the mutex do not deadlock: if
nobody can go on, then all are finished, or a call runs forever even when the calls
that took effect, and then it, are made one after the other. -/
theorem C211_no_deadlock_partial (sem : Sem) (m₀ : Nat → SB) (todo : Nat → List Call) (hall : ∀ t, ∀ c ∈ todo t, Guarded c)
    (sched : List Nat) (s : St) (l : List Ev) (h : runs sem sched (start m₀ todo) = some (s, l)) (hu : s.ub = false)
    (hs : ∀ t, step sem t s = none) :
    (∀ t, s.cur t = none ∧ s.todo t = []) ∨
    ∃ m t c, LinearizableTo sem m₀ (l.filter Ev.seen) m ∧ c ∈ todo t ∧ effect sem c m = .diverge := by
  obtain ⟨ph, m, g⟩ := (good_runs hall sched _ s [] l _ m₀ rfl (good_start m₀ todo) h).1 hu
  have bad : ∀ t c, ph t = .busy c → effect sem c m = .diverge →
      ∃ m t c, LinearizableTo sem m₀ (l.filter Ev.seen) m ∧ c ∈ todo t ∧ effect sem c m = .diverge := by
    intro t c hp he
    refine ⟨m, t, c, ⟨l, rfl, ⟨ph, g.follows⟩, g.replays⟩, ?_, he⟩
    have := g.follows.inOrder t
    simp only [List.nil_append] at this
    rw [hp] at this
    simp only [Phase.open, List.nil_append] at this
    rw [← g.begins t, List.nil_append, this]
    simp
  by_cases hb : ∃ t c, ph t = .busy c ∧ effect sem c m = .diverge
  · obtain ⟨t, c, h1, h2⟩ := hb
    exact .inr (bad t c h1 h2)
  · left
    intro t
    rcases stuck g hu (hs t) with h | ⟨⟨o, u, ho⟩, _⟩ | ⟨c, h1, h2⟩
    · exact h
    · obtain ⟨c, h1, h2⟩ := holder_moves g hu ho (hs u)
      exact (hb ⟨u, c, h1, h2⟩).elim
    · exact (hb ⟨t, c, h1, h2⟩).elim

/-- Deadlock of threads 0 and 1 when there are no others. -/
theorem deadlock_two {sem : Sem} {s : St} (hu : s.ub = false) (h0 : step sem 0 s = none) (h1 : step sem 1 s = none)
    (h2 : ∀ t, s.cur (t + 2) = none ∧ s.todo (t + 2) = []) (hw : Waits s 0) : Deadlock sem s := by
  refine ⟨hu, fun t => ?_, 0, hw⟩
  match t with
  | 0 => exact h0
  | 1 => exact h1
  | t + 2 =>
    unfold Sync.step
    rw [hu, (h2 t).1, (h2 t).2]
    rfl

/-- C211 is false for `a.append(a, 0, 0)`: one thread is enough, it waits for the mutex
it holds. -/
theorem C211_self_wrong (sem : Sem) :
    ∃ sched s l, runs sem sched (start (fun _ => new16) fun t => if t = 0 then [.appendRange 0 0 0 0] else []) = some (s, l) ∧ Deadlock sem s :=
  ⟨[0, 0, 0], _, _, rfl, deadlock_two rfl rfl rfl (fun _ => ⟨rfl, rfl⟩) ⟨_, _, 0, 0, rfl, rfl, rfl⟩⟩

/-- C211 is false for `a.append(b, 0, 0)` in one thread and `b.append(a, 0, 0)` in
another. -/
theorem C211_cross_wrong (sem : Sem) :
    ∃ sched s l, runs sem sched (start (fun _ => new16) (two (.appendRange 0 1 0 0) (.appendRange 1 0 0 0))) = some (s, l) ∧ Deadlock sem s :=
  ⟨[0, 0, 0, 1, 1, 1], _, _, rfl, deadlock_two rfl rfl rfl (fun _ => ⟨rfl, rfl⟩) ⟨_, _, 1, 1, rfl, rfl, rfl⟩⟩

/-- C211 is false for `a.insert(0, b, 0, 0)` in one thread and `b.append(a, 0, 0)` in
another. -/
theorem C211_insert_wrong (sem : Sem) :
    ∃ sched s l, runs sem sched (start (fun _ => new16) (two (.insertRange 0 0 1 0 0) (.appendRange 1 0 0 0))) = some (s, l) ∧ Deadlock sem s :=
  ⟨[0, 0, 0, 0, 1, 1, 1], _, _, rfl, deadlock_two rfl rfl rfl (fun _ => ⟨rfl, rfl⟩) ⟨_, _, 1, 1, rfl, rfl, rfl⟩⟩

/-! ## C212: threads that append -/

/-- A thread appends these texts to buffer 0. -/
def appends (texts : List (List Byte)) : List Call := texts.map fun x => .op 0 (.append x)

/-- The text a call appends. -/
def textOf : Call → List Byte
  | .op _ (.append x) => x
  | _ => []

/-- The call is an append to buffer 0. -/
def IsAppend (c : Call) : Prop := c = .op 0 (.append (textOf c))

theorem mem_appends {texts : List (List Byte)} {c : Call} (h : c ∈ appends texts) : IsAppend c := by
  obtain ⟨x, _, rfl⟩ := List.mem_map.1 h
  rfl

theorem append_effect (sem : Sem) {m : Nat → SB} {a : Txt} (h : Holds (m 0) a) {x : List Byte} (hl : a.text.length + x.length < 2 ^ 30) :
    ∃ m' cap clean, effect sem (.op 0 (.append x)) m = .ret m' .unit ∧ Holds (m' 0) ⟨a.text ++ x, cap, clean⟩ := by
  obtain ⟨s', h1, h2⟩ := C40_call sem (.append x) (m 0) a h hl
  refine ⟨set m 0 s', (spec (.append x) a).1.cap, (spec (.append x) a).1.clean, ?_, ?_⟩
  · rw [effect_op]
    unfold onObj
    rw [show StringBuffer.step sem (.append x) (m 0) = .ret s' .unit from h2]
  · rw [set_eq]; exact h1

theorem replay_appends (sem : Sem) (o : List (Call × Answer)) {m m' : Nat → SB} {a : Txt} (h : Holds (m 0) a) (hr : Replays sem m o m')
    (ha : ∀ x ∈ o, IsAppend x.1) (hl : a.text.length + (o.map fun x => (textOf x.1).length).sum < 2 ^ 30) :
    ∃ cap clean, Holds (m' 0) ⟨a.text ++ (o.map fun x => textOf x.1).flatten, cap, clean⟩ := by
  induction o generalizing m a with
  | nil => cases hr; exact ⟨a.cap, a.clean, by simpa using h⟩
  | cons x o ih =>
    obtain ⟨c, r⟩ := x
    obtain ⟨m₁, h1, h2⟩ := hr
    have hc : c = .op 0 (.append (textOf c)) := ha (c, r) List.mem_cons_self
    simp only [List.map_cons, List.sum_cons] at hl
    obtain ⟨m₂, cap, clean, e, hh⟩ := append_effect sem h (x := textOf c) (by omega)
    rw [hc, e] at h1
    cases r with
    | error e => cases h1
    | ok v =>
      cases h1
      obtain ⟨cap', clean', hx⟩ := ih hh h2 (fun x hx => ha x (List.mem_cons_of_mem _ hx)) (by simp only [List.length_append]; omega)
      exact ⟨cap', clean', by simpa using hx⟩

theorem sum_flatten (l : List (List Byte)) : (l.map List.length).sum = l.flatten.length := by
  rw [List.length_flatten]

/-- The size of what has been appended, and may be before the next moment of effect. -/
theorem size_bound {texts : Nat → List (List Byte)} {n : Nat} (hn : ∀ t, n ≤ t → texts t = []) (o : List (Nat × Call))
    (ho : ∀ t, own t o <+: appends (texts t)) :
    (o.map fun x => (textOf x.2).length).sum ≤ ((List.range n).map fun t => (texts t).flatten.length).sum := by
  refine size_le (fun c => (textOf c).length) n o _ (fun x hx => ?_) fun t => ?_
  · by_cases h : x.1 < n
    · exact h
    · have h1 := ho x.1
      rw [hn x.1 (by omega)] at h1
      have h2 : own x.1 o = [] := by simpa [appends] using h1
      have h3 : x.2 ∈ own x.1 o := List.mem_map.2 ⟨x, List.mem_filter.2 ⟨hx, by simp⟩, rfl⟩
      rw [h2] at h3
      cases h3
  · obtain ⟨r, hr⟩ := ho t
    have : (texts t).flatten.length = ((appends (texts t)).map fun c => (textOf c).length).sum := by
      rw [← sum_flatten, appends, List.map_map]
      rfl
    rw [this, ← hr, List.map_append, List.sum_append]
    omega

/-- What a run of appends has done at its last moment of effect. -/
theorem appends_state {sem : Sem} {k n : Nat} {texts : Nat → List (List Byte)} {l : List Ev} {ph : Nat → Phase} {m : Nat → SB}
    (hn : ∀ t, n ≤ t → texts t = []) (hsize : ((List.range n).map fun t => (texts t).flatten.length).sum < 2 ^ 30)
    (hf : Follows (fun _ => .idle) l ph) (hr : Replays sem (fun _ => ⟨Block.calloc k, 0, k⟩) (order l) m)
    (hb : ∀ t, begun t l <+: appends (texts t)) :
    (∃ cap clean, Holds (m 0) ⟨((orderOf l).map fun x => textOf x.2).flatten, cap, clean⟩) ∧
    ∀ t c, ph t = .busy c → ∃ m', effect sem c m = .ret m' .unit := by
  have hin : ∀ t, begun t l = own t (orderOf l) ++ (ph t).open := fun t => by simpa [Phase.open] using hf.inOrder t
  have hown : ∀ t, own t (orderOf l) <+: appends (texts t) := fun t => by
    have := hb t
    rw [hin t] at this
    exact (List.prefix_append _ _).trans this
  have hsz := size_bound hn (orderOf l) hown
  have hmap : ∀ {α : Type} (f : Call → α), (order l).map (fun x => f x.1) = (orderOf l).map fun x => f x.2 := by
    intro α f
    have := congrArg (List.map f) (order_orderOf l)
    simpa [List.map_map, Function.comp_def] using this
  have hall : ∀ x ∈ order l, IsAppend x.1 := by
    intro x hx
    have : x.1 ∈ (orderOf l).map Prod.snd := by rw [← order_orderOf]; exact List.mem_map.2 ⟨x, hx, rfl⟩
    obtain ⟨y, hy, he⟩ := List.mem_map.1 this
    have h3 : y.2 ∈ own y.1 (orderOf l) := List.mem_map.2 ⟨y, List.mem_filter.2 ⟨hy, by simp⟩, rfl⟩
    rw [← he]
    exact mem_appends ((hown y.1).subset h3)
  have h0 : Holds ((fun _ => (⟨Block.calloc k, 0, k⟩ : SB)) 0) ⟨[], k, true⟩ := holds_fresh k
  obtain ⟨cap, clean, hh⟩ := replay_appends sem (order l) h0 hr hall
    (by rw [hmap fun c => (textOf c).length]; simp only [List.length_nil]; omega)
  rw [hmap textOf, List.nil_append] at hh
  refine ⟨⟨cap, clean, hh⟩, fun t c hp => ?_⟩
  have hbt := hin t
  rw [hp] at hbt
  simp only [Phase.open] at hbt
  have hc : IsAppend c := mem_appends ((hb t).subset (by rw [hbt]; simp))
  have hsz' := size_bound hn (orderOf l ++ [(t, c)]) fun u => by
    have hu := hb u
    unfold own
    rw [List.filter_append, List.map_append]
    by_cases h : t = u
    · subst h
      rw [hbt] at hu
      simpa [own] using hu
    · simpa [h, own] using hown u
  rw [hc]
  obtain ⟨m', _, _, e, _⟩ := append_effect sem hh (x := textOf c) (by
    simp only [List.map_append, List.sum_append, List.map_cons, List.map_nil, List.sum_cons, List.sum_nil] at hsz'
    have : ((orderOf l).map fun x => textOf x.2).flatten.length = ((orderOf l).map fun x => (textOf x.2).length).sum := by
      rw [List.length_flatten, List.map_map]
      rfl
    simp only [this]
    omega)
  exact ⟨m', e⟩

/-- C212: any number of threads append any texts, fewer than 2^30 characters in all, to
a new buffer of any capacity. For every schedule nothing undefined happens; if nobody
can go on, all have finished; and when all have finished the buffer holds all the texts,
those of each thread in its order. -/
theorem C212_appends (sem : Sem) (k n : Nat) (texts : Nat → List (List Byte)) (hn : ∀ t, n ≤ t → texts t = [])
    (hsize : ((List.range n).map fun t => (texts t).flatten.length).sum < 2 ^ 30) (sched : List Nat) (s : St) (l : List Ev)
    (h : runs sem sched (start (fun _ => ⟨Block.calloc k, 0, k⟩) fun t => appends (texts t)) = some (s, l)) :
    s.ub = false ∧ ((∀ t, step sem t s = none) → ∀ t, s.cur t = none ∧ s.todo t = []) ∧
    ((∀ t, s.cur t = none ∧ s.todo t = []) →
      ∃ o : List (Nat × List Byte), (∀ t, (o.filter fun x => x.1 = t).map Prod.snd = texts t) ∧
        ∃ cap clean, Holds (s.objs 0).s ⟨(o.map Prod.snd).flatten, cap, clean⟩) := by
  have hall : ∀ t, ∀ c ∈ appends (texts t), Guarded c := by
    intro t c hc
    rw [show c = _ from mem_appends hc]
    rfl
  have key := good_runs hall sched _ s [] l _ _ rfl (good_start (sem := sem) (fun _ => ⟨Block.calloc k, 0, k⟩) fun t => appends (texts t)) h
  simp only [List.nil_append] at key
  have hub : s.ub = false := by
    cases hu : s.ub with
    | false => rfl
    | true =>
      obtain ⟨t, c, ph, m, hf, hr, hb, hp, he⟩ := key.2 hu
      obtain ⟨m', e⟩ := (appends_state hn hsize hf hr hb).2 t c hp
      rw [e] at he
      cases he
  obtain ⟨ph, m, g⟩ := key.1 hub
  have hb : ∀ t, begun t l <+: appends (texts t) := fun t => ⟨s.todo t, g.begins t⟩
  have st := appends_state hn hsize g.follows g.replays hb
  refine ⟨hub, fun hs t => ?_, fun hfin => ?_⟩
  · have nodiv : ∀ t c, ph t = .busy c → effect sem c m ≠ .diverge := fun t c hp he => by
      obtain ⟨m', e⟩ := st.2 t c hp
      rw [e] at he
      cases he
    rcases stuck g hub (hs t) with h | ⟨⟨o, u, ho⟩, _⟩ | ⟨c, h1, h2⟩
    · exact h
    · obtain ⟨c, h1, h2⟩ := holder_moves g hub ho (hs u)
      exact (nodiv u c h1 h2).elim
    · exact (nodiv t c h1 h2).elim
  · have hidle : ∀ t, ph t = .idle ∧ Free s t := fun t => by
      have gt := g.threads t
      rw [(hfin t).1] at gt
      cases gt with
      | idle hp hf => exact ⟨hp, hf⟩
    have hown : ∀ t, own t (orderOf l) = appends (texts t) := fun t => by
      have h1 := g.follows.inOrder t
      rw [(hidle t).1] at h1
      simp only [Phase.open, List.nil_append, List.append_nil] at h1
      have h2 := g.begins t
      rw [(hfin t).2, List.append_nil] at h2
      rw [← h1, h2]
    refine ⟨(orderOf l).map fun x => (x.1, textOf x.2), fun t => ?_, ?_⟩
    · have := congrArg (List.map textOf) (hown t)
      unfold own appends at this
      rw [List.map_map, List.map_map] at this
      rw [List.filter_map, List.map_map]
      have h3 : (texts t).map (textOf ∘ fun x => Call.op 0 (Op.append x)) = texts t := by
        have : (textOf ∘ fun x => Call.op 0 (Op.append x)) = id := rfl
        rw [this, List.map_id]
      rw [h3] at this
      exact this
    · obtain ⟨cap, clean, hh⟩ := st.1
      refine ⟨cap, clean, ?_⟩
      have ho : s.owner 0 = none := by
        cases ho : s.owner 0 with
        | none => rfl
        | some u => exact ((hidle u).2 0 ho).elim
      rw [(g.objs 0 ho).1, List.map_map]
      exact hh

/-- A complete run of two threads that meets the hypotheses of `C212_appends`. -/
example (sem : Sem) : ∃ s l, runs sem [0, 0, 0, 1, 0, 0, 0, 0, 0, 0, 0, 0, 1, 1, 1, 1, 1, 1, 1, 1, 1, 1]
    (start (fun _ => ⟨Block.calloc 16, 0, 16⟩) fun t => appends ((fun | 0 => [txt "ab"] | 1 => [txt "c"] | _ => []) t)) = some (s, l) ∧
    (∀ t, s.cur t = none ∧ s.todo t = []) :=
  ⟨_, _, rfl, fun t => by match t with | 0 => exact ⟨rfl, rfl⟩ | 1 => exact ⟨rfl, rfl⟩ | _ + 2 => exact ⟨rfl, rfl⟩⟩

end Verif.StringBuffer.Sync
