import Verif.LinkedQueue.Wit
/-!
# The properties of `ConcurrentLinkedQueue`
-/
namespace Verif.LinkedQueue

variable {E : Type}

/-! ### Executions used below -/

/-- `add(e)` by thread `t` in `n` steps. -/
def addOn (t e n : Nat) : List (Act Nat) := .call t (.add e) :: go t n

/-- Two threads add, a third polls. -/
def two : List (Act Nat) := addOn 0 1 12 ++ addOn 1 2 12 ++ .call 3 .poll :: go 3 17

/-- A poll has passed its first look at a queue of one, another takes the element, a second
element comes, and the first poll is about to give up. -/
def clash : List (Act Nat) :=
  addOn 0 1 12 ++ .call 1 .poll :: go 1 6 ++ .call 2 .poll :: go 2 8 ++ go 1 2 ++
    addOn 0 2 4 ++ go 2 7

/-- A poll is about to take the one element there is. -/
def aside : List (Act Nat) := two ++ .call 3 .poll :: go 3 5

/-- The state after some actions. -/
def after (l : List (Act Nat)) : Sys Nat := (runs l (init true)).getD (init true)

theorem runs_after {l : List (Act Nat)} (h : (runs l (init true)).isSome = true) :
    runs l (init true) = some (after l) := by
  unfold after
  cases h1 : runs l (init true) with
  | none => rw [h1] at h; cases h
  | some s => rfl

theorem after_reach {l : List (Act Nat)} (h : (runs l (init true)).isSome = true) :
    Reach true (after l) := runs_reach l .init (runs_after h)

/-- No thread from the fourth on acts, and the others are done. -/
theorem still_after {l : List (Act Nat)} (h : (runs l (init true)).isSome = true)
    (ha : ∀ a, a ∈ l.map Act.thr → a < 4)
    (hi : ∀ t, t < 4 → phase ((after l).pos t) = 0) : Still (after l) := by
  intro t
  by_cases ht : t < 4
  · have := hi t ht
    cases hp : (after l).pos t <;> first | rfl | (rw [hp] at this; cases this)
  · rw [runs_pos l (fun a h1 e => ht (by rw [← e]; exact ha a.thr (List.mem_map_of_mem h1))) (runs_after h)]
    rfl

theorem seq_after {l : List (Act Nat)} (h : (runs l (init true)).isSome = true)
    (ha : ∀ a, a ∈ l.map Act.thr → a < 4) (hs : serial 4 l (init true) = true) :
    SeqReach true (after l) :=
  runs_seq l .init (fun _ _ => rfl) ha hs (runs_after h)

theorem hlog1 : (after (.call 0 .poll :: go 0 1)).log =
    [{ thr := 0, res := .polled none, began := 0, ended := 1 }] := rfl

theorem hlog2 : (after (addOn 0 0 12 ++ .call 0 .poll :: go 0 15)).log =
    [{ thr := 0, res := .added 0, began := 0, ended := 1 },
      { thr := 0, res := .polled (some 0), began := 2, ended := 3 }] := rfl

/-! ### C125: nothing is made up, nothing comes out twice, nothing is lost -/

theorem hit_src {s : Sys E} {Γ : Nat → G E} {src hit} (I : Inv s Γ) (L : InvL s Γ src hit)
    {n : Nat} {e : E} (h : Got s.log n e) :
    (hit n).2 < (s.prods (hit n).1).tail ∧
      ∃ r, s.log[src (hit n).1 (hit n).2]? = some r ∧ s.own r.thr = some (hit n).1 ∧
        r.res = .added e := by
  obtain ⟨h1, h2, h3⟩ := L.hits n e h
  have h4 := Nat.lt_of_lt_of_le h1 (I.k (hit n).1).head_le
  obtain ⟨r, e', g1, g2, g3, g4⟩ := L.srcs _ _ h4
  rw [h2] at g4
  cases g4
  exact ⟨h4, r, g1, g2, g3⟩

theorem src_inj {s : Sys E} {Γ : Nat → G E} {src hit} (L : InvL s Γ src hit)
    {p i p' i' : Nat} (h1 : i < (s.prods p).tail) (h2 : i' < (s.prods p').tail)
    (h : src p i = src p' i') : p = p' ∧ i = i' := by
  obtain ⟨r, e, g1, g2, _⟩ := L.srcs p i h1
  obtain ⟨r', e', f1, f2, _⟩ := L.srcs p' i' h2
  rw [h, f1] at g1
  cases g1
  rw [f2] at g2
  cases g2
  refine ⟨rfl, ?_⟩
  rcases Nat.lt_trichotomy i i' with hlt | heq | hgt
  · have := L.mono p i i' hlt h2; omega
  · exact heq
  · have := L.mono p i' i hgt h1; omega

theorem matching {q : Bool} {s : Sys E} (hr : Reach q s) :
    ∃ src, Matched s.log src ∧ InOrder s.log src ∧ NoSkip s src ∧
      (Still s → adds s.log = gets s.log →
        ∀ n t e, Added s.log n t e → ∃ k, Got s.log k e ∧ src k = n) := by
  obtain ⟨Γ, src, hit, I, L⟩ := Good.reach hr
  have hht := fun p => (I.k p).head_le
  refine ⟨fun n => src (hit n).1 (hit n).2, ⟨?_, ?_⟩, ?_, ?_, ?_⟩
  · intro n e h
    obtain ⟨_, r, g1, g2, g3⟩ := hit_src I L h
    exact ⟨(L.hits n e h).2.2, r.thr, r, g1, rfl, g3⟩
  · intro n m e e' h h' heq
    obtain ⟨h1, _⟩ := hit_src I L h
    obtain ⟨h2, _⟩ := hit_src I L h'
    obtain ⟨e1, e2⟩ := src_inj L h1 h2 heq
    exact L.inj n m e e' h h' (Prod.ext e1 e2)
  · intro n m e e' t a a' h h' ha ha' hlt hb
    obtain ⟨h1, r, g1, g2, g3⟩ := hit_src I L h
    obtain ⟨h2, r', f1, f2, f3⟩ := hit_src I L h'
    obtain ⟨x, x1, x2, _⟩ := ha
    obtain ⟨y, y1, y2, _⟩ := ha'
    rw [g1] at x1; cases x1
    rw [f1] at y1; cases y1
    have hp : (hit n).1 = (hit m).1 := by
      rw [x2] at g2; rw [y2, g2] at f2; exact Option.some.inj f2
    obtain ⟨u, v, u1, v1, huv⟩ := hb
    obtain ⟨u', u2, u3⟩ := h'
    obtain ⟨v', v2, v3⟩ := h
    rw [u1] at u2; cases u2
    rw [v1] at v2; cases v2
    have h5 := L.order m n u v e' e u1 v1 u3 v3 hp.symm huv
    have h6 := L.mono (hit n).1 _ _ h5 h1
    simp only at hlt
    rw [← hp] at hlt
    omega
  · intro m e t a n b h ha hlt hb
    obtain ⟨h1, r, g1, g2, g3⟩ := hit_src I L h
    obtain ⟨x, x1, x2, x3⟩ := ha
    rw [g1] at x1; cases x1
    obtain ⟨y, y1, y2, y3⟩ := hb
    obtain ⟨p, i, z1, z2, z3⟩ := L.all n y b y1 y3
    have hp : p = (hit m).1 := by
      rw [x2] at g2; rw [y2, g2] at z1; exact (Option.some.inj z1).symm
    subst hp
    simp only at hlt
    have hij : i < (hit m).2 := by
      rcases Nat.lt_or_ge i (hit m).2 with h5 | h5
      · exact h5
      · exfalso
        rcases Nat.eq_or_lt_of_le h5 with h6 | h6
        · rw [← h6] at z3; omega
        · have := L.mono _ _ _ h6 z2; omega
    rcases L.cover _ i (Nat.lt_trans hij (L.hits m e h).1) with ⟨k, e', h6, h7⟩ | ⟨t', h6⟩
    · exact .inl ⟨k, e', h6, by show src (hit k).1 (hit k).2 = n; rw [h7]; exact z3⟩
    · refine .inr ⟨t', fun h7 => ?_⟩
      rw [h7] at h6; cases h6
  · intro hs heq n t e ha
    obtain ⟨y, y1, y2, y3⟩ := ha
    obtain ⟨p, i, z1, z2, z3⟩ := L.all n y e y1 y3
    have hz := (hs.held hr).1
    rw [heq, Nat.sub_self] at hz
    have h5 := total_zero _ hz p (I.o.lt _ _ z1)
    unfold fill at h5
    rcases L.cover p i (by omega) with ⟨k, e', h6, h7⟩ | ⟨t', h6⟩
    · obtain ⟨_, r, f1, f2, f3⟩ := hit_src I L h6
      rw [h7, z3, y1] at f1
      cases f1
      rw [f3] at y3
      cases y3
      exact ⟨k, h6, by show src (hit k).1 (hit k).2 = n; rw [h7]; exact z3⟩
    · rw [hs t'] at h6; cases h6

/-- Whatever the threads do: every element a `poll` returned had been put in by an `add` of
its own, and once as many came out as went in and nobody is calling, every `add` is
answered for. -/
theorem C125_each_once {q : Bool} {s : Sys E} (hr : Reach q s) :
    ∃ src, Matched s.log src ∧
      (Still s → adds s.log = gets s.log →
        ∀ n t e, Added s.log n t e → ∃ k, Got s.log k e ∧ src k = n) := by
  obtain ⟨src, h1, _, _, h4⟩ := matching hr
  exact ⟨src, h1, h4⟩

/-- No more comes out than went in. -/
theorem C125_no_more {q : Bool} {s : Sys E} (hr : Reach q s) : gets s.log ≤ adds s.log := by
  have C := Cnt.reach hr
  obtain ⟨W, w1, w2, w3⟩ := C.heads
  have hsub := total_sub (f := fun p => (s.prods p).tail)
    (g := fun p => (s.prods p).head) s.count (fun p _ => (Tick.reach hr p).head_le)
  rw [C.tails, w3] at hsub
  omega

example : Reach true (after two) ∧ Got (after two).log 2 2 ∧ Added (after two).log 1 1 2 ∧
    adds (after two).log = 2 ∧ gets (after two).log = 1 :=
  ⟨after_reach rfl, ⟨_, rfl, rfl⟩, ⟨_, rfl, rfl, rfl⟩, rfl, rfl⟩

/-! ### C126: the order of one thread -/

/-- Whatever the threads do: with the `add`s that answer for the elements, the elements of
one thread come out in the order they went in, and none is passed over. -/
theorem C126_thread_order {q : Bool} {s : Sys E} (hr : Reach q s) :
    ∃ src, Matched s.log src ∧ InOrder s.log src ∧ NoSkip s src := by
  obtain ⟨src, h1, h2, h3, _⟩ := matching hr
  exact ⟨src, h1, h2, h3⟩

/-- Two elements of a thread come out one after the other. -/
def both : List (Act Nat) :=
  addOn 0 1 12 ++ addOn 0 2 4 ++ .call 1 .poll :: go 1 15 ++ .call 2 .poll :: go 2 15

example : Reach true (after both) ∧ Got (after both).log 2 1 ∧ Got (after both).log 3 2 ∧
    Added (after both).log 0 0 1 ∧ Added (after both).log 1 0 2 ∧ Before (after both).log 2 3 :=
  ⟨after_reach rfl, ⟨_, rfl, rfl⟩, ⟨_, rfl, rfl⟩, ⟨_, rfl, rfl, rfl⟩, ⟨_, rfl, rfl, rfl⟩,
    ⟨_, _, rfl, rfl, by decide⟩⟩

/-! ### C127: no undefined behaviour, no refusal, no waiting -/

/-- Whatever the threads do, one in the middle of a call can take its next step: it reads no
empty slot, follows no null pointer, builds over no element, and waits for nobody. -/
theorem C127_next_step {q : Bool} {s : Sys E} (hr : Reach q s) (t c : Nat)
    (hb : s.pos t ≠ .idle) : ∃ s', tick s t c = some s' := by
  obtain ⟨Γ, _, _, I, _⟩ := Good.reach hr
  exact I.go t c hb

/-- No `add` finds the queue full: `true` is the truth. -/
theorem C127_never_refused {q : Bool} {s : Sys E} (hr : Reach q s) (n : Nat) (r : Rec E)
    (h : s.log[n]? = some r) (e : E) : r.res ≠ .refused e := by
  obtain ⟨_, _, _, _, L⟩ := Good.reach hr
  exact L.noRef n r e h

example : Reach true (after clash) ∧ (∃ k p d, (after clash).pos 1 = .deq k p d) ∧
    (after clash).log.length = 3 :=
  ⟨after_reach rfl, ⟨_, _, _, rfl⟩, rfl⟩

/-! ### C128: calls end -/

/-- A call takes at most `16 n + 17` steps of its thread, when `n` threads have added by its
end, whatever the others do meanwhile. The searches of the free list and of the table of
producers are one step each here: their loops are not bounded by this. -/
theorem C128_bounded_partial {q : Bool} {s s' : Sys E} {t k : Nat} {c : Call E}
    (hr : Reach q s) (hi : s.pos t = .idle) (h : Steps t (begin s t c) k s') :
    k ≤ 16 * s'.count + 17 := call_left hr hi h

/-- So a thread that is scheduled ends its call. -/
theorem C128_ends_partial {q : Bool} {s s' : Sys E} {t : Nat} {c : Call E}
    (hr : Reach q s) (hi : s.pos t = .idle) (h : Steps t (begin s t c) (16 * s'.count + 17) s') :
    s'.pos t = .idle := by
  have h1 := steps_left (.step hr (.call t c hi)) h (Nat.le_refl _)
  have e : (begin s t c).pos t = start c := upd_same _ _ _
  rw [e] at h1
  have h2 : left s'.count (start c : Pos E) ≤ 16 * s'.count + 17 := by
    cases c <;> simp only [start, left] <;> omega
  have h3 : left s'.count (s'.pos t) = 0 := by omega
  cases hp : s'.pos t with
  | idle => rfl
  | add p e a => rw [hp] at h3; cases a <;> simp [left, AStg.left] at h3
  | deq k p d =>
    rw [hp] at h3
    cases k <;> cases d <;> simp [left, DStg.left] at h3
  | countH z m acc tl =>
    have := Ranged.reach ((Reach.step hr (.call t c hi)).steps h) t
    rw [hp] at this h3
    have h4 := this.1
    simp only [left] at h3
    omega
  | _ => rw [hp] at h3; simp [left] at h3

example : Reach true (after two) ∧ (after two).pos 3 = .idle ∧
    Steps 3 (begin (after two) 3 .size) 1
      ((tick (begin (after two) 3 .size) 3 0).getD (init true)) :=
  ⟨after_reach rfl, rfl, .own 0 .refl rfl⟩

/-! ### C129: a poll finds what is there -/

/-- A `poll` that no other `poll` overlaps, on a queue that holds something when it begins,
returns an element. The full claim, for every `poll`, is false: `C129_overlap_wrong`. -/
theorem C129_lone_poll_partial {q : Bool} {s s' : Sys E} {t : Nat} (hr : Reach q s)
    (hi : s.pos t = .idle) (hn : ∀ t', ¬ InPoll (s.pos t')) (ha : gets s.log < adds s.log)
    (hd : During t NotPoll (begin s t .poll) s') (n : Nat) (r : Rec E)
    (hr' : s'.log[n]? = some r) (hnew : s.log.length ≤ n) (ht : r.thr = t) :
    ∃ e, r.res = .polled (some e) := lone_poll hr hi hn ha hd n r hr' hnew ht

/-- The queue holds something all the time, nothing is added or taken while the `poll` of
thread 3 runs, and it finds nothing; and so does the `poll` it overlaps. -/
theorem C129_overlap_wrong :
    ∃ s s' s'' : Sys Nat, Reach true s ∧ s.pos 3 = .idle ∧ gets s.log < adds s.log ∧
      During 3 (fun _ => False) (begin s 3 .poll) s' ∧
      s'.log = s.log ++ [{ thr := 3, res := .polled none, began := 7, ended := 8 }] ∧
      During 3 (fun _ => False) s' s'' ∧ Still s'' ∧ gets s''.log < adds s''.log ∧
      s''.log = s'.log ++ [{ thr := 1, res := .polled none, began := 2, ended := 9 }] := by
  refine ⟨after clash, after (clash ++ .call 3 .poll :: go 3 7),
    after (clash ++ .call 3 .poll :: go 3 7 ++ go 1 2), after_reach rfl, rfl, by decide, ?_, rfl,
    ?_, ?_, by decide, rfl⟩
  · exact runs_during (go 3 7) .refl (by simp [go, fits, List.replicate]) rfl
  · exact runs_during (go 1 2) .refl (by simp [go, fits, List.replicate]) rfl
  · exact still_after rfl (by decide) (by decide)

example : ∃ s : Sys Nat, Reach true s ∧ s.pos 3 = .idle ∧ (∀ t', ¬ InPoll (s.pos t')) ∧
    gets s.log < adds s.log :=
  ⟨after two, after_reach rfl, rfl,
    fun t' => by rw [still_after (l := two) rfl (by decide) (by decide) t']; exact id, by decide⟩

/-! ### C130: how much is there -/

/-- A `size()` nothing overlaps counts what went in and did not come out, as an `int`. The
full claim, of a `size()` among other calls, is false: `C130_never_empty_wrong`. -/
theorem C130_size_partial {q : Bool} {s s' : Sys E} {t : Nat} (hr : Reach q s) (hs : Still s)
    (hd : Solo t (begin s t .size) s') (n : Nat) (r : Rec E) (hr' : s'.log[n]? = some r)
    (hnew : s.log.length ≤ n) :
    r.res = .size (((adds s.log - gets s.log : Nat) : Int).bmod (2 ^ 32)) :=
  lone_count (z := false) hr hs rfl hd n r hr' hnew

/-- An `isEmpty()` nothing overlaps is right. -/
theorem C130_isEmpty_partial {q : Bool} {s s' : Sys E} {t : Nat} (hr : Reach q s) (hs : Still s)
    (hd : Solo t (begin s t .isEmpty) s') (n : Nat) (r : Rec E) (hr' : s'.log[n]? = some r)
    (hnew : s.log.length ≤ n) :
    r.res = .isEmpty (decide (adds s.log = gets s.log)) := by
  have h := lone_count (z := true) hr hs rfl hd n r hr' hnew
  have h2 := (hs.held hr).2
  rw [h]
  show Res.isEmpty _ = _
  congr 1
  rw [Bool.eq_iff_iff]
  simp only [beq_iff_eq, decide_eq_true_eq]
  omega

/-- Meanwhile `isEmpty` looks at the younger producer, thread 1 adds to it, the poll takes
the element of the older, and `isEmpty` looks at that. -/
def meanwhile : List (Act Nat) := go 2 3 ++ addOn 1 3 4 ++ go 3 12 ++ go 2 2

deriving instance DecidableEq for Res, Rec

/-- While `isEmpty()` runs there is something in the queue at every moment, and the answer
is `true`. -/
theorem C130_never_empty_wrong :
    ∃ (s s' : Sys Nat) (l : List (Act Nat)), Reach true s ∧ s.pos 2 = .idle ∧
      runs l (begin s 2 .isEmpty) = some s' ∧
      always (fun x => decide (gets x.log < adds x.log)) l (begin s 2 .isEmpty) = true ∧
      s'.log[5]? = some { thr := 2, res := .isEmpty true, began := 7, ended := 11 } := by
  refine ⟨after aside, (runs meanwhile (begin (after aside) 2 .isEmpty)).getD (init true),
    meanwhile, after_reach rfl, rfl, ?_, by decide +kernel, ?_⟩
  · have h : (runs meanwhile (begin (after aside) 2 .isEmpty)).isSome = true := by decide +kernel
    cases h1 : runs meanwhile (begin (after aside) 2 .isEmpty) with
    | none => rw [h1] at h; cases h
    | some s => rfl
  · decide +kernel

/-- A queue of `2³¹` elements has a negative size. -/
theorem C130_size_wrong {q : Bool} {s s' : Sys E} {t : Nat} (hr : Reach q s) (hs : Still s)
    (hbig : adds s.log = gets s.log + 2 ^ 31) (hd : Solo t (begin s t .size) s') (n : Nat)
    (r : Rec E) (hr' : s'.log[n]? = some r) (hnew : s.log.length ≤ n) :
    r.res = .size (-2147483648) := by
  rw [C130_size_partial hr hs hd n r hr' hnew]
  have : adds s.log - gets s.log = 2 ^ 31 := by omega
  rw [this]
  rfl

example : ∃ s : Sys Nat, Reach true s ∧ Still s ∧ adds s.log = gets s.log + 2 ^ 31 := by
  obtain ⟨s, h1, h2, h3, h4⟩ := fill_up true (7 : Nat) (2 ^ 31)
  exact ⟨s, h1.reach, h2, by rw [h3, h4, Nat.zero_add]⟩

example : Reach true (after two) ∧ Still (after two) ∧ adds (after two).log = 2 ∧
    gets (after two).log = 1 :=
  ⟨after_reach rfl, still_after rfl (by decide) (by decide), rfl, rfl⟩

/-! ### C131: first in, first out -/

/-- Calls made one after the other, by any threads: the answers are those of a queue that
keeps the order of each adding thread. The full claim, one order for all, is false:
`C131_order_wrong`. -/
theorem C131_in_turn_partial {q : Bool} {s : Sys E} (h : SeqReach q s) :
    ∃ x, Store.Serves s.log x := by
  obtain ⟨_, _, x, hx⟩ := seq_serves h
  exact ⟨x, hx.serves⟩

/-- One after the other, and one thread does all the adding: the answers are those of a
first-in first-out queue. -/
theorem C131_one_adder_partial {q : Bool} {s : Sys E} (h : SeqReach q s) (a : Nat)
    (ha : ∀ r, r ∈ s.log → ∀ e, r.res = .added e → r.thr = a) : ∃ x, Fifo s.log x := by
  obtain ⟨_, _, x, hx⟩ := seq_serves h
  exact ⟨_, (hx.serves.fifo a ha).1⟩

/-- One after the other, thread 0 adds 1, thread 1 adds 2, thread 3 polls: and gets 2. No
first-in first-out queue does that. -/
theorem C131_order_wrong :
    ∃ s : Sys Nat, SeqReach true s ∧
      s.log.map (fun r => r.res) = [.added 1, .added 2, .polled (some 2)] ∧ ∀ x, ¬ Fifo s.log x := by
  refine ⟨after two, ?_, rfl, ?_⟩
  · exact seq_after rfl (by decide) (by decide)
  · intro x h
    obtain ⟨x1, h1, p1⟩ := h.inv [{ thr := 0, res := .added 1, began := 0, ended := 1 },
        { thr := 1, res := .added 2, began := 2, ended := 3 }]
      { thr := 3, res := .polled (some 2), began := 4, ended := 5 } rfl
    obtain ⟨x2, h2, p2⟩ := h1.inv [{ thr := 0, res := .added 1, began := 0, ended := 1 }] _ rfl
    obtain ⟨x3, h3, p3⟩ := h2.inv [] _ rfl
    obtain rfl := h3.start rfl
    cases p3 with
    | add e he =>
      cases he
      cases p2 with
      | add e he =>
        cases he
        cases p1 with
        | poll e l he hq => cases he; cases hq
        | _ => contradiction
      | _ => contradiction
    | _ => contradiction

example : ∃ s : Sys Nat, SeqReach true s ∧ s.log.length = 4 ∧
    ∀ r, r ∈ s.log → ∀ e, r.res = .added e → r.thr = 0 :=
  ⟨after both, seq_after rfl (by decide) (by decide), rfl, by
    intro r hr e he
    have hl : (after both).log = [{ thr := 0, res := .added 1, began := 0, ended := 1 },
      { thr := 0, res := .added 2, began := 2, ended := 3 },
      { thr := 1, res := .polled (some 1), began := 4, ended := 5 },
      { thr := 2, res := .polled (some 2), began := 6, ended := 7 }] := rfl
    rw [hl] at hr
    simp only [List.mem_cons, List.not_mem_nil, or_false] at hr
    rcases hr with rfl | rfl | rfl | rfl
    · rfl
    · rfl
    · cases he
    · cases he⟩

/-! ### C132: the calls that do not reach the queue -/

/-- `offer(e)` answers `true` and adds nothing: the size is what it was. -/
theorem C132_offer_wrong {q : Bool} {s s' : Sys E} {t : Nat} (e : E) (hr : Reach q s)
    (hs : Still s) (hd : Solo t (begin (stubCall s (.offer e)).1 t .size) s') (n : Nat)
    (r : Rec E) (hr' : s'.log[n]? = some r) (hnew : s.log.length ≤ n) :
    (stubCall s (.offer e)).2 = some (some true) ∧
      r.res = .size (((adds s.log - gets s.log : Nat) : Int).bmod (2 ^ 32)) :=
  ⟨rfl, C130_size_partial hr hs hd n r hr' hnew⟩

/-- `clear()` returns as if it had worked, and removes nothing. -/
theorem C132_clear_wrong {q : Bool} {s s' : Sys E} {t : Nat} (hr : Reach q s)
    (hs : Still s) (ha : gets s.log < adds s.log)
    (hd : Solo t (begin (stubCall s .clear).1 t .isEmpty) s') (n : Nat)
    (r : Rec E) (hr' : s'.log[n]? = some r) (hnew : s.log.length ≤ n) :
    (stubCall s .clear).2 = some none ∧ r.res = .isEmpty false := by
  refine ⟨rfl, ?_⟩
  have h := C130_isEmpty_partial hr hs hd n r hr' hnew
  rw [h]
  congr 1
  simp only [decide_eq_false_iff_not]
  omega

/-- `contains(e)` and `equals(e)` say `true`, `remove(o)` and `removeAll(c)` say `false`, of any
queue: of one that never held `e`, and of one that holds it. -/
theorem C132_contains_wrong (e : E) :
    (∃ s : Sys E, Reach true s ∧ adds s.log = 0 ∧ (stubCall s (.contains e)).2 = some (some true)) ∧
      ∃ s : Sys E, Reach true s ∧ Still s ∧ adds s.log = 1 ∧ gets s.log = 0 ∧
        (stubCall s .removeObject).2 = some (some false) ∧
        (stubCall s .removeAll).2 = some (some false) := by
  refine ⟨⟨init true, .init, rfl, rfl⟩, ?_⟩
  obtain ⟨s, h1, h2, h3, h4⟩ := fill_up true e 1
  exact ⟨s, h1.reach, h2, h3, h4, rfl, rfl⟩

/-- `peek`, `element` and `remove` always throw, whatever the queue holds. -/
theorem C132_throws_wrong (e : E) (k : Nat) :
    ∃ s : Sys E, Reach true s ∧ adds s.log = k ∧ gets s.log = 0 ∧
      (stubCall s .peek).2 = none ∧ (stubCall s .element).2 = none ∧
      (stubCall s .remove).2 = none := by
  obtain ⟨s, h1, h2, h3, h4⟩ := fill_up true e k
  exact ⟨s, h1.reach, h3, h4, rfl, rfl, rfl⟩

example : ∃ s : Sys Nat, Reach true s ∧ Still s ∧ gets s.log < adds s.log :=
  ⟨after two, after_reach rfl, still_after rfl (by decide) (by decide), by decide⟩

/-! ### C133: what `poll` returns of an empty queue -/

/-- When there was an element, the caller gets one some `add` put in. -/
theorem C133_element_partial {q : Bool} {s : Sys E} (hr : Reach q s) (dflt : Option E) (n : Nat)
    (r : Rec E) (h : s.log[n]? = some r) (o : Option E) (ho : r.res = .polled o)
    (hne : o ≠ none) :
    ∃ e k t, k < n ∧ pollValue dflt o = some e ∧ Added s.log k t e := by
  cases o with
  | none => exact absurd rfl hne
  | some e =>
    obtain ⟨src, hm, _⟩ := matching hr
    obtain ⟨h1, t, h2⟩ := hm.1 n e ⟨r, h, ho⟩
    exact ⟨e, src n, t, h1, rfl, h2⟩

example : Reach true (after two) ∧ ∃ r, (after two).log[2]? = some r ∧ r.res = .polled (some 2) :=
  ⟨after_reach rfl, _, rfl, rfl⟩

/-- One queue was empty, the other held the value a default-initialised `E` has: the callers
cannot tell. -/
theorem C133_empty_wrong :
    ∃ s s' : Sys Nat, SeqReach true s ∧ SeqReach true s' ∧
      adds s.log = 0 ∧ adds s'.log = 1 ∧
      (∃ r ∈ s.log, ∃ r' ∈ s'.log, ∃ o o', r.res = .polled o ∧ r'.res = .polled o' ∧
        o ≠ o' ∧ pollValue (some 0) o = pollValue (some 0) o') := by
  refine ⟨after (.call 0 .poll :: go 0 1), after (addOn 0 0 12 ++ .call 0 .poll :: go 0 15),
    seq_after rfl (by decide) (by decide), seq_after rfl (by decide) (by decide), rfl, rfl,
    { thr := 0, res := .polled none, began := 0, ended := 1 }, by simp [hlog1],
    { thr := 0, res := .polled (some 0), began := 2, ended := 3 }, by simp [hlog2],
    none, some 0, rfl, rfl, by simp, rfl⟩

/-- For a number or a pointer the value is indeterminate. -/
theorem C133_indeterminate_wrong :
    ∃ s : Sys Nat, SeqReach true s ∧
      ∃ r ∈ s.log, ∃ o, r.res = .polled o ∧ pollValue none o = none :=
  ⟨after (.call 0 .poll :: go 0 1), seq_after rfl (by decide) (by decide),
    { thr := 0, res := .polled none, began := 0, ended := 1 }, by simp [hlog1], none, rfl, rfl⟩

end Verif.LinkedQueue
