import Verif.FreeList.Progress
/-! # C220: calls on the pool of free blocks end -/
namespace Verif.FreeList

open Verif.LightSema (sum sum_set sum_nonneg)

def idleOf : Option Pos → Int
  | none => 1
  | some _ => 0

def idle (s : Sys) : Int := sum idleOf s.threads

theorem idle_range (s : Sys) : 0 ≤ idle s ∧ idle s ≤ kOf s := by
  refine ⟨sum_nonneg _ fun t _ => ?_, ?_⟩
  · cases t <;> simp [idleOf]
  · have := sum_le idleOf 1 (l := s.threads) fun t _ => by cases t <;> simp [idleOf]
    unfold idle kOf
    omega

/-- The measure with the calls that have not begun. -/
def whole (s : Sys) (L : List Nat) : Int := idle s * workBound (kOf s) + measure s L

theorem put_at_or_ends (s : Sys) (i : Nat) (sh : Shared) {t : Option Pos} (ht : s.threads[i]? = some t) :
    ∀ n : Next, (∃ p, n = .at p) ∨ (put s i sh n).threads[i]? = some none := by
  have hi : i < s.threads.length := by
    rw [List.getElem?_eq_some_iff] at ht
    exact ht.1
  intro n
  cases n with
  | «at» p => exact .inl ⟨p, rfl⟩
  | added => right; show (s.threads.set i none)[i]? = _; simp [hi]
  | got x =>
    right
    cases x with
    | none => show (s.threads.set i none)[i]? = _; simp [hi]
    | some x => show (s.threads.set i none)[i]? = _; simp [hi]
  | failed => right; show (s.threads.set i none)[i]? = _; simp [hi]

theorem begin_whole {s s' : Sys} {place place' : Nat → Place} {L L' : List Nat} (inv : Inv s place L) (inv' : Inv s' place' L') {i : Nat} {p : Pos}
    (ht : s.threads[i]? = some none) (hs : s'.threads = s.threads.set i (some p)) : whole s' L' < whole s L := by
  have hk : kOf s' = kOf s := by unfold kOf; rw [hs, List.length_set]
  have hi : idle s' = idle s - 1 := by
    unfold idle
    rw [hs, sum_set idleOf ht]
    simp only [idleOf]
    omega
  obtain ⟨m1, _⟩ := measure_range inv
  obtain ⟨_, m2⟩ := measure_range inv'
  rw [hk] at m2
  unfold whole
  rw [hk, hi, Int.sub_mul, Int.one_mul]
  omega

theorem move_whole {s s' : Sys} {place : Nat → Place} {L : List Nat} (inv : Inv s place L) {m : Move} (hm : move s m = some s')
    (hne : ∀ i, m = .go i → s'.threads[i]? ≠ some none) :
    ∃ place' L', Inv s' place' L' ∧ kOf s' = kOf s ∧ whole s' L' ≤ whole s L ∧ (m ≠ .create → whole s' L' < whole s L) := by
  obtain ⟨place', L', inv'⟩ := move_inv inv hm
  refine ⟨place', L', inv', ?_⟩
  cases m with
  | create =>
    cases hm
    have hL : L' = L := chain_unique inv'.chain inv.chain
    subst hL
    have e : whole { s with created := s.created + 1, owned := s.created :: s.owned } L' = whole s L' := by
      unfold whole measure aOf
      show _ * _ + ((((s.created + 1 : Nat) : Int) - ((s.owned.length + 1 : Nat) : Int) - _ + _) * _ + _ + _) = _
      have : ((s.created + 1 : Nat) : Int) - ((s.owned.length + 1 : Nat) : Int) = (s.created : Int) - s.owned.length := by omega
      rw [this]
      rfl
    exact ⟨rfl, Int.le_of_eq e, fun h => absurd rfl h⟩
  | add i x =>
    rw [move] at hm
    split at hm
    · rename_i ht
      split at hm
      · cases hm
        have h := begin_whole inv inv' ht rfl
        exact ⟨by unfold kOf; rw [List.length_set], Int.le_of_lt h, fun _ => h⟩
      · cases hm
    · cases hm
  | get i =>
    rw [move] at hm
    split at hm
    · rename_i ht
      cases hm
      have h := begin_whole inv inv' ht rfl
      exact ⟨by unfold kOf; rw [List.length_set], Int.le_of_lt h, fun _ => h⟩
    · cases hm
  | go i =>
    rw [move] at hm
    split at hm
    · rename_i p ht
      have hs := (Option.some.inj hm).symm
      rcases put_at_or_ends s i (step s.sh p).1 ht (step s.sh p).2 with ⟨p', hp'⟩ | he
      · have h := measure_go inv inv' ht hp' hs
        have hthr : s'.threads = s.threads.set i (some p') := by rw [hs, hp']; rfl
        have hk : kOf s' = kOf s := by unfold kOf; rw [hthr, List.length_set]
        have hi : idle s' = idle s := by
          unfold idle
          rw [hthr, sum_set idleOf ht]
          simp only [idleOf]
          omega
        have hw : whole s' L' < whole s L := by
          unfold whole
          rw [hk, hi]
          omega
        exact ⟨hk, Int.le_of_lt hw, fun _ => hw⟩
      · rw [← hs] at he
        exact absurd he (hne i rfl)
    · cases hm

theorem inCalls_cons (m : Move) (ms : List Move) : inCalls (m :: ms) = inCalls ms + if m = .create then 0 else 1 := by
  unfold inCalls
  by_cases h : m = .create
  · simp [h]
  · simp [h]

theorem run_whole : ∀ (ms : List Move) {s s' : Sys} {place : Nat → Place} {L : List Nat}, Inv s place L → run s ms = some s' → ¬ CallEnds s ms →
    (inCalls ms : Int) ≤ whole s L := by
  intro ms
  induction ms with
  | nil =>
    intro s s' place L inv _ _
    obtain ⟨h1, _⟩ := idle_range s
    obtain ⟨h2, _⟩ := measure_range inv
    have hk0 : 0 ≤ kOf s := Int.natCast_nonneg _
    obtain ⟨_, k1, _⟩ := K_pos (kOf s) hk0
    have : 0 ≤ workBound (kOf s) := Int.mul_nonneg (by omega) (by omega)
    have := Int.mul_nonneg h1 this
    show (0 : Int) ≤ _
    unfold whole
    omega
  | cons m ms ih =>
    intro s s' place L inv hr hn
    rw [run] at hr
    cases hm : move s m with
    | none => rw [hm] at hr; cases hr
    | some s1 =>
      rw [hm] at hr
      have hne : ∀ i, m = .go i → s1.threads[i]? ≠ some none := by
        intro i e he
        subst e
        exact hn ⟨[], i, ms, s, s1, rfl, rfl, hm, he⟩
      obtain ⟨place', L', inv', _, w1, w2⟩ := move_whole inv hm hne
      have hn' : ¬ CallEnds s1 ms := by
        rintro ⟨ms1, i, ms2, t1, t2, e1, e2, e3, e4⟩
        refine hn ⟨m :: ms1, i, ms2, t1, t2, by rw [e1]; rfl, ?_, e3, e4⟩
        rw [run, hm]
        exact e2
      have := ih inv' hr hn'
      rw [inCalls_cons]
      split
      · omega
      · rename_i hc
        have := w2 hc
        omega

theorem run_threads : ∀ (ms : List Move) {s s' : Sys}, run s ms = some s' → s'.threads.length = s.threads.length := by
  intro ms
  induction ms with
  | nil => intro s s' h; cases h; rfl
  | cons m ms ih =>
    intro s s' h
    rw [run] at h
    cases hm : move s m with
    | none => rw [hm] at h; cases h
    | some s1 =>
      rw [hm] at h
      rw [ih h]
      cases m with
      | create => cases hm; rfl
      | add i x =>
        rw [move] at hm
        split at hm
        · split at hm
          · cases hm; exact List.length_set
          · cases hm
        · cases hm
      | get i =>
        rw [move] at hm
        split at hm
        · cases hm; exact List.length_set
        · cases hm
      | go i =>
        rw [move] at hm
        split at hm
        · rename_i p _
          cases hm
          cases (step s.sh p).2 with
          | «at» q => exact List.length_set
          | added => exact List.length_set
          | got x => cases x <;> exact List.length_set
          | failed => exact List.length_set
        · cases hm

/-- C220: of the calls of `k` threads on the pool, some call ends whenever all of them together
have made (k+1)(3k+1)(2k+1)(14k+1) moves, whatever the schedule: which threads move, how often,
and when others begin calls or stop for good. -/
theorem C220_some_call_ends {k : Nat} (hk : k + 1 < 2 ^ 31) {s s' : Sys} (h : Reach k s) {ms : List Move} (hr : run s ms = some s')
    (hn : (k + 1) * ((3 * k + 1) * ((2 * k + 1) * (14 * k + 1))) ≤ inCalls ms) : CallEnds s ms := by
  apply Classical.byContradiction
  intro hne
  obtain ⟨place, L, inv⟩ := reach_inv hk h
  have hw := run_whole ms inv hr hne
  obtain ⟨_, h1⟩ := idle_range s
  obtain ⟨_, h2⟩ := measure_range inv
  have hkk : kOf s = (k : Int) := by
    obtain ⟨ms0, h0⟩ := h
    unfold kOf
    rw [run_threads ms0 h0]
    simp [init]
  rw [hkk] at h1 h2
  have hk0 : (0 : Int) ≤ (k : Int) := Int.natCast_nonneg _
  obtain ⟨_, k1, _⟩ := K_pos (k : Int) hk0
  have hb : 0 ≤ workBound (k : Int) := Int.mul_nonneg (by omega) (by omega)
  have hm := Int.mul_le_mul_of_nonneg_right h1 hb
  unfold whole at hw
  rw [hkk] at hw
  have hc : (((k + 1) * ((3 * k + 1) * ((2 * k + 1) * (14 * k + 1))) : Nat) : Int) = ((k : Int) + 1) * workBound (k : Int) := by
    unfold workBound K1 K2
    push_cast
    rfl
  have hn' : (((k + 1) * ((3 * k + 1) * ((2 * k + 1) * (14 * k + 1))) : Nat) : Int) ≤ (inCalls ms : Int) := Int.ofNat_le.mpr hn
  rw [hc, Int.add_mul, Int.one_mul] at hn'
  omega

/-- Two threads; one begins to take a block that is there and takes three steps: a reachable
state and a schedule that goes on. -/
example : ∃ s, Reach 2 s ∧ s.threads = [some (.getInc 0 1), none] ∧ s.sh.head = some 0 :=
  ⟨_, ⟨[.create, .add 1 0, .go 1, .go 1, .go 1, .go 1, .go 1, .get 0, .go 0, .go 0], rfl⟩, rfl, rfl⟩

/-! ## One thread may be kept waiting for ever -/

/-- A pool of two blocks. -/
def two (a b : Node) (y : Nat) : Node := if y = 0 then a else if y = 1 then b else ⟨0, none⟩

theorem two_0 (a b : Node) : two a b 0 = a := rfl
theorem two_1 (a b : Node) : two a b 1 = b := rfl

theorem refs_0 (h : Option Nat) (a b : Node) (r : Nat) : setRefs ⟨h, two a b⟩ 0 r = ⟨h, two ⟨r, a.next⟩ b⟩ := by
  unfold setRefs
  congr 1
  funext y
  match y with
  | 0 => rfl
  | 1 => rfl
  | y + 2 => rfl

theorem refs_1 (h : Option Nat) (a b : Node) (r : Nat) : setRefs ⟨h, two a b⟩ 1 r = ⟨h, two a ⟨r, b.next⟩⟩ := by
  unfold setRefs
  congr 1
  funext y
  match y with
  | 0 => rfl
  | 1 => rfl
  | y + 2 => rfl

theorem next_0 (h : Option Nat) (a b : Node) (g : Option Nat) : setNext ⟨h, two a b⟩ 0 g = ⟨h, two ⟨a.refs, g⟩ b⟩ := by
  unfold setNext
  congr 1
  funext y
  match y with
  | 0 => rfl
  | 1 => rfl
  | y + 2 => rfl

theorem next_1 (h : Option Nat) (a b : Node) (g : Option Nat) : setNext ⟨h, two a b⟩ 1 g = ⟨h, two a ⟨b.refs, g⟩⟩ := by
  unfold setNext
  congr 1
  funext y
  match y with
  | 0 => rfl
  | 1 => rfl
  | y + 2 => rfl

theorem plus_11 : plus 1 1 = 2 := by unfold plus; omega
theorem minus_21 : minus 2 1 = 1 := by unfold minus; omega
theorem minus_22 : minus 2 2 = 0 := by unfold minus; omega
theorem count_1 : count 1 = 1 := by unfold count; omega
theorem flag_2 : ¬ flag ≤ 2 := by unfold flag; omega
theorem flag_3 : ¬ 2 = flag + 1 := by unfold flag; omega

/-- Thread 0 has seen that block 0 is the head; thread 1 is outside and owns block 1. -/
def starving (nx : Option Nat) (log : List (Nat × Option Nat)) : Sys :=
  ⟨⟨some 0, two ⟨1, none⟩ ⟨0, nx⟩⟩, [some (.getInc 0 1), none], 2, [1], false, log⟩

/-- Thread 1 adds a block just before thread 0 exchanges the head, and takes it away again. -/
def round : List Move :=
  [.go 0, .go 0, .add 1 1, .go 1, .go 1, .go 1, .go 1, .go 1, .go 0, .go 0, .go 0, .get 1, .go 1, .go 1, .go 1, .go 1, .go 1, .go 1, .go 1, .go 0, .go 0, .go 0]

theorem run_append : ∀ (a b : List Move) {s s' : Sys}, run s a = some s' → run s (a ++ b) = run s' b := by
  intro a
  induction a with
  | nil => intro b s s' h; cases h; rfl
  | cons m a ih =>
    intro b s s' h
    rw [run] at h
    rw [List.cons_append, run]
    cases hm : move s m with
    | none => rw [hm] at h; cases h
    | some s1 =>
      rw [hm] at h
      exact ih b h

/-- Thread 0 is inside a call all along the schedule. -/
def busy (s : Sys) : List Move → Bool
  | [] => match s.threads[0]? with
    | some (some _) => true
    | _ => false
  | m :: ms => (match s.threads[0]? with
    | some (some _) => true
    | _ => false) && (match move s m with
    | none => false
    | some s' => busy s' ms)

theorem busy_here (s : Sys) (ms : List Move) (h : busy s ms = true) : ∃ p, s.threads[0]? = some (some p) := by
  have : (match s.threads[0]? with
    | some (some _) => true
    | _ => false) = true := by
    cases ms with
    | nil => exact h
    | cons m ms =>
      rw [busy, Bool.and_eq_true] at h
      exact h.1
  split at this
  · rename_i p hp
    exact ⟨p, hp⟩
  · cases this

theorem busy_spec : ∀ (ms1 ms2 : List Move) (s s1 : Sys), busy s (ms1 ++ ms2) = true → run s ms1 = some s1 → busy s1 ms2 = true := by
  intro ms1
  induction ms1 with
  | nil => intro ms2 s s1 h hr; cases hr; exact h
  | cons m ms1 ih =>
    intro ms2 s s1 h hr
    rw [run] at hr
    rw [List.cons_append, busy, Bool.and_eq_true] at h
    cases hm : move s m with
    | none => rw [hm] at hr; cases hr
    | some s' =>
      rw [hm] at hr
      have h2 := h.2
      simp only [hm] at h2
      exact ih ms2 s' s1 h2 hr

theorem busy_append : ∀ (a b : List Move) (s s' : Sys), busy s a = true → run s a = some s' → busy s' b = true → busy s (a ++ b) = true := by
  intro a
  induction a with
  | nil => intro b s s' _ hr hb; cases hr; exact hb
  | cons m a ih =>
    intro b s s' h hr hb
    rw [run] at hr
    rw [busy, Bool.and_eq_true] at h
    rw [List.cons_append, busy, Bool.and_eq_true]
    refine ⟨h.1, ?_⟩
    cases hm : move s m with
    | none => rw [hm] at hr; cases hr
    | some s1 =>
      rw [hm] at hr
      have h2 := h.2
      simp only [hm] at h2 ⊢
      exact ih b s1 s' h2 hr hb

theorem go_step {s s' : Sys} {q : Pos} {m : Move} {ms : List Move} {r : Option Sys} (h0 : s.threads[0]? = some (some q))
    (h : move s m = some s') (hr : run s' ms = r ∧ busy s' ms = true) : run s (m :: ms) = r ∧ busy s (m :: ms) = true := by
  refine ⟨?_, ?_⟩
  · rw [run, h]
    exact hr.1
  · rw [busy, h0, h]
    exact hr.2

theorem move_step {s s' : Sys} {m : Move} {ms : List Move} {r : Option Sys}
    (h : move s m = some s') (hr : run s' ms = r) : run s (m :: ms) = r := by
  rw [run, h]
  exact hr

theorem erase_1 : [1].erase 1 = ([] : List Nat) := rfl
theorem erase_10 : [1, 0].erase 0 = [1] := rfl

/-- One move of the schedule. -/
macro "one_move" : tactic => `(tactic| (simp only [move, step, refs_0, refs_1, next_0, next_1, two_0, two_1, put, plus_11, minus_21, minus_22, count_1, flag_2, flag_3, loopAt, Cont.next, erase_1, erase_10, List.getElem?_cons_zero, List.getElem?_cons_succ, List.set_cons_zero, List.set_cons_succ, reduceIte, List.mem_cons, true_or, or_true, Option.some.injEq, Nat.one_ne_zero, Nat.zero_ne_one, reduceCtorEq]; exact rfl))

theorem round_go (nx : Option Nat) (log : List (Nat × Option Nat)) :
    run (starving nx log) round = some (starving (some 0) ((1, some 1) :: log)) ∧ busy (starving nx log) round = true := by
  unfold starving round
  iterate 22 refine go_step rfl (by one_move) ?_
  exact ⟨rfl, rfl⟩

theorem stepsOf_append (i : Nat) (a b : List Move) : stepsOf i (a ++ b) = stepsOf i a + stepsOf i b := by
  unfold stepsOf
  rw [List.filter_append, List.length_append]

/-- C220: refuted for a single call: in a pool of two blocks and two threads, a call that takes
a block can be made to take any number of steps without ending, by a thread that adds a block and
takes it again, over and over. -/
theorem C220_each_call_wrong : ∃ s, Reach 2 s ∧ ∀ n, ∃ ms s', run s ms = some s' ∧ n ≤ stepsOf 0 ms ∧
    (∀ ms1 ms2 s1, ms = ms1 ++ ms2 → run s ms1 = some s1 → ∃ p, s1.threads[0]? = some (some p)) := by
  refine ⟨starving none [], ?_, ?_⟩
  · refine ⟨[.create, .create, .add 1 0, .go 1, .go 1, .go 1, .go 1, .go 1, .get 0, .go 0, .go 0], ?_⟩
    have h0 : init 2 = ⟨⟨none, two ⟨0, none⟩ ⟨0, none⟩⟩, [none, none], 0, [], false, []⟩ := by
      unfold init
      congr 2
      funext y
      match y with
      | 0 => rfl
      | 1 => rfl
      | y + 2 => rfl
    rw [h0]
    unfold starving
    iterate 11 refine move_step (by one_move) ?_
    exact rfl
  · intro n
    have key : ∀ (n : Nat) (nx : Option Nat) (log : List (Nat × Option Nat)), ∃ ms s', run (starving nx log) ms = some s' ∧ n ≤ stepsOf 0 ms ∧ busy (starving nx log) ms = true := by
      intro n
      induction n with
      | zero => intro nx log; exact ⟨[], _, rfl, Nat.le_refl _, rfl⟩
      | succ n ih =>
        intro nx log
        obtain ⟨ms, s', h1, h2, h3⟩ := ih (some 0) ((1, some 1) :: log)
        refine ⟨round ++ ms, s', ?_, ?_, busy_append _ _ _ _ (round_go nx log).2 (round_go nx log).1 h3⟩
        · rw [run_append _ _ (round_go nx log).1]
          exact h1
        · rw [stepsOf_append]
          have : stepsOf 0 round = 8 := by decide
          omega
    obtain ⟨ms, s', h1, h2, h3⟩ := key n none []
    refine ⟨ms, s', h1, h2, fun ms1 ms2 s1 e hr => ?_⟩
    rw [e] at h3
    exact busy_here s1 ms2 (busy_spec ms1 ms2 _ _ h3 hr)

end Verif.FreeList
