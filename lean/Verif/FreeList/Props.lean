import Verif.FreeList.Lemmas
/-!
# Properties of the free list
-/
namespace Verif.FreeList

open Verif.LightSema (sum sum_set sum_zero sum_nonneg sum_ge sum_mono)

/-! ### C165: one owner -/

/-- **C165** (one owner). Whatever any number of threads do (up to the 2^31 - 2 the counter has room
for), no block has two owners: a block that `try_get` hands out was owned by nobody just before,
and is one that was made. -/
theorem C165_one_owner {k : Nat} (hk : k + 1 < 2 ^ 31) {s s' : Sys} {m : Move} (h : Reach k s)
    (hm : move s m = some s') :
    s'.owned.Nodup ∧ ∀ i x, s'.log = (i, some x) :: s.log → x ∉ s.owned ∧ x < s.created ∧ s'.owned = x :: s.owned := by
  obtain ⟨place, L, inv⟩ := reach_inv hk h
  obtain ⟨p', L', inv'⟩ := move_inv inv hm
  refine ⟨inv'.single, ?_⟩
  intro i x hl
  have ne : ∀ (l : List (Nat × Option Nat)) a, l ≠ a :: l := by
    intro l a e
    have := congrArg List.length e
    simp at this
  cases m with
  | create => cases hm; exact absurd hl (ne _ _)
  | add j y =>
    unfold move at hm
    cases ht : s.threads[j]? with
    | none => simp [ht] at hm
    | some t =>
      cases t with
      | some p => simp [ht] at hm
      | none =>
        simp only [ht] at hm
        split at hm
        · cases hm; exact absurd hl (ne _ _)
        · cases hm
  | get j =>
    unfold move at hm
    cases ht : s.threads[j]? with
    | none => simp [ht] at hm
    | some t =>
      cases t with
      | some p => simp [ht] at hm
      | none => simp only [ht] at hm; cases hm; exact absurd hl (ne _ _)
  | go j =>
    unfold move at hm
    cases ht : s.threads[j]? with
    | none => simp [ht] at hm
    | some t =>
      cases t with
      | none => simp [ht] at hm
      | some p =>
        simp only [ht] at hm
        cases hn : (step s.sh p).2 with
        | «at» q => rw [hn] at hm; cases hm; exact absurd hl (ne _ _)
        | added => rw [hn] at hm; cases hm; exact absurd hl (ne _ _)
        | failed => rw [hn] at hm; cases hm; exact absurd hl (ne _ _)
        | got r =>
          rw [hn] at hm
          cases r with
          | none => cases hm; simp [put] at hl
          | some y =>
            cases hm
            simp only [put, List.cons.injEq, Prod.mk.injEq, Option.some.injEq, and_true] at hl
            obtain ⟨_, rfl⟩ := hl
            have nd := List.nodup_cons.mp inv'.single
            have hp : place y = .taken := by
              have noloop : ∀ h, loopAt h ≠ .got (some y) := by intro h; cases h <;> simp [loopAt]
              have nocont : ∀ k : Cont, k.next ≠ .got (some y) := by
                intro k; cases k with
                | done => simp [Cont.next]
                | loop h => exact noloop h
              cases p with
              | getTake z =>
                simp only [step, Next.got.injEq, Option.some.injEq] at hn
                subst hn
                exact role_place inv ht rfl rfl
              | addRef z => simp only [step] at hn; split at hn <;> cases hn
              | akHead z k => cases hn
              | akNext z h k => cases hn
              | akRefs z h k => cases hn
              | akCas z h k => simp only [step] at hn; split at hn <;> first | cases hn | exact absurd hn (nocont k)
              | akBack z h k => simp only [step] at hn; split at hn <;> first | cases hn | exact absurd hn (nocont k)
              | getHead => exact absurd hn (noloop _)
              | getRefs z => simp only [step] at hn; split at hn <;> cases hn
              | getInc z r => simp only [step] at hn; split at hn <;> cases hn
              | getNext z => cases hn
              | getCas z nx => simp only [step] at hn; split at hn <;> cases hn
              | getCheck z => simp only [step] at hn; split at hn <;> cases hn
              | getDrop z h => simp only [step] at hn; split at hn <;> first | cases hn | exact absurd hn (noloop _)
            refine ⟨nd.1, ?_, rfl⟩
            apply Classical.byContradiction
            intro hge
            have := (inv.made y).mpr (by omega)
            rw [hp] at this; cases this

/-- A race for one block: two threads look at it, one gets it, gives it back, and the second, whose
exchange of the head fails in between, puts it back for the first. -/
def race : List Move :=
  [.create, .create, .add 0 0, .go 0, .go 0, .go 0, .go 0, .go 0,
   .get 0, .go 0, .go 0, .go 0, .go 0, .get 1, .go 1, .go 1, .go 1, .go 1,
   .go 0, .go 0, .go 0, .add 0 0, .go 0, .add 0 1, .go 0, .go 0, .go 0, .go 0, .go 0,
   .go 1, .go 1, .go 1, .go 1, .go 1, .go 1, .go 1, .go 1, .go 1, .go 1, .go 1,
   .go 1, .go 1, .go 1, .go 1, .go 1]

example : ∃ s s', Reach 2 s ∧ move s (.go 1) = some s' ∧ s.owned = [] ∧ s.log = [(0, some 0)] ∧
    s'.log = (1, some 0) :: s.log ∧ s'.owned = [0] :=
  ⟨_, _, ⟨race, rfl⟩, rfl, rfl, rfl, rfl, rfl⟩

/-! ### C166: no block is lost -/

theorem sum_pos_ex {α : Type} (f : α → Int) {l : List α} (h : 1 ≤ sum f l) : ∃ a ∈ l, 1 ≤ f a := by
  apply Classical.byContradiction
  intro hc
  have : sum f l ≤ sum (fun _ : α => (0 : Int)) l := by
    apply sum_mono
    intro a ha
    apply Classical.byContradiction
    intro h'
    exact hc ⟨a, ha, by omega⟩
  rw [sum_zero (fun _ : α => (0 : Int)) (fun _ _ => rfl)] at this
  omega

theorem role_about {t : Option Pos} {x : Nat} {pl : Place} (h : role t = some (x, pl)) : About x t := by
  match t with
  | none => cases h
  | some p => cases p <;> simp [role] at h <;> exact h.1

theorem held_about {t : Option Pos} {x : Nat} (h : held t = some x) : About x t := by
  match t with
  | none => cases h
  | some p => cases p <;> simp [held] at h <;> exact h

/-- **C166** (none lost). At every moment the list is a proper list, without a loop and without a
block twice, and every block that was made is exactly one of owned or on the list, unless a thread
is in the middle of a call that works on it. -/
theorem C166_none_lost {k : Nat} (hk : k + 1 < 2 ^ 31) {s : Sys} (h : Reach k s) :
    ∃ L, Chain s.sh.nodes s.sh.head L ∧ L.Nodup ∧ (∀ x ∈ L, x < s.created ∧ x ∉ s.owned) ∧
      ∀ x < s.created, x ∈ s.owned ∨ x ∈ L ∨ ∃ t ∈ s.threads, About x t := by
  obtain ⟨place, L, inv⟩ := reach_inv hk h
  refine ⟨L, inv.chain, inv.once, ?_, ?_⟩
  · intro x hx
    have hp := (inv.listed x).mp hx
    constructor
    · apply Classical.byContradiction
      intro hge
      have := (inv.made x).mpr (by omega)
      rw [hp] at this; cases this
    · intro ho
      rw [inv.owned, hp] at ho; cases ho
  · intro x hx
    have solos : ∀ pl, solo pl = true → place x = pl → ∃ t ∈ s.threads, About x t := by
      intro pl hs hp
      have h1 := inv.roles x pl hs
      rw [if_pos hp] at h1
      obtain ⟨t, ht, h2⟩ := sum_pos_ex (isRole x pl) (l := s.threads) (by omega)
      refine ⟨t, ht, ?_⟩
      unfold isRole at h2
      split at h2
      · rename_i hr; exact role_about hr
      · omega
    cases hp : place x with
    | out => exact absurd ((inv.made x).mp hp) (by omega)
    | owned => exact Or.inl ((inv.owned x).mpr hp)
    | listed => exact Or.inr (Or.inl ((inv.listed x).mpr hp))
    | adding => exact Or.inr (Or.inr (solos _ rfl hp))
    | akA => exact Or.inr (Or.inr (solos _ rfl hp))
    | akB => exact Or.inr (Or.inr (solos _ rfl hp))
    | taken => exact Or.inr (Or.inr (solos _ rfl hp))
    | limbo =>
      obtain ⟨t, ht, h2⟩ := sum_pos_ex (hold x) (l := s.threads) (inv.limbo x hp)
      refine Or.inr (Or.inr ⟨t, ht, ?_⟩)
      unfold hold at h2
      split at h2
      · rename_i hr; exact held_about hr
      · omega

example : ∃ s, Reach 2 s ∧ s.created = 2 ∧ s.owned = [] ∧ s.sh.head = some 1 ∧ (s.sh.nodes 1).next = none ∧
    s.threads = [none, some (.getTake 0)] :=
  ⟨_, ⟨race, rfl⟩, rfl, rfl, rfl, rfl, rfl⟩

/-- **C166** (at rest). When no call is running, the list holds exactly the blocks that are not
owned. -/
theorem C166_at_rest {k : Nat} (hk : k + 1 < 2 ^ 31) {s : Sys} (h : Reach k s) (hq : Quiet s) :
    ∃ L, Chain s.sh.nodes s.sh.head L ∧ L.Nodup ∧ ∀ x, x ∈ L ↔ x < s.created ∧ x ∉ s.owned := by
  obtain ⟨L, h1, h2, h3, h4⟩ := C166_none_lost hk h
  refine ⟨L, h1, h2, fun x => ⟨h3 x, ?_⟩⟩
  rintro ⟨hx, ho⟩
  rcases h4 x hx with h | h | ⟨t, ht, ha⟩
  · exact absurd h ho
  · exact h
  · rw [hq t ht] at ha; cases ha

example : ∃ s, Reach 2 s ∧ Quiet s ∧ s.created = 2 ∧ s.owned = [0] ∧ s.sh.head = some 1 :=
  ⟨_, ⟨race ++ [.go 1], rfl⟩, by intro t ht; have h' : t ∈ ([none, none] : List (Option Pos)) := ht; simpa using h', rfl, rfl, rfl⟩

/-! ### C167: the assertion and the counter -/

/-- **C167** (the assertion and the counter). The `assert` in `try_get` never fails, and a counter
never gets near its top bit: its low part is at most one more than the number of threads. -/
theorem C167_no_failure {k : Nat} (hk : k + 1 < 2 ^ 31) {s : Sys} (h : Reach k s) :
    s.failed = false ∧ ∀ x, (s.sh.nodes x).refs < 2 ^ 32 ∧ count (s.sh.nodes x).refs ≤ s.threads.length + 1 := by
  obtain ⟨place, L, inv⟩ := reach_inv hk h
  refine ⟨inv.fine, fun x => ?_⟩
  have h1 := inv.refs x
  have h2 := hold_sum_le x s.threads
  have h3 := hold_sum_nonneg x s.threads
  have h4 := inv.small
  unfold count
  cases hp : place x <;> rw [hp] at h1 <;> simp only [bonus] at h1 <;> omega

example : ∃ s, Reach 2 s ∧ (s.sh.nodes 0).refs = 3 ∧ s.threads.length = 2 :=
  ⟨_, ⟨race.take 19, rfl⟩, rfl, rfl⟩

/-! ### C168: empty-handed only when the list was empty -/

/-- What a thread carries is a block. -/
def Full : Option Pos → Prop
  | some (.akHead _ (.loop h)) => h ≠ none
  | some (.akNext _ _ (.loop h)) => h ≠ none
  | some (.akRefs _ _ (.loop h)) => h ≠ none
  | some (.akCas _ _ (.loop h)) => h ≠ none
  | some (.akBack _ _ (.loop h)) => h ≠ none
  | some (.getDrop _ h) => h ≠ none
  | _ => True

/-- What comes after: not empty-handed. -/
def FullNext : Next → Prop
  | .at p => Full (some p)
  | .got none => False
  | _ => True

theorem full_loop {h : Option Nat} (hh : h ≠ none) : FullNext (loopAt h) := by
  cases h with
  | none => exact absurd rfl hh
  | some x => trivial

theorem full_step {sh : Shared} {p : Pos} (hp : Full (some p)) (hh : sh.head ≠ none) : FullNext (step sh p).2 := by
  have cont : ∀ k : Cont, (∀ h, k = .loop h → h ≠ none) → FullNext k.next := by
    intro k hk
    cases k with
    | done => trivial
    | loop h => exact full_loop (hk h rfl)
  cases p with
  | addRef x => simp only [step]; split <;> trivial
  | akHead x k => cases k <;> exact hp
  | akNext x h k => cases k <;> exact hp
  | akRefs x h k => cases k <;> exact hp
  | akCas x h k =>
    have hk : ∀ h, k = .loop h → h ≠ none := by
      intro h' e; subst e; exact hp
    simp only [step]
    split
    · exact cont k hk
    · cases k <;> exact hp
  | akBack x h k =>
    have hk : ∀ h, k = .loop h → h ≠ none := by
      intro h' e; subst e; exact hp
    simp only [step]
    split
    · cases k <;> exact hp
    · exact cont k hk
  | getHead => exact full_loop hh
  | getRefs x => simp only [step]; split <;> trivial
  | getInc x r => simp only [step]; split <;> trivial
  | getNext x => trivial
  | getCas x nx =>
    simp only [step]
    split
    · trivial
    · exact hh
  | getCheck x => simp only [step]; split <;> trivial
  | getTake x => trivial
  | getDrop x h =>
    simp only [step]
    split
    · exact hp
    · exact full_loop hp

theorem full_move {s s' : Sys} {m : Move} {i : Nat} (hm : move s m = some s') (hh : s.sh.head ≠ none)
    (hf : ∀ t, s.threads[i]? = some t → Full t) :
    (∀ t, s'.threads[i]? = some t → Full t) ∧
      (s'.log = s.log ∨ ∃ j r, s'.log = (j, r) :: s.log ∧ (j = i → r ≠ none)) := by
  have set : ∀ (j : Nat) (u : Option Pos), (j = i → Full u) → ∀ t, (s.threads.set j u)[i]? = some t → Full t := by
    intro j u hu t ht
    rw [List.getElem?_set] at ht
    split at ht
    · rename_i e
      split at ht
      · cases ht; exact hu e
      · cases ht
    · exact hf t ht
  cases m with
  | create => cases hm; exact ⟨hf, Or.inl rfl⟩
  | add j y =>
    unfold move at hm
    cases ht : s.threads[j]? with
    | none => simp [ht] at hm
    | some t =>
      cases t with
      | some p => simp [ht] at hm
      | none =>
        simp only [ht] at hm
        split at hm
        · cases hm; exact ⟨set j _ fun _ => trivial, Or.inl rfl⟩
        · cases hm
  | get j =>
    unfold move at hm
    cases ht : s.threads[j]? with
    | none => simp [ht] at hm
    | some t =>
      cases t with
      | some p => simp [ht] at hm
      | none => simp only [ht] at hm; cases hm; exact ⟨set j _ fun _ => trivial, Or.inl rfl⟩
  | go j =>
    unfold move at hm
    cases ht : s.threads[j]? with
    | none => simp [ht] at hm
    | some t =>
      cases t with
      | none => simp [ht] at hm
      | some p =>
        simp only [ht] at hm
        have hfn : j = i → FullNext (step s.sh p).2 := by
          intro e; subst e; exact full_step (hf _ ht) hh
        cases hn : (step s.sh p).2 with
        | «at» q => rw [hn] at hm hfn; cases hm; exact ⟨set j _ hfn, Or.inl rfl⟩
        | added => rw [hn] at hm hfn; cases hm; exact ⟨set j _ fun _ => trivial, Or.inl rfl⟩
        | failed => rw [hn] at hm hfn; cases hm; exact ⟨set j _ fun _ => trivial, Or.inl rfl⟩
        | got r =>
          rw [hn] at hm hfn
          cases r with
          | none =>
            cases hm
            exact ⟨set j _ fun _ => trivial, Or.inr ⟨j, none, rfl, fun e => absurd (hfn e) id⟩⟩
          | some y =>
            cases hm
            exact ⟨set j _ fun _ => trivial, Or.inr ⟨j, some y, rfl, fun _ => by simp⟩⟩

/-- **C168** (empty-handed only when empty). A thread that starts outside of any call and makes any
calls in any company gets a block from every `try_get` it completes, as long as the list is not
empty all along. -/
theorem C168_some {s s' : Sys} {ms : List Move} {i : Nat} (h0 : s.threads[i]? = some none)
    (ha : AlwaysSome s ms) (hr : run s ms = some s') :
    ∃ new, s'.log = new ++ s.log ∧ ∀ r, (i, r) ∈ new → ∃ x, r = some x := by
  have gen : ∀ (ms : List Move) (s : Sys), (∀ t, s.threads[i]? = some t → Full t) → AlwaysSome s ms →
      run s ms = some s' → ∃ new, s'.log = new ++ s.log ∧ ∀ r, (i, r) ∈ new → ∃ x, r = some x := by
    intro ms
    induction ms with
    | nil => intro s _ _ h; cases h; exact ⟨[], rfl, fun r h => by cases h⟩
    | cons m ms ih =>
      intro s hf ha h
      unfold run at h
      cases hm : move s m with
      | none => simp [hm] at h
      | some s1 =>
        rw [hm] at h
        obtain ⟨f1, f2⟩ := full_move hm (ha [] (m :: ms) s rfl rfl) hf
        have ha1 : AlwaysSome s1 ms := by
          intro ms1 ms2 s2 e1 e2
          refine ha (m :: ms1) ms2 s2 (by rw [e1]; rfl) ?_
          unfold run; rw [hm]; exact e2
        obtain ⟨new, n1, n2⟩ := ih s1 f1 ha1 h
        rcases f2 with f2 | ⟨j, r, f2, f3⟩
        · exact ⟨new, by rw [n1, f2], n2⟩
        · refine ⟨new ++ [(j, r)], by rw [n1, f2]; simp, ?_⟩
          intro r' hr'
          rcases List.mem_append.mp hr' with hr' | hr'
          · exact n2 r' hr'
          · simp only [List.mem_singleton, Prod.mk.injEq] at hr'
            obtain ⟨rfl, rfl⟩ := hr'
            cases r' with
            | none => exact absurd rfl (f3 rfl)
            | some x => exact ⟨x, rfl⟩
  refine gen ms s ?_ ha hr
  intro t ht
  rw [h0] at ht; cases ht; trivial

/-- Two blocks on the list; thread 0 takes one and thread 1 the other. -/
def twice : List Move :=
  [.get 0, .get 1, .go 0, .go 1, .go 0, .go 0, .go 0, .go 0, .go 0, .go 0]

def full : Sys :=
  ⟨⟨some 1, fun x => if x = 1 then ⟨1, some 0⟩ else if x = 0 then ⟨1, none⟩ else ⟨0, none⟩⟩, [none, none], 2, [], false, []⟩

example : ∃ s', run full twice = some s' ∧ AlwaysSome full twice ∧ s'.log = [(0, some 1)] ∧
    s'.threads = [none, some (.getRefs 1)] := by
  refine ⟨_, rfl, ?_, rfl, rfl⟩
  intro ms1 ms2 s' h1 h2
  have key : ∀ n ≤ 10, ∀ s', run full (twice.take n) = some s' → s'.sh.head ≠ none := by
    intro n hn s' h
    have : ∀ n ≤ 10, ((run full (twice.take n)).map fun s => s.sh.head.isSome) = some true := by decide +kernel
    have := this n hn
    rw [h] at this
    simp only [Option.map_some, Option.some.injEq] at this
    intro e; rw [e] at this; cases this
  have hlen : ms1.length ≤ 10 := by
    have := congrArg List.length h1
    simp [twice] at this; omega
  refine key ms1.length hlen s' ?_
  rw [h1]; simpa using h2

/-! ### C169: a thread that stands still holds up nobody -/

theorem put_at (s : Sys) (i : Nat) (sh : Shared) (p : Pos) (hi : i < s.threads.length) :
    (put s i sh (.at p)).threads[i]? = some (some p) := by
  show (s.threads.set i (some p))[i]? = _
  rw [List.getElem?_set]; simp [hi]

theorem lt_of_get {s : Sys} {i : Nat} {t : Option Pos} (h : s.threads[i]? = some t) : i < s.threads.length := by
  obtain ⟨h, _⟩ := List.getElem?_eq_some_iff.mp h; exact h

theorem ends_mono {s : Sys} {i n m : Nat} (h : Ends s i n) (hnm : n ≤ m) : Ends s i m := by
  obtain ⟨j, hj, h⟩ := h
  exact ⟨j, by omega, h⟩

theorem ends_now {s : Sys} {i : Nat} (h : s.threads[i]? = some none) : Ends s i 0 :=
  ⟨0, Nat.le_refl _, s, rfl, h⟩

theorem ends_step {s : Sys} {i n : Nat} {p : Pos} (ht : s.threads[i]? = some (some p))
    (h : Ends (put s i (step s.sh p).1 (step s.sh p).2) i n) : Ends s i (n + 1) := by
  obtain ⟨j, hj, s', h1, h2⟩ := h
  refine ⟨j + 1, by omega, s', ?_, h2⟩
  show run s (.go i :: List.replicate j (.go i)) = _
  unfold run
  have : move s (.go i) = some (put s i (step s.sh p).1 (step s.sh p).2) := by simp [move, ht]
  rw [this]; exact h1

theorem ends_at {s : Sys} {i n : Nat} {p q : Pos} {sh : Shared} (ht : s.threads[i]? = some (some p))
    (hst : step s.sh p = (sh, .at q))
    (h : ∀ s', s'.sh = sh → s'.threads[i]? = some (some q) → (∃ place L, Inv s' place L) → Ends s' i n)
    (inv : ∃ place L, Inv s place L) : Ends s i (n + 1) := by
  obtain ⟨place, L, inv⟩ := inv
  have hg := go_inv inv ht
  refine ends_step ht ?_
  rw [hst] at hg ⊢
  exact h _ rfl (put_at s i sh q (lt_of_get ht)) hg

theorem ends_loop {s : Sys} {i n : Nat} {p : Pos} {sh : Shared} {h : Option Nat} (ht : s.threads[i]? = some (some p))
    (hst : step s.sh p = (sh, loopAt h))
    (hc : ∀ x s', h = some x → s'.sh = sh → s'.threads[i]? = some (some (.getRefs x)) →
      (∃ place L, Inv s' place L) → Ends s' i n)
    (inv : ∃ place L, Inv s place L) : Ends s i (n + 1) := by
  cases h with
  | none =>
    refine ends_step ht ?_
    rw [hst]
    refine ends_mono (ends_now ?_) (Nat.zero_le _)
    show (s.threads.set i none)[i]? = _
    rw [List.getElem?_set]; simp [lt_of_get ht]
  | some x => exact ends_at ht hst (fun s' => hc x s' rfl) inv

theorem chain_head {s : Sys} {place : Nat → Place} {L : List Nat} (inv : Inv s place L) {z : Nat}
    (h : s.sh.head = some z) : place z = .listed := by
  have hc := inv.chain
  have hl := inv.listed
  cases L with
  | nil => rw [h] at hc; cases hc
  | cons a l =>
    have := hc.1
    rw [h] at this
    cases this
    exact (hl z).mp List.mem_cons_self

theorem chain_second {s : Sys} {place : Nat → Place} {L : List Nat} (inv : Inv s place L) {z x : Nat}
    (h : s.sh.head = some z) (hx : (s.sh.nodes z).next = some x) : place x = .listed := by
  have hc := inv.chain
  have hl := inv.listed
  cases L with
  | nil => rw [h] at hc; cases hc
  | cons a l =>
    obtain ⟨h1, h2⟩ := hc
    rw [h] at h1
    cases h1
    rw [hx] at h2
    cases l with
    | nil => cases h2
    | cons b l =>
      have := h2.1
      cases this
      exact (hl x).mp (List.mem_cons_of_mem _ List.mem_cons_self)

theorem listed_refs {s : Sys} {place : Nat → Place} {L : List Nat} (inv : Inv s place L) {x : Nat}
    (hp : place x = .listed) : count (s.sh.nodes x).refs ≠ 0 ∧ (s.sh.nodes x).refs + 1 < 0x80000000 + 1 := by
  have h1 := inv.refs x
  have h2 := hold_sum_le x s.threads
  have h3 := hold_sum_nonneg x s.threads
  have h4 := inv.small
  rw [hp] at h1
  simp only [bonus] at h1
  unfold count
  omega

theorem ends_take {s : Sys} {i x : Nat} (ht : s.threads[i]? = some (some (.getTake x))) : Ends s i 1 := by
  refine ends_step ht (ends_now ?_)
  show (s.threads.set i none)[i]? = _
  rw [List.getElem?_set]; simp [lt_of_get ht]

theorem ends_check {s : Sys} {i x : Nat} (ht : s.threads[i]? = some (some (.getCheck x)))
    (inv : ∃ place L, Inv s place L) : Ends s i 2 := by
  obtain ⟨place, L, inv⟩ := inv
  have hp := role_place inv ht rfl rfl
  have hr := inv.refs x
  have hl := hold_sum_le x s.threads
  have hsm := inv.small
  rw [hp] at hr
  simp only [bonus] at hr
  have hst : step s.sh (.getCheck x) = (s.sh, .at (.getTake x)) := by
    have : ¬ flag ≤ (s.sh.nodes x).refs := by unfold flag; omega
    simp only [step, if_neg this]
  exact ends_at ht hst (fun s' _ h _ => ends_take h) ⟨place, L, inv⟩

theorem ends_cas_head {s : Sys} {i x : Nat} {nx : Option Nat} (ht : s.threads[i]? = some (some (.getCas x nx)))
    (hh : s.sh.head = some x) (inv : ∃ place L, Inv s place L) : Ends s i 3 := by
  have hst : step s.sh (.getCas x nx) = ({ s.sh with head := nx }, .at (.getCheck x)) := by
    simp only [step, if_pos hh]
  exact ends_at ht hst (fun s' _ h g => ends_check h g) inv

theorem ends_next_head {s : Sys} {i x : Nat} (ht : s.threads[i]? = some (some (.getNext x)))
    (hh : s.sh.head = some x) (inv : ∃ place L, Inv s place L) : Ends s i 4 :=
  ends_at ht rfl (fun s' e h g => ends_cas_head h (by rw [e]; exact hh) g) inv

theorem ends_inc_head {s : Sys} {i x r : Nat} (ht : s.threads[i]? = some (some (.getInc x r)))
    (hr : (s.sh.nodes x).refs = r) (hh : s.sh.head = some x) (inv : ∃ place L, Inv s place L) : Ends s i 5 := by
  have hst : step s.sh (.getInc x r) = (setRefs s.sh x (plus r 1), .at (.getNext x)) := by
    simp only [step, if_pos hr]
  exact ends_at ht hst (fun s' e h g => ends_next_head h (by rw [e]; exact hh) g) inv

/-- The block looked at is the head. -/
theorem ends_refs_head {s : Sys} {i x : Nat} (ht : s.threads[i]? = some (some (.getRefs x)))
    (hh : s.sh.head = some x) (inv : ∃ place L, Inv s place L) : Ends s i 6 := by
  obtain ⟨place, L, inv⟩ := inv
  have hc := (listed_refs inv (chain_head inv hh)).1
  have hst : step s.sh (.getRefs x) = (s.sh, .at (.getInc x (s.sh.nodes x).refs)) := by
    simp only [step, if_neg hc]
  exact ends_at ht hst (fun s' e h g => ends_inc_head h (by rw [e]) (by rw [e]; exact hh) g) ⟨place, L, inv⟩

theorem ends_getHead {s : Sys} {i : Nat} (ht : s.threads[i]? = some (some .getHead))
    (inv : ∃ place L, Inv s place L) : Ends s i 7 :=
  ends_loop (h := s.sh.head) ht rfl (fun x s' e1 e2 h g => ends_refs_head h (by rw [e2]; exact e1) g) inv

/-- From the exchange of the head of a block that is not the head: the reference is dropped; the
block is put back if that is left to this thread. `m` steps are enough for each of the two. -/
theorem ends_refs_miss {s : Sys} {i x m : Nat} (ht : s.threads[i]? = some (some (.getRefs x)))
    (hc : count (s.sh.nodes x).refs ≠ 0) (hh : s.sh.head ≠ some x) (inv : ∃ place L, Inv s place L)
    (hd : ∀ s', s'.sh.head = s.sh.head → (s'.sh.nodes x).refs = plus (s.sh.nodes x).refs 1 →
      s'.threads[i]? = some (some (.getDrop x s.sh.head)) → (∃ place L, Inv s' place L) → Ends s' i m) :
    Ends s i (m + 4) := by
  have hst : step s.sh (.getRefs x) = (s.sh, .at (.getInc x (s.sh.nodes x).refs)) := by
    simp only [step, if_neg hc]
  refine ends_at (n := m + 3) ht hst (fun s1 e1 h1 g1 => ?_) inv
  obtain ⟨a1, a2, a3, a4⟩ := setRefs_same s1.sh x (plus (s.sh.nodes x).refs 1)
  have hst1 : step s1.sh (.getInc x (s.sh.nodes x).refs) =
      (setRefs s1.sh x (plus (s.sh.nodes x).refs 1), .at (.getNext x)) := by
    simp only [step, if_pos (show (s1.sh.nodes x).refs = (s.sh.nodes x).refs by rw [e1])]
  refine ends_at (n := m + 2) h1 hst1 (fun s2 e2 h2 g2 => ?_) g1
  refine ends_at (n := m + 1) h2 rfl (fun s3 e3 h3 g3 => ?_) g2
  have hd3 : s3.sh.head = s.sh.head := by rw [e3, e2, a4, e1]
  have hst3 : step s3.sh (.getCas x (s2.sh.nodes x).next) = (s3.sh, .at (.getDrop x s.sh.head)) := by
    simp only [step, hd3, if_neg hh]
  refine ends_at (n := m) h3 hst3 (fun s4 e4 h4 g4 => ?_) g3
  exact hd s4 (by rw [e4, hd3]) (by rw [e4, e3, e2, a1]) h4 g4

/-- The block looked at is on the list. -/
theorem ends_refs_listed {s : Sys} {i x z : Nat} (ht : s.threads[i]? = some (some (.getRefs x)))
    (hz : s.sh.head = some z) (hx : (s.sh.nodes z).next = some x) (inv : ∃ place L, Inv s place L) : Ends s i 11 := by
  by_cases hh : s.sh.head = some x
  · exact ends_mono (ends_refs_head ht hh inv) (by omega)
  · have inv0 := inv
    obtain ⟨place, L, inv⟩ := inv
    obtain ⟨c1, c2⟩ := listed_refs inv (chain_second inv hz hx)
    refine ends_refs_miss (m := 7) ht c1 hh inv0 (fun s' d1 d2 h' g' => ?_)
    have hst : step s'.sh (.getDrop x s.sh.head) =
        (setRefs s'.sh x (minus (s'.sh.nodes x).refs 1), loopAt s.sh.head) := by
      have : ¬ (s'.sh.nodes x).refs = flag + 1 := by
        rw [d2]; unfold plus flag; omega
      simp only [step, if_neg this]
    exact ends_loop (n := 6) h' hst (fun y s1 e1 e2 h1 g1 => ends_refs_head h1
      (by rw [e2]; show s'.sh.head = _; rw [d1]; exact e1) g1) g'

/-- `add_knowing_refcount_is_zero` when nobody else touches the head. -/
theorem ends_akNext_fresh {s : Sys} {i x m : Nat} {k : Cont} (ht : s.threads[i]? = some (some (.akNext x s.sh.head k)))
    (inv : ∃ place L, Inv s place L)
    (hk : ∀ h y s', k = .loop h → h = some y → s'.sh.head = some x → (s'.sh.nodes x).next = s.sh.head →
      s'.threads[i]? = some (some (.getRefs y)) → (∃ place L, Inv s' place L) → Ends s' i m) :
    Ends s i (m + 3) := by
  obtain ⟨a1, a2, a3, a4⟩ := setNext_same s.sh x s.sh.head
  refine ends_at (n := m + 2) ht rfl (fun s1 e1 h1 g1 => ?_) inv
  obtain ⟨b1, b2, b3, b4⟩ := setRefs_same s1.sh x 1
  refine ends_at (n := m + 1) h1 rfl (fun s2 e2 h2 g2 => ?_) g1
  have hd : s2.sh.head = s.sh.head := by rw [e2, b4, e1, a4]
  have hnx : (s2.sh.nodes x).next = s.sh.head := by rw [e2, b2, e1, a2]
  have hst : step s2.sh (.akCas x s.sh.head k) = ({ s2.sh with head := some x }, k.next) := by
    simp only [step, if_pos hd]
  cases k with
  | done =>
    refine ends_mono (n := 1) (ends_step h2 ?_) (by omega)
    rw [hst]
    refine ends_now ?_
    show (s2.threads.set i none)[i]? = _
    rw [List.getElem?_set]; simp [lt_of_get h2]
  | loop h =>
    refine ends_loop (n := m) h2 hst (fun y s3 e3 e4 h3 g3 => ?_) g2
    exact hk h y s3 rfl e3 (by rw [e4]) (by rw [e4]; exact hnx) h3 g3

/-- The block looked at may be anything. -/
theorem ends_refs {s : Sys} {i x : Nat} (ht : s.threads[i]? = some (some (.getRefs x)))
    (inv : ∃ place L, Inv s place L) : Ends s i 20 := by
  by_cases hc : count (s.sh.nodes x).refs = 0
  · have hst : step s.sh (.getRefs x) = (s.sh, .at .getHead) := by simp only [step, if_pos hc]
    exact ends_mono (ends_at (n := 7) ht hst (fun s' _ h g => ends_getHead h g) inv) (by omega)
  · by_cases hh : s.sh.head = some x
    · exact ends_mono (ends_refs_head ht hh inv) (by omega)
    · refine ends_refs_miss (m := 16) ht hc hh inv (fun s' d1 d2 h' g' => ?_)
      by_cases hf : (s'.sh.nodes x).refs = flag + 1
      · have hst : step s'.sh (.getDrop x s.sh.head) =
            (setRefs s'.sh x (minus (s'.sh.nodes x).refs 1), .at (.akHead x (.loop s.sh.head))) := by
          simp only [step, if_pos hf]
        refine ends_at (n := 15) h' hst (fun s1 e1 h1 g1 => ?_) g'
        refine ends_at (n := 14) h1 rfl (fun s2 e2 h2 g2 => ?_) g1
        rw [← e2] at h2
        refine ends_akNext_fresh (m := 11) h2 g2 (fun h y s3 k1 k2 k3 k4 k5 k6 => ?_)
        cases k1
        refine ends_refs_listed k5 k3 ?_ k6
        rw [k4, e2, e1]
        show s'.sh.head = _
        rw [d1, k2]
      · have hst : step s'.sh (.getDrop x s.sh.head) =
            (setRefs s'.sh x (minus (s'.sh.nodes x).refs 1), loopAt s.sh.head) := by
          simp only [step, if_neg hf]
        exact ends_mono (ends_loop (n := 6) h' hst (fun y s1 e1 e2 h1 g1 => ends_refs_head h1
          (by rw [e2]; show s'.sh.head = _; rw [d1]; exact e1) g1) g') (by omega)

theorem ends_akHead {s : Sys} {i x : Nat} {k : Cont} (ht : s.threads[i]? = some (some (.akHead x k)))
    (inv : ∃ place L, Inv s place L) : Ends s i 24 := by
  refine ends_at (n := 23) ht rfl (fun s1 e1 h1 g1 => ?_) inv
  rw [← e1] at h1
  exact ends_akNext_fresh (m := 20) h1 g1 (fun h y s2 _ _ _ _ h2 g2 => ends_refs h2 g2)

theorem ends_cont {s : Sys} {i : Nat} {p : Pos} {sh : Shared} {k : Cont} (ht : s.threads[i]? = some (some p))
    (hst : step s.sh p = (sh, k.next)) (inv : ∃ place L, Inv s place L) : Ends s i 21 := by
  cases k with
  | done =>
    refine ends_mono (n := 1) (ends_step ht ?_) (by omega)
    rw [hst]
    refine ends_now ?_
    show (s.threads.set i none)[i]? = _
    rw [List.getElem?_set]; simp [lt_of_get ht]
  | loop h => exact ends_loop (n := 20) ht hst (fun y s3 _ _ h3 g3 => ends_refs h3 g3) inv

theorem ends_akBack_fresh {s : Sys} {i x : Nat} {k : Cont} (ht : s.threads[i]? = some (some (.akBack x s.sh.head k)))
    (inv : ∃ place L, Inv s place L) : Ends s i 24 := by
  by_cases hz : (s.sh.nodes x).refs = 1
  · have hst : step s.sh (.akBack x s.sh.head k) =
        (setRefs s.sh x (plus (s.sh.nodes x).refs (flag - 1)), .at (.akNext x s.sh.head k)) := by
      simp only [step, if_pos hz]
    refine ends_at (n := 23) ht hst (fun s1 e1 h1 g1 => ?_) inv
    rw [show s.sh.head = s1.sh.head by rw [e1]; rfl] at h1
    exact ends_akNext_fresh (m := 20) h1 g1 (fun h y s2 _ _ _ _ h2 g2 => ends_refs h2 g2)
  · have hst : step s.sh (.akBack x s.sh.head k) =
        (setRefs s.sh x (plus (s.sh.nodes x).refs (flag - 1)), k.next) := by
      simp only [step, if_neg hz]
    exact ends_mono (ends_cont ht hst inv) (by omega)

theorem ends_akCas {s : Sys} {i x : Nat} {h : Option Nat} {k : Cont} (ht : s.threads[i]? = some (some (.akCas x h k)))
    (inv : ∃ place L, Inv s place L) : Ends s i 25 := by
  by_cases hh : s.sh.head = h
  · have hst : step s.sh (.akCas x h k) = ({ s.sh with head := some x }, k.next) := by
      simp only [step, if_pos hh]
    exact ends_mono (ends_cont ht hst inv) (by omega)
  · have hst : step s.sh (.akCas x h k) = (s.sh, .at (.akBack x s.sh.head k)) := by
      simp only [step, if_neg hh]
    refine ends_at (n := 24) ht hst (fun s1 e1 h1 g1 => ?_) inv
    rw [← e1] at h1
    exact ends_akBack_fresh h1 g1

theorem ends_akNext {s : Sys} {i x : Nat} {h : Option Nat} {k : Cont} (ht : s.threads[i]? = some (some (.akNext x h k)))
    (inv : ∃ place L, Inv s place L) : Ends s i 27 :=
  ends_at (n := 26) ht rfl (fun _ _ h1 g1 => ends_at (n := 25) h1 rfl (fun _ _ h2 g2 => ends_akCas h2 g2) g1) inv

theorem ends_drop {s : Sys} {i x : Nat} {h : Option Nat} (ht : s.threads[i]? = some (some (.getDrop x h)))
    (inv : ∃ place L, Inv s place L) : Ends s i 25 := by
  by_cases hf : (s.sh.nodes x).refs = flag + 1
  · have hst : step s.sh (.getDrop x h) =
        (setRefs s.sh x (minus (s.sh.nodes x).refs 1), .at (.akHead x (.loop h))) := by
      simp only [step, if_pos hf]
    exact ends_at ht hst (fun s1 _ h1 g1 => ends_akHead h1 g1) inv
  · have hst : step s.sh (.getDrop x h) = (setRefs s.sh x (minus (s.sh.nodes x).refs 1), loopAt h) := by
      simp only [step, if_neg hf]
    exact ends_mono (ends_loop (n := 20) ht hst (fun y s3 _ _ h3 g3 => ends_refs h3 g3) inv) (by omega)

theorem ends_cas {s : Sys} {i x : Nat} {nx : Option Nat} (ht : s.threads[i]? = some (some (.getCas x nx)))
    (inv : ∃ place L, Inv s place L) : Ends s i 26 := by
  by_cases hh : s.sh.head = some x
  · exact ends_mono (ends_cas_head ht hh inv) (by omega)
  · have hst : step s.sh (.getCas x nx) = (s.sh, .at (.getDrop x s.sh.head)) := by
      simp only [step, if_neg hh]
    exact ends_at ht hst (fun s1 _ h1 g1 => ends_drop h1 g1) inv

/-- **C169** (nobody is held up). From every state any number of threads can reach, wherever the
others have stopped, a thread that is inside a call and runs alone is out of it within 28 steps of
its own. -/
theorem C169_alone {k : Nat} (hk : k + 1 < 2 ^ 31) {s : Sys} (h : Reach k s) {i : Nat} {p : Pos}
    (ht : s.threads[i]? = some (some p)) : Ends s i 28 := by
  have inv := reach_inv hk h
  cases p with
  | addRef x =>
    by_cases hz : (s.sh.nodes x).refs = 0
    · have hst : step s.sh (.addRef x) = (setRefs s.sh x (plus (s.sh.nodes x).refs flag), .at (.akHead x .done)) := by
        simp only [step, if_pos hz]
      exact ends_mono (ends_at ht hst (fun s1 _ h1 g1 => ends_akHead h1 g1) inv) (by omega)
    · have hst : step s.sh (.addRef x) = (setRefs s.sh x (plus (s.sh.nodes x).refs flag), Cont.done.next) := by
        simp only [step, if_neg hz]; rfl
      exact ends_mono (ends_cont ht hst inv) (by omega)
  | akHead x k => exact ends_mono (ends_akHead ht inv) (by omega)
  | akNext x h k => exact ends_mono (ends_akNext ht inv) (by omega)
  | akRefs x h k => exact ends_mono (ends_at (n := 25) ht rfl (fun _ _ h2 g2 => ends_akCas h2 g2) inv) (by omega)
  | akCas x h k => exact ends_mono (ends_akCas ht inv) (by omega)
  | akBack x h k =>
    by_cases hz : (s.sh.nodes x).refs = 1
    · have hst : step s.sh (.akBack x h k) =
          (setRefs s.sh x (plus (s.sh.nodes x).refs (flag - 1)), .at (.akNext x h k)) := by
        simp only [step, if_pos hz]
      exact ends_at ht hst (fun s1 _ h1 g1 => ends_akNext h1 g1) inv
    · have hst : step s.sh (.akBack x h k) =
          (setRefs s.sh x (plus (s.sh.nodes x).refs (flag - 1)), k.next) := by
        simp only [step, if_neg hz]
      exact ends_mono (ends_cont ht hst inv) (by omega)
  | getHead => exact ends_mono (ends_getHead ht inv) (by omega)
  | getRefs x => exact ends_mono (ends_refs ht inv) (by omega)
  | getInc x r =>
    by_cases hr : (s.sh.nodes x).refs = r
    · have hst : step s.sh (.getInc x r) = (setRefs s.sh x (plus r 1), .at (.getNext x)) := by
        simp only [step, if_pos hr]
      exact ends_at ht hst (fun s1 _ h1 g1 => ends_at h1 rfl (fun _ _ h2 g2 => ends_cas h2 g2) g1) inv
    · have hst : step s.sh (.getInc x r) = (s.sh, .at .getHead) := by
        simp only [step, if_neg hr]
      exact ends_mono (ends_at ht hst (fun s1 _ h1 g1 => ends_getHead h1 g1) inv) (by omega)
  | getNext x => exact ends_mono (ends_at ht rfl (fun _ _ h2 g2 => ends_cas h2 g2) inv) (by omega)
  | getCas x nx => exact ends_mono (ends_cas ht inv) (by omega)
  | getCheck x => exact ends_mono (ends_check ht inv) (by omega)
  | getTake x => exact ends_mono (ends_take ht) (by omega)
  | getDrop x h => exact ends_mono (ends_drop ht inv) (by omega)

example : ∃ s, Reach 2 s ∧ s.threads = [some (.getCas 0 none), some (.getCas 0 none)] :=
  ⟨_, ⟨race.take 18, rfl⟩, rfl⟩

/-! ### C170: alone it is a stack -/

theorem quiet_hold {s : Sys} (hq : Quiet s) (x : Nat) : sum (hold x) s.threads = 0 := by
  apply sum_zero
  intro t ht
  rw [hq t ht]; simp [hold, held]

theorem run_go {s : Sys} {i : Nat} {p : Pos} {ms : List Move} (ht : s.threads[i]? = some (some p)) :
    run s (.go i :: ms) = run (put s i (step s.sh p).1 (step s.sh p).2) ms := by
  have : move s (.go i) = some (put s i (step s.sh p).1 (step s.sh p).2) := by simp [move, ht]
  show (move s (.go i)).bind _ = _
  rw [this]; rfl

/-- One more step of thread `i`, kept in a form that only names the memory. -/
theorem run_at {s : Sys} {i : Nat} {p q : Pos} {sh : Shared} {n : Nat} {ms : List Move} (ht : s.threads[i]? = some (some p))
    (hst : step s.sh p = (sh, .at q)) (hn : ms = List.replicate (n + 1) (.go i)) :
    run s ms = run { s with sh := sh, threads := s.threads.set i (some q) } (List.replicate n (.go i)) := by
  subst hn
  rw [List.replicate_succ, run_go ht, hst]; rfl

/-- **C170** (given back). When no call is running, `add` of an owned block ends after five steps
with that block at the head, before everything that was on the list. -/
theorem C170_add {k : Nat} (hk : k + 1 < 2 ^ 31) {s : Sys} (h : Reach k s) (hq : Quiet s) {i x : Nat}
    (ht : s.threads[i]? = some none) (hx : x ∈ s.owned) {L : List Nat} (hL : Chain s.sh.nodes s.sh.head L) :
    ∃ s', run s (.add i x :: List.replicate 5 (.go i)) = some s' ∧ Quiet s' ∧ s'.owned = s.owned.erase x ∧
      Chain s'.sh.nodes s'.sh.head (x :: L) := by
  obtain ⟨place, L0, inv⟩ := reach_inv hk h
  have hp := (inv.owned x).mp hx
  have hr := inv.refs x
  rw [hp, quiet_hold hq x] at hr
  simp only [bonus] at hr
  have hz : (s.sh.nodes x).refs = 0 := by omega
  have hi := lt_of_get ht
  have uniq : ∀ (n : Nat → Node) (L L' : List Nat) (h : Option Nat), Chain n h L → Chain n h L' → L = L' := by
    intro n L
    induction L with
    | nil => intro L' h h1 h2; cases h1; exact (chain_nil h2).symm
    | cons a l ih =>
      intro L' h h1 h2
      obtain ⟨rfl, h1⟩ := h1
      cases L' with
      | nil => cases h2
      | cons b l' =>
        obtain ⟨e, h2⟩ := h2
        cases e
        rw [ih l' _ h1 h2]
  have hxL : x ∉ L := by
    intro hm
    rw [uniq _ _ _ _ hL inv.chain, inv.listed, hp] at hm; cases hm
  have m1 : run s (.add i x :: List.replicate 5 (.go i)) =
      run { s with owned := s.owned.erase x, threads := s.threads.set i (some (.addRef x)) } (List.replicate 5 (.go i)) := by
    show (move s (.add i x)).bind _ = _
    have : move s (.add i x) = some { s with owned := s.owned.erase x, threads := s.threads.set i (some (.addRef x)) } := by
      simp [move, ht, hx]
    rw [this]; rfl
  have get : ∀ (l : List (Option Pos)) (q : Option Pos), l.length = s.threads.length → (l.set i q)[i]? = some q := by
    intro l q e; rw [List.getElem?_set]; simp [e, hi]
  rw [m1]
  rw [run_at (n := 4) (q := .akHead x .done) (sh := setRefs s.sh x (plus (s.sh.nodes x).refs flag)) (get _ _ rfl)
    (by simp only [step, if_pos hz]) rfl]
  rw [run_at (n := 3) (q := .akNext x s.sh.head .done) (sh := setRefs s.sh x (plus (s.sh.nodes x).refs flag))
    (get _ _ (by simp)) rfl rfl]
  rw [run_at (n := 2) (q := .akRefs x s.sh.head .done)
    (sh := setNext (setRefs s.sh x (plus (s.sh.nodes x).refs flag)) x s.sh.head) (get _ _ (by simp)) rfl rfl]
  rw [run_at (n := 1) (q := .akCas x s.sh.head .done)
    (sh := setRefs (setNext (setRefs s.sh x (plus (s.sh.nodes x).refs flag)) x s.sh.head) x 1) (get _ _ (by simp)) rfl rfl]
  rw [List.replicate_succ, run_go (get _ _ (by simp))]
  have hst : step (setRefs (setNext (setRefs s.sh x (plus (s.sh.nodes x).refs flag)) x s.sh.head) x 1)
      (.akCas x s.sh.head .done) =
      ({ setRefs (setNext (setRefs s.sh x (plus (s.sh.nodes x).refs flag)) x s.sh.head) x 1 with head := some x }, .added) := by
    have : (setRefs (setNext (setRefs s.sh x (plus (s.sh.nodes x).refs flag)) x s.sh.head) x 1).head = s.sh.head := rfl
    simp only [step, if_pos this]; rfl
  show ∃ s', run (put _ i (step (setRefs (setNext (setRefs s.sh x (plus (s.sh.nodes x).refs flag)) x s.sh.head) x 1)
      (.akCas x s.sh.head .done)).1 (step (setRefs (setNext (setRefs s.sh x (plus (s.sh.nodes x).refs flag)) x s.sh.head) x 1)
      (.akCas x s.sh.head .done)).2) [] = some s' ∧ _
  rw [hst]
  refine ⟨_, rfl, ?_, rfl, rfl, ?_⟩
  · intro t hm
    have hm : t ∈ (((((s.threads.set i (some (.addRef x))).set i (some (.akHead x .done))).set i
      (some (.akNext x s.sh.head .done))).set i (some (.akRefs x s.sh.head .done))).set i
      (some (.akCas x s.sh.head .done))).set i none := hm
    simp only [List.set_set] at hm
    rcases List.mem_or_eq_of_mem_set hm with hm | hm
    · exact hq t hm
    · exact hm
  · show Chain (setRefs (setNext (setRefs s.sh x (plus (s.sh.nodes x).refs flag)) x s.sh.head) x 1).nodes
      (((setRefs (setNext (setRefs s.sh x (plus (s.sh.nodes x).refs flag)) x s.sh.head) x 1).nodes x).next) L
    rw [(setRefs_same _ x 1).2.1, (setNext_same _ x _).2.1]
    refine chain_same hL fun y hy => ?_
    have hne : y ≠ x := by rintro rfl; exact hxL hy
    rw [(setRefs_same _ x 1).2.2.1 y hne, (setNext_same _ x _).2.2.1 y hne, (setRefs_same _ x _).2.2.1 y hne]

/-- **C170** (taken). When no call is running, `try_get` hands out the head of the list after seven
steps and leaves the rest; on an empty list it says so after one. -/
theorem C170_get {k : Nat} (hk : k + 1 < 2 ^ 31) {s : Sys} (h : Reach k s) (hq : Quiet s) {i : Nat}
    (ht : s.threads[i]? = some none) {L : List Nat} (hL : Chain s.sh.nodes s.sh.head L) :
    match L with
    | [] => ∃ s', run s [.get i, .go i] = some s' ∧ Quiet s' ∧ s'.log = (i, none) :: s.log ∧ s'.owned = s.owned ∧
        Chain s'.sh.nodes s'.sh.head []
    | x :: rest => ∃ s', run s (.get i :: List.replicate 7 (.go i)) = some s' ∧ Quiet s' ∧
        s'.log = (i, some x) :: s.log ∧ s'.owned = x :: s.owned ∧ Chain s'.sh.nodes s'.sh.head rest := by
  have hi := lt_of_get ht
  have m1 : ∀ ms, run s (.get i :: ms) = run { s with threads := s.threads.set i (some .getHead) } ms := by
    intro ms
    show (move s (.get i)).bind _ = _
    have : move s (.get i) = some { s with threads := s.threads.set i (some .getHead) } := by
      simp [move, ht]
    rw [this]; rfl
  have get : ∀ (l : List (Option Pos)) (q : Option Pos), l.length = s.threads.length → (l.set i q)[i]? = some q := by
    intro l q e; rw [List.getElem?_set]; simp [e, hi]
  cases L with
  | nil =>
    have hh : s.sh.head = none := hL
    show ∃ s', _
    rw [m1, run_go (get _ _ rfl)]
    have hst : step s.sh .getHead = (s.sh, .got none) := by simp only [step, hh]; rfl
    show ∃ s', run (put _ i (step s.sh .getHead).1 (step s.sh .getHead).2) [] = some s' ∧ _
    rw [hst]
    refine ⟨_, rfl, ?_, rfl, rfl, hh⟩
    intro t hm
    have hm : t ∈ (s.threads.set i (some .getHead)).set i none := hm
    simp only [List.set_set] at hm
    rcases List.mem_or_eq_of_mem_set hm with hm | hm
    · exact hq t hm
    · exact hm
  | cons x rest =>
    obtain ⟨hh, hrest⟩ := hL
    obtain ⟨place, L0, inv⟩ := reach_inv hk h
    have hp := chain_head inv hh
    have hr := inv.refs x
    rw [hp, quiet_hold hq x] at hr
    simp only [bonus] at hr
    have hz : (s.sh.nodes x).refs = 1 := by omega
    obtain ⟨a1, a2, a3, a4⟩ := setRefs_same s.sh x 2
    show ∃ s', _
    rw [m1]
    rw [run_at (n := 6) (q := .getRefs x) (sh := s.sh) (get _ _ rfl) (by simp only [step, hh]; rfl) rfl]
    rw [run_at (n := 5) (q := .getInc x 1) (sh := s.sh) (get _ _ (by simp)) (by simp only [step, hz]; rfl) rfl]
    rw [run_at (n := 4) (q := .getNext x) (sh := setRefs s.sh x 2) (get _ _ (by simp))
      (by simp only [step, if_pos hz]; rfl) rfl]
    rw [run_at (n := 3) (q := .getCas x (s.sh.nodes x).next) (sh := setRefs s.sh x 2) (get _ _ (by simp))
      (by simp only [step, a2]) rfl]
    rw [run_at (n := 2) (q := .getCheck x) (sh := { setRefs s.sh x 2 with head := (s.sh.nodes x).next })
      (get _ _ (by simp)) (by simp only [step, a4, if_pos hh]) rfl]
    rw [run_at (n := 1) (q := .getTake x) (sh := { setRefs s.sh x 2 with head := (s.sh.nodes x).next })
      (get _ _ (by simp)) (by simp only [step, a1]; rfl) rfl]
    rw [List.replicate_succ, run_go (get _ _ (by simp))]
    refine ⟨_, rfl, ?_, rfl, rfl, ?_⟩
    · intro t hm
      have hm : t ∈ (((((((s.threads.set i (some .getHead)).set i (some (.getRefs x))).set i (some (.getInc x 1))).set i
        (some (.getNext x))).set i (some (.getCas x (s.sh.nodes x).next))).set i
        (some (.getCheck x))).set i (some (.getTake x))).set i none := hm
      simp only [List.set_set] at hm
      rcases List.mem_or_eq_of_mem_set hm with hm | hm
      · exact hq t hm
      · exact hm
    · show Chain (setRefs _ x _).nodes (s.sh.nodes x).next rest
      refine chain_same hrest fun y hy => ?_
      by_cases e : y = x
      · subst e
        rw [(setRefs_same _ y _).2.1]; exact a2
      · rw [(setRefs_same _ x _).2.2.1 y e]
        show ((setRefs s.sh x 2).nodes y).next = _
        rw [a3 y e]

example : ∃ s, Reach 2 s ∧ Quiet s ∧ s.owned = [0] ∧ Chain s.sh.nodes s.sh.head [1] := by
  refine ⟨_, ⟨race ++ [.go 1], rfl⟩, ?_, rfl, ?_⟩
  · intro t ht; have h' : t ∈ ([none, none] : List (Option Pos)) := ht; simpa using h'
  · exact And.intro rfl (show _ = none from rfl)

end Verif.FreeList
