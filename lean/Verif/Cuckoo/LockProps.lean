import Verif.Cuckoo.Locks
/-! # Properties of the spinlocks -/
namespace Verif.Cuckoo

/-- Strictly increasing, and below `n`. -/
def Up (n : Nat) : List Nat → Prop
  | [] => True
  | l :: rest => l < n ∧ (∀ x, x ∈ rest → l < x) ∧ Up n rest

theorem up_one {n l : Nat} (h : l < n) : Up n [l] := ⟨h, (by intro x hx; cases hx), trivial⟩

theorem up_two {n a b : Nat} (h : a < b) (hb : b < n) : Up n [a, b] :=
  ⟨by omega, (by intro x hx; rw [List.mem_singleton] at hx; omega), up_one hb⟩

theorem up_three {n a b c : Nat} (h : a < b) (h' : b < c) (hc : c < n) : Up n [a, b, c] := by
  refine ⟨by omega, ?_, up_two h' hc⟩
  intro x hx
  rcases List.mem_cons.mp hx with hx | hx
  · omega
  · rw [List.mem_singleton] at hx; omega

theorem up_planTwo {n l1 l2 : Nat} (h1 : l1 < n) (h2 : l2 < n) : Up n (planTwo l1 l2) := by
  unfold planTwo
  simp only
  by_cases h : l2 < l1
  · rw [if_pos h]
    simp only
    rw [if_pos (by omega)]; exact up_two h h1
  · rw [if_neg h]
    simp only
    by_cases h' : l2 = l1
    · rw [if_neg (by intro hx; exact hx h')]; exact up_one h1
    · rw [if_pos h']; exact up_two (by omega) h2

theorem up_sorted {n a b c : Nat} (h : a ≤ b) (h' : b ≤ c) (hc : c < n) :
    Up n ([a] ++ (if b ≠ a then [b] else []) ++ (if c ≠ b then [c] else [])) := by
  by_cases h1 : b = a
  · by_cases h2 : c = b
    · rw [if_neg (by omega), if_neg (by omega)]; exact up_one (by omega)
    · rw [if_neg (by omega), if_pos h2]; exact up_two (by omega) hc
  · by_cases h2 : c = b
    · rw [if_pos h1, if_neg (by omega)]; exact up_two (by omega) (by omega)
    · rw [if_pos h1, if_pos h2]; exact up_three (by omega) (by omega) hc

local macro "ord" : tactic => `(tactic| first | omega | (simp only; omega))

theorem up_planThree {n l0 l1 l2 : Nat} (h0 : l0 < n) (h1 : l1 < n) (h2 : l2 < n) : Up n (planThree l0 l1 l2) := by
  unfold planThree
  simp only
  by_cases a : l2 < l1
  · rw [if_pos a]
    simp only
    by_cases b : l1 < l0
    · rw [if_pos b]
      simp only
      by_cases c : l2 < l1
      · rw [if_pos c]; exact up_sorted (by ord) (by ord) (by ord)
      · rw [if_neg c]; exact up_sorted (by ord) (by ord) (by ord)
    · rw [if_neg b]
      simp only
      by_cases c : l2 < l0
      · rw [if_pos c]; exact up_sorted (by ord) (by ord) (by ord)
      · rw [if_neg c]; exact up_sorted (by ord) (by ord) (by ord)
  · rw [if_neg a]
    simp only
    by_cases b : l2 < l0
    · rw [if_pos b]
      simp only
      by_cases c : l1 < l2
      · rw [if_pos c]; exact up_sorted (by ord) (by ord) (by ord)
      · rw [if_neg c]; exact up_sorted (by ord) (by ord) (by ord)
    · rw [if_neg b]
      simp only
      by_cases c : l1 < l0
      · rw [if_pos c]; exact up_sorted (by ord) (by ord) (by ord)
      · rw [if_neg c]; exact up_sorted (by ord) (by ord) (by ord)

theorem up_range : ∀ (k a n : Nat), a + k ≤ n → Up n (List.range' a k) := by
  intro k
  induction k with
  | zero => intro a n _; trivial
  | succ k ih =>
    intro a n h
    rw [List.range'_succ]
    refine ⟨by omega, ?_, ih (a + 1) n (by omega)⟩
    intro x hx
    have := List.mem_range'_1.mp hx
    omega

theorem Plan.up {n : Nat} {p : List Nat} (h : Plan n p) : Up n p := by
  cases h with
  | one l h => exact up_one h
  | two l1 l2 h1 h2 => exact up_planTwo h1 h2
  | three l0 l1 l2 h0 h1 h2 => exact up_planThree h0 h1 h2
  | all => unfold planAll; rw [List.range_eq_range']; exact up_range n 0 n (by omega)

/-- What is true of a thread. -/
def HoldOK (n : Nat) : Hold → Prop
  | .take held todo => Up n todo ∧ ∀ x y, x ∈ held → y ∈ todo → x < y
  | _ => True

structure LInv (n : Nat) (s : Nat → Hold) : Prop where
  ok : ∀ i, HoldOK n (s i)
  apart : ∀ i j l, i ≠ j → l ∈ (s i).held → l ∉ (s j).held

theorem LInv.set {n : Nat} {s : Nat → Hold} (h : LInv n s) {i : Nat} {x : Hold} (h1 : HoldOK n x)
    (h2 : ∀ l, l ∈ x.held → ∀ j, j ≠ i → l ∉ (s j).held) : LInv n (setHold s i x) := by
  refine ⟨fun j => ?_, fun a b l hab ha hb => ?_⟩
  · unfold setHold; split
    · exact h1
    · exact h.ok j
  · unfold setHold at ha hb
    by_cases hai : a = i
    · rw [if_pos hai] at ha
      have hbi : b ≠ i := fun hb => hab (hai.trans hb.symm)
      rw [if_neg hbi] at hb
      exact h2 l ha b hbi hb
    · rw [if_neg hai] at ha
      by_cases hbi : b = i
      · rw [if_pos hbi] at hb; exact h2 l hb a hai ha
      · rw [if_neg hbi] at hb; exact h.apart a b l hab ha hb

theorem linv_step {n : Nat} {s s' : Nat → Hold} {i : Nat} (h : LInv n s) (hs : LStep n s i s') : LInv n s' := by
  cases hs with
  | start p hp hi => exact h.set ⟨hp.up, by intro x y hx; cases hx⟩ (by intro l hl; cases hl)
  | acquire held l rest hi hfree =>
    have ho := h.ok i
    rw [hi] at ho
    obtain ⟨⟨h1, h2, h3⟩, h4⟩ := ho
    refine h.set ⟨h3, ?_⟩ ?_
    · intro x y hx hy
      rcases List.mem_cons.mp hx with hx | hx
      · rw [hx]; exact h2 y hy
      · exact h4 x y hx (List.mem_cons_of_mem _ hy)
    · intro x hx j hj
      rcases List.mem_cons.mp hx with hx | hx
      · rw [hx]; exact hfree j
      · exact h.apart i j x (fun he => hj he.symm) (by rw [hi]; exact hx)
  | enter held hi =>
    exact h.set trivial (fun x hx j hj => h.apart i j x (fun he => hj he.symm) (by rw [hi]; exact hx))
  | giveUp l rest hi => exact h.set trivial (by intro l hl; cases hl)
  | release held hi => exact h.set trivial (by intro l hl; cases hl)

theorem linv_nstep {n : Nat} {s s' : Nat → Hold} {i : Nat} (h : LInv n s) (hs : NStep n s i s') : LInv n s' := by
  cases hs with
  | step hs => exact linv_step h hs
  | nest held p hp hi => exact h.set trivial (fun x hx j hj => h.apart i j x (fun he => hj he.symm) (by rw [hi]; exact hx))
  | acquire held l rest hi _ => exact h.set trivial (fun x hx j hj => h.apart i j x (fun he => hj he.symm) (by rw [hi]; exact hx))
  | back held hi => exact h.set trivial (fun x hx j hj => h.apart i j x (fun he => hj he.symm) (by rw [hi]; exact hx))

theorem linv_quiet (n : Nat) : LInv n quiet := ⟨fun _ => trivial, fun _ _ _ _ h => by cases h⟩

theorem linv_run {n : Nat} {s s' : Nat → Hold} (hr : LRun n s s') : LInv n s → LInv n s' := by
  induction hr with
  | nil s => exact id
  | cons h _ ih => exact fun hi => ih (linv_step hi h)

theorem linv_nrun {n : Nat} {s s' : Nat → Hold} (hr : NRun n s s') : LInv n s → LInv n s' := by
  induction hr with
  | nil s => exact id
  | cons h _ ih => exact fun hi => ih (linv_nstep hi h)

/-! ## C115 Exclusion and progress -/

/-- C115: no lock is held by two threads. -/
theorem C115_exclusive {n : Nat} {s : Nat → Hold} (hr : NRun n quiet s) {i j l : Nat} (hi : l ∈ (s i).held) (hj : l ∈ (s j).held) : i = j := by
  by_cases h : i = j
  · exact h
  · exact absurd hj ((linv_nrun hr (linv_quiet n)).apart i j l h hi)

/-- C115: calls never block each other for ever: whenever some thread is in a call, some
thread that is in a call can go on. -/
theorem C115_progress {n : Nat} {s : Nat → Hold} (hr : LRun n quiet s) {i : Nat} (hi : s i ≠ .idle) :
    ∃ j s', s j ≠ .idle ∧ LStep n s j s' := by
  have hinv := linv_run hr (linv_quiet n)
  have noNest : ∀ {a b : Nat → Hold}, LRun n a b → (∀ i held todo, a i ≠ .nested held todo) → ∀ i held todo, b i ≠ .nested held todo := by
    intro a b hab
    induction hab with
    | nil s => exact id
    | cons h _ ih =>
      intro h0
      apply ih
      intro j held todo
      cases h <;> · unfold setHold; split <;> first | (intro hx; cases hx) | exact h0 j held todo
  have hnn := noNest hr (by intro i held todo h; cases h)
  -- the thread that waits for the greatest lock
  have main : ∀ (d i l : Nat) (held rest : List Nat), n - l ≤ d → s i = .take held (l :: rest) → ∃ j s', s j ≠ .idle ∧ LStep n s j s' := by
    intro d
    induction d with
    | zero =>
      intro i l held rest hd hi
      have ho := hinv.ok i
      rw [hi] at ho
      have := ho.1.1
      omega
    | succ d ih =>
      intro i l held rest hd hi
      have ho := hinv.ok i
      rw [hi] at ho
      have hl := ho.1.1
      by_cases hf : ∀ j, l ∉ (s j).held
      · exact ⟨i, _, (by rw [hi]; intro h; cases h), .acquire s i held l rest hi hf⟩
      · have : ∃ j, l ∈ (s j).held := by
          apply Classical.byContradiction
          intro hc
          exact hf fun j hj => hc ⟨j, hj⟩
        obtain ⟨j, hj⟩ := this
        cases hsj : s j with
        | idle => rw [hsj] at hj; cases hj
        | work held' => exact ⟨j, _, (by rw [hsj]; intro h; cases h), .release s j held' hsj⟩
        | nested held' todo => exact absurd hsj (hnn j held' todo)
        | take held' todo =>
          cases todo with
          | nil => exact ⟨j, _, (by rw [hsj]; intro h; cases h), .enter s j held' hsj⟩
          | cons l' rest' =>
            have ho' := hinv.ok j
            rw [hsj] at ho' hj
            have := ho'.2 l l' hj (List.mem_cons_self ..)
            exact ih j l' held' rest' (by omega) hsj
  cases hsi : s i with
  | idle => exact absurd hsi hi
  | work held => exact ⟨i, _, hi, .release s i held hsi⟩
  | nested held todo => exact absurd hsi (hnn i held todo)
  | take held todo =>
    cases todo with
    | nil => exact ⟨i, _, hi, .enter s i held hsi⟩
    | cons l rest => exact main (n - l) i l held rest (Nat.le_refl _) hsi

/-- The locks a call takes are those of its buckets, each once. -/
theorem C115_plans (l0 l1 l2 x : Nat) :
    (x ∈ planTwo l1 l2 ↔ x = l1 ∨ x = l2) ∧ (x ∈ planThree l0 l1 l2 ↔ x = l0 ∨ x = l1 ∨ x = l2) := by
  constructor
  · unfold planTwo
    simp only
    by_cases h : l2 < l1
    · rw [if_pos h]
      simp only
      rw [if_pos (by omega)]
      simp; omega
    · rw [if_neg h]
      simp only
      by_cases h' : l2 = l1
      · rw [if_neg (by intro hx; exact hx h')]; simp; omega
      · rw [if_pos h']; simp
  · unfold planThree
    have key : ∀ a b c : Nat, x ∈ ([a] ++ (if b ≠ a then [b] else []) ++ (if c ≠ b then [c] else [])) ↔ x = a ∨ x = b ∨ x = c := by
      intro a b c
      by_cases h1 : b = a <;> by_cases h2 : c = b <;> simp [h1, h2] <;> omega
    simp only [key]
    by_cases a : l2 < l1
    · rw [if_pos a]
      simp only
      by_cases b : l1 < l0
      · rw [if_pos b]
        simp only
        by_cases c : l2 < l1
        · rw [if_pos c]; simp only; omega
        · rw [if_neg c]; simp only; omega
      · rw [if_neg b]
        simp only
        by_cases c : l2 < l0
        · rw [if_pos c]; simp only; omega
        · rw [if_neg c]; simp only; omega
    · rw [if_neg a]
      simp only
      by_cases b : l2 < l0
      · rw [if_pos b]
        simp only
        by_cases c : l1 < l2
        · rw [if_pos c]; simp only; omega
        · rw [if_neg c]; simp only; omega
      · rw [if_neg b]
        simp only
        by_cases c : l1 < l0
        · rw [if_pos c]; simp only; omega
        · rw [if_neg c]

/-- Two threads are in the midst of taking locks in opposite directions of their buckets:
the second waits for the first. -/
example : ∃ s, LRun 8 quiet s ∧ s 0 = .take [2] [5] ∧ s 1 = .take [] [2, 5] := by
  refine ⟨_, .cons (.start _ 0 [2, 5] (.two 5 2 (by decide) (by decide)) rfl) (.cons (.acquire _ 0 [] 2 [5] rfl ?_)
    (.cons (.start _ 1 [2, 5] (.two 2 5 (by decide) (by decide)) rfl) (.nil _))), rfl, rfl⟩
  intro j
  unfold setHold
  split
  · intro h; cases h
  · intro h; cases h

/-! ## C116 Calls from within forEach -/

/-- C116 is false: a thread whose `forEach` action calls the map waits for ever, and no
other thread ever has a lock again. -/
theorem C116_reentrant_wrong {n : Nat} {s : Nat → Hold} (h0 : NRun n quiet s) {i : Nat} {held0 p : List Nat} (hs : s i = .nested held0 p)
    (hall : ∀ l, l < n → l ∈ held0) (hp : Plan n p) (hn : p ≠ []) {s' : Nat → Hold} (hr : NRun n s s') :
    s' i = .nested held0 p ∧ ∀ j l, j ≠ i → l < n → l ∉ (s' j).held := by
  have hinv := linv_nrun hr (linv_nrun h0 (linv_quiet n))
  clear h0
  have stay : s' i = .nested held0 p := by
    clear hinv
    induction hr with
    | nil s => exact hs
    | cons h _ ih =>
      apply ih
      have hmem : ∀ l rest, p = l :: rest → l ∈ held0 := by
        intro l rest he
        have := hp.up
        rw [he] at this
        exact hall l this.1
      have other : ∀ {f : Nat → Hold} {j : Nat} (x y : Hold), f i = .nested held0 p → f j = y →
          y ≠ .nested held0 p → setHold f j x i = .nested held0 p := by
        intro f j x y h1 h2 h3
        unfold setHold
        rw [if_neg (by intro he; rw [← he, h1] at h2; exact h3 h2.symm)]
        exact h1
      cases h with
      | step h =>
        cases h with
        | start p hp hi => exact other _ _ hs hi (by intro h; cases h)
        | acquire held l rest hi hf => exact other _ _ hs hi (by intro h; cases h)
        | enter held hi => exact other _ _ hs hi (by intro h; cases h)
        | giveUp l rest hi => exact other _ _ hs hi (by intro h; cases h)
        | release held hi => exact other _ _ hs hi (by intro h; cases h)
      | nest held p hp hi => exact other _ _ hs hi (by intro h; cases h)
      | acquire held l rest hi hf =>
        refine other _ _ hs hi ?_
        intro h
        injection h with h1 h2
        apply hf i
        rw [hs]
        exact hmem l rest h2.symm
      | back held hi => exact other _ _ hs hi (by intro h; injection h with _ h; exact hn h.symm)
  refine ⟨stay, fun j l hj hl => ?_⟩
  exact hinv.apart i j l (fun he => hj he.symm) (by rw [stay]; exact hall l hl)

/-- A `forEach` whose action calls `get`, in a table with two locks. -/
example : ∃ s, NRun 2 quiet s ∧ s 0 = .nested [1, 0] (planTwo 1 0) ∧ ∀ l, l < 2 → l ∈ [1, 0] := by
  have free : ∀ (held : List Nat) (l : Nat) (todo : List Nat), l ∉ held → ∀ j, l ∉ ((setHold quiet 0 (.take held todo)) j).held := by
    intro held l todo h j
    unfold setHold
    split
    · exact h
    · intro hc; cases hc
  refine ⟨_, .cons (.step (.start _ 0 [0, 1] .all rfl)) (.cons (.step (.acquire _ 0 [] 0 [1] rfl (free _ _ _ (by decide))))
    (.cons (.step (.acquire _ 0 [0] 1 [] rfl ?_)) (.cons (.step (.enter _ 0 [1, 0] rfl)) (.cons (.nest _ 0 [1, 0] (planTwo 1 0) (.two 1 0 (by decide) (by decide)) rfl) (.nil _))))), rfl, by decide⟩
  · intro j
    unfold setHold
    split
    · decide
    · intro hc; cases hc

end Verif.Cuckoo
