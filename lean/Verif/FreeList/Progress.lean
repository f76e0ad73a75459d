import Verif.FreeList.Lemmas
/-!
# A measure of the work left before some call ends

Three numbers, each of which may grow only when one before it has dropped: how often the head
can still change, how often the count of the block at the head can still change while the head
stays, and how far every thread is while neither changes.
-/
namespace Verif.FreeList

open Verif.LightSema (sum sum_set sum_nonneg)

/-- Positions inside `try_get` from which its exchange of the head is still to come. -/
def wOf : Option Pos → Int
  | some (.akHead _ (.loop _)) => 2
  | some (.akNext _ _ (.loop _)) => 2
  | some (.akRefs _ _ (.loop _)) => 2
  | some (.akCas _ _ (.loop _)) => 2
  | some (.akBack _ _ (.loop _)) => 2
  | some .getHead => 2
  | some (.getRefs _) => 2
  | some (.getInc _ _) => 2
  | some (.getNext _) => 2
  | some (.getCas _ _) => 2
  | some (.getDrop _ _) => 2
  | _ => 0

/-- How often the thread can still change the count of the block at the head. -/
def bOf (h : Option Nat) : Option Pos → Int
  | some (.akHead _ (.loop _)) => 1
  | some (.akNext _ _ (.loop _)) => 1
  | some (.akRefs _ _ (.loop _)) => 1
  | some (.akCas _ _ (.loop _)) => 1
  | some (.akBack _ _ (.loop _)) => 1
  | some .getHead => 1
  | some (.getRefs _) => 1
  | some (.getInc _ _) => 1
  | some (.getNext x) => if h = some x then 0 else 1
  | some (.getCas x _) => if h = some x then 0 else 1
  | some (.getDrop x _) => if h = some x then 2 else 1
  | _ => 0

/-- How many steps the thread takes until one of these changes or its call ends, at most. -/
def cOf (h : Option Nat) (r0 : Nat) : Option Pos → Int
  | none => 0
  | some (.addRef _) => 5
  | some (.akHead _ _) => 4
  | some (.akNext _ g _) => if g = h then 3 else 13
  | some (.akRefs _ g _) => if g = h then 2 else 12
  | some (.akCas _ g _) => if g = h then 1 else 11
  | some (.akBack _ g _) => if g = h then 10 else 14
  | some .getHead => 3
  | some (.getRefs x) => if h = some x then 2 else 9
  | some (.getInc x r) => if h = some x then (if r = r0 then 1 else 4) else 8
  | some (.getNext x) => if h = some x then 2 else 7
  | some (.getCas x _) => if h = some x then 1 else 6
  | some (.getCheck _) => 2
  | some (.getTake _) => 1
  | some (.getDrop _ g) => if g = h then 5 else 10

/-- The count of the block at the head. -/
def headRefs (sh : Shared) : Nat :=
  match sh.head with
  | none => 0
  | some x => (sh.nodes x).refs

theorem wOf_range (t : Option Pos) : 0 ≤ wOf t ∧ wOf t ≤ 2 := by
  unfold wOf; split <;> decide

theorem bOf_range (h : Option Nat) (t : Option Pos) : 0 ≤ bOf h t ∧ bOf h t ≤ 2 := by
  unfold bOf; split <;> (try split) <;> decide

theorem cOf_range (h : Option Nat) (r : Nat) (t : Option Pos) : 0 ≤ cOf h r t ∧ cOf h r t ≤ 14 := by
  unfold cOf; split <;> (try split) <;> (try split) <;> decide

/-- A step that ends no call makes the measure smaller. -/
def Drops (sh sh' : Shared) (n n' : Int) (p p' : Pos) : Prop :=
  (wOf (some p') - n' ≤ wOf (some p) - n - 1) ∨
  (sh'.head = sh.head ∧ n' = n ∧ wOf (some p') ≤ wOf (some p) ∧ bOf sh.head (some p') ≤ bOf sh.head (some p) - 1) ∨
  (sh'.head = sh.head ∧ headRefs sh' = headRefs sh ∧ n' = n ∧ wOf (some p') ≤ wOf (some p) ∧ bOf sh.head (some p') ≤ bOf sh.head (some p) ∧
    cOf sh.head (headRefs sh) (some p') ≤ cOf sh.head (headRefs sh) (some p) - 1)

theorem chain_unique {n : Nat → Node} : ∀ {h : Option Nat} {L L' : List Nat}, Chain n h L → Chain n h L' → L = L' := by
  intro h L
  induction L generalizing h with
  | nil =>
    intro L' a b
    cases L' with
    | nil => rfl
    | cons x l => have e := b.1; rw [show h = none from a] at e; cases e
  | cons x l ih =>
    intro L' a b
    cases L' with
    | nil => have e := a.1; rw [show h = none from b] at e; cases e
    | cons y l' =>
      have e : x = y := Option.some.inj (a.1.symm.trans b.1)
      subst e
      rw [ih a.2 b.2]

theorem setRefs_next (sh : Shared) (x r y : Nat) : ((setRefs sh x r).nodes y).next = (sh.nodes y).next := by
  show (if y = x then _ else _ : Node).next = _
  split <;> rfl

theorem headRefs_setRefs {sh : Shared} {x r : Nat} (h : sh.head ≠ some x) : headRefs (setRefs sh x r) = headRefs sh := by
  unfold headRefs
  have e : (setRefs sh x r).head = sh.head := rfl
  rw [e]
  cases hh : sh.head with
  | none => rfl
  | some y =>
    have : y ≠ x := fun q => h (by rw [hh, q])
    show (if y = x then _ else _ : Node).refs = _
    rw [if_neg this]

theorem headRefs_setNext {sh : Shared} {x : Nat} {g : Option Nat} : headRefs (setNext sh x g) = headRefs sh := by
  unfold headRefs
  have e : (setNext sh x g).head = sh.head := rfl
  rw [e]
  cases hh : sh.head with
  | none => rfl
  | some y =>
    show (if y = x then _ else _ : Node).refs = _
    split <;> rfl

theorem head_listed {s : Sys} {place : Nat → Place} {L : List Nat} (inv : Inv s place L) {x : Nat} (h : s.sh.head = some x) : place x = .listed := by
  have hc := inv.chain
  cases L with
  | nil => rw [show s.sh.head = none from hc] at h; cases h
  | cons y l =>
    have e : y = x := Option.some.inj (hc.1.symm.trans h)
    subst e
    exact (inv.listed y).mp List.mem_cons_self

theorem step_drops {s : Sys} {place : Nat → Place} {L : List Nat} (inv : Inv s place L) {i : Nat} {p p' : Pos} {sh' : Shared}
    (ht : s.threads[i]? = some (some p)) (hst : step s.sh p = (sh', .at p')) {L' : List Nat} (hL : Chain sh'.nodes sh'.head L') :
    Drops s.sh sh' L.length L'.length p p' := by
  have same : sh'.head = s.sh.head → (∀ y ∈ L, (sh'.nodes y).next = (s.sh.nodes y).next) → (L'.length : Int) = L.length := by
    intro h1 h2
    have := chain_same inv.chain h2
    rw [← h1] at this
    rw [chain_unique hL this]
  have refsSame : ∀ x r, sh' = setRefs s.sh x r → (L'.length : Int) = L.length := by
    intro x r e
    exact same (by rw [e]; rfl) fun y _ => by rw [e]; exact setRefs_next s.sh x r y
  have notHead : ∀ {x pl}, place x = pl → pl ≠ .listed → s.sh.head ≠ some x := by
    intro x pl h1 h2 h3
    exact h2 (h1 ▸ head_listed inv h3)
  cases p with
  | addRef x =>
    have hp := role_place inv ht (x := x) (pl := .adding) rfl rfl
    by_cases hz : (s.sh.nodes x).refs = 0
    · have e : step s.sh (.addRef x) = (setRefs s.sh x (plus (s.sh.nodes x).refs flag), .at (.akHead x .done)) := by simp only [step, if_pos hz]
      rw [e] at hst
      cases hst
      exact .inr (.inr ⟨rfl, headRefs_setRefs (notHead hp (by decide)), refsSame _ _ rfl, by simp [wOf], by simp [bOf], by simp [cOf]⟩)
    · have e : step s.sh (.addRef x) = (setRefs s.sh x (plus (s.sh.nodes x).refs flag), .added) := by simp only [step, if_neg hz]
      rw [e] at hst
      cases hst
  | akHead x k =>
    cases hst
    refine .inr (.inr ⟨rfl, rfl, same rfl fun _ _ => rfl, ?_, ?_, by simp [cOf]⟩)
    · cases k <;> simp [wOf]
    · cases k <;> simp [bOf]
  | akNext x g k =>
    have hp := role_place inv ht (x := x) (pl := .akA) rfl rfl
    cases hst
    have hx : ∀ y ∈ L, y ≠ x := by
      intro y hy e
      have := (inv.listed y).mp hy
      rw [e, hp] at this
      cases this
    refine .inr (.inr ⟨rfl, headRefs_setNext, same rfl fun y hy => ?_, ?_, ?_, ?_⟩)
    · show (if y = x then _ else _ : Node).next = _
      rw [if_neg (hx y hy)]
    · cases k <;> simp [wOf]
    · cases k <;> simp [bOf]
    · simp only [cOf]; split <;> decide
  | akRefs x g k =>
    have hp := role_place inv ht (x := x) (pl := .akA) rfl rfl
    cases hst
    refine .inr (.inr ⟨rfl, headRefs_setRefs (notHead hp (by decide)), refsSame _ _ rfl, ?_, ?_, ?_⟩)
    · cases k <;> simp [wOf]
    · cases k <;> simp [bOf]
    · simp only [cOf]; split <;> decide
  | akCas x g k =>
    by_cases hh : s.sh.head = g
    · have e : step s.sh (.akCas x g k) = ({ s.sh with head := some x }, k.next) := by simp only [step, if_pos hh]
      rw [e] at hst
      have ok := inv.locals i _ ht
      have hc : Chain s.sh.nodes (some x) (x :: L) := ⟨rfl, by rw [← show g = (s.sh.nodes x).next from ok, ← hh]; exact inv.chain⟩
      cases k with
      | done => cases hst
      | loop h' =>
        cases h' with
        | none => cases hst
        | some z =>
          cases hst
          have : L' = x :: L := chain_unique hL hc
          subst this
          refine .inl ?_
          simp only [wOf, List.length_cons]
          omega
    · have e : step s.sh (.akCas x g k) = (s.sh, .at (.akBack x s.sh.head k)) := by simp only [step, if_neg hh]
      rw [e] at hst
      cases hst
      refine .inr (.inr ⟨rfl, rfl, same rfl fun _ _ => rfl, ?_, ?_, ?_⟩)
      · cases k <;> simp [wOf]
      · cases k <;> simp [bOf]
      · simp [cOf, Ne.symm hh]
  | akBack x g k =>
    have hp := role_place inv ht (x := x) (pl := .akB) rfl rfl
    by_cases hz : (s.sh.nodes x).refs = 1
    · have e : step s.sh (.akBack x g k) = (setRefs s.sh x (plus (s.sh.nodes x).refs (flag - 1)), .at (.akNext x g k)) := by simp only [step, if_pos hz]
      rw [e] at hst
      cases hst
      refine .inr (.inr ⟨rfl, headRefs_setRefs (notHead hp (by decide)), refsSame _ _ rfl, ?_, ?_, ?_⟩)
      · cases k <;> simp [wOf]
      · cases k <;> simp [bOf]
      · simp only [cOf]; split <;> decide
    · have e : step s.sh (.akBack x g k) = (setRefs s.sh x (plus (s.sh.nodes x).refs (flag - 1)), k.next) := by simp only [step, if_neg hz]
      rw [e] at hst
      cases k with
      | done => cases hst
      | loop h' =>
        cases h' with
        | none => cases hst
        | some z =>
          cases hst
          refine .inr (.inr ⟨rfl, headRefs_setRefs (notHead hp (by decide)), refsSame _ _ rfl, by simp [wOf], by simp [bOf], ?_⟩)
          simp only [cOf]; split <;> split <;> decide
  | getHead =>
    cases hh : s.sh.head with
    | none =>
      have e : step s.sh .getHead = (s.sh, .got none) := by simp only [step, hh, loopAt]
      rw [e] at hst; cases hst
    | some x =>
      have e : step s.sh .getHead = (s.sh, .at (.getRefs x)) := by simp only [step, hh, loopAt]
      rw [e] at hst; cases hst
      exact .inr (.inr ⟨rfl, rfl, same rfl fun _ _ => rfl, by simp [wOf], by simp [bOf], by simp [cOf, hh]⟩)
  | getRefs x =>
    by_cases hz : count (s.sh.nodes x).refs = 0
    · have e : step s.sh (.getRefs x) = (s.sh, .at .getHead) := by simp only [step, if_pos hz]
      rw [e] at hst; cases hst
      have hx : s.sh.head ≠ some x := by
        intro hh
        have h1 := inv.refs x
        rw [head_listed inv hh] at h1
        have h2 := hold_sum_le x s.threads
        have h3 := hold_sum_nonneg x s.threads
        have h4 := inv.small
        simp only [bonus] at h1
        unfold count at hz
        omega
      exact .inr (.inr ⟨rfl, rfl, same rfl fun _ _ => rfl, by simp [wOf], by simp [bOf], by simp [cOf, hx]⟩)
    · have e : step s.sh (.getRefs x) = (s.sh, .at (.getInc x (s.sh.nodes x).refs)) := by simp only [step, if_neg hz]
      rw [e] at hst; cases hst
      refine .inr (.inr ⟨rfl, rfl, same rfl fun _ _ => rfl, by simp [wOf], by simp [bOf], ?_⟩)
      by_cases hx : s.sh.head = some x
      · have : headRefs s.sh = (s.sh.nodes x).refs := by unfold headRefs; rw [hx]
        simp [cOf, hx, this]
      · simp [cOf, hx]
  | getInc x r =>
    by_cases hr : (s.sh.nodes x).refs = r
    · have e : step s.sh (.getInc x r) = (setRefs s.sh x (plus r 1), .at (.getNext x)) := by simp only [step, if_pos hr]
      rw [e] at hst; cases hst
      by_cases hx : s.sh.head = some x
      · exact .inr (.inl ⟨rfl, refsSame _ _ rfl, by simp [wOf], by simp [bOf, hx]⟩)
      · exact .inr (.inr ⟨rfl, headRefs_setRefs hx, refsSame _ _ rfl, by simp [wOf], by simp [bOf, hx], by simp [cOf, hx]⟩)
    · have e : step s.sh (.getInc x r) = (s.sh, .at .getHead) := by simp only [step, if_neg hr]
      rw [e] at hst; cases hst
      refine .inr (.inr ⟨rfl, rfl, same rfl fun _ _ => rfl, by simp [wOf], by simp [bOf], ?_⟩)
      by_cases hx : s.sh.head = some x
      · have h0 : headRefs s.sh = (s.sh.nodes x).refs := by unfold headRefs; rw [hx]
        simp [cOf, hx, h0, Ne.symm hr]
      · simp [cOf, hx]
  | getNext x =>
    cases hst
    refine .inr (.inr ⟨rfl, rfl, same rfl fun _ _ => rfl, by simp [wOf], by simp [bOf], ?_⟩)
    simp only [cOf]; split <;> decide
  | getCas x nx =>
    by_cases hx : s.sh.head = some x
    · have e : step s.sh (.getCas x nx) = ({ s.sh with head := nx }, .at (.getCheck x)) := by simp only [step, if_pos hx]
      rw [e] at hst; cases hst
      have ok : nx = (s.sh.nodes x).next := inv.locals i _ ht
      have hc := inv.chain
      cases L with
      | nil => rw [show s.sh.head = none from hc] at hx; cases hx
      | cons y l =>
        have ey : y = x := Option.some.inj (hc.1.symm.trans hx)
        subst ey
        have : L' = l := chain_unique hL (by rw [ok]; exact hc.2)
        subst this
        refine .inl ?_
        simp only [wOf, List.length_cons]
        omega
    · have e : step s.sh (.getCas x nx) = (s.sh, .at (.getDrop x s.sh.head)) := by simp only [step, if_neg hx]
      rw [e] at hst; cases hst
      exact .inr (.inr ⟨rfl, rfl, same rfl fun _ _ => rfl, by simp [wOf], by simp [bOf, hx], by simp [cOf, hx]⟩)
  | getCheck x =>
    by_cases hf : flag ≤ (s.sh.nodes x).refs
    · have e : step s.sh (.getCheck x) = (s.sh, .failed) := by simp only [step, if_pos hf]
      rw [e] at hst; cases hst
    · have e : step s.sh (.getCheck x) = (s.sh, .at (.getTake x)) := by simp only [step, if_neg hf]
      rw [e] at hst; cases hst
      exact .inr (.inr ⟨rfl, rfl, same rfl fun _ _ => rfl, by simp [wOf], by simp [bOf], by simp [cOf]⟩)
  | getTake x => cases hst
  | getDrop x g =>
    by_cases hz : (s.sh.nodes x).refs = flag + 1
    · have e : step s.sh (.getDrop x g) = (setRefs s.sh x (minus (s.sh.nodes x).refs 1), .at (.akHead x (.loop g))) := by simp only [step, if_pos hz]
      rw [e] at hst; cases hst
      by_cases hx : s.sh.head = some x
      · exact .inr (.inl ⟨rfl, refsSame _ _ rfl, by simp [wOf], by simp [bOf, hx]⟩)
      · refine .inr (.inr ⟨rfl, headRefs_setRefs hx, refsSame _ _ rfl, by simp [wOf], by simp [bOf, hx], ?_⟩)
        simp only [cOf]; split <;> decide
    · have e : step s.sh (.getDrop x g) = (setRefs s.sh x (minus (s.sh.nodes x).refs 1), loopAt g) := by simp only [step, if_neg hz]
      rw [e] at hst
      cases g with
      | none => cases hst
      | some z =>
        cases hst
        by_cases hx : s.sh.head = some x
        · exact .inr (.inl ⟨rfl, refsSame _ _ rfl, by simp [wOf], by simp [bOf, hx]⟩)
        · refine .inr (.inr ⟨rfl, headRefs_setRefs hx, refsSame _ _ rfl, by simp [wOf], by simp [bOf, hx], ?_⟩)
          by_cases hg : s.sh.head = some z
          · simp [cOf, hg]
          · simp [cOf, hg, Ne.symm hg]

/-! ## The measure -/

def kOf (s : Sys) : Int := s.threads.length
/-- Weights: a change of the count of the head, a change of the head. -/
def K2 (k : Int) : Int := 14 * k + 1
def K1 (k : Int) : Int := (2 * k + 1) * K2 k

def aOf (s : Sys) (L : List Nat) : Int := s.created - s.owned.length - L.length + sum wOf s.threads
def bSum (s : Sys) : Int := sum (bOf s.sh.head) s.threads
def cSum (s : Sys) : Int := sum (cOf s.sh.head (headRefs s.sh)) s.threads
def measure (s : Sys) (L : List Nat) : Int := aOf s L * K1 (kOf s) + bSum s * K2 (kOf s) + cSum s

theorem sum_le {α : Type} (f : α → Int) (m : Int) {l : List α} (h : ∀ a ∈ l, f a ≤ m) : sum f l ≤ m * l.length := by
  induction l with
  | nil => show (0 : Int) ≤ m * ((0 : Nat) : Int); simp
  | cons a l ih =>
    have h1 := h a List.mem_cons_self
    have h2 := ih fun b hb => h b (List.mem_cons_of_mem _ hb)
    show f a + sum f l ≤ m * ((l.length + 1 : Nat) : Int)
    have : ((l.length + 1 : Nat) : Int) = (l.length : Int) + 1 := by omega
    rw [this, Int.mul_add]
    omega

theorem bSum_range (s : Sys) : 0 ≤ bSum s ∧ bSum s ≤ 2 * kOf s :=
  ⟨sum_nonneg _ fun _ _ => (bOf_range _ _).1, sum_le _ 2 fun _ _ => (bOf_range _ _).2⟩

theorem cSum_range (s : Sys) : 0 ≤ cSum s ∧ cSum s ≤ 14 * kOf s :=
  ⟨sum_nonneg _ fun _ _ => (cOf_range _ _ _).1, sum_le _ 14 fun _ _ => (cOf_range _ _ _).2⟩

theorem wSum_range (s : Sys) : 0 ≤ sum wOf s.threads ∧ sum wOf s.threads ≤ 2 * kOf s :=
  ⟨sum_nonneg _ fun _ _ => (wOf_range _).1, sum_le _ 2 fun _ _ => (wOf_range _).2⟩

theorem K_pos (k : Int) (hk : 0 ≤ k) : 1 ≤ K2 k ∧ 1 ≤ K1 k ∧ K1 k = 2 * k * K2 k + K2 k := by
  have h2 : 1 ≤ K2 k := by unfold K2; omega
  have e : K1 k = 2 * k * K2 k + K2 k := by unfold K1; rw [Int.add_mul, Int.one_mul]
  have : 0 ≤ 2 * k * K2 k := Int.mul_nonneg (by omega) (by omega)
  exact ⟨h2, by omega, e⟩

theorem measure_go {s s' : Sys} {place place' : Nat → Place} {L L' : List Nat} (inv : Inv s place L) (inv' : Inv s' place' L') {i : Nat} {p p' : Pos}
    (ht : s.threads[i]? = some (some p)) (hn : (step s.sh p).2 = .at p') (hs : s' = put s i (step s.sh p).1 (step s.sh p).2) :
    measure s' L' < measure s L := by
  rw [hn] at hs
  subst hs
  have hd := step_drops inv ht (show step s.sh p = ((step s.sh p).1, .at p') by rw [← hn]) (L' := L') inv'.chain
  generalize (step s.sh p).1 = sh' at *
  have hk : kOf (put s i sh' (.at p')) = kOf s := by
    show ((s.threads.set i _).length : Int) = _
    rw [List.length_set]; rfl
  have hw : sum wOf (put s i sh' (.at p')).threads = sum wOf s.threads - wOf (some p) + wOf (some p') := by
    show sum wOf (s.threads.set i (some p')) = _
    rw [sum_set wOf ht]
  have hb : sh'.head = s.sh.head → bSum (put s i sh' (.at p')) = bSum s - bOf s.sh.head (some p) + bOf s.sh.head (some p') := by
    intro e
    show sum (bOf sh'.head) (s.threads.set i (some p')) = _
    rw [e, sum_set _ ht]; rfl
  have hc : sh'.head = s.sh.head → headRefs sh' = headRefs s.sh →
      cSum (put s i sh' (.at p')) = cSum s - cOf s.sh.head (headRefs s.sh) (some p) + cOf s.sh.head (headRefs s.sh) (some p') := by
    intro e e'
    show sum (cOf sh'.head (headRefs sh')) (s.threads.set i (some p')) = _
    rw [e, e', sum_set _ ht]; rfl
  have ha : aOf (put s i sh' (.at p')) L' = aOf s L + (wOf (some p') - L'.length) - (wOf (some p) - L.length) := by
    unfold aOf
    rw [hw]
    show (s.created : Int) - s.owned.length - _ + _ = _
    omega
  have hk0 : 0 ≤ kOf s := Int.natCast_nonneg _
  obtain ⟨k2, k1, ke⟩ := K_pos (kOf s) hk0
  obtain ⟨b1, b2⟩ := bSum_range s
  obtain ⟨b3, b4⟩ := bSum_range (put s i sh' (.at p'))
  obtain ⟨c1, c2⟩ := cSum_range s
  obtain ⟨c3, c4⟩ := cSum_range (put s i sh' (.at p'))
  rw [hk] at b4 c4
  unfold measure
  rw [hk]
  generalize bSum (put s i sh' (.at p')) = B' at *
  generalize cSum (put s i sh' (.at p')) = C' at *
  generalize aOf (put s i sh' (.at p')) L' = A' at *
  have hBK : 0 ≤ bSum s * K2 (kOf s) := Int.mul_nonneg b1 (by omega)
  have mono : ∀ {a b c : Int}, a ≤ b → 0 ≤ c → a * c ≤ b * c := fun h hc => Int.mul_le_mul_of_nonneg_right h hc
  rcases hd with h | ⟨h1, h2, h3, h4⟩ | ⟨h1, h2, h3, h4, h5, h6⟩
  · have hA : A' ≤ aOf s L - 1 := by omega
    have m1 := mono hA (show 0 ≤ K1 (kOf s) by omega)
    have m2 := mono b4 (show 0 ≤ K2 (kOf s) by omega)
    rw [Int.sub_mul, Int.one_mul] at m1
    have : 14 * kOf s + 1 = K2 (kOf s) := rfl
    omega
  · have hA : A' ≤ aOf s L := by omega
    have hB := hb h1
    have hB' : B' ≤ bSum s - 1 := by omega
    have m1 := mono hA (show 0 ≤ K1 (kOf s) by omega)
    have m2 := mono hB' (show 0 ≤ K2 (kOf s) by omega)
    rw [Int.sub_mul, Int.one_mul] at m2
    have : 14 * kOf s + 1 = K2 (kOf s) := rfl
    omega
  · have hA : A' ≤ aOf s L := by omega
    have hB := hb h1
    have hC := hc h1 h2
    have hB' : B' ≤ bSum s := by omega
    have m1 := mono hA (show 0 ≤ K1 (kOf s) by omega)
    have m2 := mono hB' (show 0 ≤ K2 (kOf s) by omega)
    omega

/-! ## Bounds -/

theorem nodup_le : ∀ (a b : List Nat), a.Nodup → (∀ x ∈ a, x ∈ b) → a.length ≤ b.length := by
  intro a
  induction a with
  | nil => intro b _ _; exact Nat.zero_le _
  | cons x a ih =>
    intro b hn hs
    have hx := hs x List.mem_cons_self
    have hn' := List.nodup_cons.mp hn
    have h1 := ih (b.erase x) hn'.2 fun y hy => by
      have hne : y ≠ x := fun e => hn'.1 (e ▸ hy)
      rw [List.mem_erase_of_ne hne]
      exact hs y (List.mem_cons_of_mem _ hy)
    have h2 := List.length_erase_of_mem hx
    have h3 := List.length_pos_of_mem hx
    simp only [List.length_cons]
    omega

/-- The block a thread is busy with. -/
def aboutOf : Option Pos → Option Nat
  | some (.addRef y) => some y
  | some (.akHead y _) => some y
  | some (.akNext y _ _) => some y
  | some (.akRefs y _ _) => some y
  | some (.akCas y _ _) => some y
  | some (.akBack y _ _) => some y
  | some (.getNext y) => some y
  | some (.getCas y _) => some y
  | some (.getCheck y) => some y
  | some (.getTake y) => some y
  | some (.getDrop y _) => some y
  | _ => none

theorem role_of_inv {t : Option Pos} {x : Nat} {pl : Place} (h : role t = some (x, pl)) : aboutOf t = some x := by
  match t with
  | none => cases h
  | some p => cases p <;> simp [role] at h <;> simp [aboutOf, h.1]

theorem held_of_inv {t : Option Pos} {x : Nat} (h : held t = some x) : aboutOf t = some x := by
  match t with
  | none => cases h
  | some p => cases p <;> simp [held] at h <;> simp [aboutOf, h]

theorem sum_pos {α : Type} (f : α → Int) {l : List α} (h : 1 ≤ sum f l) : ∃ a ∈ l, 1 ≤ f a := by
  apply Classical.byContradiction
  intro hn
  have : sum f l ≤ 0 * l.length := sum_le f 0 fun a ha => by
    have : ¬ 1 ≤ f a := fun q => hn ⟨a, ha, q⟩
    omega
  omega

theorem aOf_range {s : Sys} {place : Nat → Place} {L : List Nat} (inv : Inv s place L) : 0 ≤ aOf s L ∧ aOf s L ≤ 3 * kOf s := by
  obtain ⟨w1, w2⟩ := wSum_range s
  have hl : (s.owned ++ L).length ≤ (List.range s.created).length := by
    refine nodup_le _ _ ?_ ?_
    · rw [List.nodup_append]
      refine ⟨inv.single, inv.once, ?_⟩
      intro x hx y hy e
      subst e
      have h1 := (inv.owned x).mp hx
      rw [(inv.listed x).mp hy] at h1
      cases h1
    · intro x hx
      rw [List.mem_range]
      have hne : place x ≠ .out := by
        rcases List.mem_append.mp hx with h | h
        · rw [(inv.owned x).mp h]; decide
        · rw [(inv.listed x).mp h]; decide
      have := mt (inv.made x).mpr hne
      omega
  have hu : (List.range s.created).length ≤ (s.owned ++ L ++ s.threads.filterMap aboutOf).length := by
    refine nodup_le _ _ List.nodup_range ?_
    intro x hx
    rw [List.mem_range] at hx
    have hne : place x ≠ .out := fun e => by have := (inv.made x).mp e; omega
    simp only [List.mem_append, List.mem_filterMap]
    have viaRole : ∀ pl, solo pl = true → place x = pl → ∃ t ∈ s.threads, aboutOf t = some x := by
      intro pl hs hp
      have h1 := inv.roles x pl hs
      rw [if_pos hp] at h1
      obtain ⟨t, ht, h⟩ := sum_pos (isRole x pl) (l := s.threads) (by omega)
      refine ⟨t, ht, role_of_inv (pl := pl) ?_⟩
      unfold isRole at h
      split at h
      · assumption
      · omega
    cases hp : place x with
    | out => exact absurd hp hne
    | owned => exact .inl (.inl ((inv.owned x).mpr hp))
    | listed => exact .inl (.inr ((inv.listed x).mpr hp))
    | adding => exact .inr (viaRole _ rfl hp)
    | akA => exact .inr (viaRole _ rfl hp)
    | akB => exact .inr (viaRole _ rfl hp)
    | taken => exact .inr (viaRole _ rfl hp)
    | limbo =>
      obtain ⟨t, ht, h⟩ := sum_pos (hold x) (inv.limbo x hp)
      refine .inr ⟨t, ht, held_of_inv ?_⟩
      unfold hold at h
      split at h
      · assumption
      · omega
  have hf := List.length_filterMap_le aboutOf s.threads
  simp only [List.length_append, List.length_range] at hl hu
  unfold aOf kOf at *
  omega

/-- More than any measure with `k` threads. -/
def workBound (k : Int) : Int := (3 * k + 1) * K1 k

theorem measure_range {s : Sys} {place : Nat → Place} {L : List Nat} (inv : Inv s place L) : 0 ≤ measure s L ∧ measure s L < workBound (kOf s) := by
  obtain ⟨a1, a2⟩ := aOf_range inv
  obtain ⟨b1, b2⟩ := bSum_range s
  obtain ⟨c1, c2⟩ := cSum_range s
  have hk0 : 0 ≤ kOf s := Int.natCast_nonneg _
  obtain ⟨k2, k1, ke⟩ := K_pos (kOf s) hk0
  have m1 := Int.mul_le_mul_of_nonneg_right a2 (show 0 ≤ K1 (kOf s) by omega)
  have m2 := Int.mul_le_mul_of_nonneg_right b2 (show 0 ≤ K2 (kOf s) by omega)
  have m3 : 0 ≤ aOf s L * K1 (kOf s) := Int.mul_nonneg a1 (by omega)
  have m4 : 0 ≤ bSum s * K2 (kOf s) := Int.mul_nonneg b1 (by omega)
  have : 14 * kOf s + 1 = K2 (kOf s) := rfl
  unfold measure workBound
  rw [Int.add_mul, Int.one_mul]
  omega

end Verif.FreeList
