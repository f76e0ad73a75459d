import Verif.FreeList.Spec
import Verif.LightSema.Lemmas
/-!
# Lemmas for the free list
-/
namespace Verif.FreeList

open Verif.LightSema (sum sum_set sum_zero sum_nonneg sum_ge sum_mono)

/-- Where a block is. -/
inductive Place
  | out | owned | adding | limbo | akA | akB | listed | taken
  deriving DecidableEq, Repr

/-- The part a thread plays for a block. -/
def role : Option Pos → Option (Nat × Place)
  | some (.addRef x) => some (x, .adding)
  | some (.akHead x _) => some (x, .akA)
  | some (.akNext x _ _) => some (x, .akA)
  | some (.akRefs x _ _) => some (x, .akA)
  | some (.akCas x _ _) => some (x, .akB)
  | some (.akBack x _ _) => some (x, .akB)
  | some (.getCheck x) => some (x, .taken)
  | some (.getTake x) => some (x, .taken)
  | _ => none

/-- The block a thread holds a reference to. -/
def held : Option Pos → Option Nat
  | some (.getNext x) => some x
  | some (.getCas x _) => some x
  | some (.getCheck x) => some x
  | some (.getTake x) => some x
  | some (.getDrop x _) => some x
  | _ => none

def isRole (x : Nat) (pl : Place) (t : Option Pos) : Int := if role t = some (x, pl) then 1 else 0

def hold (x : Nat) (t : Option Pos) : Int := if held t = some x then 1 else 0

def solo : Place → Bool
  | .adding => true
  | .akA => true
  | .akB => true
  | .taken => true
  | _ => false

def bonus : Place → Int
  | .limbo => 0x80000000
  | .akA => 0x80000000
  | .akB => 1
  | .listed => 1
  | .taken => 1
  | _ => 0

def ok (nodes : Nat → Node) : Option Pos → Prop
  | some (.getCas x nx) => nx = (nodes x).next
  | some (.akRefs x h _) => h = (nodes x).next
  | some (.akCas x h _) => h = (nodes x).next
  | some (.getInc _ r) => count r ≠ 0
  | _ => True

structure Inv (s : Sys) (place : Nat → Place) (L : List Nat) : Prop where
  small : (s.threads.length : Int) + 1 < 0x80000000
  roles : ∀ x pl, solo pl = true → sum (isRole x pl) s.threads = if place x = pl then 1 else 0
  refs : ∀ x, ((s.sh.nodes x).refs : Int) = sum (hold x) s.threads + bonus (place x)
  zero : ∀ x, place x = .akA ∨ place x = .out → sum (hold x) s.threads = 0
  limbo : ∀ x, place x = .limbo → 1 ≤ sum (hold x) s.threads
  owned : ∀ x, x ∈ s.owned ↔ place x = .owned
  single : s.owned.Nodup
  listed : ∀ x, x ∈ L ↔ place x = .listed
  once : L.Nodup
  chain : Chain s.sh.nodes s.sh.head L
  made : ∀ x, place x = .out ↔ s.created ≤ x
  locals : ∀ (i : Nat) (t : Option Pos), s.threads[i]? = some t → ok s.sh.nodes t
  fine : s.failed = false

theorem hold_nonneg (x : Nat) (t : Option Pos) : 0 ≤ hold x t := by
  unfold hold; split <;> omega

theorem hold_le (x : Nat) (t : Option Pos) : hold x t ≤ 1 := by
  unfold hold; split <;> omega

theorem role_nonneg (x : Nat) (pl : Place) (t : Option Pos) : 0 ≤ isRole x pl t := by
  unfold isRole; split <;> omega

theorem sum_one {α : Type} (f : α → Int) {l : List α} (h : ∀ a ∈ l, f a ≤ 1) : sum f l ≤ l.length := by
  induction l with
  | nil => exact Int.le_refl _
  | cons a l ih =>
    have h1 := h a (List.mem_cons_self)
    have h2 := ih fun b hb => h b (List.mem_cons_of_mem _ hb)
    show f a + sum f l ≤ _
    simp only [List.length_cons]
    omega

theorem hold_sum_le (x : Nat) (l : List (Option Pos)) : sum (hold x) l ≤ l.length :=
  sum_one _ fun _ _ => hold_le x _

theorem hold_sum_nonneg (x : Nat) (l : List (Option Pos)) : 0 ≤ sum (hold x) l :=
  sum_nonneg _ fun _ _ => hold_nonneg x _

theorem sum_two {α : Type} (f : α → Int) (hf : ∀ a, 0 ≤ f a) {l : List α} {i j : Nat} {a b : α}
    (hi : l[i]? = some a) (hj : l[j]? = some b) (hne : i ≠ j) : f a + f b ≤ sum f l := by
  induction l generalizing i j with
  | nil => simp at hi
  | cons c l ih =>
    have e : sum f (c :: l) = f c + sum f l := rfl
    have nn := sum_nonneg f (l := l) fun a _ => hf a
    cases i with
    | zero =>
      cases j with
      | zero => exact absurd rfl hne
      | succ j =>
        simp only [List.getElem?_cons_zero, Option.some.injEq] at hi
        simp only [List.getElem?_cons_succ] at hj
        have := sum_ge f (l := l) (fun a _ => hf a) (List.mem_of_getElem? hj)
        subst hi; omega
    | succ i =>
      cases j with
      | zero =>
        simp only [List.getElem?_cons_zero, Option.some.injEq] at hj
        simp only [List.getElem?_cons_succ] at hi
        have := sum_ge f (l := l) (fun a _ => hf a) (List.mem_of_getElem? hi)
        subst hj; omega
      | succ j =>
        simp only [List.getElem?_cons_succ] at hi hj
        have := ih hi hj (by omega)
        have := hf c
        omega

theorem role_place {s : Sys} {place : Nat → Place} {L : List Nat} (inv : Inv s place L) {i : Nat} {t : Option Pos} {x : Nat} {pl : Place}
    (ht : s.threads[i]? = some t) (hr : role t = some (x, pl)) (hs : solo pl = true) : place x = pl := by
  have h1 := inv.roles x pl hs
  have h2 := sum_ge (isRole x pl) (l := s.threads) (fun a _ => role_nonneg x pl a) (List.mem_of_getElem? ht)
  have h3 : isRole x pl t = 1 := by simp [isRole, hr]
  split at h1
  · assumption
  · omega

theorem role_unique {s : Sys} {place : Nat → Place} {L : List Nat} (inv : Inv s place L) {i j : Nat} {t u : Option Pos} {x : Nat} {pl pl' : Place}
    (ht : s.threads[i]? = some t) (hr : role t = some (x, pl)) (hs : solo pl = true)
    (hu : s.threads[j]? = some u) (hr' : role u = some (x, pl')) (hs' : solo pl' = true) : i = j := by
  have e1 := role_place inv ht hr hs
  have e2 := role_place inv hu hr' hs'
  have e : pl' = pl := by rw [← e1, ← e2]
  subst e
  apply Classical.byContradiction
  intro hne
  have h1 := inv.roles x pl' hs
  have h2 := sum_two (isRole x pl') (fun a => role_nonneg x pl' a) ht hu hne
  have h3 : isRole x pl' t = 1 := by simp [isRole, hr]
  have h4 : isRole x pl' u = 1 := by simp [isRole, hr']
  split at h1 <;> omega

theorem held_pos {s : Sys} {i : Nat} {t : Option Pos} {x : Nat}
    (ht : s.threads[i]? = some t) (hr : held t = some x) : 1 ≤ sum (hold x) s.threads := by
  have h2 := sum_ge (hold x) (l := s.threads) (fun a _ => hold_nonneg x a) (List.mem_of_getElem? ht)
  have h3 : hold x t = 1 := by simp [hold, hr]
  omega

/-- A thread's local knowledge does not mention blocks whose next field may change. -/
theorem ok_same {n n' : Nat → Node} {t : Option Pos} {x : Nat} (h : ok n t)
    (hne : ∀ y, y ≠ x → n' y = n y)
    (hx : (n' x).next = (n x).next ∨ (held t ≠ some x ∧ ∀ pl, role t ≠ some (x, pl))) : ok n' t := by
  have key : ∀ z, (z = x → (n' x).next = (n x).next) → (n' z).next = (n z).next := by
    intro z hz
    by_cases e : z = x
    · subst e; exact hz rfl
    · rw [hne z e]
  have conv : ∀ z, (held t = some z ∨ ∃ pl, role t = some (z, pl)) → (n' z).next = (n z).next := by
    intro z hz
    apply key
    intro e
    subst e
    rcases hx with hx | ⟨h1, h2⟩
    · exact hx
    · rcases hz with hz | ⟨pl, hz⟩
      · exact absurd hz h1
      · exact absurd hz (h2 pl)
  match t with
  | Option.none => trivial
  | some p =>
    cases p with
    | getCas z nx =>
      show nx = (n' z).next
      rw [conv z (Or.inl rfl)]; exact h
    | akRefs z h' k =>
      show h' = (n' z).next
      rw [conv z (Or.inr ⟨_, rfl⟩)]; exact h
    | akCas z h' k =>
      show h' = (n' z).next
      rw [conv z (Or.inr ⟨_, rfl⟩)]; exact h
    | getInc z r => exact h
    | _ => trivial

theorem chain_same {n n' : Nat → Node} {h : Option Nat} {L : List Nat} (hc : Chain n h L)
    (he : ∀ y ∈ L, (n' y).next = (n y).next) : Chain n' h L := by
  induction L generalizing h with
  | nil => exact hc
  | cons a l ih =>
    refine ⟨hc.1, ?_⟩
    rw [he a List.mem_cons_self]
    exact ih hc.2 fun y hy => he y (List.mem_cons_of_mem _ hy)

/-- The shape of every step: thread `i` moves from `t` to `t'`, block `x` goes to `pl`. -/
theorem inv_step {s s' : Sys} {place : Nat → Place} {L : List Nat} (inv : Inv s place L) {i : Nat} {t t' : Option Pos} {x : Nat} {pl : Place}
    {L' : List Nat}
    (ht : s.threads[i]? = some t) (hset : s'.threads = s.threads.set i t')
    (hty : ∀ y, y ≠ x → (∀ q, role t ≠ some (y, q) ∧ role t' ≠ some (y, q)) ∧ held t ≠ some y ∧ held t' ≠ some y)
    (hnode : ∀ y, y ≠ x → s'.sh.nodes y = s.sh.nodes y)
    (hrole : ∀ q, solo q = true → isRole x q t' - isRole x q t =
      (if pl = q then 1 else 0) - (if place x = q then 1 else 0))
    (hrefs : ((s'.sh.nodes x).refs : Int) = sum (hold x) s.threads - hold x t + hold x t' + bonus pl)
    (hnone : pl = .akA ∨ pl = .out → sum (hold x) s.threads - hold x t + hold x t' = 0)
    (hlimbo : pl = .limbo → 1 ≤ sum (hold x) s.threads - hold x t + hold x t')
    (howned : ∀ y, y ∈ s'.owned ↔ (if y = x then pl else place y) = .owned)
    (hsingle : s'.owned.Nodup)
    (hlisted : ∀ y, y ∈ L' ↔ (if y = x then pl else place y) = .listed)
    (honce : L'.Nodup)
    (hchain : Chain s'.sh.nodes s'.sh.head L')
    (hmade : ∀ y, (if y = x then pl else place y) = .out ↔ s'.created ≤ y)
    (hok : ok s'.sh.nodes t')
    (hnext : (s'.sh.nodes x).next = (s.sh.nodes x).next ∨ role t = some (x, .akA))
    (hfine : s'.failed = false) :
    Inv s' (fun y => if y = x then pl else place y) L' := by
  have sh : ∀ y, sum (hold y) s'.threads = sum (hold y) s.threads - hold y t + hold y t' := by
    intro y; rw [hset, sum_set (hold y) ht]
  have shy : ∀ y, y ≠ x → sum (hold y) s'.threads = sum (hold y) s.threads := by
    intro y hy
    obtain ⟨_, h1, h2⟩ := hty y hy
    rw [sh y]
    simp [hold, h1, h2]
  refine ⟨?_, ?_, ?_, ?_, ?_, howned, hsingle, hlisted, honce, hchain, hmade, ?_, hfine⟩
  · rw [hset, List.length_set]; exact inv.small
  · intro y q hq
    rw [hset, sum_set (isRole y q) ht, inv.roles y q hq]
    by_cases e : y = x
    · subst e
      have := hrole q hq
      simp only [if_true]
      omega
    · obtain ⟨h1, _⟩ := hty y e
      simp only [e, if_false]
      have a1 : isRole y q t = 0 := by simp [isRole, (h1 q).1]
      have a2 : isRole y q t' = 0 := by simp [isRole, (h1 q).2]
      omega
  · intro y
    by_cases e : y = x
    · subst e; rw [sh y, hrefs]; simp
    · rw [shy y e, hnode y e, inv.refs y]; simp [e]
  · intro y hy
    by_cases e : y = x
    · subst e
      simp only [if_true] at hy
      rw [sh y]; exact hnone hy
    · simp only [e, if_false] at hy
      rw [shy y e]; exact inv.zero y hy
  · intro y hy
    by_cases e : y = x
    · subst e
      simp only [if_true] at hy
      rw [sh y]; exact hlimbo hy
    · simp only [e, if_false] at hy
      rw [shy y e]; exact inv.limbo y hy
  · intro j u hu
    rw [hset, List.getElem?_set] at hu
    split at hu
    · split at hu
      · cases hu; exact hok
      · cases hu
    · rename_i hij
      refine ok_same (inv.locals j u hu) hnode ?_
      rcases hnext with h | h
      · exact Or.inl h
      · right
        constructor
        · intro hh
          have h1 := held_pos hu hh
          have h2 := inv.zero x (Or.inl (role_place inv ht h rfl))
          omega
        · intro q hq
          have hs : solo q = true := by
            match u with
            | Option.none => cases hq
            | some p => cases p <;> simp [role] at hq <;> (obtain ⟨_, rfl⟩ := hq; rfl)
          exact hij (role_unique inv ht h rfl hu hq hs)

theorem inv_plain {s s' : Sys} {place : Nat → Place} {L : List Nat} (inv : Inv s place L) {i : Nat} {t t' : Option Pos}
    (ht : s.threads[i]? = some t) (hset : s'.threads = s.threads.set i t') (hsh : s'.sh = s.sh)
    (howned : s'.owned = s.owned) (hcreated : s'.created = s.created) (hfailed : s'.failed = s.failed)
    (hr : role t' = role t) (hh : held t' = held t) (hok : ok s.sh.nodes t') : Inv s' place L := by
  have e1 : ∀ y, sum (hold y) s'.threads = sum (hold y) s.threads := by
    intro y; rw [hset, sum_set (hold y) ht]; simp only [hold, hh]; omega
  have e2 : ∀ y q, sum (isRole y q) s'.threads = sum (isRole y q) s.threads := by
    intro y q; rw [hset, sum_set (isRole y q) ht]; simp only [isRole, hr]; omega
  refine ⟨?_, ?_, ?_, ?_, ?_, ?_, ?_, inv.listed, inv.once, ?_, ?_, ?_, ?_⟩
  · rw [hset, List.length_set]; exact inv.small
  · intro x q hq; rw [e2]; exact inv.roles x q hq
  · intro x; rw [e1, hsh]; exact inv.refs x
  · intro x hx; rw [e1]; exact inv.zero x hx
  · intro x hx; rw [e1]; exact inv.limbo x hx
  · intro x; rw [howned]; exact inv.owned x
  · rw [howned]; exact inv.single
  · rw [hsh]; exact inv.chain
  · intro x; rw [hcreated]; exact inv.made x
  · intro j u hu
    rw [hsh]
    rw [hset, List.getElem?_set] at hu
    split at hu
    · split at hu
      · cases hu; exact hok
      · cases hu
    · exact inv.locals j u hu
  · rw [hfailed]; exact inv.fine

/-- A step that only changes the count of `x`; the block stays where it is. -/
theorem inv_same {s s' : Sys} {place : Nat → Place} {L : List Nat} (inv : Inv s place L) {i : Nat} {t t' : Option Pos}
    {x : Nat} (ht : s.threads[i]? = some t) (hset : s'.threads = s.threads.set i t')
    (hhead : s'.sh.head = s.sh.head) (howned : s'.owned = s.owned) (hcreated : s'.created = s.created)
    (hfailed : s'.failed = s.failed) (hr : role t = none) (hr' : role t' = none)
    (hh : ∀ y, y ≠ x → held t ≠ some y ∧ held t' ≠ some y)
    (hnode : ∀ y, y ≠ x → s'.sh.nodes y = s.sh.nodes y) (hnext : (s'.sh.nodes x).next = (s.sh.nodes x).next)
    (hrefs : ((s'.sh.nodes x).refs : Int) = sum (hold x) s.threads - hold x t + hold x t' + bonus (place x))
    (hzero : place x = .akA ∨ place x = .out → sum (hold x) s.threads - hold x t + hold x t' = 0)
    (hlimbo : place x = .limbo → 1 ≤ sum (hold x) s.threads - hold x t + hold x t')
    (hok : ok s'.sh.nodes t') : Inv s' place L := by
  have key : (fun y => if y = x then place x else place y) = place := by
    funext y; split
    · rename_i e; rw [e]
    · rfl
  have kz : ∀ y, (if y = x then place x else place y) = place y := fun y => congrFun key y
  have := inv_step (s' := s') (pl := place x) (x := x) (L' := L) inv ht hset
    (fun y hy => ⟨fun q => ⟨by simp [hr], by simp [hr']⟩, hh y hy⟩) hnode
    (fun q _ => by simp [isRole, hr, hr']) hrefs hzero hlimbo
    (fun y => by rw [howned, kz]; exact inv.owned y) (by rw [howned]; exact inv.single)
    (fun y => by rw [kz]; exact inv.listed y) inv.once
    (by
      rw [hhead]
      refine chain_same inv.chain fun y _ => ?_
      by_cases e : y = x
      · rw [e]; exact hnext
      · rw [hnode y e])
    (fun y => by rw [hcreated, kz]; exact inv.made y) hok (Or.inl hnext) (by rw [hfailed]; exact inv.fine)
  rwa [key] at this

def mid : Place → Bool
  | .adding => true
  | .limbo => true
  | .akA => true
  | .akB => true
  | .taken => true
  | _ => false

/-- A step that moves `x` between places that are neither owned, listed nor unmade. -/
theorem inv_mid {s s' : Sys} {place : Nat → Place} {L : List Nat} (inv : Inv s place L) {i : Nat} {t t' : Option Pos}
    {x : Nat} {a pl : Place} (ht : s.threads[i]? = some t) (hset : s'.threads = s.threads.set i t')
    (hhead : s'.sh.head = s.sh.head) (howned : s'.owned = s.owned) (hcreated : s'.created = s.created)
    (hfailed : s'.failed = s.failed) (hx : place x = a) (ha : mid a = true) (hp : mid pl = true)
    (hty : ∀ y, y ≠ x → (∀ q, role t ≠ some (y, q) ∧ role t' ≠ some (y, q)) ∧ held t ≠ some y ∧ held t' ≠ some y)
    (hnode : ∀ y, y ≠ x → s'.sh.nodes y = s.sh.nodes y)
    (hrole : ∀ q, solo q = true → isRole x q t' - isRole x q t =
      (if pl = q then 1 else 0) - (if a = q then 1 else 0))
    (hrefs : ((s'.sh.nodes x).refs : Int) = sum (hold x) s.threads - hold x t + hold x t' + bonus pl)
    (hzero : pl = .akA → sum (hold x) s.threads - hold x t + hold x t' = 0)
    (hlimbo : pl = .limbo → 1 ≤ sum (hold x) s.threads - hold x t + hold x t')
    (hok : ok s'.sh.nodes t')
    (hnext : (s'.sh.nodes x).next = (s.sh.nodes x).next ∨ role t = some (x, .akA)) :
    Inv s' (fun y => if y = x then pl else place y) L := by
  have miss : ∀ q, mid q = false → ∀ y, ((if y = x then pl else place y) = q ↔ place y = q) := by
    intro q hq y
    by_cases e : y = x
    · subst e
      rw [if_pos rfl, hx]
      constructor <;> (intro h; subst h; simp_all)
    · rw [if_neg e]
  refine inv_step inv ht hset hty hnode (by rw [hx]; exact hrole) hrefs ?_ hlimbo ?_ ?_ ?_ inv.once ?_ ?_ hok hnext
    (by rw [hfailed]; exact inv.fine)
  · rintro (h | h)
    · exact hzero h
    · subst h; simp [mid] at hp
  · intro y; rw [howned, miss _ rfl]; exact inv.owned y
  · rw [howned]; exact inv.single
  · intro y; rw [miss _ rfl]; exact inv.listed y
  · rw [hhead]
    refine chain_same inv.chain fun y hy => ?_
    rw [hnode y]
    rintro rfl
    rw [(inv.listed y).mp hy] at hx
    subst hx; simp [mid] at ha
  · intro y; rw [hcreated, miss _ rfl]; exact inv.made y

/-- What follows without a part in anything. -/
def Bare : Next → Prop
  | .at (.getRefs _) => True
  | .at .getHead => True
  | .added => True
  | .got none => True
  | _ => False

theorem bare_loop (h : Option Nat) : Bare (loopAt h) := by cases h <;> trivial

theorem bare_cont (k : Cont) : Bare k.next := by
  cases k with
  | done => trivial
  | loop h => exact bare_loop h

theorem put_bare (s : Sys) (i : Nat) (sh : Shared) {nx : Next} (h : Bare nx) :
    ∃ t', (put s i sh nx).threads = s.threads.set i t' ∧ role t' = none ∧ held t' = none ∧
      (∀ n, ok n t') ∧ (put s i sh nx).sh = sh ∧ (put s i sh nx).owned = s.owned ∧
      (put s i sh nx).created = s.created ∧ (put s i sh nx).failed = s.failed := by
  match nx, h with
  | .at (.getRefs x), _ => exact ⟨_, rfl, rfl, rfl, fun _ => trivial, rfl, rfl, rfl, rfl⟩
  | .at .getHead, _ => exact ⟨_, rfl, rfl, rfl, fun _ => trivial, rfl, rfl, rfl, rfl⟩
  | .added, _ => exact ⟨_, rfl, rfl, rfl, fun _ => trivial, rfl, rfl, rfl, rfl⟩
  | .got none, _ => exact ⟨_, rfl, rfl, rfl, fun _ => trivial, rfl, rfl, rfl, rfl⟩

theorem setRefs_same (sh : Shared) (x r : Nat) :
    ((setRefs sh x r).nodes x).refs = r ∧ ((setRefs sh x r).nodes x).next = (sh.nodes x).next ∧
      (∀ y, y ≠ x → (setRefs sh x r).nodes y = sh.nodes y) ∧ (setRefs sh x r).head = sh.head := by
  refine ⟨?_, ?_, ?_, rfl⟩
  · simp [setRefs]
  · simp [setRefs]
  · intro y hy; simp [setRefs, hy]

theorem setNext_same (sh : Shared) (x : Nat) (h : Option Nat) :
    ((setNext sh x h).nodes x).refs = (sh.nodes x).refs ∧ ((setNext sh x h).nodes x).next = h ∧
      (∀ y, y ≠ x → (setNext sh x h).nodes y = sh.nodes y) ∧ (setNext sh x h).head = sh.head := by
  refine ⟨?_, ?_, ?_, rfl⟩
  · simp [setNext]
  · simp [setNext]
  · intro y hy; simp [setNext, hy]

/-- Every step keeps the invariant. -/
theorem go_inv {s : Sys} {place : Nat → Place} {L : List Nat} (inv : Inv s place L) {i : Nat} {p : Pos}
    (ht : s.threads[i]? = some (some p)) :
    ∃ place' L', Inv (put s i (step s.sh p).1 (step s.sh p).2) place' L' := by
  have hsm := inv.small
  cases p with
  | addRef x =>
    have hp := role_place inv ht rfl rfl
    have hr := inv.refs x
    have hl := hold_sum_le x s.threads
    have hn := hold_sum_nonneg x s.threads
    obtain ⟨a1, a2, a3, a4⟩ := setRefs_same s.sh x (plus (s.sh.nodes x).refs flag)
    rw [hp] at hr
    simp only [bonus] at hr
    by_cases hz : (s.sh.nodes x).refs = 0
    · have hst : step s.sh (.addRef x) = (setRefs s.sh x (plus (s.sh.nodes x).refs flag), .at (.akHead x .done)) := by
        simp only [step, if_pos hz]
      rw [hst]
      refine ⟨_, L, inv_mid (x := x) (a := .adding) (pl := .akA) (t' := some (.akHead x .done)) inv ht rfl a4 rfl rfl rfl
        hp rfl rfl ?_ a3 ?_ ?_ ?_ ?_ trivial (Or.inl a2)⟩
      · intro y hy; simp [role, held, Ne.symm hy]
      · intro q hq; cases q <;> simp [isRole, role, solo] at hq ⊢
      · show (((setRefs s.sh x (plus (s.sh.nodes x).refs flag)).nodes x).refs : Int) = _
        rw [a1]; simp [hold, held, bonus, plus, flag]; omega
      · intro _; simp [hold, held]; omega
      · intro h; cases h
    · have hst : step s.sh (.addRef x) = (setRefs s.sh x (plus (s.sh.nodes x).refs flag), .added) := by
        simp only [step, if_neg hz]
      rw [hst]
      refine ⟨_, L, inv_mid (x := x) (a := .adding) (pl := .limbo) (t' := none) inv ht rfl a4 rfl rfl rfl
        hp rfl rfl ?_ a3 ?_ ?_ ?_ ?_ trivial (Or.inl a2)⟩
      · intro y hy; simp [role, held, Ne.symm hy]
      · intro q hq; cases q <;> simp [isRole, role, solo] at hq ⊢
      · show (((setRefs s.sh x (plus (s.sh.nodes x).refs flag)).nodes x).refs : Int) = _
        rw [a1]; simp [hold, held, bonus, plus, flag]; omega
      · intro h; cases h
      · intro _; simp [hold, held]; omega
  | akHead x k => exact ⟨place, L, inv_plain inv ht rfl rfl rfl rfl rfl rfl rfl trivial⟩
  | akNext x h k =>
    have hp := role_place inv ht rfl rfl
    have hr := inv.refs x
    have hz := inv.zero x (Or.inl hp)
    obtain ⟨a1, a2, a3, a4⟩ := setNext_same s.sh x h
    rw [hp] at hr
    simp only [bonus] at hr
    refine ⟨_, L, inv_mid (x := x) (a := .akA) (pl := .akA) (t' := some (.akRefs x h k)) inv ht rfl a4 rfl rfl rfl
        hp rfl rfl ?_ a3 ?_ ?_ ?_ ?_ a2.symm (Or.inr rfl)⟩
    · intro y hy; simp [role, held, Ne.symm hy]
    · intro q hq; cases q <;> simp [isRole, role, solo] at hq ⊢
    · show (((setNext s.sh x h).nodes x).refs : Int) = _
      rw [a1]; simp [hold, held, bonus]; omega
    · intro _; simp [hold, held]; omega
    · intro h; cases h
  | akRefs x h k =>
    have hp := role_place inv ht rfl rfl
    have hz := inv.zero x (Or.inl hp)
    have hloc : h = (s.sh.nodes x).next := inv.locals i _ ht
    obtain ⟨a1, a2, a3, a4⟩ := setRefs_same s.sh x 1
    refine ⟨_, L, inv_mid (x := x) (a := .akA) (pl := .akB) (t' := some (.akCas x h k)) inv ht rfl a4 rfl rfl rfl
        hp rfl rfl ?_ a3 ?_ ?_ ?_ ?_ (hloc.trans a2.symm) (Or.inl a2)⟩
    · intro y hy; simp [role, held, Ne.symm hy]
    · intro q hq; cases q <;> simp [isRole, role, solo] at hq ⊢
    · show (((setRefs s.sh x 1).nodes x).refs : Int) = _
      rw [a1]; simp [hold, held, bonus]; omega
    · intro h; cases h
    · intro h; cases h
  | akCas x h k =>
    have hp := role_place inv ht rfl rfl
    have hr := inv.refs x
    have hloc : h = (s.sh.nodes x).next := inv.locals i _ ht
    by_cases hh : s.sh.head = h
    · have hst : step s.sh (.akCas x h k) = ({ s.sh with head := some x }, k.next) := by
        simp only [step, if_pos hh]
      rw [hst]
      obtain ⟨t', b1, b2, b3, b4, b5, b6, b7, b8⟩ := put_bare s i { s.sh with head := some x } (bare_cont k)
      have hxL : x ∉ L := by
        intro hx; rw [inv.listed x, hp] at hx; cases hx
      refine ⟨_, x :: L, inv_step (x := x) (pl := .listed) (t' := t') inv ht b1 ?_ ?_ ?_ ?_ ?_ ?_ ?_ ?_ ?_ ?_ ?_ ?_ ?_ ?_ ?_⟩
      · intro y hy; simp only [b2, b3]; simp [role, held, Ne.symm hy]
      · intro y _; rw [b5]
      · intro q hq; simp only [isRole, b2, hp]; cases q <;> simp [role, solo] at hq ⊢
      · rw [b5]; show ((s.sh.nodes x).refs : Int) = _; rw [hr, hp]; simp only [hold, b3]; simp [held, bonus]
      · rintro (h | h) <;> cases h
      · intro h; cases h
      · intro y
        rw [b6, inv.owned y]
        by_cases e : y = x
        · subst e; simp [hp]
        · simp [e]
      · rw [b6]; exact inv.single
      · intro y
        by_cases e : y = x
        · subst e; simp
        · simp [e, inv.listed y]
      · exact List.nodup_cons.mpr ⟨hxL, inv.once⟩
      · rw [b5]
        refine ⟨rfl, ?_⟩
        show Chain s.sh.nodes (s.sh.nodes x).next L
        rw [← hloc, ← hh]; exact inv.chain
      · intro y
        rw [b7, ← inv.made y]
        by_cases e : y = x
        · subst e; simp [hp]
        · simp [e]
      · exact b4 _
      · left; rw [b5]
      · rw [b8]; exact inv.fine
    · have hst : step s.sh (.akCas x h k) = (s.sh, .at (.akBack x s.sh.head k)) := by
        simp only [step, if_neg hh]
      rw [hst]
      exact ⟨place, L, inv_plain inv ht rfl rfl rfl rfl rfl rfl rfl trivial⟩
  | akBack x h k =>
    have hp := role_place inv ht rfl rfl
    have hr := inv.refs x
    have hl := hold_sum_le x s.threads
    have hn := hold_sum_nonneg x s.threads
    obtain ⟨a1, a2, a3, a4⟩ := setRefs_same s.sh x (plus (s.sh.nodes x).refs (flag - 1))
    rw [hp] at hr
    simp only [bonus] at hr
    by_cases hz : (s.sh.nodes x).refs = 1
    · have hst : step s.sh (.akBack x h k) =
          (setRefs s.sh x (plus (s.sh.nodes x).refs (flag - 1)), .at (.akNext x h k)) := by
        simp only [step, if_pos hz]
      rw [hst]
      refine ⟨_, L, inv_mid (x := x) (a := .akB) (pl := .akA) (t' := some (.akNext x h k)) inv ht rfl a4 rfl rfl rfl
        hp rfl rfl ?_ a3 ?_ ?_ ?_ ?_ trivial (Or.inl a2)⟩
      · intro y hy; simp [role, held, Ne.symm hy]
      · intro q hq; cases q <;> simp [isRole, role, solo] at hq ⊢
      · show (((setRefs s.sh x (plus (s.sh.nodes x).refs (flag - 1))).nodes x).refs : Int) = _
        rw [a1]; simp [hold, held, bonus, plus, flag]; omega
      · intro _; simp [hold, held]; omega
      · intro h; cases h
    · have hst : step s.sh (.akBack x h k) =
          (setRefs s.sh x (plus (s.sh.nodes x).refs (flag - 1)), k.next) := by
        simp only [step, if_neg hz]
      rw [hst]
      obtain ⟨t', b1, b2, b3, b4, b5, b6, b7, b8⟩ :=
        put_bare s i (setRefs s.sh x (plus (s.sh.nodes x).refs (flag - 1))) (bare_cont k)
      refine ⟨_, L, inv_mid (x := x) (a := .akB) (pl := .limbo) (t' := t') inv ht b1 (by rw [b5]; exact a4) b6 b7 b8
        hp rfl rfl ?_ (by rw [b5]; exact a3) ?_ ?_ ?_ ?_ (b4 _) (Or.inl (by rw [b5]; exact a2))⟩
      · intro y hy; simp only [b2, b3]; simp [role, held, Ne.symm hy]
      · intro q hq; simp only [isRole, b2]; cases q <;> simp [role, solo] at hq ⊢
      · rw [b5, a1]; simp only [hold, b3]; simp [held, bonus, plus, flag]; omega
      · intro h; cases h
      · intro _; simp only [hold, b3]; simp [held]; omega
  | getHead =>
    obtain ⟨t', b1, b2, b3, b4, b5, b6, b7, b8⟩ := put_bare s i s.sh (bare_loop s.sh.head)
    exact ⟨place, L, inv_plain inv ht b1 b5 b6 b7 b8 b2 b3 (b4 _)⟩
  | getRefs x =>
    by_cases hz : count (s.sh.nodes x).refs = 0
    · have hst : step s.sh (.getRefs x) = (s.sh, .at .getHead) := by simp only [step, if_pos hz]
      rw [hst]
      exact ⟨place, L, inv_plain inv ht rfl rfl rfl rfl rfl rfl rfl trivial⟩
    · have hst : step s.sh (.getRefs x) = (s.sh, .at (.getInc x (s.sh.nodes x).refs)) := by
        simp only [step, if_neg hz]
      rw [hst]
      exact ⟨place, L, inv_plain inv ht rfl rfl rfl rfl rfl rfl rfl hz⟩
  | getInc x r =>
    have hloc : count r ≠ 0 := inv.locals i _ ht
    have hr := inv.refs x
    have hl := hold_sum_le x s.threads
    have hn := hold_sum_nonneg x s.threads
    have hzero := inv.zero x
    have hlim := inv.limbo x
    by_cases hh : (s.sh.nodes x).refs = r
    · have hst : step s.sh (.getInc x r) = (setRefs s.sh x (plus r 1), .at (.getNext x)) := by
        simp only [step, if_pos hh]
      rw [hst]
      obtain ⟨a1, a2, a3, a4⟩ := setRefs_same s.sh x (plus r 1)
      have hb : bonus (place x) ≤ 0x80000000 := by cases place x <;> decide
      have hb0 : 0 ≤ bonus (place x) := by cases place x <;> decide
      refine ⟨place, L, inv_same (x := x) inv ht rfl a4 rfl rfl rfl rfl rfl ?_ a3 a2 ?_ ?_ ?_ trivial⟩
      · intro y hy; simp [held, Ne.symm hy]
      · show (((setRefs s.sh x (plus r 1)).nodes x).refs : Int) = _
        rw [a1]; simp [hold, held, plus]; omega
      · intro hp
        exfalso
        have h0 := hzero hp
        rw [h0] at hr
        apply hloc
        rcases hp with hp | hp
        · rw [hp] at hr; simp only [bonus] at hr; unfold count; omega
        · rw [hp] at hr; simp only [bonus] at hr; unfold count; omega
      · intro hp
        have := hlim hp
        simp [hold, held]; omega
    · have hst : step s.sh (.getInc x r) = (s.sh, .at .getHead) := by
        simp only [step, if_neg hh]
      rw [hst]
      exact ⟨place, L, inv_plain inv ht rfl rfl rfl rfl rfl rfl rfl trivial⟩
  | getNext x => exact ⟨place, L, inv_plain inv ht rfl rfl rfl rfl rfl rfl rfl rfl⟩
  | getCas x nx =>
    have hloc : nx = (s.sh.nodes x).next := inv.locals i _ ht
    have hr := inv.refs x
    by_cases hh : s.sh.head = some x
    · have hst : step s.sh (.getCas x nx) = ({ s.sh with head := nx }, .at (.getCheck x)) := by
        simp only [step, if_pos hh]
      rw [hst]
      have hc := inv.chain
      have hon := inv.once
      have hL := inv.listed
      cases L with
      | nil => rw [hh] at hc; cases hc
      | cons y L =>
        obtain ⟨hc1, hc2⟩ := hc
        rw [hh] at hc1
        cases hc1
        have hp := (hL x).mp List.mem_cons_self
        obtain ⟨hn1, hn2⟩ := List.nodup_cons.mp hon
        refine ⟨_, L, inv_step (x := x) (pl := .taken) (t' := some (.getCheck x)) inv ht rfl ?_ (fun _ _ => rfl) ?_ ?_ ?_ ?_ ?_
          inv.single ?_ hn2 ?_ ?_ trivial (Or.inl rfl) inv.fine⟩
        · intro y hy; simp [role, held, Ne.symm hy]
        · intro q hq; cases q <;> simp [isRole, role, solo, hp] at hq ⊢
        · show ((s.sh.nodes x).refs : Int) = _
          rw [hr, hp]; simp [hold, held, bonus]
        · rintro (h | h) <;> cases h
        · intro h; cases h
        · intro y
          rw [show (put s i { s.sh with head := nx } (.at (.getCheck x))).owned = s.owned from rfl, inv.owned y]
          by_cases e : y = x
          · subst e; simp [hp]
          · simp [e]
        · intro y
          by_cases e : y = x
          · subst e; simp [hn1]
          · have := hL y; simp [e] at this ⊢; exact this
        · show Chain s.sh.nodes nx L
          rw [hloc]; exact hc2
        · intro y
          rw [show (put s i { s.sh with head := nx } (.at (.getCheck x))).created = s.created from rfl, ← inv.made y]
          by_cases e : y = x
          · subst e; simp [hp]
          · simp [e]
    · have hst : step s.sh (.getCas x nx) = (s.sh, .at (.getDrop x s.sh.head)) := by
        simp only [step, if_neg hh]
      rw [hst]
      exact ⟨place, L, inv_plain inv ht rfl rfl rfl rfl rfl rfl rfl trivial⟩
  | getCheck x =>
    have hp := role_place inv ht rfl rfl
    have hr := inv.refs x
    have hl := hold_sum_le x s.threads
    rw [hp] at hr
    simp only [bonus] at hr
    have hst : step s.sh (.getCheck x) = (s.sh, .at (.getTake x)) := by
      have : ¬ flag ≤ (s.sh.nodes x).refs := by unfold flag; omega
      simp only [step, if_neg this]
    rw [hst]
    exact ⟨place, L, inv_plain inv ht rfl rfl rfl rfl rfl rfl rfl trivial⟩
  | getTake x =>
    have hp := role_place inv ht rfl rfl
    have hr := inv.refs x
    have hl := hold_sum_le x s.threads
    have hn : 1 ≤ sum (hold x) s.threads := held_pos ht rfl
    obtain ⟨a1, a2, a3, a4⟩ := setRefs_same s.sh x (minus (s.sh.nodes x).refs 2)
    have hxo : x ∉ s.owned := by
      intro hx; rw [inv.owned x, hp] at hx; cases hx
    rw [hp] at hr
    simp only [bonus] at hr
    refine ⟨_, L, inv_step (x := x) (pl := .owned) (t' := none) inv ht rfl ?_ a3 ?_ ?_ ?_ ?_ ?_
          (List.nodup_cons.mpr ⟨hxo, inv.single⟩) ?_ inv.once ?_ ?_ trivial (Or.inl a2) inv.fine⟩
    · intro y hy; simp [role, held, Ne.symm hy]
    · intro q hq; cases q <;> simp [isRole, role, solo, hp] at hq ⊢
    · show (((setRefs s.sh x (minus (s.sh.nodes x).refs 2)).nodes x).refs : Int) = _
      rw [a1]; simp [hold, held, bonus, minus]; omega
    · rintro (h | h) <;> cases h
    · intro h; cases h
    · intro y
      show y ∈ x :: s.owned ↔ _
      by_cases e : y = x
      · subst e; simp
      · simp [e, inv.owned y]
    · intro y
      rw [inv.listed y]
      by_cases e : y = x
      · subst e; simp [hp]
      · simp [e]
    · refine chain_same inv.chain fun y hy => ?_
      by_cases e : y = x
      · rw [e]; exact a2
      · show ((setRefs s.sh x (minus (s.sh.nodes x).refs 2)).nodes y).next = _
        rw [a3 y e]
    · intro y
      show _ ↔ s.created ≤ y
      rw [← inv.made y]
      by_cases e : y = x
      · subst e; simp [hp]
      · simp [e]
  | getDrop x h =>
    have hr := inv.refs x
    have hl := hold_sum_le x s.threads
    have hn : 1 ≤ sum (hold x) s.threads := held_pos ht rfl
    have hzero := inv.zero x
    have hlim := inv.limbo x
    obtain ⟨a1, a2, a3, a4⟩ := setRefs_same s.sh x (minus (s.sh.nodes x).refs 1)
    by_cases hz : (s.sh.nodes x).refs = flag + 1
    · have hst : step s.sh (.getDrop x h) =
          (setRefs s.sh x (minus (s.sh.nodes x).refs 1), .at (.akHead x (.loop h))) := by
        simp only [step, if_pos hz]
      rw [hst]
      unfold flag at hz
      have hp : place x = .limbo := by
        cases hp : place x with
        | limbo => rfl
        | akA => have := hzero (Or.inl hp); omega
        | _ => rw [hp] at hr; simp only [bonus] at hr; omega
      rw [hp] at hr
      simp only [bonus] at hr
      refine ⟨_, L, inv_mid (x := x) (a := .limbo) (pl := .akA) (t' := some (.akHead x (.loop h))) inv ht rfl a4 rfl rfl rfl
        hp rfl rfl ?_ a3 ?_ ?_ ?_ ?_ trivial (Or.inl a2)⟩
      · intro y hy; simp [role, held, Ne.symm hy]
      · intro q hq; cases q <;> simp [isRole, role, solo] at hq ⊢
      · show (((setRefs s.sh x (minus (s.sh.nodes x).refs 1)).nodes x).refs : Int) = _
        rw [a1]; simp [hold, held, bonus, minus]; omega
      · intro _; simp [hold, held]; omega
      · intro h; cases h
    · have hst : step s.sh (.getDrop x h) =
          (setRefs s.sh x (minus (s.sh.nodes x).refs 1), loopAt h) := by
        simp only [step, if_neg hz]
      rw [hst]
      unfold flag at hz
      obtain ⟨t', b1, b2, b3, b4, b5, b6, b7, b8⟩ :=
        put_bare s i (setRefs s.sh x (minus (s.sh.nodes x).refs 1)) (bare_loop h)
      have hb : bonus (place x) ≤ 0x80000000 := by cases place x <;> decide
      have hb0 : 0 ≤ bonus (place x) := by cases place x <;> decide
      have e1 : hold x (some (.getDrop x h)) = 1 := by simp [hold, held]
      have e2 : hold x t' = 0 := by simp [hold, b3]
      refine ⟨place, L, inv_same (x := x) inv ht b1 (by rw [b5]; exact a4) b6 b7 b8 rfl b2 ?_
        (by rw [b5]; exact a3) (by rw [b5]; exact a2) ?_ ?_ ?_ (b4 _)⟩
      · intro y hy; simp only [b3]; simp [held, Ne.symm hy]
      · rw [b5, a1, e1, e2]; simp only [minus]; omega
      · intro hp; have := hzero hp; omega
      · intro hp
        rw [hp] at hr
        simp only [bonus] at hr
        omega

theorem chain_nil {n : Nat → Node} {L : List Nat} (h : Chain n none L) : L = [] := by
  cases L with
  | nil => rfl
  | cons a l => cases h.1

theorem init_inv {k : Nat} (hk : k + 1 < 0x80000000) : Inv (init k) (fun _ => .out) [] := by
  have e : ∀ (f : Option Pos → Int), f none = 0 → sum f (List.replicate k none) = 0 := by
    intro f hf
    apply sum_zero
    intro a ha
    rw [(List.mem_replicate.mp ha).2]; exact hf
  refine ⟨?_, ?_, ?_, ?_, ?_, ?_, ?_, ?_, ?_, ?_, ?_, ?_, ?_⟩
  · simp [init]; omega
  · intro x pl hs
    show sum _ (List.replicate k none) = _
    rw [e _ (by simp [isRole, role])]
    cases pl <;> simp [solo] at hs ⊢
  · intro x
    show _ = sum _ (List.replicate k none) + _
    rw [e _ (by simp [hold, held])]
    rfl
  · intro x _
    exact e _ (by simp [hold, held])
  · intro x h; cases h
  · intro x; simp [init]
  · simp [init]
  · intro x; simp
  · simp
  · rfl
  · intro x; simp [init]
  · intro i t ht
    have := List.mem_of_getElem? ht
    rw [(List.mem_replicate.mp this).2]; trivial
  · rfl

theorem move_inv {s s' : Sys} {place : Nat → Place} {L : List Nat} (inv : Inv s place L) {m : Move}
    (hm : move s m = some s') : ∃ place' L', Inv s' place' L' := by
  cases m with
  | create =>
    cases hm
    have hx : place s.created = .out := (inv.made _).mpr (Nat.le_refl _)
    have h0 := inv.zero _ (Or.inr hx)
    have hr := inv.refs s.created
    have hxo : s.created ∉ s.owned := by
      intro h; rw [inv.owned, hx] at h; cases h
    refine ⟨fun y => if y = s.created then .owned else place y, L, inv.small, ?_, ?_, ?_, ?_, ?_,
      List.nodup_cons.mpr ⟨hxo, inv.single⟩, ?_, inv.once, inv.chain, ?_, inv.locals, inv.fine⟩
    · intro y q hq
      show sum _ s.threads = _
      rw [inv.roles y q hq]
      by_cases e : y = s.created
      · subst e; rw [hx]; cases q <;> simp [solo] at hq ⊢
      · simp [e]
    · intro y
      show ((s.sh.nodes y).refs : Int) = sum (hold y) s.threads + _
      by_cases e : y = s.created
      · subst e; rw [hr, hx]; simp [bonus]
      · rw [inv.refs y]; simp [e]
    · intro y hy
      by_cases e : y = s.created
      · subst e; exact h0
      · simp only [e, if_false] at hy; exact inv.zero y hy
    · intro y hy
      by_cases e : y = s.created
      · subst e; simp at hy
      · simp only [e, if_false] at hy; exact inv.limbo y hy
    · intro y
      show y ∈ s.created :: s.owned ↔ _
      by_cases e : y = s.created
      · subst e; simp
      · simp [e, inv.owned y]
    · intro y
      rw [inv.listed y]
      by_cases e : y = s.created
      · subst e; simp [hx]
      · simp [e]
    · intro y
      show _ ↔ s.created + 1 ≤ y
      by_cases e : y = s.created
      · subst e; simp
      · simp only [e, if_false]; rw [inv.made y]; omega
  | add i x =>
    unfold move at hm
    cases ht : s.threads[i]? with
    | none => simp [ht] at hm
    | some t =>
      cases t with
      | some p => simp [ht] at hm
      | none =>
        simp only [ht] at hm
        split at hm
        · rename_i hx
          cases hm
          have hp := (inv.owned x).mp hx
          have hr := inv.refs x
          rw [hp] at hr
          refine ⟨_, L, inv_step (x := x) (pl := .adding) (t' := some (.addRef x)) inv ht rfl ?_ (fun _ _ => rfl) ?_ ?_ ?_ ?_ ?_
            (inv.single.erase x) ?_ inv.once inv.chain ?_ trivial (Or.inl rfl) inv.fine⟩
          · intro y hy; simp [role, held, Ne.symm hy]
          · intro q hq; cases q <;> simp [isRole, role, solo, hp] at hq ⊢
          · show ((s.sh.nodes x).refs : Int) = _
            rw [hr]; simp [hold, held, bonus]
          · rintro (h | h) <;> cases h
          · intro h; cases h
          · intro y
            show y ∈ s.owned.erase x ↔ _
            rw [inv.single.mem_erase_iff]
            by_cases e : y = x
            · subst e; simp
            · simp [e, inv.owned y]
          · intro y
            rw [inv.listed y]
            by_cases e : y = x
            · subst e; simp [hp]
            · simp [e]
          · intro y
            show _ ↔ s.created ≤ y
            rw [← inv.made y]
            by_cases e : y = x
            · subst e; simp [hp]
            · simp [e]
        · cases hm
  | get i =>
    unfold move at hm
    cases ht : s.threads[i]? with
    | none => simp [ht] at hm
    | some t =>
      cases t with
      | some p => simp [ht] at hm
      | none =>
        simp only [ht] at hm
        cases hm
        exact ⟨place, L, inv_plain inv ht rfl rfl rfl rfl rfl rfl rfl trivial⟩
  | go i =>
    unfold move at hm
    cases ht : s.threads[i]? with
    | none => simp [ht] at hm
    | some t =>
      cases t with
      | none => simp [ht] at hm
      | some p =>
        simp only [ht] at hm
        cases hm
        exact go_inv inv ht

theorem run_inv {ms : List Move} {s s' : Sys} {place : Nat → Place} {L : List Nat} (inv : Inv s place L)
    (h : run s ms = some s') : ∃ place' L', Inv s' place' L' := by
  induction ms generalizing s place L with
  | nil => cases h; exact ⟨_, _, inv⟩
  | cons m ms ih =>
    unfold run at h
    cases hm : move s m with
    | none => simp [hm] at h
    | some s1 =>
      rw [hm] at h
      obtain ⟨p1, L1, i1⟩ := move_inv inv hm
      exact ih i1 h

theorem reach_inv {k : Nat} (hk : k + 1 < 0x80000000) {s : Sys} (h : Reach k s) : ∃ place L, Inv s place L := by
  obtain ⟨ms, hms⟩ := h
  exact run_inv (init_inv hk) hms

end Verif.FreeList
