import Verif.Cuckoo.Model
/-!
# The spinlocks of the table

How the calls take and release the spinlocks (map:786-841, 888-1098). The number of locks
does not change for `ConcurrentHashMap`: it starts with as many as there can be
(map:1818-1833).
-/
namespace Verif.Cuckoo

/-- The locks of `lock_one` (map:965-973). -/
def planOne (l : Nat) : List Nat := [l]

/-- The locks of `lock_two` in its order (map:984-996). -/
def planTwo (l1 l2 : Nat) : List Nat :=
  let p := if l2 < l1 then (l2, l1) else (l1, l2)
  if p.2 ≠ p.1 then [p.1, p.2] else [p.1]

/-- The locks of `lock_three` in its order (map:1014-1033). -/
def planThree (l0 l1 l2 : Nat) : List Nat :=
  let a := if l2 < l1 then (l0, l2, l1) else (l0, l1, l2)
  let b := if a.2.2 < a.1 then (a.2.2, a.2.1, a.1) else a
  let c := if b.2.1 < b.1 then (b.2.1, b.1, b.2.2) else b
  [c.1] ++ (if c.2.1 ≠ c.1 then [c.2.1] else []) ++ (if c.2.2 ≠ c.2.1 then [c.2.2] else [])

/-- The locks of `lock_all` (map:1076-1088). -/
def planAll (n : Nat) : List Nat := List.range n

/-- The lists of locks that are taken in a table with `n` locks. -/
inductive Plan (n : Nat) : List Nat → Prop
  | one (l : Nat) (h : l < n) : Plan n (planOne l)
  | two (l1 l2 : Nat) (h1 : l1 < n) (h2 : l2 < n) : Plan n (planTwo l1 l2)
  | three (l0 l1 l2 : Nat) (h0 : l0 < n) (h1 : l1 < n) (h2 : l2 < n) : Plan n (planThree l0 l1 l2)
  | all : Plan n (planAll n)

/-- What a thread does with the locks. -/
inductive Hold
  | idle
  /-- it holds some and is to take others, spinning on the first (map:807-810) -/
  | take (held todo : List Nat)
  /-- it works on the table; then it releases all (map:846-900) -/
  | work (held : List Nat)
  /-- in the midst of its work it calls the table again (an action of `forEach`,
  ConcurrentHashMap.hpp:308-318) and is to take locks for that -/
  | nested (held todo : List Nat)

def Hold.held : Hold → List Nat
  | .idle => []
  | .take h _ => h
  | .work h => h
  | .nested h _ => h

def setHold (f : Nat → Hold) (i : Nat) (x : Hold) : Nat → Hold := fun j => if j = i then x else f j

/-- One step of thread `i` in a table with `n` locks. -/
inductive LStep (n : Nat) : (Nat → Hold) → Nat → (Nat → Hold) → Prop
  | start (s : Nat → Hold) (i : Nat) (p : List Nat) (hp : Plan n p) (h : s i = .idle) : LStep n s i (setHold s i (.take [] p))
  /-- `test_and_set` succeeds -/
  | acquire (s : Nat → Hold) (i : Nat) (held : List Nat) (l : Nat) (rest : List Nat) (h : s i = .take held (l :: rest))
      (hfree : ∀ j, l ∉ (s j).held) : LStep n s i (setHold s i (.take (l :: held) rest))
  | enter (s : Nat → Hold) (i : Nat) (held : List Nat) (h : s i = .take held []) : LStep n s i (setHold s i (.work held))
  /-- `check_hashpower` after the first lock (map:911-917) -/
  | giveUp (s : Nat → Hold) (i l : Nat) (rest : List Nat) (h : s i = .take [l] rest) : LStep n s i (setHold s i .idle)
  | release (s : Nat → Hold) (i : Nat) (held : List Nat) (h : s i = .work held) : LStep n s i (setHold s i .idle)

/-- A step, or a call from within the work. -/
inductive NStep (n : Nat) : (Nat → Hold) → Nat → (Nat → Hold) → Prop
  | step {s : Nat → Hold} {i : Nat} {s' : Nat → Hold} (h : LStep n s i s') : NStep n s i s'
  | nest (s : Nat → Hold) (i : Nat) (held p : List Nat) (hp : Plan n p) (h : s i = .work held) : NStep n s i (setHold s i (.nested held p))
  | acquire (s : Nat → Hold) (i : Nat) (held : List Nat) (l : Nat) (rest : List Nat) (h : s i = .nested held (l :: rest))
      (hfree : ∀ j, l ∉ (s j).held) : NStep n s i (setHold s i (.nested held rest))
  | back (s : Nat → Hold) (i : Nat) (held : List Nat) (h : s i = .nested held []) : NStep n s i (setHold s i (.work held))

inductive LRun (n : Nat) : (Nat → Hold) → (Nat → Hold) → Prop
  | nil (s : Nat → Hold) : LRun n s s
  | cons {s s' s'' : Nat → Hold} {i : Nat} (h : LStep n s i s') (hr : LRun n s' s'') : LRun n s s''

inductive NRun (n : Nat) : (Nat → Hold) → (Nat → Hold) → Prop
  | nil (s : Nat → Hold) : NRun n s s
  | cons {s s' s'' : Nat → Hold} {i : Nat} (h : NStep n s i s') (hr : NRun n s' s'') : NRun n s s''

/-- No thread is in a call. -/
def quiet : Nat → Hold := fun _ => .idle

end Verif.Cuckoo
