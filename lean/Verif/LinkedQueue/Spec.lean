import Verif.LinkedQueue.Model
/-!
# What a user of `ConcurrentLinkedQueue` relies on

Everything here is said of the log of finished calls: who called, what came back, when the
call began and when it ended.  The log is in the order in which the calls ended.
-/
namespace Verif.LinkedQueue

variable {E : Type}

/-- An `add` that put an element in. -/
def Rec.isAdd (r : Rec E) : Bool :=
  match r.res with
  | .added _ => true
  | _ => false

/-- A `poll` that took an element out. -/
def Rec.isGet (r : Rec E) : Bool :=
  match r.res with
  | .polled (some _) => true
  | _ => false

def adds (l : List (Rec E)) : Nat := l.countP Rec.isAdd
def gets (l : List (Rec E)) : Nat := l.countP Rec.isGet

/-- Call `n` of the log is an `add(e)` of thread `t`. -/
def Added (l : List (Rec E)) (n t : Nat) (e : E) : Prop :=
  ∃ r, l[n]? = some r ∧ r.thr = t ∧ r.res = .added e

/-- Call `n` of the log is a `poll()` that returned `e`. -/
def Got (l : List (Rec E)) (n : Nat) (e : E) : Prop :=
  ∃ r, l[n]? = some r ∧ r.res = .polled (some e)

/-- Every element returned was put in by an `add` that had ended, and no `add` answers for
two of them: nothing is made up, nothing comes out twice. -/
def Matched (l : List (Rec E)) (src : Nat → Nat) : Prop :=
  (∀ n e, Got l n e → src n < n ∧ ∃ t, Added l (src n) t e) ∧
  (∀ n m e e', Got l n e → Got l m e' → src n = src m → n = m)

/-- Call `n` had ended when call `m` began. -/
def Before (l : List (Rec E)) (n m : Nat) : Prop :=
  ∃ r r', l[n]? = some r ∧ l[m]? = some r' ∧ r.ended < r'.began

/-- Of two elements one thread added, the later does not come out in a call that had ended
when the call returning the earlier one began. -/
def InOrder (l : List (Rec E)) (src : Nat → Nat) : Prop :=
  ∀ n m e e' t a a', Got l n e → Got l m e' → Added l (src n) t a → Added l (src m) t a' →
    src n < src m → ¬ Before l m n

/-- When an element of a thread has come out, everything that thread added before it has
come out too, or some thread is in the middle of a call. -/
def NoSkip (s : Sys E) (src : Nat → Nat) : Prop :=
  ∀ m e t a n b, Got s.log m e → Added s.log (src m) t a → n < src m → Added s.log n t b →
    (∃ k e', Got s.log k e' ∧ src k = n) ∨ ∃ t', s.pos t' ≠ .idle

/-- No thread is in the middle of a call. -/
def Still (s : Sys E) : Prop := ∀ t, s.pos t = .idle

/-- A thread is inside a `poll`. -/
def InPoll : Pos E → Prop
  | .poll => True
  | .scan .. => True
  | .scanH .. => True
  | .deq .. => True
  | .others _ => True
  | _ => False

/-- While thread `t` makes one call, the other threads may begin anything that `ok` allows,
and everybody moves. -/
inductive During (t : Nat) (ok : Call E → Prop) (s : Sys E) : Sys E → Prop where
  | refl : During t ok s s
  | call {s1 : Sys E} (t' : Nat) (c : Call E) : During t ok s s1 → t' ≠ t →
      s1.pos t' = .idle → ok c → During t ok s (begin s1 t' c)
  | tick {s1 s2 : Sys E} (t' c : Nat) : During t ok s s1 → tick s1 t' c = some s2 →
      During t ok s s2

/-- Anything but `poll`. -/
def NotPoll : Call E → Prop
  | .poll => False
  | _ => True

/-- Thread `t` steps `k` times, the others do as they please. -/
inductive Steps (t : Nat) (s : Sys E) : Nat → Sys E → Prop where
  | refl : Steps t s 0 s
  | call {k : Nat} {s1 : Sys E} (t' : Nat) (c : Call E) : Steps t s k s1 → t' ≠ t →
      s1.pos t' = .idle → Steps t s k (begin s1 t' c)
  | other {k : Nat} {s1 s2 : Sys E} (t' c : Nat) : Steps t s k s1 → t' ≠ t →
      tick s1 t' c = some s2 → Steps t s k s2
  | own {k : Nat} {s1 s2 : Sys E} (c : Nat) : Steps t s k s1 → tick s1 t c = some s2 →
      Steps t s (k + 1) s2

/-- Thread `t` alone steps. -/
inductive Solo (t : Nat) (s : Sys E) : Sys E → Prop where
  | refl : Solo t s s
  | step {s1 s2 : Sys E} (c : Nat) : Solo t s s1 → tick s1 t c = some s2 → Solo t s s2

/-! ### Calls made one after the other -/

/-- What a queue holds: by adding thread, oldest first; and how much in all. -/
structure Store (E : Type) where
  of : Nat → List E
  size : Nat

/-- Nothing. -/
def Store.none : Store E := { of := fun _ => [], size := 0 }

/-- The answers a queue holding `q` may give, and what it holds then: `add` puts the element
behind the others of its thread, `poll` takes the oldest element of some thread and finds
none only when there is none. -/
inductive Store.Answers (q : Store E) (r : Rec E) : Store E → Prop where
  | add (e : E) : r.res = .added e →
      Answers q r { of := fun t => if t = r.thr then q.of t ++ [e] else q.of t, size := q.size + 1 }
  | poll (t : Nat) (e : E) (l : List E) : r.res = .polled (some e) → q.of t = e :: l →
      Answers q r { of := fun t' => if t' = t then l else q.of t', size := q.size - 1 }
  | empty : r.res = .polled .none → (∀ t, q.of t = []) → q.size = 0 → Answers q r q
  | size : r.res = .size ((q.size : Int).bmod (2 ^ 32)) → Answers q r q
  | isEmpty : r.res = .isEmpty (q.size == 0) → Answers q r q

/-- The log is one of such a queue, which holds `q` at its end. -/
inductive Store.Serves : List (Rec E) → Store E → Prop where
  | nil : Serves [] .none
  | snoc {l : List (Rec E)} {q q' : Store E} {r : Rec E} : Serves l q → Answers q r q' →
      Serves (l ++ [r]) q'

/-- The answers of a plain first-in first-out queue holding `q`. -/
inductive Plainly (q : List E) (r : Rec E) : List E → Prop where
  | add (e : E) : r.res = .added e → Plainly q r (q ++ [e])
  | poll (e : E) (l : List E) : r.res = .polled (some e) → q = e :: l → Plainly q r l
  | empty : r.res = .polled .none → q = [] → Plainly q r q
  | size : r.res = .size ((q.length : Int).bmod (2 ^ 32)) → Plainly q r q
  | isEmpty : r.res = .isEmpty (q.length == 0) → Plainly q r q

/-- The log is one of a plain queue. -/
inductive Fifo : List (Rec E) → List E → Prop where
  | nil : Fifo [] []
  | snoc {l : List (Rec E)} {q q' : List E} {r : Rec E} : Fifo l q → Plainly q r q' →
      Fifo (l ++ [r]) q'

/-- States reached by calls made one after the other, by any threads. -/
inductive SeqReach (quiet : Bool) : Sys E → Prop where
  | init : SeqReach quiet (init quiet)
  | call {s : Sys E} (t : Nat) (c : Call E) : SeqReach quiet s → Still s →
      SeqReach quiet (begin s t c)
  | tick {s s' : Sys E} (t c : Nat) : SeqReach quiet s → tick s t c = some s' →
      SeqReach quiet s'

end Verif.LinkedQueue
