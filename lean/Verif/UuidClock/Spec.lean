import Verif.LibUuid.Spec
import Verif.UuidClock.Model
/-! # What users of time-based UUIDs rely on -/
namespace Verif.UuidClock

open Verif.LibUuid (TimeVal backSteps generateTime)

/-- The readings of the system clock in a history, in order. -/
def readings : List Ev → List TimeVal
  | [] => []
  | .reading tv :: l => tv :: readings l
  | .ret _ _ _ :: l => readings l

/-- The calls that ended, in order: thread, time register and clock sequence. -/
def results : List Ev → List (Nat × BitVec 64 × BitVec 16)
  | [] => []
  | .reading _ :: l => results l
  | .ret t reg seq :: l => (t, reg, seq) :: results l

/-- The clock shows a time at least two seconds after 1970 and before the year 4147. -/
def Sensible (tv : TimeVal) : Prop := 2 ≤ tv.sec ∧ tv.sec < 2 ^ 36 ∧ 0 ≤ tv.usec ∧ tv.usec < 1000000

/-- A clock that is fine enough and rarely set back: it shows no microsecond to ten
calls or more and goes back fewer than 2^14 times. -/
def FineClock (rs : List TimeVal) : Prop := (∀ tv ∈ rs, Sensible tv) ∧ (∀ tv, rs.count tv ≤ 9) ∧ backSteps rs < 2 ^ 14

/-- All files were opened. -/
def AllOpen (as : List Act) : Prop := ∀ t i, Act.go t i ∈ as → i.opened = true

/-- How many calls of thread `t` began. -/
def calls (t : Nat) : List Act → Nat
  | [] => 0
  | .call u :: as => (if u = t then 1 else 0) + calls t as
  | _ :: as => calls t as

/-- How many steps thread `t` made in its calls. -/
def steps (t : Nat) : List Act → Nat
  | [] => 0
  | .go u _ :: as => (if u = t then 1 else 0) + steps t as
  | _ :: as => steps t as

/-- A thread waits for the lock of the file, which another process holds. -/
def Waits (who : Nat → Nat) (s : St) (t : Nat) : Prop :=
  s.cur t = some .lock ∧ ∃ p, s.holder = some p ∧ p ≠ who t

end Verif.UuidClock
