import Verif.Date.Calendar
/-! # The calendar, from each day to the next -/
namespace Verif.Date

/-- The days of a month. -/
def monthLength (y m : Int) : Int :=
  if m = 1 then (if y % 400 = 0 then 29 else if y % 100 = 0 then 28 else if y % 4 = 0 then 29 else 28)
  else if m = 3 ∨ m = 5 ∨ m = 8 ∨ m = 10 then 30
  else 31

/-- A day that exists. -/
def Day.Valid (d : Day) : Prop := 0 ≤ d.month ∧ d.month ≤ 11 ∧ 1 ≤ d.day ∧ d.day ≤ monthLength d.year d.month

/-- The day after. -/
def Day.next (d : Day) : Day :=
  if d.day < monthLength d.year d.month then { d with day := d.day + 1 }
  else if d.month < 11 then ⟨d.year, d.month + 1, 1⟩
  else ⟨d.year + 1, 0, 1⟩

/-- The `k`-th day after `d`. -/
def Day.after (d : Day) : Nat → Day
  | 0 => d
  | k + 1 => (d.after k).next

/-- 1 January 1970, a Thursday. -/
def epoch : Day := ⟨1970, 0, 1⟩

/-- `d` is the day with number `n`: the `n`-th after the epoch, or the one whose
`-n`-th following day is the epoch. -/
def IsDay (n : Int) (d : Day) : Prop :=
  d.Valid ∧ ((∃ k : Nat, n = k ∧ epoch.after k = d) ∨ (∃ k : Nat, n = -k ∧ d.after k = epoch))

end Verif.Date
