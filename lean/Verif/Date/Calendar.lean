/-!
# The calendar of the C library

`gmtime`, `localtime` and `mktime` use the proleptic Gregorian calendar.  Days are
numbered from 1 January 1970, months from 0; years are full years (1970, not 70).
The functions here are closed formulas; `Spec.lean` and `Lemmas.lean` show that
they agree with the calendar that goes from each day to the next.
-/
namespace Verif.Date

def leap (y : Int) : Bool := decide (y % 4 = 0 ∧ (y % 100 ≠ 0 ∨ y % 400 = 0))

/-- Leap years up to the end of year `y`. -/
def leaps (y : Int) : Int := y / 4 - y / 100 + y / 400

/-- The number of 1 January of year `y`. -/
def yearStart (y : Int) : Int := 365 * (y - 1970) + (leaps (y - 1) - 477)

/-- The days of the year before month `m`. -/
def monthStart (lp : Bool) (m : Int) : Int :=
  if m = 0 then 0
    else if m = 1 then 31
    else if m = 2 then (if lp then 60 else 59)
    else if m = 3 then (if lp then 91 else 90)
    else if m = 4 then (if lp then 121 else 120)
    else if m = 5 then (if lp then 152 else 151)
    else if m = 6 then (if lp then 182 else 181)
    else if m = 7 then (if lp then 213 else 212)
    else if m = 8 then (if lp then 244 else 243)
    else if m = 9 then (if lp then 274 else 273)
    else if m = 10 then (if lp then 305 else 304)
    else (if lp then 335 else 334)

/-- The year of a day: 400 years have 146097 days, and within them the guess
`days / 365` is at most one too large. -/
def yearOf (n : Int) : Int :=
  let q := (n + 719162) / 146097
  let r := (n + 719162) % 146097
  let g := 400 * q + r / 365 + 1
  if n < yearStart g then g - 1 else g

/-- The month of a day of the year. -/
def monthOf (lp : Bool) (yd : Int) : Int :=
  if monthStart lp 11 ≤ yd then 11
  else if monthStart lp 10 ≤ yd then 10
  else if monthStart lp 9 ≤ yd then 9
  else if monthStart lp 8 ≤ yd then 8
  else if monthStart lp 7 ≤ yd then 7
  else if monthStart lp 6 ≤ yd then 6
  else if monthStart lp 5 ≤ yd then 5
  else if monthStart lp 4 ≤ yd then 4
  else if monthStart lp 3 ≤ yd then 3
  else if monthStart lp 2 ≤ yd then 2
  else if monthStart lp 1 ≤ yd then 1
  else 0

/-- A day of the calendar. -/
structure Day where
  year : Int
  month : Int
  day : Int
deriving DecidableEq, Repr

def civil (n : Int) : Day :=
  let y := yearOf n
  let yd := n - yearStart y
  let m := monthOf (leap y) yd
  ⟨y, m, yd - monthStart (leap y) m + 1⟩

/-- The number of a day; months outside of a year count from it, and days outside
of a month from the month. -/
def dayNumber (y m d : Int) : Int :=
  let y' := y + m / 12
  yearStart y' + monthStart (leap y') (m % 12) + (d - 1)

end Verif.Date
