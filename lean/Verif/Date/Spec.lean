import Verif.Date.Model
import Verif.Date.CalSpec
/-! # What dates should show -/
namespace Verif.Date
open Verif.JString

/-- `b` holds the fields of the instant `t` (in seconds from the epoch) in the zone. -/
structure Shows (z : Zone) (t : Int) (b : Tm) : Prop where
  day : IsDay ((t + z.off) / 86400) ⟨b.year + 1900, b.mon, b.mday⟩
  hour : 0 ≤ b.hour ∧ b.hour < 24
  min : 0 ≤ b.min ∧ b.min < 60
  sec : 0 ≤ b.sec ∧ b.sec < 60
  clock : b.hour * 3600 + b.min * 60 + b.sec = (t + z.off) % 86400
  wday : b.wday = (4 + (t + z.off) / 86400) % 7

/-- The fields, in their ranges or not, name the instant `t`: months are counted
from the year, days from the first of the month, and so on. -/
def Names (z : Zone) (t : Int) (b : Tm) : Prop :=
  ∃ y m n, 12 * y + m = 12 * b.year + b.mon ∧ 0 ≤ m ∧ m ≤ 11 ∧ IsDay n ⟨y + 1900, m, 1⟩ ∧
    t + z.off = (n + (b.mday - 1)) * 86400 + b.hour * 3600 + b.min * 60 + b.sec

/-- Fields in their ranges. -/
structure Tm.Valid (b : Tm) : Prop where
  day : Day.Valid ⟨b.year + 1900, b.mon, b.mday⟩
  hour : 0 ≤ b.hour ∧ b.hour < 24
  min : 0 ≤ b.min ∧ b.min < 60
  sec : 0 ≤ b.sec ∧ b.sec < 60

/-- The instant has a year that fits an `int`. -/
def Representable (z : Zone) (t : Int) : Prop := ∃ b, Shows z t b ∧ INT_MIN ≤ b.year ∧ b.year ≤ INT_MAX

/-! ## Fields and texts -/

/-- What a getter shows: years from 1900, months from 0, days of the week from Sunday. -/
def Tm.shown (b : Tm) : Field → Int
  | .year => b.year
  | .month => b.mon
  | .date => b.mday
  | .day => b.wday
  | .hours => b.hour
  | .minutes => b.min
  | .seconds => b.sec

/-- The fields with another value for one of them. -/
def Tm.with_ : Tm → Field → Int → Tm
  | ⟨_, mo, d, h, mi, s, w⟩, .year, v => ⟨v, mo, d, h, mi, s, w⟩
  | ⟨y, _, d, h, mi, s, w⟩, .month, v => ⟨y, v, d, h, mi, s, w⟩
  | ⟨y, mo, _, h, mi, s, w⟩, .date, v => ⟨y, mo, v, h, mi, s, w⟩
  | ⟨y, mo, d, _, mi, s, w⟩, .hours, v => ⟨y, mo, d, v, mi, s, w⟩
  | ⟨y, mo, d, h, _, s, w⟩, .minutes, v => ⟨y, mo, d, h, v, s, w⟩
  | ⟨y, mo, d, h, mi, _, w⟩, .seconds, v => ⟨y, mo, d, h, mi, v, w⟩
  | b, .day, _ => b

/-- A number in decimal. -/
def dec (x : Int) : Str := txt (ToString.toString x)

/-- A number in decimal with at least two digits. -/
def dec2 (x : Int) : Str := if x < 10 then txt "0" ++ dec x else dec x

def dayWord : Int → String
  | 0 => "Sun" | 1 => "Mon" | 2 => "Tue" | 3 => "Wed" | 4 => "Thu" | 5 => "Fri" | _ => "Sat"

def monthWord : Int → String
  | 0 => "Jan" | 1 => "Feb" | 2 => "Mar" | 3 => "Apr" | 4 => "May" | 5 => "Jun"
  | 6 => "Jul" | 7 => "Aug" | 8 => "Sep" | 9 => "Oct" | 10 => "Nov" | _ => "Dec"

/-- `Mon Nov 16 16:48:01 UTC 2026`. -/
def Tm.full (zone : Str) (b : Tm) : Str :=
  txt (dayWord b.wday) ++ txt " " ++ txt (monthWord b.mon) ++ txt " " ++ dec2 b.mday ++ txt " " ++
    (dec2 b.hour ++ txt ":" ++ dec2 b.min ++ txt ":" ++ dec2 b.sec) ++ txt " " ++ zone ++ txt " " ++ dec (b.year + 1900)

/-- `Nov 16, 2026 04:48:01 PM`; noon and midnight are 12. -/
def Tm.locale (b : Tm) : Str :=
  txt (monthWord b.mon) ++ txt " " ++ dec2 b.mday ++ txt ", " ++ dec (b.year + 1900) ++ txt " " ++
    dec2 (if b.hour % 12 = 0 then 12 else b.hour % 12) ++ txt ":" ++ dec2 b.min ++ txt ":" ++ dec2 b.sec ++ txt " " ++
    (if b.hour < 12 then txt "AM" else txt "PM")

/-- `16 Nov 2026 16:48:01 GMT`. -/
def Tm.gmt (b : Tm) : Str :=
  dec2 b.mday ++ txt " " ++ txt (monthWord b.mon) ++ txt " " ++ dec (b.year + 1900) ++ txt " " ++
    (dec2 b.hour ++ txt ":" ++ dec2 b.min ++ txt ":" ++ dec2 b.sec) ++ txt " GMT"

/-! ## A program with one Date -/

/-- The calls that a program with the single variable `i` makes, as a relation between
the instant before, the instant after and the answer. -/
def Lone (z : Zone) (i : Nat) : Op → Int → Int → Except Exc Ans → Prop
  | .now _ u, _, t', a => t' = u ∧ a = .ok .done
  | .make _ y mo d h mi s, _, t', a => Names z t' ⟨y, mo, d, h, mi, s, 0⟩ ∧ a = .ok .done
  | .ofMillis _ ms, _, t', a => t' = ms.tdiv 1000 ∧ a = .ok .done
  | .setTime _ ms, _, t', a => t' = ms.tdiv 1000 ∧ a = .ok .done
  | .copy _ _, t, t', a => t' = t ∧ a = .ok .done
  | .set _ f v, t, t', a => (∃ b, Shows z t b ∧ Names z t' (b.with_ f v)) ∧ a = .ok .done
  | .get _ f, t, t', a => t' = t ∧ ∃ b, Shows z t b ∧ a = .ok (.int (b.shown f))
  | .getTime _, t, t', a => t' = t ∧ a = .ok (.int (1000 * t))
  | .compareTo _ _, t, t', a => t' = t ∧ a = .ok (.int 0)
  | .before _ _, t, t', a => t' = t ∧ a = .ok (.bool false)
  | .after _ _, t, t', a => t' = t ∧ a = .ok (.bool false)
  | .equals _ _, t, t', a => t' = t ∧ a = .ok (.bool true)
  | .text _, t, t', a => t' = t ∧ ∃ b, Shows z t b ∧ a = .ok (.text (b.full z.name))
  | .localeText _, t, t', a => t' = t ∧ ∃ b, Shows z t b ∧ a = .ok (.text b.locale)
  | _, _, _, _ => False

/-- Calls on the variable `i` alone that stay within representable instants; times in
milliseconds must fit a `long`.  `parse`, `UTC`, `toGMTString` and construction from a
text are not among them. -/
def LoneLegal (z : Zone) (i : Nat) : Op → Int → Prop
  | .now k u, _ => k = i ∧ Representable z u
  | .make k y mo d h mi s, _ => k = i ∧ ∀ u, Names z u ⟨y, mo, d, h, mi, s, 0⟩ → Representable z u
  | .ofMillis k ms, _ => k = i ∧ Representable z (ms.tdiv 1000)
  | .setTime k ms, _ => k = i ∧ Representable z (ms.tdiv 1000)
  | .copy k j, _ => k = i ∧ j = i
  | .set k f v, t => k = i ∧ f ≠ .day ∧ ∀ b u, Shows z t b → Names z u (b.with_ f v) → Representable z u
  | .get k _, _ => k = i
  | .getTime k, t => k = i ∧ -9223372036854775808 ≤ 1000 * t ∧ 1000 * t ≤ 9223372036854775807
  | .compareTo k j, _ => k = i ∧ j = i
  | .before k j, _ => k = i ∧ j = i
  | .after k j, _ => k = i ∧ j = i
  | .equals k j, t => k = i ∧ j = i ∧ -9223372036854775808 ≤ 1000 * t ∧ 1000 * t ≤ 9223372036854775807
  | .text k, _ => k = i
  | .localeText k, _ => k = i
  | _, _ => False

end Verif.Date
