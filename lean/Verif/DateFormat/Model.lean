import Verif.Date.Model
/-!
# Formatting dates (Java/Text/SimpleDateFormat, Java/Util/TimeZone)

The C library: `TZ` names the zone, given by a function `zoneOf`; `strftime` copies characters and
replaces each `%` and the character after it by a text given by a function `conv` (flags and widths are
not modelled); what it leaves in a buffer that is too small is indeterminate, and using it is undefined.
One thread.
-/
namespace Verif.DateFormat
open Verif.JString Verif.Date

/-- What formatting depends on in the C library. -/
structure Lib where
  /-- the zone for a value of `TZ`, or for none -/
  zoneOf : Option Str → Zone
  /-- the text for a conversion -/
  conv : Byte → Zone → Tm → Str

/-- `strftime`: the text, without a limit. A lone `%` at the end is copied. -/
def render (lib : Lib) (z : Zone) (b : Tm) : Str → Str
  | [] => []
  | [c] => [c]
  | c :: c' :: rest => if c = chr '%' then lib.conv c' z b ++ render lib z b rest else c :: render lib z b (c' :: rest)

/-- The process: the dates (`Verif.Date`), the value of `TZ`, the one object behind
`TimeZone::getTimeZone` (Java/Util/TimeZone/TimeZone.cpp:38-42). -/
structure World where
  dates : Date.World
  tz : Option Str
  shared : Str

/-- `TimeZone` references and values: a reference is to the shared object. -/
inductive ZoneRef
  | shared
  | own (id : Str)
  deriving DecidableEq, Repr

/-- Java/Util/TimeZone/TimeZone.cpp:38-42 `getTimeZone`. -/
def getTimeZone (w : World) (id : Str) : World × ZoneRef := ({ w with shared := id }, .shared)

/-- Java/Util/TimeZone/TimeZone.cpp:34-36 `getID`. -/
def getID (w : World) : ZoneRef → Str
  | .shared => w.shared
  | .own id => id

/-- `SimpleDateFormat` (Java/Text/SimpleDateFormat/SimpleDateFormat.hpp:41-44). -/
structure Format where
  pattern : Str
  zone : Str
  deriving DecidableEq, Repr

/-- Java/Text/SimpleDateFormat/SimpleDateFormat.cpp:30-36, TimeZone.hpp:38: the zone is UTC at first. -/
def make (pattern : Str) : Format := ⟨pattern, txt "UTC"⟩

/-- Java/Text/SimpleDateFormat/SimpleDateFormat.cpp:38-40: the zone is copied. -/
def setTimeZone (w : World) (f : Format) (z : ZoneRef) : Format := { f with zone := getID w z }

/-- Java/Text/SimpleDateFormat/SimpleDateFormat.cpp:47, the size of the buffer. -/
def bufferLength : Nat := 80

/-- Java/Text/SimpleDateFormat/SimpleDateFormat.cpp:42-57 `format` of the date in variable `i`. `now` is
the present time, whose `tm_gmtoff` from `gmtime` is 0. `localtime` leaves its result in the fields all
dates share. -/
def format (lib : Lib) (f : Format) (i : Nat) (now : Int) (w : World) : Outcome (World × Str) :=
  let tz := cstr f.zone
  match gmtime now with
  | none => .ub
  | some _ =>
    (chk64 ((w.dates.date i).timer * 1000)).bind fun ms =>
      let z := lib.zoneOf (some tz)
      match localtime z (ms.tdiv 1000 + 0) with
      | none => .ub
      | some b =>
        let s := render lib z b (cstr f.pattern)
        if s.length + 1 > bufferLength then .ub
        else (trim (cstr s)).bind fun r => .ok (⟨{ w.dates with tm := b }, none, w.shared⟩, r)

end Verif.DateFormat
