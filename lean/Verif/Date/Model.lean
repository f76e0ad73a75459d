import Verif.JString.Model
import Verif.NumText.Model
import Verif.Obj
import Verif.Date.Calendar
/-!
# java.util.Date (library/Java/Util/Date/Date.cpp, Date.hpp)

A `Date` holds an instant in seconds (`timer`), its text (`backUp`) and a pointer
to the fields of a broken-down time (`localTimer`).  That pointer always comes from
`localtime`, so it always points to the one static `struct tm` of the C library:
the model has one `tm`, shared by all `Date`s.

The C library: `gmtime`, `localtime` and `mktime` follow the Gregorian calendar
(`Calendar.lean`) in a time zone with a fixed offset; `localtime` returns a null
pointer when the year does not fit an `int`; `mktime` returns -1 and leaves the
fields alone in that case; `gmtime` and `localtime` share their static result;
`strftime` in the "C" locale, `%Y` without padding.  `time` is given with the calls that read it.

Not modelled: zones with daylight saving time, several threads, `hashCode`.
-/
namespace Verif.Date
open Verif.JString

/-! ## The C library -/

/-- `struct tm` (`tm_yday`, `tm_isdst`, `tm_gmtoff` and `tm_zone` follow from the
others in a fixed zone). -/
structure Tm where
  year : Int
  mon : Int
  mday : Int
  hour : Int
  min : Int
  sec : Int
  wday : Int
deriving DecidableEq, Repr

/-- A zone: seconds east of Greenwich, and the abbreviation of its name. -/
structure Zone where
  off : Int
  name : Str
  small : -86400 < off ∧ off < 86400
  short : name.length ≤ 60
  plain : ∀ c ∈ name, c ≠ 0

/-- The fields of an instant, seconds already local. -/
def broken (u : Int) : Tm :=
  let c := civil (u / 86400)
  let r := u % 86400
  ⟨c.year - 1900, c.month, c.day, r / 3600, r % 3600 / 60, r % 60, (4 + u / 86400) % 7⟩

/-- `localtime`. -/
def localtime (z : Zone) (t : Int) : Option Tm :=
  let b := broken (t + z.off)
  if INT_MIN ≤ b.year ∧ b.year ≤ INT_MAX then some b else none

/-- `gmtime`. -/
def gmtime (t : Int) : Option Tm :=
  let b := broken t
  if INT_MIN ≤ b.year ∧ b.year ≤ INT_MAX then some b else none

/-- The seconds of fields, which need not be in their ranges. -/
def seconds (b : Tm) : Int := dayNumber (b.year + 1900) b.mon b.mday * 86400 + b.hour * 3600 + b.min * 60 + b.sec

/-- `mktime`: the instant, and the fields it leaves. -/
def mktime (z : Zone) (b : Tm) : Int × Tm :=
  match localtime z (seconds b - z.off) with
  | some b' => (seconds b - z.off, b')
  | none => (-1, b)

/-- `%d`. -/
def number (x : Int) : Str := if x < 0 then chr '-' :: NumText.digits 10 64 x.natAbs else NumText.digits 10 64 x.natAbs

/-- A number of two digits. -/
def two (x : Int) : Str := if 0 ≤ x ∧ x < 10 then chr '0' :: number x else number x

def dayNames : List Str := [txt "Sun", txt "Mon", txt "Tue", txt "Wed", txt "Thu", txt "Fri", txt "Sat"]
def monthNames : List Str :=
  [txt "Jan", txt "Feb", txt "Mar", txt "Apr", txt "May", txt "Jun", txt "Jul", txt "Aug", txt "Sep", txt "Oct", txt "Nov", txt "Dec"]

def nameIn (l : List Str) (i : Int) : Str := if i < 0 then txt "?" else l.getD i.toNat (txt "?")

/-- `strftime` `%T`. -/
def clock (b : Tm) : Str := two b.hour ++ txt ":" ++ two b.min ++ txt ":" ++ two b.sec

/-- `strftime` `%a %b %d %T %Z %Y`. -/
def fullText (z : Zone) (b : Tm) : Str :=
  nameIn dayNames b.wday ++ txt " " ++ nameIn monthNames b.mon ++ txt " " ++ two b.mday ++ txt " " ++ clock b ++ txt " " ++ z.name ++
    txt " " ++ number (b.year + 1900)

/-- `strftime` `%I`. -/
def hour12 (h : Int) : Int := if h > 12 then h - 12 else if h = 0 then 12 else h

/-- `strftime` `%b %d, %Y %I:%M:%S %p`. -/
def localeText (b : Tm) : Str :=
  nameIn monthNames b.mon ++ txt " " ++ two b.mday ++ txt ", " ++ number (b.year + 1900) ++ txt " " ++ two (hour12 b.hour) ++ txt ":" ++
    two b.min ++ txt ":" ++ two b.sec ++ txt " " ++ (if b.hour > 11 then txt "PM" else txt "AM")

/-- `strftime` `%d %b %Y %T GMT`. -/
def gmtText (b : Tm) : Str :=
  two b.mday ++ txt " " ++ nameIn monthNames b.mon ++ txt " " ++ number (b.year + 1900) ++ txt " " ++ clock b ++ txt " GMT"

/-! ## Parsing -/

/-- `c <= ' '` for a (signed) `char`. -/
def blank (c : Byte) : Bool := decide (c.toInt ≤ 32)

def isAlpha (c : Byte) : Bool := isUpper c || isLower c

/-- Date.cpp:195-206 `removeBracket`, one turn of the loop. -/
def bracketBody (s : Str) : Outcome (Step Str Str) :=
  let close := indexOfChar s (BitVec.ofNat 32 41)
  let opn := indexOfChar s (BitVec.ofNat 32 40)
  if opn ≠ -1 ∧ close > opn then do
    let a ← subString s 0 opn
    let b ← subStringFrom s (close + 1)
    .ok (.next (concat a b))
  else .ok (.done s)

/-- Date.cpp:195-206 `removeBracket`. -/
def removeBracket (s : Str) : Outcome Str := iter bracketBody (s.length + 1) s

/-- Date.cpp:442-461 `getSequenceNumber`; the additions are `int` additions. -/
def sequenceNumber (s : Str) : (fuel : Nat) → (index : Nat) → (acc : Int) → Outcome (Int × Nat)
  | 0, _, _ => .diverge
  | n + 1, i, acc => do
    let c ← charAt s i
    if isDigit c then do
      let a ← chk32 (acc * 10)
      let b ← chk32 (a + (c.toNat - 48))
      if i + 1 < s.length then sequenceNumber s n (i + 1) b else .ok (b, i + 1)
    else .ok (acc, i)

/-- Date.cpp:463-486 `getSequenceChar`. -/
def sequenceChar (s : Str) : (fuel : Nat) → (index : Nat) → (acc : Str) → Outcome (Str × Nat)
  | 0, _, _ => .diverge
  | n + 1, i, acc => do
    let c ← charAt s i
    if isAlpha c then
      if i + 1 < s.length then sequenceChar s n (i + 1) (acc ++ [c]) else .ok (acc ++ [c], i + 1)
    else .ok (acc, i)

/-- Date.cpp:217-235: the words and their actions. -/
def wordTable : List (Str × Int) :=
  [(txt "am", 14), (txt "pm", 1),
   (txt "monday", 0), (txt "tuesday", 0), (txt "wednesday", 0), (txt "thursday", 0), (txt "friday", 0), (txt "saturday", 0), (txt "sunday", 0),
   (txt "january", 2), (txt "february", 3), (txt "march", 4), (txt "april", 5), (txt "may", 6), (txt "june", 7),
   (txt "july", 8), (txt "august", 9), (txt "september", 10), (txt "october", 11), (txt "november", 12), (txt "december", 13),
   (txt "gmt", 10000), (txt "ut", 10000), (txt "utc", 10000), (txt "est", 10300), (txt "edt", 10240), (txt "cst", 10360), (txt "cdt", 10300),
   (txt "mst", 10420), (txt "mdt", 10360), (txt "pst", 10480), (txt "pdt", 10420)]

/-- Date.cpp:334-338, 364, 368: the search, on the table reversed. -/
def lookup (w : Str) : List (Str × Int) → Outcome (Option Int)
  | [] => .ok none
  | e :: es => do
    let m ← regionMatches true e.1 0 w 0 w.length
    if m then .ok (some e.2) else lookup w es

/-- Date.cpp:209-215, 237, 247: the variables of `parse`. -/
structure PS where
  year : Int
  month : Int
  day : Int
  hour : Int
  minute : Int
  second : Int
  tz : Int
  prev : Byte
  index : Nat
deriving DecidableEq, Repr

def PS.start : PS := ⟨INT_MIN, -1, -1, -1, -1, -1, -1, 0, 0⟩

/-- `(byte) x`. -/
def toByte (x : Int) : Int := x % 256

/-- Date.cpp:261-320: a number has been read; `c` is `currentChar`. -/
def numberAction (len : Nat) (st : PS) (n : Int) (c : Byte) : Outcome PS :=
  if (st.prev = chr '+' ∨ st.prev = chr '-') ∧ st.year ≠ INT_MIN then
    let n := if n < 24 then n * 60 else n % 100 + n / 100 * 60
    let n := if st.prev = chr '+' then -n else n
    if st.tz ≠ 0 ∧ st.tz ≠ -1 then .throw .interrupted else .ok { st with tz := n }
  else if n ≥ 70 then
    if st.year ≠ INT_MIN then .throw .interrupted
    else if blank c ∨ c = chr ',' ∨ c = chr '/' ∨ st.index ≥ len then .ok { st with year := n }
    else .throw .interrupted
  else if c = chr ':' then
    if st.hour < 0 then .ok { st with hour := toByte n }
    else if st.minute < 0 then .ok { st with minute := toByte n }
    else .throw .interrupted
  else if c = chr '/' then
    if st.month < 0 then .ok { st with month := toByte (n - 1) }
    else if st.day < 0 then .ok { st with day := toByte n }
    else .throw .interrupted
  else if st.index < len ∧ c ≠ chr ',' ∧ ¬ blank c ∧ c ≠ chr '-' then .throw .interrupted
  else if st.hour ≥ 0 ∧ st.minute < 0 then .ok { st with minute := toByte n }
  else if st.minute ≥ 0 ∧ st.second < 0 then .ok { st with second := toByte n }
  else if st.day < 0 then .ok { st with day := toByte n }
  else if st.year = INT_MIN ∧ st.month ≥ 0 ∧ st.day ≥ 0 then .ok { st with year := n }
  else .throw .interrupted

/-- Date.cpp:339-363: a word with an action has been read. -/
def wordAction (st : PS) (action : Int) : Outcome PS :=
  if action ≠ 0 then
    if action = 1 then
      if st.hour > 12 ∨ st.hour < 1 then .throw .interrupted
      else if st.hour < 12 then .ok { st with hour := st.hour + 12 }
      else .ok st
    else if action = 14 then
      if st.hour > 12 ∨ st.hour < 1 then .throw .interrupted
      else if st.hour = 12 then .ok { st with hour := 0 }
      else .ok st
    else if action ≤ 13 then
      if st.month < 0 then .ok { st with month := toByte (action - 2) } else .throw .interrupted
    else .ok { st with tz := action - 10000 }
  else .ok st

/-- Date.cpp:256-259, 321. -/
def numberToken (s : Str) (st : PS) (c : Byte) : Outcome PS := do
  let r ← sequenceNumber s (s.length + 1) st.index 0
  let c ← if r.2 < s.length then charAt s r.2 else .ok c
  let st' ← numberAction s.length { st with index := r.2 } r.1 c
  .ok { st' with prev := 0 }

/-- Date.cpp:328-370. -/
def wordToken (s : Str) (st : PS) : Outcome PS := do
  let r ← sequenceChar s (s.length + 1) st.index []
  if r.2 ≤ st.index then .throw .interrupted
  else do
    let a ← lookup r.1 wordTable.reverse
    match a with
    | none => .throw .interrupted
    | some action => do
      let st' ← wordAction { st with index := r.2 } action
      .ok { st' with prev := 0 }

/-- Date.cpp:249-372: one turn of the loop. -/
def parseBody (s : Str) (st : PS) : Outcome (Step PS PS) :=
  if st.index < s.length then do
    let c ← charAt s st.index
    if blank c ∨ c = chr ',' then .ok (.next { st with index := st.index + 1 })
    else if isDigit c then do
      let st' ← numberToken s st c
      .ok (.next st')
    else if c = chr '/' ∨ c = chr ':' ∨ c = chr '+' ∨ c = chr '-' then .ok (.next { st with prev := c, index := st.index + 1 })
    else do
      let st' ← wordToken s st
      .ok (.next st')
  else .ok (.done st)

/-- Date.cpp:208-376: the text, up to the check of year, month and day. -/
def parseFields (s : Str) : Outcome PS :=
  if s.isEmpty then .throw .interrupted
  else do
    let s ← removeBracket s
    let st ← iter (parseBody s) (s.length + 1) PS.start
    if st.year = INT_MIN ∨ st.month < 0 ∨ st.day < 0 then .throw .interrupted else .ok st

/-! ## Objects -/

structure Obj where
  timer : Int
  text : Str
deriving DecidableEq, Repr

/-- The static fields of the C library and the `Date` variables. -/
structure World where
  tm : Tm
  date : Nat → Obj

def setDate (d : Nat → Obj) (i : Nat) (o : Obj) : Nat → Obj := fun j => if j = i then o else d j

/-- Date.cpp:379-391: years of two digits; `localtime` overwrites the static
fields, and the addition to `tm_year` is made there. -/
def century (z : Zone) (now : Int) (year : Int) : OM World Int :=
  if year < 100 then
    match localtime z now with
    | none => OM.undef
    | some b => do
      let ty ← OM.lift (chk32 (b.year + 1900))
      let w ← OM.read
      OM.write { w with tm := { b with year := ty } }
      let start := ty - 80
      let y := year + start.tdiv 100 * 100
      OM.ret (if y < start then y + 100 else y)
  else OM.ret year

/-- Date.cpp:428-440 `getOffsetFromUTC`. -/
def offsetFromUTC (z : Zone) (now : Int) : OM World Int := do
  match gmtime now, localtime z now with
  | some g, some b =>
    let utc := (mktime z g).1
    let loc := mktime z b
    let w ← OM.read
    OM.write { w with tm := loc.2 }
    OM.ret (utc - loc.1)
  | _, _ => OM.undef

/-- The result of a `long` computation. -/
def chk64 (x : Int) : Outcome Int := if -9223372036854775808 ≤ x ∧ x ≤ 9223372036854775807 then .ok x else .ub

/-- Date.cpp:393-404: 0 for what is missing. -/
def orZero (x : Int) : Int := if x < 0 then 0 else x

/-- Date.cpp:208-426 `parse`. -/
def parse (z : Zone) (now : Int) (s : Str) : OM World Int := do
  let st ← OM.lift (parseFields s)
  let year ← century z now st.year
  let result := (mktime z ⟨year - 1900, st.month, st.day, orZero st.hour, orZero st.minute, orZero st.second, 0⟩).1
  if st.tz = -1 then OM.lift (chk64 (result * 1000))
  else do
    let off ← offsetFromUTC z now
    let m ← OM.lift (chk32 (st.tz * 60))
    OM.lift (chk64 ((result + m - off) * 1000))

/-- Date.cpp:488-513 `updateDateStatus`. -/
def update (z : Zone) (i : Nat) : OM World Unit := do
  let w ← OM.read
  let r := mktime z w.tm
  OM.write ⟨r.2, setDate w.date i ⟨r.1, fullText z r.2⟩⟩

/-- Date.cpp:531-535 `initializeDate(timestamp)`; a null pointer from `localtime`
is used. -/
def initTime (z : Zone) (i : Nat) (t : Int) : OM World Unit :=
  match localtime z t with
  | none => OM.undef
  | some b => do
    let w ← OM.read
    OM.write { w with tm := b }
    update z i

/-- Date.cpp:515-529 `initializeDate(year, ...)`. -/
def initFields (z : Zone) (i : Nat) (y mo d h mi s : Int) : OM World Unit :=
  initTime z i (mktime z ⟨y, mo, d, h, mi, s, 0⟩).1

/-- The effect on the static fields of a `Date` made for the duration of a call
(parameters by value, Date.cpp:140, 144, 554; line 167). -/
def temporary (z : Zone) (t : Int) : OM World Int :=
  match localtime z t with
  | none => OM.undef
  | some b => do
    let r := mktime z b
    let w ← OM.read
    OM.write { w with tm := r.2 }
    OM.ret r.1

/-- Date.cpp:548-552 `getUTCTime`; a null pointer from `gmtime_r` is used. -/
def utcTime (z : Zone) (t : Int) : OM World Int :=
  match gmtime t with
  | none => OM.undef
  | some g => OM.ret (mktime z g).1

inductive Field
  | year | month | date | hours | minutes | seconds | day
deriving DecidableEq, Repr

/-- Date.cpp:104-130: the getters. -/
def Tm.get (b : Tm) : Field → Int
  | .year => b.year
  | .month => b.mon
  | .date => b.mday
  | .hours => b.hour
  | .minutes => b.min
  | .seconds => b.sec
  | .day => b.wday

/-- Date.cpp:69-102: the assignments of the setters (there is none for the day of
the week). -/
def Tm.set (b : Tm) (f : Field) (v : Int) : Tm :=
  match f with
  | .year => { b with year := v }
  | .month => { b with mon := v }
  | .date => { b with mday := v }
  | .hours => { b with hour := v }
  | .minutes => { b with min := v }
  | .seconds => { b with sec := v }
  | .day => b

/-- Calls; `i`, `j` name variables. -/
inductive Op
  | now (i : Nat) (t : Int)
  | make (i : Nat) (y mo d h mi s : Int)
  | ofMillis (i : Nat) (ms : Int)
  | ofText (i : Nat) (s : Str) (now : Int)
  | copy (i j : Nat)
  | set (i : Nat) (f : Field) (v : Int)
  | setTime (i : Nat) (ms : Int)
  | get (i : Nat) (f : Field)
  | getTime (i : Nat)
  | compareTo (i j : Nat)
  | before (i j : Nat)
  | after (i j : Nat)
  | equals (i j : Nat)
  | text (i : Nat)
  | localeText (i : Nat)
  | gmtText (i : Nat)
  | utc (y mo d h mi s : Int)
  | parse (s : Str) (now : Int)
deriving DecidableEq, Repr

inductive Ans
  | done
  | int (x : Int)
  | bool (b : Bool)
  | text (s : Str)
deriving DecidableEq, Repr

/-- One call. -/
def step (z : Zone) : Op → OM World Ans
  -- Date.cpp:37-39
  | .now i t => do
    initTime z i t
    OM.ret .done
  -- Date.cpp:41-51
  | .make i y mo d h mi s => do
    initFields z i y mo d h mi s
    OM.ret .done
  -- Date.cpp:53-56
  | .ofMillis i ms => do
    initTime z i (ms.tdiv 1000)
    OM.ret .done
  -- Date.cpp:58-61
  | .ofText i s now => do
    let ms ← parse z now s
    initTime z i (ms.tdiv 1000)
    OM.ret .done
  -- Date.cpp:171-174, 558-565: constructor, assignment, clone
  | .copy i j => do
    let w ← OM.read
    initTime z i (w.date j).timer
    OM.ret .done
  | .set i f v => do
    let w ← OM.read
    OM.write { w with tm := w.tm.set f v }
    update z i
    OM.ret .done
  -- Date.cpp:94-96
  | .setTime i ms => do
    initTime z i (ms.tdiv 1000)
    OM.ret .done
  | .get _ f => do
    let w ← OM.read
    OM.ret (.int (w.tm.get f))
  -- Date.cpp:132-134
  | .getTime i => do
    let w ← OM.read
    let ms ← OM.lift (chk64 ((w.date i).timer * 1000))
    OM.ret (.int ms)
  -- Date.cpp:148-160
  | .compareTo i j => do
    let w ← OM.read
    let d ← OM.lift (chk64 ((w.date i).timer - (w.date j).timer))
    OM.ret (.int (if d < 0 then -1 else if d > 0 then 1 else 0))
  -- Date.cpp:144-146
  | .before i j => do
    let w ← OM.read
    let t ← temporary z (w.date j).timer
    OM.ret (.bool (decide ((w.date i).timer < t)))
  -- Date.cpp:140-142
  | .after i j => do
    let w ← OM.read
    let t ← temporary z (w.date j).timer
    OM.ret (.bool (decide ((w.date i).timer > t)))
  -- Date.cpp:554-556
  | .equals i j => do
    let w ← OM.read
    let t ← temporary z (w.date j).timer
    let a ← OM.lift (chk64 ((w.date i).timer * 1000))
    let b ← OM.lift (chk64 (t * 1000))
    OM.ret (.bool (decide (a = b)))
  -- Date.cpp:162-164
  | .text i => do
    let w ← OM.read
    OM.ret (.text (cstr (w.date i).text))
  -- Date.cpp:176-179
  | .localeText _ => do
    let w ← OM.read
    OM.ret (.text (Date.localeText w.tm))
  -- Date.cpp:181-188
  | .gmtText i => do
    let w ← OM.read
    let u ← utcTime z (w.date i).timer
    match localtime z u with
    | none => OM.undef
    | some b => do
      OM.write { w with tm := b }
      OM.ret (.text (Date.gmtText b))
  -- Date.cpp:166-169
  | .utc y mo d h mi s => do
    let t ← temporary z (mktime z ⟨y, mo, d, h, mi, s, 0⟩).1
    let ms ← OM.lift (chk64 (t * 1000))
    let u ← utcTime z ms
    OM.ret (.int u)
  | .parse s now => do
    let ms ← parse z now s
    OM.ret (.int ms)

/-- Variables start as dates of the epoch. -/
def start (z : Zone) : World := ⟨broken z.off, fun _ => ⟨0, fullText z (broken z.off)⟩⟩

end Verif.Date
