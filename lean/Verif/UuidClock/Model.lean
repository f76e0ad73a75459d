import Verif.NumText.Model
import Verif.NumText.Spec
import Verif.LibUuid.Model
/-!
# The clock file of libuuid

`get_clock` of `library/Java/Util/UUID/libuuid/gen_uuid.c` ("gen_uuid.c"), as called by
`UUID::timeUUID` (UUID.cpp:243-249), with the file all processes of a machine share.
Several processes, each with any number of threads, run it; a process may be killed at
any moment. `HAVE_TLS` and `HAVE_UUIDD` are defined nowhere in the repository: the
variables of gen_uuid.c:269-273 are one set per process, and there is no daemon.

Simplified: a step is a system call or a statement, so that two threads of a process
never access a variable at the very same moment; `flock` does not fail; what `fprintf`
prints reaches the file in one `write` in `fflush`, which does not fail; `rewind`
forgets what was read before; nobody else changes or removes the file.
-/
namespace Verif.UuidClock

open Verif.JString (Str)
open Verif.NumText (digits isSpace digitVal)
open Verif.LibUuid (TimeVal Clock clockReg)

/-! ## The text in the file -/

/-- `%0<w>lu` and `%0<w>x`. -/
def padded (b w n : Nat) : Str :=
  List.replicate (w - (digits b 64 n).length) (chr '0') ++ digits b 64 n

/-- `%0<w>d`. -/
def paddedInt (w : Nat) (v : Int) : Str :=
  if v < 0 then chr '-' :: padded 10 (w - 1) v.natAbs else padded 10 w v.natAbs

/-- gen_uuid.c:360-362: what `fprintf` writes. -/
def text (c : Clock) : Str :=
  txt "clock: " ++ padded 16 4 c.seq.toNat ++ txt " tv: " ++ padded 10 16 (c.last.sec % 2 ^ 64).toNat ++ txt " " ++
    paddedInt 8 c.last.usec ++ txt " adj: " ++ paddedInt 8 c.adjustment ++ txt "\n"

/-- White space in a format of `fscanf`. -/
def skip : Str → Str
  | [] => []
  | c :: s => if isSpace c then skip s else c :: s

/-- Other characters in a format of `fscanf`. -/
def literal : Str → Str → Option Str
  | [], s => some s
  | _ :: _, [] => none
  | c :: f, d :: s => if c = d then literal f s else none

/-- The digits of a number, at most `w`. -/
def digitRun (b : Nat) : (w acc : Nat) → Str → Nat × Str
  | 0, acc, s => (acc, s)
  | _ + 1, acc, [] => (acc, [])
  | w + 1, acc, c :: s =>
    match digitVal c with
    | some d => if d < b then digitRun b w (acc * b + d) s else (acc, c :: s)
    | none => (acc, c :: s)

/-- The text begins with a digit. -/
def startsDigit (b : Nat) : Str → Bool
  | [] => false
  | c :: _ => match digitVal c with
    | some d => d < b
    | none => false

/-- The digits of `%x`, `%lu` and `%d`; no number without a digit. -/
def magnitude (b w : Nat) (s : Str) : Option (Nat × Str) :=
  if w ≠ 0 ∧ startsDigit b s then some (digitRun b w 0 s) else none

/-- `%<w>x`, `%lu`, `%d`: white space, an optional sign and digits, at most `w`
characters. (A prefix `0x` is not modelled: it is read as the digit 0.) -/
def number (b w : Nat) (s : Str) : Option (Int × Str) :=
  match skip s with
  | [] => none
  | c :: r =>
    if c = chr '-' then (magnitude b (w - 1) r).map fun x => (-(x.1 : Int), x.2)
    else if c = chr '+' then (magnitude b (w - 1) r).map fun x => ((x.1 : Int), x.2)
    else (magnitude b w (c :: r)).map fun x => ((x.1 : Int), x.2)

/-- `unsigned long` from what was read; more than 64 bits saturate. -/
def toULong (v : Int) : Int := if v ≥ 2 ^ 64 then 2 ^ 64 - 1 else v % 2 ^ 64

/-- gen_uuid.c:311-318: `fscanf`, and what is stored if all four numbers were read. -/
def scan (s : Str) : Option Clock :=
  match literal (txt "clock:") s with
  | none => none
  | some s =>
    match number 16 4 s with
    | none => none
    | some (cl, s) =>
      match literal (txt "tv:") (skip s) with
      | none => none
      | some s =>
        match number 10 s.length s with
        | none => none
        | some (tv1, s) =>
          match number 10 s.length s with
          | none => none
          | some (tv2, s) =>
            match literal (txt "adj:") (skip s) with
            | none => none
            | some s =>
              match number 10 s.length s with
              | none => none
              | some (a, _) =>
                some ⟨(BitVec.ofInt 32 a).toInt,
                  ⟨(BitVec.ofInt 64 (toULong tv1)).toInt, (BitVec.ofInt 64 (toULong tv2)).toInt⟩,
                  BitVec.ofInt 16 cl &&& 0x3FFF#16⟩

/-- Writing `t` at position `i` of a file; a gap is filled with zeros. -/
def writeAt (i : Nat) (t f : Str) : Str :=
  f.take i ++ List.replicate (i - f.length) 0#8 ++ t ++ f.drop (i + t.length)

/-! ## Processes -/

/-- The variable `state_fd`: -2, -1 or a descriptor. -/
inductive Fd
  | untouched
  | failed
  | opened
deriving DecidableEq

/-- The static variables of a process, gen_uuid.c:269-273. -/
structure Proc where
  fd : Fd
  clk : Clock

/-- The variables when a process starts. -/
def Proc.fresh : Proc := ⟨.untouched, ⟨0, ⟨0, 0⟩, 0⟩⟩

/-- The three branches of gen_uuid.c:330-344. -/
inductive Branch
  | back
  | same
  | later
deriving DecidableEq

/-- Where a call is, with its local variables. -/
inductive Pc
  /-- 280-295: the file may have to be opened -/
  | start
  /-- 296-306: `flock` -/
  | lock
  /-- 307-319: `fscanf` -/
  | read
  /-- 321-326: the first reading of the clock -/
  | init
  /-- 329: `gettimeofday` -/
  | time
  /-- 330-338: the comparisons -/
  | compare (tv : TimeVal)
  /-- 333-344: the branch taken -/
  | update (tv : TimeVal) (b : Branch)
  /-- 346-348: `clock_reg` -/
  | make (tv : TimeVal)
  /-- 359-363: `rewind`, `fprintf` and `fflush` -/
  | save (reg : BitVec 64)
  /-- 364-367: `ftruncate` to what `fprintf` returned -/
  | trunc (reg : BitVec 64) (len : Nat)
  /-- 368-369: `flock` -/
  | unlock (reg : BitVec 64)
  /-- 372-375: the results -/
  | ret (reg : BitVec 64)

/-- What the system answers in a step: whether `open` and `ftruncate` succeed, the time,
random bytes. -/
structure Input where
  opened : Bool
  truncated : Bool
  now : TimeVal
  rnd : BitVec 16

/-- What may happen: a thread calls, a thread makes a step in its call, a process is
killed. -/
inductive Act
  | call (t : Nat)
  | go (t : Nat) (i : Input)
  | kill (p : Nat)

/-- What is observed: a reading of the system clock, the end of a call with the time
register and the clock sequence. -/
inductive Ev
  | reading (tv : TimeVal)
  | ret (t : Nat) (reg : BitVec 64) (seq : BitVec 16)
deriving DecidableEq

/-- The machine. -/
structure St where
  /-- the clock file, if it exists -/
  file : Option Str
  /-- the process that holds the lock of the file -/
  holder : Option Nat
  proc : Nat → Proc
  /-- the calls in progress, by thread -/
  cur : Nat → Option Pc

/-- Pointwise change. -/
def set {α : Type u} (f : Nat → α) (i : Nat) (v : α) : Nat → α := fun j => if j = i then v else f j

/-- gen_uuid.c:330-338: the branch; `none`: the clock is read again. -/
def branch (c : Clock) (tv : TimeVal) : Option Branch :=
  if tv.sec < c.last.sec ∨ (tv.sec = c.last.sec ∧ tv.usec < c.last.usec) then some .back
  else if tv.sec = c.last.sec ∧ tv.usec = c.last.usec then (if c.adjustment ≥ 10 then none else some .same)
  else some .later

/-- gen_uuid.c:333-335, 340, 342-343: the branches. -/
def take (c : Clock) (tv : TimeVal) : Branch → Clock
  | .back => ⟨0, tv, (c.seq + 1#16) &&& 0x3FFF#16⟩
  | .same => { c with adjustment := c.adjustment + 1 }
  | .later => { c with adjustment := 0, last := tv }

/-- gen_uuid.c:266-376: one step of a call of thread `t` in process `p`. `none`: the
thread waits. `num` is 0. -/
def advance (t p : Nat) (i : Input) (s : St) : Pc → Option (St × List Ev)
  | .start =>
    if (s.proc p).fd = .untouched then
      if i.opened then
        some ({ s with file := some (s.file.getD []), proc := set s.proc p { s.proc p with fd := .opened }, cur := set s.cur t (some .lock) }, [])
      else some ({ s with proc := set s.proc p { s.proc p with fd := .failed }, cur := set s.cur t (some .lock) }, [])
    else some ({ s with cur := set s.cur t (some .lock) }, [])
  | .lock =>
    if (s.proc p).fd = .opened then
      if s.holder = none ∨ s.holder = some p then some ({ s with holder := some p, cur := set s.cur t (some .read) }, []) else none
    else some ({ s with cur := set s.cur t (some .init) }, [])
  | .read =>
    match scan (s.file.getD []) with
    | some c => some ({ s with proc := set s.proc p { s.proc p with clk := c }, cur := set s.cur t (some .init) }, [])
    | none => some ({ s with cur := set s.cur t (some .init) }, [])
  | .init =>
    if (s.proc p).clk.last.sec = 0 ∧ (s.proc p).clk.last.usec = 0 then
      some ({ s with
        proc := set s.proc p { s.proc p with clk := ⟨(s.proc p).clk.adjustment, ⟨i.now.sec - 1, i.now.usec⟩, i.rnd &&& 0x3FFF#16⟩ }
        cur := set s.cur t (some .time) }, [.reading i.now])
    else some ({ s with cur := set s.cur t (some .time) }, [])
  | .time => some ({ s with cur := set s.cur t (some (.compare i.now)) }, [.reading i.now])
  | .compare tv =>
    match branch (s.proc p).clk tv with
    | some b => some ({ s with cur := set s.cur t (some (.update tv b)) }, [])
    | none => some ({ s with cur := set s.cur t (some .time) }, [])
  | .update tv b =>
    some ({ s with proc := set s.proc p { s.proc p with clk := take (s.proc p).clk tv b }, cur := set s.cur t (some (.make tv)) }, [])
  | .make tv =>
    some ({ s with cur := set s.cur t (some (if (s.proc p).fd = .opened then .save (clockReg tv (s.proc p).clk.adjustment)
      else .ret (clockReg tv (s.proc p).clk.adjustment))) }, [])
  | .save reg =>
    some ({ s with file := some (writeAt 0 (text (s.proc p).clk) (s.file.getD [])),
                   cur := set s.cur t (some (.trunc reg (text (s.proc p).clk).length)) }, [])
  | .trunc reg len =>
    if i.truncated then some ({ s with file := some ((s.file.getD []).take len), cur := set s.cur t (some (.unlock reg)) }, [])
    else some ({ s with file := some (writeAt len (txt "                   \n") (s.file.getD [])), cur := set s.cur t (some (.unlock reg)) }, [])
  | .unlock reg =>
    some ({ s with holder := if s.holder = some p then none else s.holder, cur := set s.cur t (some (.ret reg)) }, [])
  | .ret reg => some ({ s with cur := set s.cur t none }, [.ret t reg (s.proc p).clk.seq])

/-- One event of the machine; `who t` is the process of thread `t`. A killed process
loses its variables and its lock; its threads may call again, as those of a new process. -/
def step (who : Nat → Nat) (s : St) : Act → Option (St × List Ev)
  | .call t => if (s.cur t).isSome then none else some ({ s with cur := set s.cur t (some .start) }, [])
  | .go t i =>
    match s.cur t with
    | some pc => advance t (who t) i s pc
    | none => none
  | .kill p =>
    some ({ s with
      holder := if s.holder = some p then none else s.holder
      proc := set s.proc p .fresh
      cur := fun t => if who t = p then none else s.cur t }, [])

/-- Any number of events. -/
def runs (who : Nat → Nat) : List Act → St → Option (St × List Ev)
  | [], s => some (s, [])
  | a :: as, s =>
    match step who s a with
    | some (s', l) => (runs who as s').map fun r => (r.1, l ++ r.2)
    | none => none

/-- UUID.cpp:243-249 `UUID::timeUUID` with what `get_clock` gave: gen_uuid.c:465-471, and
the text parsed again. -/
def timeUUID (m : Sem) (fuel : Nat) (reg : BitVec 64) (seq : BitVec 16) (node : List Byte) : Outcome Uuid.UUID := do
  let p ← LibUuid.generateTime reg seq node
  LibUuid.javaOf m fuel p

/-- A machine on which no process has called yet. -/
def start (file : Option Str) : St := ⟨file, none, fun _ => .fresh, fun _ => none⟩

end Verif.UuidClock
