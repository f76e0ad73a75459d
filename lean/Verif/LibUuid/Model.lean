import Verif.NumText.Model
import Verif.Uuid.Model
/-!
# libuuid

`/repo/library/Java/Util/UUID/libuuid/*.c`, and the two generators of
`UUID.cpp`.  A `uuid_t` is a list of 16 bytes; reading or writing beyond it is
undefined.
-/
namespace Verif.LibUuid
open Verif.NumText Verif.JString

/-- uuidP.h:50-56 `struct uuid`. -/
structure Fields where
  timeLow : BitVec 32
  timeMid : BitVec 16
  timeHi : BitVec 16
  clockSeq : BitVec 16
  node : List Byte
deriving DecidableEq, Repr

/-- `out[i] = (unsigned char) tmp` after `8 k` bits were shifted out. -/
def byteOf (tmp : BitVec 32) (k : Nat) : Byte := (tmp >>> (8 * k)).setWidth 8

/-- pack.c:38-68 `uuid_pack`. -/
def pack (u : Fields) : Outcome (List Byte) :=
  let low := u.timeLow
  let mid := u.timeMid.setWidth 32
  let hi := u.timeHi.setWidth 32
  let seq := u.clockSeq.setWidth 32
  match u.node with
  | [a, b, c, d, e, f] =>
    .ok [byteOf low 3, byteOf low 2, byteOf low 1, byteOf low 0, byteOf mid 1, byteOf mid 0, byteOf hi 1, byteOf hi 0,
      byteOf seq 1, byteOf seq 0, a, b, c, d, e, f]
  | _ => .ub

/-- `tmp = (tmp << 8) | *ptr++`. -/
def shiftIn (tmp : BitVec 32) (b : Byte) : BitVec 32 := (tmp <<< 8) ||| b.setWidth 32

/-- unpack.c:38-62 `uuid_unpack`. -/
def unpack (p : List Byte) : Outcome Fields :=
  match p with
  | [b0, b1, b2, b3, b4, b5, b6, b7, b8, b9, n0, n1, n2, n3, n4, n5] =>
    .ok { timeLow := shiftIn (shiftIn (shiftIn (b0.setWidth 32) b1) b2) b3
          timeMid := (shiftIn (b4.setWidth 32) b5).setWidth 16
          timeHi := (shiftIn (b6.setWidth 32) b7).setWidth 16
          clockSeq := (shiftIn (b8.setWidth 32) b9).setWidth 16
          node := [n0, n1, n2, n3, n4, n5] }
  | _ => .ub

/-- `isxdigit` in the "C" locale. (For a negative `char` the call is undefined in
ISO C; glibc's table answers no.) -/
def isXDigit (c : Byte) : Bool := isDigit c || (97 ≤ c.toNat && c.toNat ≤ 102) || (65 ≤ c.toNat && c.toNat ≤ 70)

/-- `strtoul(s, NULL, 16)`: as `std::stoul`, which calls it; without digits the
answer is 0, out of range `ULONG_MAX`. -/
def strtoul16 (s : Str) : Outcome (BitVec 64) :=
  match stoul s 16 with
  | .ok v => .ok v
  | .throw .outOfRange => .ok (-1)
  | .throw _ => .ok 0
  | r => r

/-- parse.c:51-64, the loop from position `i` on, `n` turns left; the characters of
the C string `s`, its terminator at position `s.length`. -/
def scanText (s : Str) : (i n : Nat) → Outcome Bool
  | _, 0 => .ok true
  | i, n + 1 => do
    let c ← Str.at s i
    if i = 8 ∨ i = 13 ∨ i = 18 ∨ i = 23 then
      if c = chr '-' then scanText s (i + 1) n else .ok false
    else if i = 36 ∧ c = 0 then scanText s (i + 1) n
    else if isXDigit c then scanText s (i + 1) n
    else .ok false

/-- parse.c:69-75: one byte of the node from two characters. -/
def nodeByte (s : Str) (i : Nat) : Outcome Byte := do
  let c ← Str.at s (24 + 2 * i)
  let d ← Str.at s (24 + 2 * i + 1)
  let v ← strtoul16 [c, d]
  .ok (v.setWidth 8)

/-- parse.c:42-79 `uuid_parse` of the C string `s`: `none` for -1, else the bytes. -/
def parse (s : Str) : Outcome (Option (List Byte)) :=
  if s.length ≠ 36 then .ok none
  else do
    let good ← scanText s 0 37
    if good = false then .ok none
    else do
      let low ← strtoul16 s
      let mid ← strtoul16 (s.drop 9)
      let hi ← strtoul16 (s.drop 14)
      let seq ← strtoul16 (s.drop 19)
      let n0 ← nodeByte s 0
      let n1 ← nodeByte s 1
      let n2 ← nodeByte s 2
      let n3 ← nodeByte s 3
      let n4 ← nodeByte s 4
      let n5 ← nodeByte s 5
      let out ← pack ⟨low.setWidth 32, mid.setWidth 16, hi.setWidth 16, seq.setWidth 16, [n0, n1, n2, n3, n4, n5]⟩
      .ok (some out)

/-- `%0<w>x` and `%0<w>X`. -/
def hexFmt (upper : Bool) (w n : Nat) : Str :=
  let d := digits 16 64 n
  let d := List.replicate (w - d.length) (chr '0') ++ d
  if upper then d.map toUpperB else d

/-- unparse.c:38-61 `uuid_unparse_x` with one of the two formats: the text written
before the terminator. -/
def unparse (upper : Bool) (p : List Byte) : Outcome Str := do
  let u ← unpack p
  match u.node with
  | [a, b, c, d, e, f] =>
    .ok (hexFmt upper 8 u.timeLow.toNat ++ txt "-" ++ hexFmt upper 4 u.timeMid.toNat ++ txt "-" ++ hexFmt upper 4 u.timeHi.toNat ++ txt "-" ++
      hexFmt upper 2 (u.clockSeq >>> 8).toNat ++ hexFmt upper 2 (u.clockSeq &&& 0xff#16).toNat ++ txt "-" ++
      hexFmt upper 2 a.toNat ++ hexFmt upper 2 b.toNat ++ hexFmt upper 2 c.toNat ++ hexFmt upper 2 d.toNat ++ hexFmt upper 2 e.toNat ++
      hexFmt upper 2 f.toNat)
  | _ => .ub

/-- The macro `UUCMP` of compare.c:40; `rest` is what follows it. -/
def uucmp (a b : BitVec w) (rest : Int) : Int := if a ≠ b then (if a < b then -1 else 1) else rest

/-- `memcmp`: only the sign is specified; here -1, 0 or 1. -/
def memcmp : List Byte → List Byte → Int
  | a :: s, b :: t => if a ≠ b then (if a < b then -1 else 1) else memcmp s t
  | _, _ => 0

/-- compare.c:42-54 `uuid_compare`. -/
def compare (p q : List Byte) : Outcome Int := do
  let u ← unpack p
  let v ← unpack q
  .ok (uucmp u.timeLow v.timeLow (uucmp u.timeMid v.timeMid (uucmp u.timeHi v.timeHi (uucmp u.clockSeq v.clockSeq (memcmp u.node v.node)))))

/-- isnull.c:38-47 `uuid_is_null`, `n` bytes left. -/
def isNullFrom (p : List Byte) : (i n : Nat) → Outcome Int
  | _, 0 => .ok 1
  | i, n + 1 => do
    let b ← Arr.get p i
    if b ≠ 0 then .ok 0 else isNullFrom p (i + 1) n
def isNull (p : List Byte) : Outcome Int := isNullFrom p 0 16

/-- uuid_time.c:78-84 `uuid_type`. -/
def type (p : List Byte) : Outcome (BitVec 16) := do
  let u ← unpack p
  .ok ((u.timeHi >>> 12) &&& 0xF#16)

/-- uuid_time.c:86-101 `uuid_variant`, with the constants of uuid.h: NCS 0, DCE 1,
MICROSOFT 2, OTHER 3. -/
def variant (p : List Byte) : Outcome Int := do
  let u ← unpack p
  if u.clockSeq &&& 0x8000#16 = 0#16 then .ok 0
  else if u.clockSeq &&& 0x4000#16 = 0#16 then .ok 1
  else if u.clockSeq &&& 0x2000#16 = 0#16 then .ok 2
  else .ok 3

/-- The offset of uuidP.h:47-48, `(((uint64_t) 0x01B21DD2) << 32) + 0x13814000`. -/
def timeOffset : BitVec 64 := 0x01B21DD213814000#64

/-- uuid_time.c:56-76 `uuid_time`: seconds and microseconds. -/
def time (p : List Byte) : Outcome (BitVec 64 × BitVec 64) := do
  let u ← unpack p
  let high : BitVec 32 := u.timeMid.setWidth 32 ||| ((u.timeHi &&& 0xFFF#16).setWidth 32 <<< 16)
  let reg : BitVec 64 := u.timeLow.setWidth 64 ||| (high.setWidth 64 <<< 32)
  let reg := reg - timeOffset
  .ok (reg / 10000000#64, (reg % 10000000#64) / 10#64)

/-- gen_uuid.c:540-561 `__uuid_generate_random`, one turn: the result for the
random bytes `buf`. -/
def generateRandom (buf : List Byte) : Outcome (List Byte) := do
  let u ← unpack buf
  pack { u with clockSeq := (u.clockSeq &&& 0x3FFF#16) ||| 0x8000#16, timeHi := (u.timeHi &&& 0x0FFF#16) ||| 0x4000#16 }

/-- gen_uuid.c:464-469 in `__uuid_generate_time`: the UUID of a clock register, a
clock sequence and a node. -/
def generateTime (reg : BitVec 64) (seq : BitVec 16) (node : List Byte) : Outcome (List Byte) :=
  let mid : BitVec 32 := (reg >>> 32).setWidth 32
  pack ⟨reg.setWidth 32, mid.setWidth 16, (((mid >>> 16) &&& 0x0FFF#32) ||| 0x1000#32).setWidth 16, seq ||| 0x8000#16, node⟩

/-- UUID.cpp:235-249 `randomUUID` and `timeUUID`: the bytes are printed and read
again. `String(const char *)` takes the text up to its terminator. -/
def javaOf (m : Sem) (fuel : Nat) (p : List Byte) : Outcome Uuid.UUID := do
  let t ← unparse false p
  Uuid.fromString m fuel t

/-- UUID.cpp:235-241 `randomUUID`. -/
def randomUUID (m : Sem) (fuel : Nat) (buf : List Byte) : Outcome Uuid.UUID := do
  let p ← generateRandom buf
  javaOf m fuel p

/-! ## The clock of time-based UUIDs -/

/-- A `struct timeval`. -/
structure TimeVal where
  sec : Int
  usec : Int
deriving DecidableEq, Repr

/-- The static state of `get_clock`, gen_uuid.c:269-273 (`HAVE_TLS` is not defined,
so it is not thread-local). -/
structure Clock where
  adjustment : Int
  last : TimeVal
  seq : BitVec 16
deriving DecidableEq, Repr

/-- gen_uuid.c:346-348: `clock_reg`, in `uint64_t`. -/
def clockReg (tv : TimeVal) (adjustment : Int) : BitVec 64 :=
  BitVec.ofInt 64 (tv.usec * 10 + adjustment) + BitVec.ofInt 64 tv.sec * 10000000#64 + timeOffset

/-- gen_uuid.c:328-348, from `try_again` on, without a state file and with `num` 0:
`none` when the code reads the clock again, else the state, the register and the
clock sequence. -/
def tryClock (c : Clock) (tv : TimeVal) : Option (Clock × BitVec 64 × BitVec 16) :=
  if tv.sec < c.last.sec ∨ (tv.sec = c.last.sec ∧ tv.usec < c.last.usec) then
    let seq := (c.seq + 1#16) &&& 0x3FFF#16
    some (⟨0, tv, seq⟩, clockReg tv 0, seq)
  else if tv.sec = c.last.sec ∧ tv.usec = c.last.usec then
    if c.adjustment ≥ 10 then none
    else some (⟨c.adjustment + 1, c.last, c.seq⟩, clockReg tv (c.adjustment + 1), c.seq)
  else some (⟨0, tv, c.seq⟩, clockReg tv 0, c.seq)

/-- gen_uuid.c:321-326: the state before the first reading; `now` is the first
reading of the clock and `rnd` the random bytes. (The code would come here again if
the clock read exactly 0 seconds and 0 microseconds; not modelled.) -/
def startClock (now : TimeVal) (rnd : BitVec 16) : Clock := ⟨0, ⟨now.sec - 1, now.usec⟩, rnd &&& 0x3FFF#16⟩

/-- The clock readings of a process without a state file and with one thread, in
order: what each call that returned got. -/
def clocks (c : Clock) : List TimeVal → List (BitVec 64 × BitVec 16)
  | [] => []
  | tv :: tvs =>
    match tryClock c tv with
    | none => clocks c tvs
    | some (c', r) => r :: clocks c' tvs

end Verif.LibUuid
