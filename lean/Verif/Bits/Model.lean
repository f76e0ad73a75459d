import Verif.CInt
/-!
# `Integer` and `Long` bit operations

`/repo/library/Java/Lang/Integer/Integer.cpp` and `Long/Long.cpp`.  `int` is
`BitVec 32`, `long` is `BitVec 64`.
-/
namespace Verif.Bits
open Verif.CInt

/-- `x << k` on a signed operand. ISO C++11: undefined when the count is
negative or not below the width, when the operand is negative, or when the
result does not fit the unsigned type. x86-64: count modulo the width. -/
def shl (m : Sem) (x : BitVec w) (k : Int) : Outcome (BitVec w) :=
  if m = .strict ∧ (k < 0 ∨ (w : Int) ≤ k ∨ x.msb ∨ 2 ^ w ≤ x.toNat * 2 ^ k.toNat) then .ub
  else .ok (x <<< (k % w).toNat)

/-- `x >> k` on a signed operand: arithmetic shift (what gcc and x86-64 do). -/
def sar (m : Sem) (x : BitVec w) (k : Int) : Outcome (BitVec w) :=
  if m = .strict ∧ (k < 0 ∨ (w : Int) ≤ k) then .ub else .ok (x.sshiftRight (k % w).toNat)

/-- `(unsigned) x >> k`: logical shift. -/
def shr (m : Sem) (x : BitVec w) (k : Int) : Outcome (BitVec w) :=
  if m = .strict ∧ (k < 0 ∨ (w : Int) ≤ k) then .ub else .ok (x >>> (k % w).toNat)

/-! ## Integer -/

/-- One line `inputInt |= (inputInt >> n)` of the two `highestOneBit`s. -/
def smear (x : BitVec w) (n : Nat) : BitVec w := x ||| x.sshiftRight n

/-- Integer.cpp:290-298 `highestOneBit`. -/
def intHighestOneBit (m : Sem) (x : BitVec 32) : Outcome (BitVec 32) :=
  let y := smear (smear (smear (smear (smear x 1) 2) 4) 8) 16
  sub m y (y >>> 1)

/-- Integer.cpp:300-302 and Long.cpp:295-297 `lowestOneBit`. -/
def lowestOneBit (m : Sem) (x : BitVec w) : Outcome (BitVec w) := do
  let n ← neg m x
  .ok (x &&& n)

/-- One `if` of `numberOfLeadingZeros`, Integer.cpp:319-337. -/
def nlzStep (m : Sem) (k : Nat) (s : BitVec 32 × Int) : Outcome (BitVec 32 × Int) :=
  if s.1 >>> (32 - k) = 0 then do
    let y ← shl m s.1 k
    .ok (y, s.2 + k)
  else .ok s

/-- Integer.cpp:312-342 `numberOfLeadingZeros`. -/
def intNumberOfLeadingZeros (m : Sem) (x : BitVec 32) : Outcome Int :=
  if x = 0 then .ok 32
  else do
    let s ← nlzStep m 16 (x, 1)
    let s ← nlzStep m 8 s
    let s ← nlzStep m 4 s
    let s ← nlzStep m 2 s
    .ok (s.2 - ((s.1 >>> 31).toNat : Int))

/-- One line of `reverse`, Integer.cpp:460-467. -/
def swapStep (m : Sem) (x mask : BitVec 32) (k : Nat) : Outcome (BitVec 32) := do
  let a ← shl m (x &&& mask) k
  .ok (a ||| ((x >>> k) &&& mask))

/-- The last statement of `reverse`, Integer.cpp:469-471. -/
def swapBytes1 (m : Sem) (x : BitVec 32) : Outcome (BitVec 32) := do
  let a ← shl m x 24
  let b ← shl m (x &&& 0xff00#32) 8
  .ok (((a ||| b) ||| ((x >>> 8) &&& 0xff00#32)) ||| (x >>> 24))

/-- Integer.cpp:459-474 `reverse`. -/
def intReverse (m : Sem) (x : BitVec 32) : Outcome (BitVec 32) := do
  let x ← swapStep m x 0x55555555#32 1
  let x ← swapStep m x 0x33333333#32 2
  let x ← swapStep m x 0x0f0f0f0f#32 4
  swapBytes1 m x

/-- Integer.cpp:476-483 `reverseBytes`. -/
def intReverseBytes (m : Sem) (x : BitVec 32) : Outcome (BitVec 32) := do
  let a ← shl m x 8
  let b ← shl m x 24
  .ok ((((x >>> 24) ||| (x.sshiftRight 8 &&& 0xff00#32)) ||| (a &&& 0xff0000#32)) ||| b)

/-- Integer.cpp:485-488 `rotateLeft`; `-distance` is `int` negation. -/
def intRotateLeft (m : Sem) (x d : BitVec 32) : Outcome (BitVec 32) := do
  let a ← shl m x d.toInt
  let n ← neg m d
  let b ← shr m x n.toInt
  .ok (a ||| b)

/-- Integer.cpp:490-492 `rotateRight`. -/
def intRotateRight (m : Sem) (x d : BitVec 32) : Outcome (BitVec 32) := do
  let a ← shr m x d.toInt
  let n ← neg m d
  let b ← shl m x n.toInt
  .ok (a ||| b)

/-- Integer.cpp:498-501 `toUnsignedLong`: `((long) x) & 0xffffffff`. -/
def toUnsignedLong (x : BitVec 32) : BitVec 64 := x.signExtend 64 &&& 0xffffffff#64

/-- Integer.cpp:215-225 `compare` (and, for `long`, Long.cpp:108-116). -/
def compare (a b : BitVec w) : Int :=
  if a.slt b then -1 else if b.slt a then 1 else 0

/-- Integer.cpp:231-233 `compareUnsigned`. -/
def compareUnsigned (m : Sem) (a b : BitVec 32) : Outcome Int := do
  let x ← add m a (BitVec.intMin 32)
  let y ← add m b (BitVec.intMin 32)
  .ok (compare x y)

/-- Integer.cpp:267-272 `divideUnsigned`. -/
def divideUnsigned (a b : BitVec 32) : Outcome (BitVec 32) :=
  if b = 0 then .throw .arithmetic
  else do
    let q ← div (toUnsignedLong a) (toUnsignedLong b)
    .ok (q.setWidth 32)

/-- Integer.cpp:452-457 `remainderUnsigned`. -/
def remainderUnsigned (a b : BitVec 32) : Outcome (BitVec 32) :=
  if b = 0 then .throw .arithmetic
  else do
    let q ← rem (toUnsignedLong a) (toUnsignedLong b)
    .ok (q.setWidth 32)

/-- Integer.cpp:515-525 `signum`. -/
def intSignum (x : BitVec 32) : Int := if x = 0 then 0 else if (0#32).slt x then 1 else -1

/-! ## Long -/

/-- Long.cpp:81-90 `bitCount`, first two lines. -/
def bitCountHead (m : Sem) (i : BitVec 64) : Outcome (BitVec 64) := do
  let i ← sub m i (i.sshiftRight 1 &&& 0x5555555555555555#64)
  add m (i &&& 0x3333333333333333#64) (i.sshiftRight 2 &&& 0x3333333333333333#64)

/-- Long.cpp:81-90 `bitCount`, line `i = (i + (i >> 4)) & 0x0f0f…`. -/
def bitCountMid (m : Sem) (i : BitVec 64) : Outcome (BitVec 64) := do
  let s ← add m i (i.sshiftRight 4)
  .ok (s &&& 0x0f0f0f0f0f0f0f0f#64)

/-- Long.cpp:81-90 `bitCount`; the result is `(int) i & 0x7f`. -/
def longBitCount (m : Sem) (i : BitVec 64) : Outcome Int := do
  let i ← bitCountHead m i
  let i ← bitCountMid m i
  let i ← add m i (i.sshiftRight 8)
  let i ← add m i (i.sshiftRight 16)
  let i ← add m i (i.sshiftRight 32)
  .ok ((i.setWidth 32 &&& 0x7f#32).toNat : Int)

/-- Long.cpp:260-268 `highestOneBit`: the last shift is arithmetic. -/
def longHighestOneBit (m : Sem) (x : BitVec 64) : Outcome (BitVec 64) :=
  let y := smear (smear (smear (smear (smear (smear x 1) 2) 4) 8) 16) 32
  sub m y (y.sshiftRight 1)

/-- Long.cpp:306-320 `numberOfLeadingZeros`: `shiftCount` counts down from
`n - 1`; falling out of the loop returns 0. (`1L << 63` is taken as the sign
bit in both readings.) -/
def nlzLoop (x : BitVec 64) : Nat → Int
  | 0 => 0
  | n + 1 => if x &&& (1#64 <<< n) ≠ 0 then 63 - n else nlzLoop x n

def longNumberOfLeadingZeros (x : BitVec 64) : Int := if x = 0 then 64 else nlzLoop x 64

/-- Long.cpp:329-342 `numberOfTrailingZeros`; `n` iterations are left. -/
def ntzLoop (x : BitVec 64) (b : Nat) : Nat → Int
  | 0 => 0
  | n + 1 => if x &&& (1#64 <<< b) ≠ 0 then b else ntzLoop x (b + 1) n

def longNumberOfTrailingZeros (x : BitVec 64) : Int := if x = 0 then 64 else ntzLoop x 0 64

/-- Long.cpp:424-435 `reverse`, the body after `return i` is commented out. -/
def longReverse (x : BitVec 64) : BitVec 64 := x
/-- Long.cpp:444-448 `reverseBytes`, likewise. -/
def longReverseBytes (x : BitVec 64) : BitVec 64 := x

/-- Long.cpp:458-460 `rotateLeft`: the right shift is arithmetic. -/
def longRotateLeft (m : Sem) (x : BitVec 64) (d : BitVec 32) : Outcome (BitVec 64) := do
  let a ← shl m x d.toInt
  let n ← neg m d
  let b ← sar m x n.toInt
  .ok (a ||| b)

/-- Long.cpp:470-472 `rotateRight`: the right shift is arithmetic. -/
def longRotateRight (m : Sem) (x : BitVec 64) (d : BitVec 32) : Outcome (BitVec 64) := do
  let a ← sar m x d.toInt
  let n ← neg m d
  let b ← shl m x n.toInt
  .ok (a ||| b)

/-- Long.cpp:489-491 `signum`: `(i >> 63) | (-i >> 63)` with arithmetic
shifts, cast to `int`. -/
def longSignum (m : Sem) (x : BitVec 64) : Outcome Int := do
  let n ← neg m x
  .ok ((x.sshiftRight 63 ||| n.sshiftRight 63).setWidth 32).toInt

/-- Long.cpp:249-251 `hashCode`. -/
def longHashCode (x : BitVec 64) : BitVec 32 := (x ^^^ x.sshiftRight 32).setWidth 32

end Verif.Bits
