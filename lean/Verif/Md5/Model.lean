import Verif.Bits.Model
/-!
# MD5

`/repo/library/Java/Security/MessageDigest/md5.cpp`, for a little-endian machine.
An `md5_word_t` is a `BitVec 32`. Reading words through the cast pointer of line
164 is modelled like the copy of line 168 (strict aliasing and alignment are left
out).
-/
namespace Verif.Md5
open Verif.Bits

abbrev Word := BitVec 32

/-- md5.hpp `struct md5_state_s`; `count` and `abcd` by component. -/
structure State where
  count0 : Word
  count1 : Word
  a : Word
  b : Word
  c : Word
  d : Word
  buf : List Byte
deriving DecidableEq, Repr

/-- md5.cpp:64 `T_MASK`. -/
def tMask : Word := ~~~0#32

/-! md5.cpp:65-128 `T1` to `T64`. -/
def T1 : Word := tMask ^^^ 0x28955b87#32
def T2 : Word := tMask ^^^ 0x173848a9#32
def T3 : Word := 0x242070db#32
def T4 : Word := tMask ^^^ 0x3e423111#32
def T5 : Word := tMask ^^^ 0x0a83f050#32
def T6 : Word := 0x4787c62a#32
def T7 : Word := tMask ^^^ 0x57cfb9ec#32
def T8 : Word := tMask ^^^ 0x02b96afe#32
def T9 : Word := 0x698098d8#32
def T10 : Word := tMask ^^^ 0x74bb0850#32
def T11 : Word := tMask ^^^ 0x0000a44e#32
def T12 : Word := tMask ^^^ 0x76a32841#32
def T13 : Word := 0x6b901122#32
def T14 : Word := tMask ^^^ 0x02678e6c#32
def T15 : Word := tMask ^^^ 0x5986bc71#32
def T16 : Word := 0x49b40821#32
def T17 : Word := tMask ^^^ 0x09e1da9d#32
def T18 : Word := tMask ^^^ 0x3fbf4cbf#32
def T19 : Word := 0x265e5a51#32
def T20 : Word := tMask ^^^ 0x16493855#32
def T21 : Word := tMask ^^^ 0x29d0efa2#32
def T22 : Word := 0x02441453#32
def T23 : Word := tMask ^^^ 0x275e197e#32
def T24 : Word := tMask ^^^ 0x182c0437#32
def T25 : Word := 0x21e1cde6#32
def T26 : Word := tMask ^^^ 0x3cc8f829#32
def T27 : Word := tMask ^^^ 0x0b2af278#32
def T28 : Word := 0x455a14ed#32
def T29 : Word := tMask ^^^ 0x561c16fa#32
def T30 : Word := tMask ^^^ 0x03105c07#32
def T31 : Word := 0x676f02d9#32
def T32 : Word := tMask ^^^ 0x72d5b375#32
def T33 : Word := tMask ^^^ 0x0005c6bd#32
def T34 : Word := tMask ^^^ 0x788e097e#32
def T35 : Word := 0x6d9d6122#32
def T36 : Word := tMask ^^^ 0x021ac7f3#32
def T37 : Word := tMask ^^^ 0x5b4115bb#32
def T38 : Word := 0x4bdecfa9#32
def T39 : Word := tMask ^^^ 0x0944b49f#32
def T40 : Word := tMask ^^^ 0x4140438f#32
def T41 : Word := 0x289b7ec6#32
def T42 : Word := tMask ^^^ 0x155ed805#32
def T43 : Word := tMask ^^^ 0x2b10cf7a#32
def T44 : Word := 0x04881d05#32
def T45 : Word := tMask ^^^ 0x262b2fc6#32
def T46 : Word := tMask ^^^ 0x1924661a#32
def T47 : Word := 0x1fa27cf8#32
def T48 : Word := tMask ^^^ 0x3b53a99a#32
def T49 : Word := tMask ^^^ 0x0bd6ddbb#32
def T50 : Word := 0x432aff97#32
def T51 : Word := tMask ^^^ 0x546bdc58#32
def T52 : Word := tMask ^^^ 0x036c5fc6#32
def T53 : Word := 0x655b59c3#32
def T54 : Word := tMask ^^^ 0x70f3336d#32
def T55 : Word := tMask ^^^ 0x00100b82#32
def T56 : Word := tMask ^^^ 0x7a7ba22e#32
def T57 : Word := 0x6fa87e4f#32
def T58 : Word := tMask ^^^ 0x01d3191f#32
def T59 : Word := tMask ^^^ 0x5cfebceb#32
def T60 : Word := 0x4e0811a1#32
def T61 : Word := tMask ^^^ 0x08ac817d#32
def T62 : Word := tMask ^^^ 0x42c50dca#32
def T63 : Word := 0x2ad7d2bb#32
def T64 : Word := tMask ^^^ 0x14792c6e#32

/-- md5.cpp:196 `ROTATE_LEFT`. -/
def rotateLeft (x : Word) (n : Nat) : Word := (x <<< n) ||| (x >>> (32 - n))

/-- md5.cpp:201, 226, 251, 276: the functions of the four rounds. -/
def fF (x y z : Word) : Word := (x &&& y) ||| (~~~x &&& z)
def fG (x y z : Word) : Word := (x &&& z) ||| (y &&& ~~~z)
def fH (x y z : Word) : Word := x ^^^ y ^^^ z
def fI (x y z : Word) : Word := y ^^^ (x ||| ~~~z)

/-- The registers `a`, `b`, `c`, `d` of md5.cpp:132-134. -/
structure Regs where
  a : Word
  b : Word
  c : Word
  d : Word
deriving DecidableEq, Repr

/-- md5.cpp:202-204 (and the three others) `SET`: the new value of its first
argument. -/
def set (f : Word → Word → Word → Word) (a b c d x : Word) (s : Nat) (t : Word) : Word := rotateLeft (a + f b c d + x + t) s + b

/-- `SET(a, b, c, d, ...)`, `SET(d, a, b, c, ...)`, `SET(c, d, a, b, ...)` and
`SET(b, c, d, a, ...)`. -/
def setA (f : Word → Word → Word → Word) (X : Nat → Word) (k s : Nat) (t : Word) (r : Regs) : Regs := { r with a := set f r.a r.b r.c r.d (X k) s t }
def setD (f : Word → Word → Word → Word) (X : Nat → Word) (k s : Nat) (t : Word) (r : Regs) : Regs := { r with d := set f r.d r.a r.b r.c (X k) s t }
def setC (f : Word → Word → Word → Word) (X : Nat → Word) (k s : Nat) (t : Word) (r : Regs) : Regs := { r with c := set f r.c r.d r.a r.b (X k) s t }
def setB (f : Word → Word → Word → Word) (X : Nat → Word) (k s : Nat) (t : Word) (r : Regs) : Regs := { r with b := set f r.b r.c r.d r.a (X k) s t }

/-- md5.cpp:206-221, round 1. -/
def round1 (X : Nat → Word) (r : Regs) : Regs :=
  let r := setA fF X 0 7 T1 r
  let r := setD fF X 1 12 T2 r
  let r := setC fF X 2 17 T3 r
  let r := setB fF X 3 22 T4 r
  let r := setA fF X 4 7 T5 r
  let r := setD fF X 5 12 T6 r
  let r := setC fF X 6 17 T7 r
  let r := setB fF X 7 22 T8 r
  let r := setA fF X 8 7 T9 r
  let r := setD fF X 9 12 T10 r
  let r := setC fF X 10 17 T11 r
  let r := setB fF X 11 22 T12 r
  let r := setA fF X 12 7 T13 r
  let r := setD fF X 13 12 T14 r
  let r := setC fF X 14 17 T15 r
  let r := setB fF X 15 22 T16 r
  r

/-- md5.cpp:232-247, round 2. -/
def round2 (X : Nat → Word) (r : Regs) : Regs :=
  let r := setA fG X 1 5 T17 r
  let r := setD fG X 6 9 T18 r
  let r := setC fG X 11 14 T19 r
  let r := setB fG X 0 20 T20 r
  let r := setA fG X 5 5 T21 r
  let r := setD fG X 10 9 T22 r
  let r := setC fG X 15 14 T23 r
  let r := setB fG X 4 20 T24 r
  let r := setA fG X 9 5 T25 r
  let r := setD fG X 14 9 T26 r
  let r := setC fG X 3 14 T27 r
  let r := setB fG X 8 20 T28 r
  let r := setA fG X 13 5 T29 r
  let r := setD fG X 2 9 T30 r
  let r := setC fG X 7 14 T31 r
  let r := setB fG X 12 20 T32 r
  r

/-- md5.cpp:258-273, round 3. -/
def round3 (X : Nat → Word) (r : Regs) : Regs :=
  let r := setA fH X 5 4 T33 r
  let r := setD fH X 8 11 T34 r
  let r := setC fH X 11 16 T35 r
  let r := setB fH X 14 23 T36 r
  let r := setA fH X 1 4 T37 r
  let r := setD fH X 4 11 T38 r
  let r := setC fH X 7 16 T39 r
  let r := setB fH X 10 23 T40 r
  let r := setA fH X 13 4 T41 r
  let r := setD fH X 0 11 T42 r
  let r := setC fH X 3 16 T43 r
  let r := setB fH X 6 23 T44 r
  let r := setA fH X 9 4 T45 r
  let r := setD fH X 12 11 T46 r
  let r := setC fH X 15 16 T47 r
  let r := setB fH X 2 23 T48 r
  r

/-- md5.cpp:284-299, round 4. -/
def round4 (X : Nat → Word) (r : Regs) : Regs :=
  let r := setA fI X 0 6 T49 r
  let r := setD fI X 7 10 T50 r
  let r := setC fI X 14 15 T51 r
  let r := setB fI X 5 21 T52 r
  let r := setA fI X 12 6 T53 r
  let r := setD fI X 3 10 T54 r
  let r := setC fI X 10 15 T55 r
  let r := setB fI X 1 21 T56 r
  let r := setA fI X 8 6 T57 r
  let r := setD fI X 15 10 T58 r
  let r := setC fI X 6 15 T59 r
  let r := setB fI X 13 21 T60 r
  let r := setA fI X 4 6 T61 r
  let r := setD fI X 11 10 T62 r
  let r := setC fI X 2 15 T63 r
  let r := setB fI X 9 21 T64 r
  r

/-- md5.cpp:162-170: word `k` of the 64 bytes, on a little-endian machine. -/
def word (data : List Byte) (k : Nat) : Word :=
  (data.getD (4 * k + 3) 0) ++ (data.getD (4 * k + 2) 0) ++ (data.getD (4 * k + 1) 0) ++ (data.getD (4 * k) 0)

/-- md5.cpp:130-309 `md5_process`; `data` is what can be read from the pointer. -/
def process (s : State) (data : List Byte) : Outcome State :=
  if data.length < 64 then .ub
  else
    let X := word (data.take 64)
    let r := round4 X (round3 X (round2 X (round1 X ⟨s.a, s.b, s.c, s.d⟩)))
    .ok { s with a := s.a + r.a, b := s.b + r.b, c := s.c + r.c, d := s.d + r.d }

/-- md5.cpp:311-318 `md5_init`; the buffer keeps its contents. -/
def init (buf : List Byte) : State :=
  ⟨0#32, 0#32, 0x67452301#32, tMask ^^^ 0x10325476#32, tMask ^^^ 0x67452301#32, 0x10325476#32, buf⟩

/-- `memcpy(pms->buf + offset, p, copy)`. -/
def fill (s : State) (offset : Nat) (p : List Byte) (copy : Int) : Outcome State :=
  if copy < 0 ∨ 64 < offset + copy ∨ (p.length : Int) < copy then .ub
  else .ok { s with buf := s.buf.take offset ++ p.take copy.toNat ++ s.buf.drop (offset + copy.toNat) }

/-- md5.cpp:348-354: the full blocks and the rest; `fuel` bounds the turns. -/
def blocks : Nat → State → List Byte → Int → Outcome State
  | 0, _, _, _ => .diverge
  | fuel + 1, s, p, left =>
    if 64 ≤ left then do
      let s ← process s p
      blocks fuel s (p.drop 64) (left - 64)
    else if left ≠ 0 then fill s 0 p left
    else .ok s

/-- md5.cpp:335-346, then the blocks. -/
def appendData (s : State) (offset : Nat) (data : List Byte) (nbytes : Int) : Outcome State :=
  if offset ≠ 0 then do
    let sum ← chk32 (offset + nbytes)
    let copy : Int := if 64 < sum then 64 - offset else nbytes
    let s ← fill s offset data copy
    if offset + copy < 64 then .ok s
    else do
      let s ← process s s.buf
      blocks nbytes.toNat.succ s (data.drop copy.toNat) (nbytes - copy)
  else blocks nbytes.toNat.succ s data nbytes

/-- md5.cpp:320-355 `md5_append`; `data` is what can be read from the pointer. -/
def append (m : Sem) (s : State) (data : List Byte) (nbytes : Int) : Outcome State := do
  let nbits ← shl m (BitVec.ofInt 32 nbytes) 3
  if nbytes ≤ 0 then .ok s
  else
    let count1 := s.count1 + (BitVec.ofInt 32 nbytes).sshiftRight 29
    let count0 := s.count0 + nbits
    let count1 := if count0 < nbits then count1 + 1#32 else count1
    appendData { s with count0 := count0, count1 := count1 } ((s.count0 >>> 3) &&& 63#32).toNat data nbytes

/-- md5.cpp:359-364 `pad`. -/
def pad : List Byte := 0x80#8 :: List.replicate 63 0#8

/-- The four bytes of a word as lines 370 and 376 take them. -/
def bytes (w : Word) : List Byte := [w.setWidth 8, (w >>> 8).setWidth 8, (w >>> 16).setWidth 8, (w >>> 24).setWidth 8]

/-- md5.cpp:357-377 `md5_finish`: the state and the digest. -/
def finish (m : Sem) (s : State) : Outcome (State × List Byte) := do
  let data := bytes s.count0 ++ bytes s.count1
  let s ← append m s pad ((((55#32 - (s.count0 >>> 3)) &&& 63#32) + 1#32).toInt)
  let s ← append m s data 8
  .ok (s, bytes s.a ++ bytes s.b ++ bytes s.c ++ bytes s.d)

end Verif.Md5
