import Verif.Common
/-!
# Model of `library/Java/Util/Base64/Base64.cpp`

Positions (`sourcePosition`, `destinationPosition`, ...) start at 0 and only
grow, so they are `Nat`; every `int` computation that can overflow goes
through `chk32`.  All array accesses go through `Arr.get` / `Arr.set`, i.e.
`std::vector::at`.
-/
namespace Verif.Base64

/-- A character literal as a byte. -/
def ch (c : Char) : Byte := BitVec.ofNat 8 c.toNat

/-- Base64.cpp:33-39 `Encoder::toBase64` (all entries are ASCII, so `char`
and `byte` agree). -/
def toBase64 : List Byte :=
  "ABCDEFGHIJKLMNOPQRSTUVWXYZabcdefghijklmnopqrstuvwxyz0123456789+/".toList.map ch

/-- Base64.cpp:41-47 `Encoder::toBase64Url`. -/
def toBase64Url : List Byte :=
  "ABCDEFGHIJKLMNOPQRSTUVWXYZabcdefghijklmnopqrstuvwxyz0123456789-_".toList.map ch

/-- Base64.hpp `Encoder` fields. -/
structure Encoder where
  isUrl : Bool
  newLine : List Byte
  lineMax : Int
  doPadding : Bool
  deriving DecidableEq, Repr

/-- Base64.cpp:51-52 -/
def encRFC4648 : Encoder := ⟨false, [], -1, true⟩
/-- Base64.cpp:54-55 -/
def encRFC4648Url : Encoder := ⟨true, [], -1, true⟩
/-- Base64.cpp:49,57-58; Base64.hpp `mimeLineMax = 76` -/
def encRFC2045 : Encoder := ⟨false, [ch '\r', ch '\n'], 76, true⟩

/-- Base64.cpp:103-108 `withoutPadding` -/
def Encoder.withoutPadding (e : Encoder) : Encoder :=
  if !e.doPadding then e else { e with doPadding := false }

/-- Base64.cpp:113-122, the part of `Encoder::outLength` before the line
separators are added. -/
def Encoder.baseLength (e : Encoder) (n : Int) : Outcome Int :=
  if e.doPadding then do
    let a ← chk32 (n + 2)
    chk32 (4 * (a.tdiv 3))
  else
    let left := n.tmod 3
    if left = 0 then chk32 (4 * n.tdiv 3)
    else chk32 (4 * n.tdiv 3 + left + 1)

/-- Base64.cpp:110-129 `Encoder::outLength`. -/
def Encoder.outLength (e : Encoder) (n : Int) : Outcome Int := do
  let length ← e.baseLength n
  if e.lineMax > 0 then do
    let add ← chk32 ((length - 1).tdiv e.lineMax * e.newLine.length)
    chk32 (length + add)
  else pure length

/-- Writes `vs` at consecutive positions starting at `pos`
(`destination[ pos++ ] = ...` repeated); returns array and position. -/
def writeAll : List Byte → Nat → List Byte → Outcome (List Byte × Nat)
  | dst, pos, [] => .ok (dst, pos)
  | dst, pos, v :: vs => do
    let dst ← Arr.set dst pos v
    writeAll dst (pos + 1) vs

/-- Local variables of `Encoder::encoding`. -/
structure EncSt where
  spos : Nat      -- sourcePosition
  dpos : Nat      -- destinationPosition
  cs : Nat        -- chunksOfSourceWillBeEncodedPosition
  cd : Nat        -- chunksOfDestinationPosition
  dst : List Byte
  deriving Repr

/-- Base64.cpp:164-194, one turn of the inner `for`.  The three
`source[ pos++ ]` of lines 169-171 are unsequenced modifications of one
variable: undefined in strict C++, evaluated left to right by gcc. -/
def innerBody (m : Sem) (e : Encoder) (tbl src : List Byte) (end_ pause : Nat)
    (s : EncSt) : Outcome (Step EncSt EncSt) :=
  if s.cs < pause then do
    let _ ← (if m = .strict then .ub else .ok () : Outcome Unit)
    let b0 ← Arr.get src s.cs
    let b1 ← Arr.get src (s.cs + 1 : Nat)
    let b2 ← Arr.get src (s.cs + 2 : Nat)
    let g := b0.toNat <<< 16 ||| b1.toNat <<< 8 ||| b2.toNat
    let c0 ← Arr.get tbl ((g >>> 18) &&& 0x3f : Nat)
    let c1 ← Arr.get tbl ((g >>> 12) &&& 0x3f : Nat)
    let c2 ← Arr.get tbl ((g >>> 6) &&& 0x3f : Nat)
    let c3 ← Arr.get tbl (g &&& 0x3f : Nat)
    let (dst, cd) ← writeAll s.dst s.cd [c0, c1, c2, c3]
    let encodedLength := (pause - s.spos) / 3 * 4
    let dpos := s.dpos + encodedLength
    if (encodedLength : Int) = e.lineMax ∧ pause < end_ then do
      let (dst, dpos) ← writeAll dst dpos e.newLine
      .ok (.next ⟨pause, dpos, s.cs + 3, cd, dst⟩)
    else
      .ok (.next ⟨pause, dpos, s.cs + 3, cd, dst⟩)
  else .ok (.done s)

/-- Base64.cpp:160-195, one turn of the outer `while`. -/
def outerBody (m : Sem) (e : Encoder) (tbl src : List Byte) (end_ stop chunk : Nat)
    (s : EncSt) : Outcome (Step EncSt EncSt) :=
  if s.spos < stop then do
    let sum ← chk32 ((s.spos : Int) + chunk)
    let pause := min sum.toNat stop
    let s' ← iter (innerBody m e tbl src end_ pause) (src.length + 1)
      { s with cs := s.spos, cd := s.dpos }
    .ok (.next s')
  else .ok (.done s)

/-- Base64.cpp:197-221, the one or two left-over bytes. -/
def encTail (e : Encoder) (tbl src : List Byte) (end_ : Nat) (s : EncSt) :
    Outcome (List Byte × Nat) :=
  if s.spos < end_ then do
    let b0 ← Arr.get src s.spos
    let first := b0.toNat
    let c0 ← Arr.get tbl (first >>> 2 : Nat)
    let (dst, dpos) ← writeAll s.dst s.dpos [c0]
    if s.spos + 1 = end_ then do
      let c1 ← Arr.get tbl ((first <<< 4) &&& 0x3f : Nat)
      writeAll dst dpos ([c1] ++ if e.doPadding then [ch '=', ch '='] else [])
    else do
      let b1 ← Arr.get src (s.spos + 1 : Nat)
      let second := b1.toNat
      let c1 ← Arr.get tbl ((first <<< 4) &&& 0x3f ||| (second >>> 4) : Nat)
      let c2 ← Arr.get tbl ((second <<< 2) &&& 0x3f : Nat)
      writeAll dst dpos ([c1, c2] ++ if e.doPadding then [ch '='] else [])
  else .ok (s.dst, s.dpos)

/-- Base64.cpp:131-224 `Encoder::encoding` with `offset = 0`,
`end = source.length` (the only way it is called). -/
def Encoder.encoding (m : Sem) (e : Encoder) (src dst : List Byte) :
    Outcome (List Byte × Nat) := do
  let tbl := if e.isUrl then toBase64Url else toBase64
  let end_ := src.length
  let sourceLength := end_ / 3 * 3
  let lm := (e.lineMax.tdiv 4 * 3).toNat   -- only used when lineMax > 0
  let chunk := if e.lineMax > 0 ∧ sourceLength > lm then lm else sourceLength
  let s ← iter (outerBody m e tbl src end_ sourceLength chunk) (src.length + 1)
    ⟨0, 0, 0, 0, dst⟩
  encTail e tbl src end_ s

/-- Arrays.hpp:579-597 `copyOfOrigin` with padding 0. -/
def copyOf (l : List Byte) (n : Nat) : List Byte :=
  l.take n ++ List.replicate (n - l.length) 0

/-- `Array<E>(long containerSize)`, Kernel/Java.hpp: `vector::resize` with a
negative size converts to a huge `size_t` and throws. -/
def newArray (n : Int) : Outcome (List Byte) :=
  if n < 0 then .throw .lengthError else .ok (List.replicate n.toNat 0)

/-- Base64.cpp:78-86 `Encoder::encode(source)`. -/
def Encoder.encode (m : Sem) (e : Encoder) (src : List Byte) : Outcome (List Byte) := do
  let length ← e.outLength src.length
  let dst ← newArray length
  let (dst, n) ← e.encoding m src dst
  if length ≠ n then pure (copyOf dst n) else pure dst

/-- Base64.cpp:88-96 `Encoder::encode(source, destination)`: new contents of
the destination and the number of bytes written. -/
def Encoder.encodeInto (m : Sem) (e : Encoder) (src dst : List Byte) :
    Outcome (List Byte × Nat) := do
  let length ← e.outLength src.length
  if (dst.length : Int) < length then .throw .interrupted
  else e.encoding m src dst

/-- Base64.cpp:226-235 / 237-246: the 256-entry table: -1 everywhere, the
index of each alphabet character, -2 at `'='`. -/
def mkFromTable (tbl : List Byte) : List Int :=
  ((List.range tbl.length).foldl
    (fun t i => t.set (tbl.getD i 0).toNat (i : Int)) (List.replicate 256 (-1))).set
      (ch '=').toNat (-2)

def fromBase64 : List Int := mkFromTable toBase64
def fromBase64Url : List Int := mkFromTable toBase64Url

/-- Base64.hpp `Decoder` fields. -/
structure Decoder where
  isUrl : Bool
  isMime : Bool
  deriving DecidableEq, Repr

/-- Base64.cpp:248-255 -/
def decRFC4648 : Decoder := ⟨false, false⟩
def decRFC4648Url : Decoder := ⟨true, false⟩
def decRFC2045 : Decoder := ⟨false, true⟩

/-- Base64.cpp:296-301 / 348-353. -/
def Decoder.table (d : Decoder) : List Int := if d.isUrl then fromBase64Url else fromBase64

/-- Base64.cpp:320-330: the MIME pre-scan.  State: position, `length`,
`nonAlphabet`.  Line 326 indexes `source` (not the table) with the byte, and
the result, a byte, is never -1. -/
def mimeScanBody (src : List Byte) (s : Nat × Int × Int) :
    Outcome (Step (Nat × Int × Int) (Int × Int)) :=
  let (pos, length, non) := s
  if pos < src.length then do
    let b ← Arr.get src pos
    if b = ch '=' then
      .ok (.done (length - ((src.length : Int) - (pos + 1) + 1), non))
    else do
      let c ← Arr.get src b.toNat
      let non := if (c.toNat : Int) = -1 then non + 1 else non
      .ok (.next (pos + 1, length, non))
  else .ok (.done (length, non))

/-- Base64.cpp:318-343: `Decoder::outLength` for inputs of two or more bytes. -/
def Decoder.outLengthLong (d : Decoder) (src : List Byte) : Outcome Int := do
  let (length, pad) ←
    if d.isMime then do
      let (length, non) ← iter (mimeScanBody src) (src.length + 1) (0, (src.length : Int), 0)
      pure (length - non, (0 : Int))
    else do
      let last ← Arr.get src (src.length - 1 : Int)
      if last = ch '=' then do
        let last2 ← Arr.get src (src.length - 2 : Int)
        pure ((src.length : Int), if last2 = ch '=' then 2 else 1)
      else pure ((src.length : Int), 0)
  -- `length & 0x3` on a nonnegative int
  let pad := if pad = 0 ∧ length % 4 ≠ 0 then 4 - length % 4 else pad
  let a ← chk32 (length + 3)
  chk32 (3 * (a.tdiv 4) - pad)

/-- Base64.cpp:294-344 `Decoder::outLength` with `offset = 0`,
`end = source.length`. -/
def Decoder.outLength (d : Decoder) (src : List Byte) : Outcome Int :=
  if src.length = 0 then .ok 0
  else if src.length < 2 then do
    let t0 ← Arr.get d.table 0
    if d.isMime ∧ t0 = -1 then .ok 0 else .throw .interrupted
  else d.outLengthLong src

/-- Local variables of `Decoder::decoding`. -/
structure DecSt where
  spos : Nat
  dpos : Nat
  bits : Nat      -- groupBits (never negative: at most 24 bits)
  shift : Int     -- shiftTo
  dst : List Byte
  deriving Repr

/-- Base64.cpp:364-400, one turn of the decoding loop. -/
def decBody (d : Decoder) (src : List Byte) (s : DecSt) : Outcome (Step DecSt DecSt) :=
  if s.spos < src.length then do
    let b ← Arr.get src s.spos
    let s := { s with spos := s.spos + 1 }
    let v ← Arr.get d.table b.toNat
    if v < 0 then
      if v = -2 then
        if s.shift = 6 then
          if s.spos = src.length then .throw .interrupted
          else do
            let c ← Arr.get src s.spos
            let s := { s with spos := s.spos + 1 }
            if c ≠ ch '=' then .throw .interrupted else .ok (.done s)
        else if s.shift = 18 then .throw .interrupted
        else .ok (.done s)
      else if d.isMime then .ok (.next s)
      else .throw .interrupted
    else do
      let bits := s.bits ||| (v.toNat <<< s.shift.toNat)
      let shift := s.shift - 6
      if shift < 0 then do
        let (dst, dpos) ← writeAll s.dst s.dpos
          [BitVec.ofNat 8 (bits >>> 16), BitVec.ofNat 8 (bits >>> 8), BitVec.ofNat 8 bits]
        .ok (.next { s with dst := dst, dpos := dpos, bits := 0, shift := 18 })
      else .ok (.next { s with bits := bits, shift := shift })
  else .ok (.done s)

/-- Length of the literal of Base64.cpp:419,
`"Input byte array has incorrect ending byte at "`. -/
def endingMessageLength : Nat := "Input byte array has incorrect ending byte at ".length

/-- Base64.cpp:414-421, the trailing-input loop.  `"..." + sourcePosition` is
pointer arithmetic on the literal: the exception's message is read from
`literal + sourcePosition`, which is out of bounds beyond the terminator. -/
def trailBody (d : Decoder) (src : List Byte) (pos : Nat) : Outcome (Step Nat Unit) :=
  if pos < src.length then do
    if d.isMime then do
      let b ← Arr.get src pos
      let v ← Arr.get d.table b.toNat
      if v < 0 then .ok (.next (pos + 1))
      else if pos + 1 ≤ endingMessageLength then .throw .interrupted else .ub
    else if pos ≤ endingMessageLength then .throw .interrupted else .ub
  else .ok (.done ())

/-- Base64.cpp:346-424 `Decoder::decoding`. -/
def Decoder.decoding (d : Decoder) (src dst : List Byte) : Outcome (List Byte × Nat) := do
  let s ← iter (decBody d src) (src.length + 1) ⟨0, 0, 0, 18, dst⟩
  let (dst, dpos) ←
    if s.shift = 6 then writeAll s.dst s.dpos [BitVec.ofNat 8 (s.bits >>> 16)]
    else if s.shift = 0 then
      writeAll s.dst s.dpos [BitVec.ofNat 8 (s.bits >>> 16), BitVec.ofNat 8 (s.bits >>> 8)]
    else if s.shift = 12 then .throw .interrupted
    else .ok (s.dst, s.dpos)
  let _ ← iter (trailBody d src) (src.length + 1) s.spos
  .ok (dst, dpos)

/-- Base64.cpp:270-278 `Decoder::decode(source)`; the `String` overload
(290-292) passes the string's bytes. -/
def Decoder.decode (d : Decoder) (src : List Byte) : Outcome (List Byte) := do
  let length ← d.outLength src
  let dst ← newArray length
  let (dst, n) ← d.decoding src dst
  if (n : Int) ≠ length then pure (copyOf dst n) else pure dst

/-- Base64.cpp:280-288 `Decoder::decode(source, destination)`. -/
def Decoder.decodeInto (d : Decoder) (src dst : List Byte) : Outcome (List Byte × Nat) := do
  let length ← d.outLength src
  if (dst.length : Int) < length then .throw .interrupted
  else d.decoding src dst

/-- Base64.cpp:442-458 `getMimeEncoder(lineLength, lineSeparator)`. -/
def getMimeEncoder (lineLength : Int) (sep : List Byte) : Outcome Encoder :=
  if sep.any (fun b => fromBase64.getD b.toNat 0 ≠ -1) then .throw .interrupted
  else if lineLength < 0 then .ok encRFC4648
  else .ok ⟨false, sep, lineLength / 4 * 4, true⟩

end Verif.Base64
