import Verif.Common
/-!
# SHA-1

`/repo/library/Java/Security/MessageDigest/sha1.cpp`. An `unsigned int` is a
`BitVec 32`; `lenW` stays between 0 and 63 and is a natural number.
-/
namespace Verif.Sha1

abbrev Word := BitVec 32

/-- The words `H[0]` to `H[4]`; also the variables `A` to `E` of sha1.cpp:114. -/
structure Regs where
  a : Word
  b : Word
  c : Word
  d : Word
  e : Word
deriving DecidableEq, Repr

/-- sha1.hpp `SHA_CTX`. -/
structure Ctx where
  H : Regs
  W : List Word
  lenW : Nat
  sizeHi : Word
  sizeLo : Word
deriving DecidableEq, Repr

/-- sha1.cpp:38 `SHA_ROT`. -/
def rot (x : Word) (n : Nat) : Word := (x <<< n) ||| (x >>> (32 - n))

/-- sha1.cpp:42-58 `SHA1_Init`. -/
def init : Ctx :=
  { H := ⟨0x67452301#32, 0xefcdab89#32, 0x98badcfe#32, 0x10325476#32, 0xc3d2e1f0#32⟩
    W := List.replicate 80 0#32
    lenW := 0
    sizeHi := 0#32
    sizeLo := 0#32 }

/-- sha1.cpp:116-118: the turn `t`. The indices lie within the array. -/
def extend (W : List Word) (t : Nat) : List Word :=
  W.set t (rot (W.getD (t - 3) 0#32 ^^^ W.getD (t - 8) 0#32 ^^^ W.getD (t - 14) 0#32 ^^^ W.getD (t - 16) 0#32) 1)

/-- sha1.cpp:126-141: one turn of the four loops, which differ in the function and
the constant. -/
def turn (f : Word → Word → Word → Word) (k : Word) (W : List Word) (r : Regs) (t : Nat) : Regs :=
  let temp := rot r.a 5 + f r.b r.c r.d + r.e + W.getD t 0#32 + k
  ⟨temp, r.a, rot r.b 30, r.c, r.d⟩

/-- sha1.cpp:125-141: the four loops, from the values of the variables `A` to `E`. -/
def rounds (W : List Word) (r : Regs) : Regs :=
  let r := (List.range' 0 20).foldl (turn (fun B C D => ((C ^^^ D) &&& B) ^^^ D) 0x5a827999#32 W) r
  let r := (List.range' 20 20).foldl (turn (fun B C D => B ^^^ C ^^^ D) 0x6ed9eba1#32 W) r
  let r := (List.range' 40 20).foldl (turn (fun B C D => (B &&& C) ||| (D &&& (B ||| C))) 0x8f1bbcdc#32 W) r
  (List.range' 60 20).foldl (turn (fun B C D => B ^^^ C ^^^ D) 0xca62c1d6#32 W) r

/-- sha1.cpp:143-147. -/
def addRegs (h r : Regs) : Regs := ⟨h.a + r.a, h.b + r.b, h.c + r.c, h.d + r.d, h.e + r.e⟩

/-- sha1.cpp:116-118: the loop. -/
def extendAll (W : List Word) : List Word := (List.range' 16 64).foldl extend W

/-- sha1.cpp:112-148 `shaHashBlock`. -/
def hashBlock (ctx : Ctx) : Ctx :=
  { ctx with W := extendAll ctx.W, H := addRegs ctx.H (rounds (extendAll ctx.W) ctx.H) }

/-- sha1.cpp:67-74: one byte. -/
def updateByte (ctx : Ctx) (x : Byte) : Outcome Ctx :=
  match ctx.W[ctx.lenW / 4]? with
  | none => .ub
  | some w =>
    let ctx := { ctx with W := ctx.W.set (ctx.lenW / 4) ((w <<< 8) ||| x.setWidth 32), lenW := ctx.lenW + 1 }
    let ctx := if ctx.lenW % 64 = 0 then { hashBlock ctx with lenW := 0 } else ctx
    let sizeLo := ctx.sizeLo + 8#32
    .ok { ctx with sizeLo := sizeLo, sizeHi := ctx.sizeHi + (if sizeLo < 8#32 then 1#32 else 0#32) }

/-- sha1.cpp:66-75: the loop at `i` with `n` turns left; `data` is what can be read
from the pointer. -/
def updateFrom (ctx : Ctx) (data : List Byte) : (i n : Nat) → Outcome Ctx
  | _, 0 => .ok ctx
  | i, n + 1 =>
    match data[i]? with
    | none => .ub
    | some x =>
      match updateByte ctx x with
      | .ok ctx => updateFrom ctx data (i + 1) n
      | r => r

/-- sha1.cpp:60-76 `SHA1_Update`. -/
def update (ctx : Ctx) (data : List Byte) (len : Int) : Outcome Ctx := updateFrom ctx data 0 len.toNat

/-- sha1.cpp:95-96: the loop that writes zeros, with at most `fuel` turns. -/
def padZeros : Nat → Ctx → Outcome Ctx
  | 0, _ => .diverge
  | fuel + 1, ctx =>
    if ctx.lenW ≠ 56 then do
      let ctx ← update ctx [0x00#8] 1
      padZeros fuel ctx
    else .ok ctx

/-- sha1.cpp:86-93: the bytes of a word as `padlen` takes them. -/
def lenBytes (w : Word) : List Byte :=
  [((w >>> 24) &&& 255#32).setWidth 8, ((w >>> 16) &&& 255#32).setWidth 8, ((w >>> 8) &&& 255#32).setWidth 8, ((w >>> 0) &&& 255#32).setWidth 8]

/-- sha1.cpp:101-104: the four bytes taken off one word of `H`. -/
def hashBytes (w : Word) : List Byte :=
  [(w >>> 24).setWidth 8, ((w <<< 8) >>> 24).setWidth 8, (((w <<< 8) <<< 8) >>> 24).setWidth 8, ((((w <<< 8) <<< 8) <<< 8) >>> 24).setWidth 8]

/-- sha1.cpp:78-110 `SHA1_Final`: the context and the 20 bytes; `fuel` bounds the
loop that pads. -/
def final (fuel : Nat) (ctx : Ctx) : Outcome (Ctx × List Byte) := do
  let padlen := lenBytes ctx.sizeHi ++ lenBytes ctx.sizeLo
  let ctx ← update ctx [0x80#8] 1
  let ctx ← padZeros fuel ctx
  let ctx ← update ctx padlen 8
  .ok (init, hashBytes ctx.H.a ++ hashBytes ctx.H.b ++ hashBytes ctx.H.c ++ hashBytes ctx.H.d ++ hashBytes ctx.H.e)

end Verif.Sha1
