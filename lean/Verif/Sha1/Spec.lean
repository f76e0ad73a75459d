import Verif.Hash
/-!
# FIPS 180

The secure hash algorithm SHA-1 as FIPS PUB 180 describes it.
-/
namespace Verif.Sha1.FIPS

abbrev Byte := BitVec 8
abbrev Word := BitVec 32

/-- The five words H0 to H4. -/
abbrev Buffer := Word × Word × Word × Word × Word

def initial : Buffer := (0x67452301, 0xefcdab89, 0x98badcfe, 0x10325476, 0xc3d2e1f0)

/-- Section 5: the functions f(0) to f(79). -/
def f (t : Nat) (b c d : Word) : Word :=
  if t < 20 then (b &&& c) ||| (~~~b &&& d)
  else if t < 40 then b ^^^ c ^^^ d
  else if t < 60 then (b &&& c) ||| (b &&& d) ||| (c &&& d)
  else b ^^^ c ^^^ d

/-- Section 6: the constants K(0) to K(79). -/
def K (t : Nat) : Word := if t < 20 then 0x5a827999 else if t < 40 then 0x6ed9eba1 else if t < 60 then 0x8f1bbcdc else 0xca62c1d6

/-- Word `k` of a block, most significant byte first. -/
def word (block : List Byte) (k : Nat) : Word :=
  let byte (j : Nat) : Nat := (block.getD (4 * k + j) 0).toNat
  BitVec.ofNat 32 (2 ^ 24 * byte 0 + 2 ^ 16 * byte 1 + 2 ^ 8 * byte 2 + byte 3)

/-- Section 7, steps a and b: W(t) = S^1(W(t-3) xor W(t-8) xor W(t-14) xor W(t-16)),
after the 16 words of the block. -/
def schedule (block : List Byte) : Nat → List Word
  | 0 => (List.range 16).map (word block)
  | n + 1 =>
    let W := schedule block n
    let w (j : Nat) : Word := W.getD (16 + n - j) 0
    W ++ [(w 3 ^^^ w 8 ^^^ w 14 ^^^ w 16).rotateLeft 1]

/-- Step d. -/
def step (W : List Word) (h : Buffer) (t : Nat) : Buffer :=
  match h with
  | (a, b, c, d, e) => (a.rotateLeft 5 + f t b c d + e + W.getD t 0 + K t, a, b.rotateLeft 30, c, d)

/-- Section 7: one block. -/
def compress (h : Buffer) (block : List Byte) : Buffer :=
  match h, (List.range 80).foldl (step (schedule block 64)) h with
  | (a, b, c, d, e), (a', b', c', d', e') => (a + a', b + b', c + c', d + d', e + e')

/-- Section 4: the length as a 64-bit number, most significant byte first. -/
def length64 (n : Nat) : List Byte := (List.range 8).map fun i => BitVec.ofNat 8 (n / 256 ^ (7 - i))

def padded (msg : List Byte) : List Byte :=
  msg ++ [0x80] ++ List.replicate ((119 - msg.length % 64) % 64) 0 ++ length64 (8 * msg.length)

/-- The 160-bit string of the five words. -/
def output (h : Buffer) : List Byte :=
  match h with
  | (a, b, c, d, e) => [a, b, c, d, e].flatMap fun w => (List.range 4).map fun i => BitVec.ofNat 8 (w.toNat / 256 ^ (3 - i))

/-- The digest of a message of less than 2^64 bits. -/
def sha1 (msg : List Byte) : List Byte := output (Hash.foldBlocks compress initial (padded msg))

/-- Appendix A: the message "abc"; and the empty message. -/
example : sha1 [0x61, 0x62, 0x63] =
    [0xa9, 0x99, 0x3e, 0x36, 0x47, 0x06, 0x81, 0x6a, 0xba, 0x3e, 0x25, 0x71, 0x78, 0x50, 0xc2, 0x6c, 0x9c, 0xd0, 0xd8, 0x9d] := by decide +kernel
example : sha1 [] =
    [0xda, 0x39, 0xa3, 0xee, 0x5e, 0x6b, 0x4b, 0x0d, 0x32, 0x55, 0xbf, 0xef, 0x95, 0x60, 0x18, 0x90, 0xaf, 0xd8, 0x07, 0x09] := by decide +kernel

end Verif.Sha1.FIPS
