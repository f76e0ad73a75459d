import Verif.Hash
/-!
# RFC 1321

The MD5 message digest algorithm as RFC 1321 describes it.
-/
namespace Verif.Md5.RFC

abbrev Byte := BitVec 8
abbrev Word := BitVec 32

/-- The four words of the buffer (A, B, C, D), section 3.3. -/
abbrev Buffer := Word × Word × Word × Word

def initial : Buffer := (0x67452301, 0xefcdab89, 0x98badcfe, 0x10325476)

/-- Section 3.4: the table T, T[i + 1] = floor(2^32 |sin(i + 1)|), here from 0. -/
def table : List Word := [
  0xd76aa478, 0xe8c7b756, 0x242070db, 0xc1bdceee, 0xf57c0faf, 0x4787c62a, 0xa8304613, 0xfd469501,
  0x698098d8, 0x8b44f7af, 0xffff5bb1, 0x895cd7be, 0x6b901122, 0xfd987193, 0xa679438e, 0x49b40821,
  0xf61e2562, 0xc040b340, 0x265e5a51, 0xe9b6c7aa, 0xd62f105d, 0x02441453, 0xd8a1e681, 0xe7d3fbc8,
  0x21e1cde6, 0xc33707d6, 0xf4d50d87, 0x455a14ed, 0xa9e3e905, 0xfcefa3f8, 0x676f02d9, 0x8d2a4c8a,
  0xfffa3942, 0x8771f681, 0x6d9d6122, 0xfde5380c, 0xa4beea44, 0x4bdecfa9, 0xf6bb4b60, 0xbebfbc70,
  0x289b7ec6, 0xeaa127fa, 0xd4ef3085, 0x04881d05, 0xd9d4d039, 0xe6db99e5, 0x1fa27cf8, 0xc4ac5665,
  0xf4292244, 0x432aff97, 0xab9423a7, 0xfc93a039, 0x655b59c3, 0x8f0ccc92, 0xffeff47d, 0x85845dd1,
  0x6fa87e4f, 0xfe2ce6e0, 0xa3014314, 0x4e0811a1, 0xf7537e82, 0xbd3af235, 0x2ad7d2bb, 0xeb86d391]

def T (i : Nat) : Word := table.getD i 0

/-- Section 3.4: the function of the round of operation `i`. -/
def f (i : Nat) (x y z : Word) : Word :=
  if i < 16 then (x &&& y) ||| (~~~x &&& z)
  else if i < 32 then (x &&& z) ||| (y &&& ~~~z)
  else if i < 48 then x ^^^ y ^^^ z
  else y ^^^ (x ||| ~~~z)

/-- The message word used by operation `i`. -/
def g (i : Nat) : Nat :=
  if i < 16 then i else if i < 32 then (5 * i + 1) % 16 else if i < 48 then (3 * i + 5) % 16 else 7 * i % 16

/-- The shift of operation `i`. -/
def shift (i : Nat) : Nat :=
  (if i < 16 then [7, 12, 17, 22] else if i < 32 then [5, 9, 14, 20] else if i < 48 then [4, 11, 16, 23] else [6, 10, 15, 21]).getD (i % 4) 0

/-- Word `k` of a block, least significant byte first (section 2). -/
def word (block : List Byte) (k : Nat) : Word :=
  let byte (j : Nat) : Nat := (block.getD (4 * k + j) 0).toNat
  BitVec.ofNat 32 (byte 0 + 2 ^ 8 * byte 1 + 2 ^ 16 * byte 2 + 2 ^ 24 * byte 3)

/-- Operation `i`: a = b + ((a + f(b,c,d) + X[k] + T[i]) <<< s), after which the
four words change their roles. -/
def operation (X : Nat → Word) (h : Buffer) (i : Nat) : Buffer :=
  match h with
  | (a, b, c, d) => (d, b + (a + f i b c d + X (g i) + T i).rotateLeft (shift i), b, c)

/-- Section 3.4: one block. -/
def compress (h : Buffer) (block : List Byte) : Buffer :=
  match h, (List.range 64).foldl (operation (word block)) h with
  | (a, b, c, d), (a', b', c', d') => (a + a', b + b', c + c', d + d')

/-- The bytes of a 64-bit number, least significant first; only the low 64 bits
of the length are used (section 3.2). -/
def length64 (n : Nat) : List Byte := (List.range 8).map fun i => BitVec.ofNat 8 (n / 256 ^ i)

/-- Sections 3.1 and 3.2: a one bit, zero bits up to 56 bytes modulo 64, the
length in bits. -/
def padded (msg : List Byte) : List Byte :=
  msg ++ [0x80] ++ List.replicate ((119 - msg.length % 64) % 64) 0 ++ length64 (8 * msg.length)

/-- Section 3.5. -/
def output (h : Buffer) : List Byte :=
  match h with
  | (a, b, c, d) => [a, b, c, d].flatMap fun w => (List.range 4).map fun i => BitVec.ofNat 8 (w.toNat / 256 ^ i)

def md5 (msg : List Byte) : List Byte := output (Hash.foldBlocks compress initial (padded msg))

/-- The test suite of appendix A.5. -/
example : md5 [] = [0xd4, 0x1d, 0x8c, 0xd9, 0x8f, 0x00, 0xb2, 0x04, 0xe9, 0x80, 0x09, 0x98, 0xec, 0xf8, 0x42, 0x7e] := by decide +kernel
example : md5 [0x61, 0x62, 0x63] = [0x90, 0x01, 0x50, 0x98, 0x3c, 0xd2, 0x4f, 0xb0, 0xd6, 0x96, 0x3f, 0x7d, 0x28, 0xe1, 0x7f, 0x72] := by
  decide +kernel

end Verif.Md5.RFC
