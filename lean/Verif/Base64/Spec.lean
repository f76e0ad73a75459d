import Verif.Common
/-!
# Specification of Base64 (RFC 4648), independent of the code model
-/
namespace Verif.Base64.Spec

/-- The eight bits of a byte, most significant first. -/
def byteBits (b : Byte) : List Bool :=
  [b.getMsbD 0, b.getMsbD 1, b.getMsbD 2, b.getMsbD 3,
   b.getMsbD 4, b.getMsbD 5, b.getMsbD 6, b.getMsbD 7]

/-- The bit string of a byte string. -/
def bits (bs : List Byte) : List Bool := bs.flatMap byteBits

/-- Cut a bit string into 6-bit groups; the last one is completed with zeros. -/
def sextets : List Bool → List (List Bool)
  | [] => []
  | [a] => [[a, false, false, false, false, false]]
  | [a, b] => [[a, b, false, false, false, false]]
  | [a, b, c] => [[a, b, c, false, false, false]]
  | [a, b, c, d] => [[a, b, c, d, false, false]]
  | [a, b, c, d, e] => [[a, b, c, d, e, false]]
  | a :: b :: c :: d :: e :: f :: rest => [a, b, c, d, e, f] :: sextets rest

/-- The number denoted by a bit string, most significant first. -/
def value (l : List Bool) : Nat := l.foldl (fun acc b => 2 * acc + b.toNat) 0

/-- RFC 4648 tables 1 and 2: the character for a 6-bit value. -/
def symbol (url : Bool) (v : Nat) : Byte :=
  if v < 26 then BitVec.ofNat 8 ('A'.toNat + v)
  else if v < 52 then BitVec.ofNat 8 ('a'.toNat + (v - 26))
  else if v < 62 then BitVec.ofNat 8 ('0'.toNat + (v - 52))
  else if v = 62 then BitVec.ofNat 8 (if url then '-' else '+').toNat
  else BitVec.ofNat 8 (if url then '_' else '/').toNat

def padChar : Byte := BitVec.ofNat 8 '='.toNat

/-- Characters without padding. -/
def body (url : Bool) (bs : List Byte) : List Byte :=
  (sextets (bits bs)).map (fun s => symbol url (value s))

/-- RFC 4648 encoding; with `pad`, completed with `=` to a multiple of four
characters. -/
def encode (url pad : Bool) (bs : List Byte) : List Byte :=
  let b := body url bs
  b ++ if pad then List.replicate ((4 - b.length % 4) % 4) padChar else []

/-- The six bits of a 6-bit value, most significant first. -/
def sextetBits (v : Nat) : List Bool :=
  [v.testBit 5, v.testBit 4, v.testBit 3, v.testBit 2, v.testBit 1, v.testBit 0]

/-- Cut a bit string into bytes, dropping an incomplete last byte. -/
def octets : List Bool → List Byte
  | a :: b :: c :: d :: e :: f :: g :: h :: rest =>
    BitVec.ofNat 8 (value [a, b, c, d, e, f, g, h]) :: octets rest
  | _ => []

/-- `src` is Base64 text (padded or unpadded) denoting the bytes `out`: some
characters of the alphabet, not leaving a single character over, then either
nothing or the `=` signs completing the last group of four. -/
def Denotes (url : Bool) (src out : List Byte) : Prop :=
  ∃ (vs : List Nat) (pad : List Byte), (∀ v ∈ vs, v < 64) ∧
    src = vs.map (symbol url) ++ pad ∧ vs.length % 4 ≠ 1 ∧
    (pad = [] ∨ pad = List.replicate ((4 - vs.length % 4) % 4) padChar) ∧
    out = octets (vs.flatMap sextetBits)

/-- `bs` is a character of the (basic or URL) alphabet. -/
def IsSymbol (url : Bool) (c : Byte) : Prop := ∃ v, v < 64 ∧ symbol url v = c

/-- Cut a text into lines of `n` characters (`fuel` = text length). -/
def lines (n : Nat) : Nat → List Byte → List (List Byte)
  | 0, _ => []
  | fuel + 1, l => if l = [] then [] else l.take n :: lines n fuel (l.drop n)

/-- MIME layout: lines of at most `n` characters separated by `sep`. -/
def wrapped (n : Nat) (sep text : List Byte) : List Byte :=
  sep.intercalate (lines n text.length text)

end Verif.Base64.Spec
