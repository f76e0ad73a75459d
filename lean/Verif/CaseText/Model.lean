import Verif.JString.Model
import Verif.UrlCodec.Model
/-!
# Upper and lower case of String, with UTF-8

`multiByteStringToWideString`, `wideStringToMultiByteString`, `toUpper` and `toLower` of
`library/Java/Lang/String/String.cpp` ("String.cpp"), with the parts of libstdc++ they
stand on: `wstring_convert` (bits/locale_conv.h) and `codecvt_utf8<wchar_t>`, where
`wchar_t` has 32 bits. `towupper` and `towlower` of the current locale are parameters:
any function on wide characters.

Simplified: allocation does not fail; `setlocale` has no other effect.
-/
namespace Verif.CaseText

open Verif.JString (Str)

/-- Versions of libstdc++: in older ones `codecvt_utf8` takes the code points D800 to DFFF
for characters. -/
structure Lib where
  surrogates : Bool

/-- What reading one character gives. -/
inductive Read
  | incomplete
  | invalid
  | got (c : Nat) (rest : Str)

/-- A byte that cannot stand behind the first one of a character: `(c & 0xC0) != 0x80`. -/
def notCont (c : Byte) : Bool := (c &&& 0xC0#8) != 0x80#8

/-- libstdc++ `read_utf8_code_point`, two bytes. -/
def read2 (c1 : Byte) : Str → Read
  | [] => .incomplete
  | c2 :: r => if notCont c2 then .invalid else .got (c1.toNat * 64 + c2.toNat - 0x3080) r

/-- libstdc++ `read_utf8_code_point`, three bytes. -/
def read3 (lib : Lib) (c1 : Byte) : Str → Read
  | [] => .incomplete
  | c2 :: r =>
    if notCont c2 then .invalid
    else if c1.toNat = 0xE0 ∧ c2.toNat < 0xA0 then .invalid
    else if lib.surrogates = false ∧ c1.toNat = 0xED ∧ 0xA0 ≤ c2.toNat then .invalid
    else match r with
      | [] => .incomplete
      | c3 :: r => if notCont c3 then .invalid else .got (c1.toNat * 4096 + c2.toNat * 64 + c3.toNat - 0xE2080) r

/-- libstdc++ `read_utf8_code_point`, four bytes. -/
def read4 (c1 : Byte) : Str → Read
  | [] => .incomplete
  | c2 :: r =>
    if notCont c2 then .invalid
    else if c1.toNat = 0xF0 ∧ c2.toNat < 0x90 then .invalid
    else if c1.toNat = 0xF4 ∧ 0x90 ≤ c2.toNat then .invalid
    else match r with
      | [] => .incomplete
      | c3 :: r =>
        if notCont c3 then .invalid
        else match r with
          | [] => .incomplete
          | c4 :: r => if notCont c4 then .invalid else .got (c1.toNat * 262144 + c2.toNat * 4096 + c3.toNat * 64 + c4.toNat - 0x3C82080) r

/-- libstdc++ `read_utf8_code_point` with the largest code 0x10FFFF. -/
def readCode (lib : Lib) : Str → Read
  | [] => .incomplete
  | c1 :: r =>
    if c1.toNat < 0x80 then .got c1.toNat r
    else if c1.toNat < 0xC2 then .invalid
    else if c1.toNat < 0xE0 then read2 c1 r
    else if c1.toNat < 0xF0 then read3 lib c1 r
    else if c1.toNat < 0xF5 then read4 c1 r
    else .invalid

/-- `codecvt_utf8::do_in` as called in `__do_str_codecvt` (bits/locale_conv.h:49-102):
`none` is an error; an incomplete character at the end is `partial`, which is none. The
output always has room (five wide characters per byte), so the call is not repeated.
Every character takes a byte: as many rounds as bytes are enough. -/
def decode (lib : Lib) : Nat → Str → Option (List Nat)
  | 0, _ => some []
  | _ + 1, [] => some []
  | n + 1, b :: s =>
    match readCode lib (b :: s) with
    | .incomplete => some []
    | .invalid => none
    | .got c rest => (decode lib n rest).map (c :: ·)

/-- libstdc++ `write_utf8_code_point` and the tests before it. -/
def writeCode (lib : Lib) (c : Nat) : Option Str :=
  if lib.surrogates = false ∧ 0xD800 ≤ c ∧ c ≤ 0xDFFF then none
  else if c < 0x80 then some [BitVec.ofNat 8 c]
  else if c ≤ 0x7FF then some [BitVec.ofNat 8 (c / 64 + 0xC0), BitVec.ofNat 8 (c % 64 + 0x80)]
  else if c ≤ 0xFFFF then some [BitVec.ofNat 8 (c / 4096 + 0xE0), BitVec.ofNat 8 (c / 64 % 64 + 0x80), BitVec.ofNat 8 (c % 64 + 0x80)]
  else if c ≤ 0x10FFFF then
    some [BitVec.ofNat 8 (c / 262144 + 0xF0), BitVec.ofNat 8 (c / 4096 % 64 + 0x80), BitVec.ofNat 8 (c / 64 % 64 + 0x80), BitVec.ofNat 8 (c % 64 + 0x80)]
  else none

/-- `codecvt_utf8::do_out`. -/
def encode (lib : Lib) : List Nat → Option Str
  | [] => some []
  | c :: w =>
    match writeCode lib c with
    | none => none
    | some b => (encode lib w).map (b ++ ·)

/-- String.cpp:35-44 `multiByteStringToWideString`: `c_str()` ends at the first NUL, an
exception gives the empty text. -/
def widen (lib : Lib) (s : Str) : List Nat := (decode lib (cstr s).length (cstr s)).getD []

/-- String.cpp:46-55 `wideStringToMultiByteString`. -/
def narrow (lib : Lib) (w : List Nat) : Str := (encode lib (w.takeWhile (· ≠ 0))).getD []

/-- String.cpp:57-61, 467-469 `toUpperCase`, and 63-67, 463-465 `toLowerCase`: the same
with another table. -/
def convert (lib : Lib) (tow : Nat → Nat) (s : Str) : Str := narrow lib ((widen lib s).map tow)

/-- Boolean.cpp:110-112, 134-136 `getBoolean`, `parseBoolean`. -/
def parseBoolean (lib : Lib) (towlower : Nat → Nat) (s : Str) : Bool := convert lib towlower (cstr s) == txt "true"

/-- URLEncoder.cpp:64-73 `URLEncoder::encode(source, encoding)`. -/
def encodeWith (lib : Lib) (towupper : Nat → Nat) (source encoding : Str) : Outcome Str :=
  if convert lib towupper encoding = txt "UTF-8" then UrlCodec.urlEncode (cstr source) else .throw .unsupportedEncoding

/-- URLDecoder.cpp:61-70 `URLDecoder::decode(source, encoding)`. -/
def decodeWith (m : Sem) (lib : Lib) (towupper : Nat → Nat) (source encoding : Str) : Outcome Str :=
  if convert lib towupper encoding = txt "UTF-8" then UrlCodec.urlDecode m (cstr source) else .throw .unsupportedEncoding

end Verif.CaseText
