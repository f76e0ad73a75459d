import Verif.CStr
/-!
# Model of java.net.URLEncoder / URLDecoder

Sources: library/Java/Net/URLEncoder/URLEncoder.cpp,
library/Java/Net/URLDecoder/URLDecoder.cpp.  Strings are the byte contents of
the underlying `std::string`.  Simplifications: `int` indices are naturals
(strings shorter than 2^31), `isalnum`, `isdigit`, `tolower` are those of the
"C" locale, defined on negative chars as glibc's tables define them.
-/
namespace Verif.UrlCodec

/-- URLEncoder.cpp:36-39 `charToHex`; only the low nibble matters. -/
def charToHex (code : Byte) : Byte := (txt "0123456789abcdef").getD (code.toNat % 16) 0

/-- URLEncoder.cpp:45-46, the characters copied as they are. -/
def unreserved (c : Byte) : Bool :=
  isAlnum c || c = chr '-' || c = chr '_' || c = chr '.' || c = chr '~'

/-- URLEncoder.cpp:44-59, one turn of the loop; state: index and result.
`target[i] >> 4` is an arithmetic shift whose low nibble is the high nibble of
the byte. -/
def encBody (target : List Byte) (s : Nat × List Byte) : Outcome (Step (Nat × List Byte) (List Byte)) := do
  let (i, result) := s
  if i < target.length then
    let c ← Str.at target i
    if unreserved c then .ok (.next (i + 1, result ++ [c]))
    else if c = chr ' ' then .ok (.next (i + 1, result ++ [chr '+']))
    else .ok (.next (i + 1, result ++ [chr '%', charToHex (BitVec.ofNat 8 (c.toNat / 16)), charToHex c]))
  else .ok (.done result)

/-- URLEncoder.cpp:41-62 `urlEncode`. -/
def urlEncode (target : List Byte) : Outcome (List Byte) :=
  iter (encBody target) (target.length + 1) (0, [])

/-- URLEncoder.cpp:64-73 `URLEncoder::encode(source, encoding)`: the source goes
through `toCharPointer()`, hence through `strlen`. Names are restricted to ASCII, where
`toUpperCase` acts on letters only; `Verif.CaseText` has all of them. -/
def encodeWith (source encoding : List Byte) : Outcome (List Byte) :=
  if (cstr encoding).map toUpperB = txt "UTF-8" then urlEncode (cstr source)
  else .throw .unsupportedEncoding

/-- URLEncoder.cpp:32-34 -/
def encode (source : List Byte) : Outcome (List Byte) := encodeWith source (txt "UTF-8")

/-- URLDecoder.cpp:37-39 `charFromHex`, the result as a `char`. -/
def charFromHex (c : Byte) : Byte := if isDigit c then c - 48 else toLowerB c - 97 + 10

/-- URLDecoder.cpp:47: `charFromHex(a) << 4 | charFromHex(b)` appended as a
`char`; shifting a negative `int` left is undefined in C++11. -/
def unhex (m : Sem) (a b : Byte) : Outcome Byte :=
  if m = .strict ∧ (charFromHex a).toNat ≥ 128 then .ub
  else .ok ((charFromHex a <<< 4) ||| charFromHex b)

/-- URLDecoder.cpp:44-57, one turn of the loop.  A `%` not followed by two more
characters is dropped. -/
def decBody (m : Sem) (target : List Byte) (s : Nat × List Byte) :
    Outcome (Step (Nat × List Byte) (List Byte)) := do
  let (i, result) := s
  if i < target.length then
    let c ← Str.at target i
    if c = chr '%' then
      let a ← Str.at target (i + 1)
      if a ≠ 0 then
        let b ← Str.at target (i + 2)
        if b ≠ 0 then
          let v ← unhex m a b
          .ok (.next (i + 3, result ++ [v]))
        else .ok (.next (i + 1, result))
      else .ok (.next (i + 1, result))
    else if c = chr '+' then .ok (.next (i + 1, result ++ [chr ' ']))
    else .ok (.next (i + 1, result ++ [c]))
  else .ok (.done result)

/-- URLDecoder.cpp:41-60 `urlDecode`. -/
def urlDecode (m : Sem) (target : List Byte) : Outcome (List Byte) :=
  iter (decBody m target) (target.length + 1) (0, [])

/-- URLDecoder.cpp:62-71 `URLDecoder::decode(source, encoding)`. -/
def decodeWith (m : Sem) (source encoding : List Byte) : Outcome (List Byte) :=
  if (cstr encoding).map toUpperB = txt "UTF-8" then urlDecode m (cstr source)
  else .throw .unsupportedEncoding

/-- URLDecoder.cpp:32-34 -/
def decode (m : Sem) (source : List Byte) : Outcome (List Byte) := decodeWith m source (txt "UTF-8")

end Verif.UrlCodec
