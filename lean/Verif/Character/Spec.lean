import Verif.Common
/-! # Unicode code points and digits -/
namespace Verif.Character

/-- The UTF-16 code units of a code point. -/
def utf16 (cp : Nat) : List Nat :=
  if cp < 0x10000 then [cp] else [0xD800 + (cp - 0x10000) / 0x400, 0xDC00 + (cp - 0x10000) % 0x400]

/-- The value of an ASCII letter or digit as a digit. -/
def digitValue (c : Int) : Option Int :=
  if 48 ≤ c ∧ c ≤ 57 then some (c - 48)
  else if 97 ≤ c ∧ c ≤ 122 then some (c - 97 + 10)
  else if 65 ≤ c ∧ c ≤ 90 then some (c - 65 + 10)
  else none

/-- What `digit(c, radix)` should return for an ASCII character. -/
def digitIn (c radix : Int) : Int :=
  match digitValue c with
  | some v => if 2 ≤ radix ∧ radix ≤ 36 ∧ v < radix then v else -1
  | none => -1

end Verif.Character
