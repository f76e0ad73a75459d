import Verif.NumText.Spec
import Verif.CStr
import Verif.Uuid.Model
/-!
# What users of UUIDs rely on

A UUID is a number below 2^128.
-/
namespace Verif.Uuid
open Verif.NumText

/-- The 128-bit number of a UUID. -/
def value (u : UUID) : Nat := (getMostSignificantBits u).toNat * 2 ^ 64 + (getLeastSignificantBits u).toNat

/-- `t` is `n` lower-case hexadecimal digits with value `v`. -/
def Hex (n : Nat) (t : List Byte) (v : Nat) : Prop := t.length = n ∧ LowNumeral 16 t v

/-- `t` is the standard text of the 128-bit number `v`: groups of 8, 4, 4, 4 and
12 digits, most significant first. -/
def Standard (t : List Byte) (v : Nat) : Prop :=
  ∃ a b c d e : List Byte, ∃ A B C D E : Nat,
    t = a ++ [chr '-'] ++ b ++ [chr '-'] ++ c ++ [chr '-'] ++ d ++ [chr '-'] ++ e ∧
    Hex 8 a A ∧ Hex 4 b B ∧ Hex 4 c C ∧ Hex 4 d D ∧ Hex 12 e E ∧
    v = (((A * 2 ^ 16 + B) * 2 ^ 16 + C) * 2 ^ 16 + D) * 2 ^ 48 + E

/-- The bits from `lo` up to and without `lo + width` of a 128-bit number,
counted from the least significant. -/
def field (v lo width : Nat) : Nat := v / 2 ^ lo % 2 ^ width

/-- RFC 4122 section 4.1.2: the version is the top four bits of
`time_hi_and_version`, the clock sequence the 14 bits below the two bits of the
variant, the node the low 48 bits. -/
def versionOf (v : Nat) : Nat := field v 76 4
def clockSequenceOf (v : Nat) : Nat := field v 48 14
def nodeOf (v : Nat) : Nat := field v 0 48

/-- RFC 4122 section 4.1.1, with the numbers of Java's `UUID.variant`: 0 for
`0xx`, 2 for `10x`, 6 for `110`, 7 for `111`. -/
def variantOf (v : Nat) : Nat :=
  if field v 63 1 = 0 then 0 else if field v 62 1 = 0 then 2 else field v 61 3

end Verif.Uuid
