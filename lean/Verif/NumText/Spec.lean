import Verif.CStr
/-! # Numerals -/
namespace Verif.NumText

/-- Value of a digit character: `0`-`9`, then letters of either case from 10. -/
def digitVal (c : Byte) : Option Nat :=
  if 48 ≤ c.toNat ∧ c.toNat ≤ 57 then some (c.toNat - 48)
  else if 97 ≤ c.toNat ∧ c.toNat ≤ 122 then some (c.toNat - 97 + 10)
  else if 65 ≤ c.toNat ∧ c.toNat ≤ 90 then some (c.toNat - 65 + 10)
  else none

/-- `c` is the digit `d` of radix `b`. -/
def IsDigit (b : Nat) (c : Byte) (d : Nat) : Prop := digitVal c = some d ∧ d < b

/-- The text `t` is a numeral of radix `b` (one or more digits) with value `n`. -/
inductive Numeral (b : Nat) : List Byte → Nat → Prop
  | one {c d} : IsDigit b c d → Numeral b [c] d
  | snoc {t n c d} : Numeral b t n → IsDigit b c d → Numeral b (t ++ [c]) (n * b + d)

/-- An optional sign and a numeral: the texts Java's `parseInt` accepts. -/
inductive SignedNumeral (b : Nat) : List Byte → Int → Prop
  | plain {t n} : Numeral b t n → SignedNumeral b t n
  | plus {t n} : Numeral b t n → SignedNumeral b (chr '+' :: t) n
  | minus {t n} : Numeral b t n → SignedNumeral b (chr '-' :: t) (-n)

/-- A numeral without superfluous zeros, letters in lower case: the text Java
prints. -/
def Canonical (b : Nat) (t : List Byte) (n : Nat) : Prop :=
  Numeral b t n ∧ (t.head? = some (chr '0') → t = [chr '0']) ∧ ∀ c ∈ t, isUpper c = false

/-- Text of a signed number: the canonical numeral of the magnitude, preceded
by `-` when negative. -/
def SignedCanonical (b : Nat) (t : List Byte) (i : Int) : Prop :=
  (0 ≤ i ∧ Canonical b t i.natAbs) ∨ (i < 0 ∧ ∃ u, t = chr '-' :: u ∧ Canonical b u i.natAbs)

/-- The three notations: decimal, `0x` hexadecimal and `0` octal. -/
inductive Literal : List Byte → Nat → Prop
  | dec {t n} : Numeral 10 t n → (t.head? = some (chr '0') → t = [chr '0']) → Literal t n
  | hex {t n x} : Numeral 16 t n → (x = chr 'x' ∨ x = chr 'X') → Literal (chr '0' :: x :: t) n
  | oct {t n} : Numeral 8 t n → Literal (chr '0' :: t) n

/-- A numeral whose letters are lower case. -/
def LowNumeral (r : Nat) (t : List Byte) (n : Nat) : Prop := Numeral r t n ∧ ∀ c ∈ t, isUpper c = false

/-- An optional sign and a numeral with lower-case letters. -/
def LongText (r : Nat) (t : List Byte) (v : Int) : Prop := SignedNumeral r t v ∧ ∀ c ∈ t, isUpper c = false

/-- The optional sign of a literal and whether it negates. -/
inductive Sign : List Byte → Bool → Prop
  | none : Sign [] false
  | plus : Sign [chr '+'] false
  | minus : Sign [chr '-'] true

end Verif.NumText
