import Verif.Common
/-! # Texts of characters -/
namespace Verif.CaseText

/-- The UTF-8 text of characters, by Lean's own definition. -/
def utf8 (cs : List Char) : List Byte := (cs.flatMap String.utf8EncodeChar).map UInt8.toBitVec

/-- A table of the C library (`towupper`, `towlower`) maps characters to characters as
`up` says, and only NUL to NUL. -/
def Table (tow : Nat → Nat) (up : Char → Char) : Prop :=
  (∀ c : Char, tow c.toNat = (up c).toNat) ∧ ∀ c, up c = Char.ofNat 0 → c = Char.ofNat 0

/-- The text spells the word in any mix of cases. -/
def Spells : List (Char × Char) → List Char → Prop
  | [], [] => True
  | w :: word, c :: cs => (c = w.1 ∨ c = w.2) ∧ Spells word cs
  | _, _ => False

/-- "true" and "utf-8" in both cases. -/
def trueWord : List (Char × Char) := [('t', 'T'), ('r', 'R'), ('u', 'U'), ('e', 'E')]
def utfWord : List (Char × Char) := [('U', 'u'), ('T', 't'), ('F', 'f'), ('-', '-'), ('8', '8')]

/-- The table takes exactly the letters of the word, in either case, to the first one. -/
def Folds (up : Char → Char) (word : List (Char × Char)) : Prop := ∀ w ∈ word, ∀ c, up c = w.1 ↔ c = w.1 ∨ c = w.2

end Verif.CaseText
