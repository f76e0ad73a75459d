import Verif.CStr
/-! # Specification vocabulary for strings (no reference to the model) -/
namespace Verif.JString

/-- `p` occurs in `s` at position `i`. -/
def OccursAt (s p : List Byte) (i : Nat) : Prop := ∃ a b, s = a ++ p ++ b ∧ a.length = i

/-- `r` is the least position `≥ from` at which `p` occurs in `s`, or -1. -/
def IsFirst (s p : List Byte) (frm : Nat) (r : Int) : Prop :=
  (∃ i : Nat, r = i ∧ frm ≤ i ∧ OccursAt s p i ∧ ∀ j, frm ≤ j → j < i → ¬ OccursAt s p j) ∨
  (r = -1 ∧ ∀ j, frm ≤ j → ¬ OccursAt s p j)

/-- `r` is the greatest position `≤ upto` at which `p` occurs in `s`, or -1. -/
def IsLast (s p : List Byte) (upto : Nat) (r : Int) : Prop :=
  (∃ i : Nat, r = i ∧ i ≤ upto ∧ OccursAt s p i ∧ ∀ j, i < j → j ≤ upto → ¬ OccursAt s p j) ∨
  (r = -1 ∧ ∀ j, j ≤ upto → ¬ OccursAt s p j)

/-- `ps` are the pieces obtained by cutting `s` at the leftmost occurrence of
`d`, again and again. -/
inductive Pieces (d : List Byte) : List Byte → List (List Byte) → Prop
  | last {s} : (∀ i, ¬ OccursAt s d i) → Pieces d s [s]
  | cut {p t ps} : (∀ i, i < p.length → ¬ OccursAt (p ++ d ++ t) d i) → Pieces d t ps →
      Pieces d (p ++ d ++ t) (p :: ps)

/-- `r` is `s` with every leftmost non-overlapping occurrence of `a` replaced
by `b`. -/
inductive Replaced (a b : List Byte) : List Byte → List Byte → Prop
  | rest {s} : (∀ i, ¬ OccursAt s a i) → Replaced a b s s
  | sub {p t r} : (∀ i, i < p.length → ¬ OccursAt (p ++ a ++ t) a i) → Replaced a b t r →
      Replaced a b (p ++ a ++ t) (p ++ b ++ r)

/-- Strict lexicographic order of byte strings, bytes as unsigned numbers. -/
inductive Lex : List Byte → List Byte → Prop
  | nil {b t} : Lex [] (b :: t)
  | head {a b s t} : a.toNat < b.toNat → Lex (a :: s) (b :: t)
  | tail {a s t} : Lex s t → Lex (a :: s) (a :: t)

/-- The polynomial hash `s[0]*31^(n-1) + ... + s[n-1]` over the integers,
characters as signed chars. -/
def polyHash (s : List Byte) : Int :=
  ((List.range s.length).map (fun i => (s.getD i 0).toInt * 31 ^ (s.length - 1 - i))).sum

end Verif.JString
