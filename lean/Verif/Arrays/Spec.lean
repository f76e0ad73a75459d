import Verif.Common
/-! # What `Arrays` should do -/
namespace Verif.Arrays

variable {α : Type}

/-- `lt` orders the elements: no element precedes itself, no two precede each
other, and an element that separates no pair is absent ("incomparable" is an
equivalence). True of `<` on every integer type, on strings and on
floating-point numbers without NaN. -/
structure StrictWeak (lt : α → α → Bool) : Prop where
  irrefl : ∀ x, lt x x = false
  asym : ∀ x y, lt x y = true → lt y x = false
  split : ∀ x y z, lt x y = true → lt x z = true ∨ lt z y = true

/-- In ascending order: nothing that stands later precedes what stands earlier. -/
def Ascending (lt : α → α → Bool) (l : List α) : Prop := l.Pairwise (fun x y => lt y x = false)

/-- `ge` and `eq` are `>=` and `==` of a total order. -/
structure TotalOrd (ge eq : α → α → Bool) : Prop where
  trans : ∀ x y z, ge x y = true → ge y z = true → ge x z = true
  eq_iff : ∀ x y, eq x y = true ↔ ge x y = true ∧ ge y x = true

/-- In ascending order. -/
def SortedGe (ge : α → α → Bool) (l : List α) : Prop := l.Pairwise (fun x y => ge y x = true)

/-- The polynomial hash of the documentation, modulo 2^32. -/
def polyHash (l : List (BitVec 32)) : BitVec 32 := if l = [] then 0 else l.foldl (fun h e => 31 * h + e) 1

end Verif.Arrays
