/-! # What the bit operations are meant to compute -/
namespace Verif.Bits

/-- `h` is the position of the highest one-bit of `x`. -/
def IsHighest (x : BitVec w) (h : Nat) : Prop := x.getLsbD h = true ∧ ∀ j, h < j → x.getLsbD j = false

/-- `l` is the position of the lowest one-bit of `x`. -/
def IsLowest (x : BitVec w) (l : Nat) : Prop := x.getLsbD l = true ∧ ∀ j, j < l → x.getLsbD j = false

/-- The word whose only one-bit is bit `h`. -/
def IsBit (r : BitVec w) (h : Nat) : Prop := ∀ j, r.getLsbD j = true ↔ j = h

/-- Number of one-bits. -/
def popcount (x : BitVec w) : Nat := ((List.range w).filter fun j => x.getLsbD j).length

/-- `r` is `x` with its bits moved `d` places up, wrapping around. -/
def RotatedLeft (r x : BitVec w) (d : Int) : Prop :=
  ∀ j : Nat, j < w → r.getLsbD j = x.getLsbD (((j : Int) - d) % w).toNat

end Verif.Bits
