import Verif.Floats.Spec
/-!
# What the texts of `Double` and `Float` promise

Decimal numbers and the value nearest to one, without the model's functions.
-/
namespace Verif.FloatText
open Verif.Floats

/-- Only decimal digits. -/
def Digits (l : List Char) : Prop := ∀ c ∈ l, 48 ≤ c.toNat ∧ c.toNat ≤ 57

/-- The number written by decimal digits. -/
def natOf (l : List Char) : Nat := l.foldl (fun a c => a * 10 + (c.toNat - 48)) 0

/-- An optional sign. -/
def SignOf (s : List Char) (neg : Bool) : Prop :=
  (s = ['-'] ∧ neg = true) ∨ ((s = [] ∨ s = ['+']) ∧ neg = false)

/-- The optional exponent of a text. -/
def ExponentOf (t : List Char) (e : Int) : Prop :=
  (t = [] ∧ e = 0) ∨ ∃ c s d neg, (c = 'e' ∨ c = 'E') ∧ SignOf s neg ∧ Digits d ∧ d ≠ [] ∧
    t = c :: (s ++ d) ∧ e = if neg then -(natOf d : Int) else natOf d

/-- The text `t` is a decimal number with digits before and, perhaps, after the point:
plus or minus `n * 10 ^ x`. -/
def Denotes (t : List Char) (neg : Bool) (n : Nat) (x : Int) : Prop :=
  ∃ s i fr pt ex e, SignOf s neg ∧ Digits i ∧ i ≠ [] ∧ Digits fr ∧
    ((pt = '.' :: fr) ∨ (pt = [] ∧ fr = [])) ∧ ExponentOf ex e ∧
    t = s ++ (i ++ (pt ++ ex)) ∧ n = natOf (i ++ fr) ∧ x = e - fr.length

/-- `a / b` is `n * 10 ^ x`. -/
def Ratio (n : Nat) (x : Int) (a b : Nat) : Prop :=
  (0 ≤ x ∧ a = n * 10 ^ x.toNat ∧ b = 1) ∨ (x < 0 ∧ a = n ∧ b = 10 ^ (-x).toNat)

/-- `n * 10 ^ x` is `k` units rounded to six significant digits: `10 ^ y` is the place of the first
digit, `a / b` is the value times `10 ^ (5 - y)`, `m` is a whole number nearest to it. -/
def SixDigits (f : Fmt) (k n : Nat) (x : Int) : Prop :=
  ∃ (y : Int) (a b m j : Nat),
    ((y ≤ 5 ∧ a = k * 10 ^ (5 - y).toNat ∧ b = 2 ^ f.unit) ∨
      (5 < y ∧ a = k ∧ b = 2 ^ f.unit * 10 ^ (y - 5).toNat)) ∧
    10 ^ 5 * b ≤ a ∧ a < 10 ^ 6 * b ∧ 2 * ((m * b : Nat) - (a : Int)).natAbs ≤ b ∧
    m = n * 10 ^ j ∧ x = y - 5 + j

/-- How far `k` units are from `a / b`, times `b * 2 ^ unit`. -/
def gap (f : Fmt) (a b k : Nat) : Nat := ((a * 2 ^ f.unit : Nat) - (k * b : Nat) : Int).natAbs

/-- The largest finite value, in units. -/
def largest (f : Fmt) : Nat := (2 ^ (f.p + 1) - 1) * 2 ^ (2 ^ f.w - 3)

/-- The last bit of `x` is 0. -/
def EvenValue (f : Fmt) (x : Flt) : Prop := ∃ b, b % 2 = 0 ∧ b < 2 ^ (f.p + f.w + 1) ∧ ieee f b = x

/-- `x` is what IEEE 754 rounds plus or minus `a / b` to: no value is nearer, and of two that are
equally near it is the even one; from half a place beyond the largest value on it is infinite. -/
def Rounded (f : Fmt) (neg : Bool) (a b : Nat) (x : Flt) : Prop :=
  if (2 * largest f + 2 ^ (2 ^ f.w - 3)) * b ≤ 2 * (a * 2 ^ f.unit) then x = .inf neg
  else ∃ k, x = .fin neg k ∧ IsValue f x ∧ ∀ a' l, IsValue f (.fin a' l) →
    gap f a b k ≤ gap f a b l ∧ (gap f a b k = gap f a b l → l = k ∨ EvenValue f x)

end Verif.FloatText
