import Verif.Floats.Spec
/-!
# What `java.lang.Math.IEEEremainder` promises
-/
namespace Verif.Remainder
open Verif.Floats

/-- `r` is the remainder of `x` and `y` as IEEE 754 and Java define it: `x - n * y`, where `n` is the whole number nearest to
the exact quotient, the even one of two; a zero has the sign of `x`. If `x` is not finite, `y` is zero or one is NaN, it is
NaN. If only `y` is infinite, it is `x`. -/
def IsRemainder (x y r : Flt) : Prop :=
  match x, y with
  | .fin s k, .fin t l =>
    if l = 0 then r = .nan
    else ∃ (c : Bool) (m : Nat) (n : Int), r = .fin c m ∧ num c m = num s k - n * num t l ∧
      2 * m ≤ l ∧ (2 * m = l → n % 2 = 0) ∧ (m = 0 → c = s)
  | .fin s k, .inf _ => r = .fin s k
  | _, _ => r = .nan

end Verif.Remainder
