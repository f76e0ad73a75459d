import Verif.FloatText.Model
/-!
# `Math.IEEERemainder`

`/repo/library/Java/Lang/Math/Math.cpp`: `math_ieeeremainder` (215-217) and `IEEERemainder` (219-225), over the values of
`Floats` and with the arithmetic of IEEE 754 (`nearest`: to the nearest value, ties to even; infinite beyond the largest).
Assumed is that the compiler rounds each operation to `double` (no fused multiply and subtract, no wider registers).
-/
namespace Verif.Remainder
open Verif.Floats Verif.FloatText

/-- `x / y` of `double`, as in IEEE 754 (Math 216). -/
def divF (f : Fmt) : Flt → Flt → Flt
  | .fin s k, .fin t l => if l = 0 then (if k = 0 then .nan else .inf (s != t)) else nearest f (s != t) k l
  | .fin s _, .inf t => .fin (s != t) 0
  | .inf s, .fin t _ => .inf (s != t)
  | _, _ => .nan

/-- `::round` of `double`: to the nearest whole number, halves away from zero (Math 216). Whole numbers near a value are values. -/
def roundF (f : Fmt) : Flt → Flt
  | .fin s k => .fin s ((2 * k + 2 ^ f.unit) / (2 * 2 ^ f.unit) * 2 ^ f.unit)
  | x => x

/-- `x * y` of `double` (Math 216). -/
def mulF (f : Fmt) : Flt → Flt → Flt
  | .fin s k, .fin t l => nearest f (s != t) (k * l) (2 ^ f.unit * 2 ^ f.unit)
  | .fin s k, .inf t => if k = 0 then .nan else .inf (s != t)
  | .inf s, .fin t l => if l = 0 then .nan else .inf (s != t)
  | .inf s, .inf t => .inf (s != t)
  | _, _ => .nan

/-- `x - y` of `double` (Math 216). The difference of equal numbers is plus zero, but -0 - 0 is -0. -/
def subF (f : Fmt) : Flt → Flt → Flt
  | .fin s k, .fin t l =>
    let z : Int := (if s then -(k : Int) else k) - (if t then -(l : Int) else l)
    if z = 0 then .fin (s && !t) 0 else nearest f (decide (z < 0)) z.natAbs (2 ^ f.unit)
  | .fin _ _, .inf t => .inf (!t)
  | .inf s, .fin _ _ => .inf s
  | .inf s, .inf t => if s = t then .nan else .inf s
  | _, _ => .nan

/-- `math_ieeeremainder` and `IEEERemainder` (Math 215-225): `dividend - (round(dividend / divisor) * divisor)`; the sign of
a NaN, which `abs` clears, is not part of the model. -/
def ieeeRemainder (f : Fmt) (x y : Flt) : Flt := subF f x (mulF f (roundF f (divF f x y)) y)

end Verif.Remainder
