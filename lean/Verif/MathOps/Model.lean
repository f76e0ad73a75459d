import Verif.CInt
/-!
# Model of the integer part of java.lang.Math

Source: library/Java/Lang/Math/Math.cpp.  The `int` and `long` overloads that
have the same text are one definition parametrised by the width `w`
(32 or 64).
-/
namespace Verif.MathOps
open CInt

/-- Math.cpp:33-35 (int), 41-43 (long) `abs`. -/
def abs (m : Sem) (v : BitVec w) : Outcome (BitVec w) :=
  if v.slt 0 then neg m v else .ok v

/-- Math.cpp:69-75 (long), 77-83 (int) `addExact`. -/
def addExact (m : Sem) (a b : BitVec w) : Outcome (BitVec w) := do
  let result ← add m a b
  if ((a ^^^ result) &&& (b ^^^ result)).slt 0 then .throw .arithmetic else .ok result

/-- Math.cpp:458-464 (long), 466-472 (int) `subtractExact`. -/
def subtractExact (m : Sem) (a b : BitVec w) : Outcome (BitVec w) := do
  let result ← sub m a b
  if ((a ^^^ b) &&& (a ^^^ result)).slt 0 then .throw .arithmetic else .ok result

/-- Math.cpp:115-127 `decrementExact`. -/
def decrementExact (m : Sem) (v : BitVec w) : Outcome (BitVec w) :=
  if v = BitVec.intMin w then .throw .arithmetic else sub m v 1

/-- Math.cpp:227-239 `incrementExact`. -/
def incrementExact (m : Sem) (v : BitVec w) : Outcome (BitVec w) :=
  if v = BitVec.intMax w then .throw .arithmetic else add m v 1

/-- Math.cpp:317-329 `negateExact`. -/
def negateExact (m : Sem) (v : BitVec w) : Outcome (BitVec w) :=
  if v = BitVec.intMin w then .throw .arithmetic else neg m v

/-- Math.cpp:141-151 (int), 153-163 (long) `floorDiv`. -/
def floorDiv (m : Sem) (x y : BitVec w) : Outcome (BitVec w) := do
  if y = 0 then .throw .arithmetic
  else
    let result ← div x y
    if (x ^^^ y).slt 0 then
      let p ← mul m result y
      if p ≠ x then sub m result 1 else .ok result
    else .ok result

/-- Math.cpp:165-171 `floorMod`. -/
def floorMod (m : Sem) (x y : BitVec w) : Outcome (BitVec w) := do
  let q ← floorDiv m x y
  let p ← mul m q y
  sub m x p

/-- Math.cpp:259-273 `max`. -/
def max (a b : BitVec w) : BitVec w := if b.slt a then a else b

/-- Math.cpp:275-289 `min`. -/
def min (a b : BitVec w) : BitVec w := if a.slt b then a else b

/-- Math.cpp:291-297 `multiplyExact(int, int)`. -/
def multiplyExactInt (m : Sem) (a b : BitVec 32) : Outcome (BitVec 32) := do
  let result ← mul m (a.signExtend 64) (b.signExtend 64)
  let d ← sub m result ((result.setWidth 32).signExtend 64)
  if (0 : BitVec 64).slt d then .throw .arithmetic else .ok (result.setWidth 32)

/-- Math.cpp:306-307: `(unsigned) abs(value)` truncates to 32 bits. -/
def abs32 (m : Sem) (v : BitVec 64) : Outcome (BitVec 64) := do
  let a ← abs m v
  .ok ((a.setWidth 32).setWidth 64)

/-- Math.cpp:299-315 `multiplyExact(long, long)`. -/
def multiplyExactLong (m : Sem) (a b : BitVec 64) : Outcome (BitVec 64) := do
  if a = BitVec.intMin 64 ∧ b = -1 then .throw .arithmetic
  else
    let result ← mul m a b
    let absA ← abs32 m a
    let absB ← abs32 m b
    if (absA ||| absB) >>> 31 ≠ 0 then
      if b ≠ 0 then
        let q ← div result b
        if q ≠ a then .throw .arithmetic else .ok result
      else .ok result
    else .ok result

/-- Math.cpp:486-491 `toIntExact`. -/
def toIntExact (m : Sem) (v : BitVec 64) : Outcome (BitVec 32) := do
  let d ← sub m v ((v.setWidth 32).signExtend 64)
  if (0 : BitVec 64).slt d then .throw .arithmetic else .ok (v.setWidth 32)

end Verif.MathOps
