import Verif.Common
/-!
# `Java::Lang::Double` and `Java::Lang::Float`: bits, order, conversions

`/repo/library/Java/Lang/Double/Double.cpp` ("Double"), `Float/Float.cpp` ("Float") and the
floating point functions of `Math/Math.cpp` ("Math").  The two classes hold the same code with
other numbers in it, so one model covers both: `Fmt` has the numbers.

A finite value is a sign and a number of *units* of 2^-1074 (2^-149 for `float`): every finite
`double` is a whole number of them, and so is every result of the arithmetic in the code
modelled here, which never rounds: taking the absolute value, `floor`, doubling a value below
2^31, subtracting the `floor`, and multiplying by powers of two.  Where it does round
(`longBitsToDouble` of a pattern below 2^52) the model rounds to nearest, ties to even.
-/
namespace Verif.Floats

/-- The numbers that differ between the two classes. -/
structure Fmt where
  /-- bits of the fraction: 52, 23 -/
  p : Nat
  /-- bits of the exponent: 11, 8 -/
  w : Nat
  /-- size of `integerPartNormalizeForm`: Double 376, Float 200 -/
  ints : Nat
  /-- size of `doubleInputNormalizeForm`: Double 378, Float 202 -/
  form : Nat

/-- Double 376-379, 401-413. -/
def f64 : Fmt := { p := 52, w := 11, ints := 2048, form := 2102 }
/-- Float 200-204, 226-239. -/
def f32 : Fmt := { p := 23, w := 8, ints := 280, form := 280 }

/-- 1023, 127 (Double 395, Float 220) -/
def Fmt.bias (f : Fmt) : Nat := 2 ^ (f.w - 1) - 1
/-- The unit is `2 ^ -unit`: 1074, 149. -/
def Fmt.unit (f : Fmt) : Nat := f.bias - 1 + f.p
/-- The last place of the text: 63, 31. -/
def Fmt.last (f : Fmt) : Nat := f.p + f.w

/-- A `double` or `float`. `fin neg k` is `k` units, below zero when `neg`. -/
inductive Flt where
  | nan
  | inf (neg : Bool)
  | fin (neg : Bool) (k : Nat)
  deriving DecidableEq, Repr

/-! ### Memory of characters -/

/-- A block from `malloc` or `calloc`; `none` was never written. (Float uses `calloc`; its
zeros are never read either.) -/
structure Mem where
  size : Nat
  cell : Nat → Option Char

/-- `allocateMemory(n)` (Common.hpp:101-103). -/
def malloc (n : Nat) : Mem := { size := n, cell := fun _ => none }

/-- `m[i] = c`; a model of memory, not of the code. -/
def Mem.wr (m : Mem) (i : Int) (c : Char) : Outcome Mem :=
  if 0 ≤ i ∧ i < m.size then
    .ok { m with cell := fun j => if (j : Int) = i then some c else m.cell j }
  else .ub

/-- `m[i]`; a model of memory. -/
def Mem.rd (m : Mem) (i : Int) : Outcome Char :=
  if 0 ≤ i ∧ i < m.size then
    match m.cell i.toNat with
    | some c => .ok c
    | none => .ub
  else .ub

/-- `for (i = 0; i < n; i++) m[i] = '0';` (Double 401-409, Float 226-234). -/
def Mem.fill (m : Mem) : Nat → Outcome Mem
  | 0 => .ok m
  | n + 1 => (m.fill n).bind fun m => m.wr n '0'

/-- The C string from place `i` on (Double 592, Float 407): `n` places are left. -/
def Mem.cstr (m : Mem) (i : Nat) : Nat → Outcome (List Char)
  | 0 => .ub
  | n + 1 => (m.rd i).bind fun c =>
    if c = '\x00' then .ok [] else (m.cstr (i + 1) n).bind fun l => .ok (c :: l)

/-- `strcpy(m, l)`, from place `i` on (Double 431, 437, 444; Float 255, 260, 265). -/
def Mem.strcpy (m : Mem) (i : Nat) : List Char → Outcome Mem
  | [] => m.wr i '\x00'
  | c :: l => (m.wr i c).bind fun m => m.strcpy (i + 1) l

/-! ### `doubleToBinary64StringType` (Double 375-596, Float 199-411) -/

/-- `static_cast<int>(floor(x))` of a value of `k` units: outside `int` it is undefined. -/
def floorInt (f : Fmt) (k : Nat) : Outcome Nat :=
  if k / 2 ^ f.unit < 2 ^ 31 then .ok (k / 2 ^ f.unit) else .ub

/-- `while (n != 0) { size++; n = n >> 1; }` (Double 462-465, Float 282-285). -/
def sizeLoop : Nat → Nat → Nat → Outcome Nat
  | 0, _, _ => .diverge
  | fuel + 1, n, size => if n = 0 then .ok size else sizeLoop fuel (n / 2) (size + 1)

/-- The character of a bit: the tests `(n & 1) == 1` and `(n & 1) == 0` (Double 473-479). -/
def bitChar (n : Nat) : Char := if n % 2 = 1 then '1' else '0'

/-- The loop over the integer part (Double 468-483, Float 288-301). -/
def intLoop : Nat → Nat → Int → Mem → Outcome Mem
  | 0, _, _, _ => .diverge
  | fuel + 1, n, index, m =>
    if n = 0 then .ok m
    else (m.wr index (bitChar n)).bind fun m => intLoop fuel (n / 2) (index - 1) m

/-- The loop over the fraction (Double 488-503, Float 306-321): at most `todo` more turns. `g`
is `fractionPartDoubleInput`, which starts as the whole value, since `integerPartDoubleInput`
is 0 after the loop before (Double 485, Float 303). A digit that is neither 0 nor 1 leaves the
place as it was. -/
def fracLoop (f : Fmt) : Nat → Nat → Nat → Mem → Outcome (Mem × Nat)
  | 0, _, index, m => .ok (m, index)
  | todo + 1, g, index, m =>
    if g = 0 then .ok (m, index)
    else (floorInt f (2 * g)).bind fun d =>
      (if d = 1 then m.wr index '1' else if d = 0 then m.wr index '0' else .ok m).bind fun m =>
        fracLoop f todo (2 * g - d * 2 ^ f.unit) (index + 1) m

/-- `for (i = 0; i < n; i++) to[at + i] = from[i];` (Double 508-510, 519-523; Float 326-328, 337-341). -/
def copyLoop (src : Mem) (start : Nat) : Nat → Mem → Outcome Mem
  | 0, to => .ok to
  | n + 1, to => (copyLoop src start n to).bind fun to =>
    (src.rd n).bind fun c => to.wr (start + n : Nat) c

/-- The search for the first `'1'` (Double 529-535, Float 346-352): `n` places to look at. -/
def findOne (m : Mem) : Nat → Nat → Outcome Nat
  | 0, _ => .ok 1
  | n + 1, i => (m.rd i).bind fun c => if c = '1' then .ok i else findOne m n (i + 1)

/-- The loop that writes the exponent (Double 550-564, Float 367-380). -/
def expLoop : Nat → Int → Int → Mem → Outcome Mem
  | 0, _, _, _ => .diverge
  | fuel + 1, e, index, m =>
    if e = 0 then .ok m
    else (m.wr index (if e % 2 = 1 then '1' else '0')).bind fun m =>
      expLoop fuel (e / 2) (index - 1) m

/-- The loop that copies the fraction (Double 566-584, Float 382-399): `n` places left. -/
def mantLoop (form : Mem) (size dot : Nat) : Nat → Nat → Nat → Mem → Outcome Mem
  | 0, _, _, m => .ok m
  | n + 1, index, i, m =>
    if i = size then .ok m
    else
      let i := if i = dot then i + 1 else i
      (form.rd i).bind fun c => (m.wr index c).bind fun m =>
        mantLoop form size dot n (index + 1) (i + 1) m

/-- The part for values that are neither zero nor special (Double 450-584, Float 270-399),
of `k` units. `res` has the sign in its first place. -/
def digits (f : Fmt) (k : Nat) (ints frac form res : Mem) : Outcome Mem :=
  (floorInt f k).bind fun n =>
  (if n = 0 then .ok 1 else sizeLoop 64 n 0).bind fun s =>
  (intLoop 64 n ((s : Int) - 1) ints).bind fun ints =>
  (fracLoop f (f.p + 1) k 0 frac).bind fun r =>
  (copyLoop ints 0 s form).bind fun form =>
  (form.wr s '.').bind fun form =>
  (copyLoop r.1 (s + 1) (r.2 + 1) form).bind fun form =>
  (findOne form (s + 1 + r.2 + 1) 0).bind fun one =>
  let e : Int := (if n = 0 then (s : Int) - one else (s : Int) - one - 1) + f.bias
  (expLoop 64 e f.w res).bind fun res =>
  mantLoop form (s + 1 + r.2) s f.p (f.w + 1) (one + 1) res

/-- `doubleToBinary64StringType`, `floatToBinary32StringType`: the text of 64 or 32 bits. -/
def binText (f : Fmt) (x : Flt) : Outcome (List Char) :=
  ((malloc f.form).fill (f.last + 1)).bind fun form =>
  ((malloc (f.last + 2)).fill (f.last + 1)).bind fun res =>
  ((malloc f.ints).fill (f.p + 1)).bind fun ints =>
  ((malloc (f.p + 2)).fill (f.p + 1)).bind fun frac =>
  (ints.wr (f.ints - 1 : Nat) '\x00').bind fun ints =>
  (frac.wr (f.p + 1 : Nat) '\x00').bind fun frac =>
  (form.wr (f.form - 1 : Nat) '\x00').bind fun form =>
  (res.wr (f.last + 1 : Nat) '\x00').bind fun res =>
  (match x with
    | .nan => res.strcpy 0 ('0' :: List.replicate f.last '1')
    | .inf neg => res.strcpy 0
        ((if neg then '1' else '0') :: (List.replicate f.w '1' ++ List.replicate f.p '0'))
    | .fin neg k =>
      (res.wr 0 (if neg ∧ k ≠ 0 then '1' else '0')).bind fun res =>
        if k = 0 then .ok res else digits f k ints frac form res).bind fun res =>
  res.cstr 0 (f.last + 2)

/-! ### `doubleToRawLongBits` (Double 226-256, Float 483-514) -/

/-- `String::charAt` (String.cpp:157-162). -/
def charAt (t : List Char) (i : Nat) : Outcome Char :=
  match t[i]? with
  | some c => .ok c
  | none => .throw .stringIndexOutOfBounds

/-- The loop: `n` places left, the next one is `i` and counts `2 ^ (n - 1)`. `tempValue`
keeps its value when the character is neither `'1'` nor `'0'`. The sum stays below `2 ^ 63`. -/
def sumLoop (t : List Char) : Nat → Nat → Int → Int → Outcome Int
  | 0, _, _, sum => .ok sum
  | n + 1, i, temp, sum => (charAt t i).bind fun c =>
    let temp := if c = '1' then 1 else temp
    let temp := if c = '0' then 0 else temp
    sumLoop t n (i + 1) temp (sum + temp * 2 ^ n)

/-- `doubleToRawLongBits`, `doubleToLongBits` (Double 222-256); `floatToRawIntBits`,
`floatToIntBits` (Float 483-518). -/
def rawBits (f : Fmt) (x : Flt) : Outcome Int :=
  (binText f x).bind fun t =>
  (sumLoop t f.last 1 0 0).bind fun sum =>
  (charAt t 0).bind fun c => .ok (if c = '1' then -1 * sum else sum)

/-- `compare` (Double 203-220, Float 558-574). -/
def compare (f : Fmt) (x y : Flt) : Outcome Int :=
  (rawBits f x).bind fun a => (rawBits f y).bind fun b =>
    .ok (if a = b then 0 else if a < b then -1 else 1)

/-- `equals` and `operator==` (Double 138-140, 259-267; Float 74-76, 577-585). -/
def equals (f : Fmt) (x y : Flt) : Outcome Bool :=
  (rawBits f y).bind fun b => (rawBits f x).bind fun a => .ok (decide (b = a))

/-- `operator<` (Double 146-149, Float 82-84). -/
def lt (f : Fmt) (x y : Flt) : Outcome Bool := (compare f x y).bind fun c => .ok (c == -1)
/-- `operator>` (Double 151-154, Float 86-88). -/
def gt (f : Fmt) (x y : Flt) : Outcome Bool := (compare f x y).bind fun c => .ok (c == 1)
/-- `operator<=` (Double 161-164, Float 97-102). -/
def le (f : Fmt) (x y : Flt) : Outcome Bool :=
  (compare f x y).bind fun c => .ok (c == -1 || c == 0)
/-- `operator>=` (Double 156-159, Float 90-95). -/
def ge (f : Fmt) (x y : Flt) : Outcome Bool :=
  (compare f x y).bind fun c => .ok (c == 1 || c == 0)

/-- `Double::hashCode` (Double 269-277): `bits ^ (bits >> 32)` on 64 bits. -/
def hashCode64 (x : Flt) : Outcome Int :=
  (rawBits f64 x).bind fun b =>
    .ok (((BitVec.ofInt 64 b) ^^^ (BitVec.ofInt 64 b).sshiftRight 32).toInt)

/-- `Float::hashCode` (Float 587-593). -/
def hashCode32 (x : Flt) : Outcome Int := rawBits f32 x

/-! ### `longBitsToDouble` (Double 301-314, 598-697) -/

/-- The loop of `longBitsToBinary64StringType` (Double 679-691). -/
def bitsLoop : Nat → Nat → Int → Mem → Outcome Mem
  | 0, _, _, _ => .diverge
  | fuel + 1, n, index, m =>
    if n ≠ 0 ∨ index > 1 then
      (m.wr index (bitChar n)).bind fun m => bitsLoop fuel (n / 2) (index - 1) m
    else .ok m

/-- `longBitsToBinary64StringType` (Double 663-697): `-LONG_MIN` is undefined. -/
def bitsText (b : Int) : Outcome (List Char) :=
  ((malloc 65).fill 64).bind fun m =>
  (m.wr 64 '\x00').bind fun m =>
  (if b < 0 then
    if b = -2 ^ 63 then .ub
    else (m.wr 0 '1').bind fun m => bitsLoop 100 b.natAbs 63 m
  else bitsLoop 100 b.natAbs 63 m).bind fun m => m.cstr 0 65

/-- `a / 2`, rounded to the nearest, ties to even. -/
def halfEven (a : Nat) : Nat :=
  if a % 2 = 0 then a / 2 else if a / 2 % 2 = 0 then a / 2 else a / 2 + 1

/-- `sign * (1 + mantissa) * pow(2, exponent - 1023)` (Double 656-658), where the mantissa is
`m` units of `2^-52`: exact from exponent 1 on, infinite for 2047, rounded for 0. -/
def compose (neg : Bool) (e m : Nat) : Flt :=
  if e = 2047 then .inf neg
  else if e = 0 then .fin neg (halfEven (2 ^ 52 + m))
  else .fin neg ((2 ^ 52 + m) * 2 ^ (e - 1))

/-- `binary64StringTypeToDouble` (Double 598-661). The sums of powers of two are exact. (The
second loop inherits `tempValue`; the texts it is given hold only `'0'` and `'1'`.) -/
def textValue (t : List Char) : Outcome Flt :=
  (charAt t 0).bind fun c =>
  (sumLoop t 11 1 0 0).bind fun e =>
  (sumLoop t 52 12 0 0).bind fun m => .ok (compose (c == '1') e.toNat m.toNat)

/-- `longBitsToDouble` (Double 301-314). The `long` converted to `double` is never NaN. -/
def ofBits (b : Int) : Outcome Flt := (bitsText b).bind textValue

/-- `Float::intBitsToFloat` (Float 599-606): the bits as they are. -/
def ofBits32 (b : Int) : Flt :=
  let n := (BitVec.ofInt 32 b).toNat
  let e := n / 2 ^ 23 % 2 ^ 8
  let m := n % 2 ^ 23
  let neg := decide (n / 2 ^ 31 = 1)
  if e = 255 then (if m = 0 then .inf neg else .nan)
  else if e = 0 then .fin neg m
  else .fin neg ((2 ^ 23 + m) * 2 ^ (e - 1))

/-! ### Classification, constants, conversions -/

/-- A number of units with its sign. -/
def signed (neg : Bool) (k : Nat) : Int := if neg then -(k : Int) else k

/-- C++'s `<`, as on the real line; false for NaN. -/
def cLt : Flt → Flt → Bool
  | .nan, _ => false
  | _, .nan => false
  | .inf a, .inf b => a && !b
  | .inf a, .fin _ _ => a
  | .fin _ _, .inf b => !b
  | .fin a k, .fin b l => decide (signed a k < signed b l)

/-- C++'s `==`; false for NaN. -/
def cEq : Flt → Flt → Bool
  | .nan, _ => false
  | _, .nan => false
  | .inf a, .inf b => a == b
  | .fin a k, .fin b l => decide (signed a k = signed b l)
  | _, _ => false

/-- `-x` -/
def neg : Flt → Flt
  | .nan => .nan
  | .inf a => .inf (!a)
  | .fin a k => .fin (!a) k

/-- `numeric_limits::max()` -/
def maxValue (f : Fmt) : Flt := .fin false ((2 ^ (f.p + 1) - 1) * 2 ^ (2 ^ f.w - 3))
/-- `MIN_VALUE = numeric_limits::min()` (Double.hpp:109, Float.hpp:75) -/
def minValue (f : Fmt) : Flt := .fin false (2 ^ f.p)
/-- `MIN_NORMAL = numeric_limits<double>::denorm_min()` (Double.hpp:104), `1.4013e-45f`
(Float.hpp:70) -/
def minNormal (_ : Fmt) : Flt := .fin false 1

/-- `Math::abs` (Math 37-39, 45-51). -/
def abs (x : Flt) : Flt :=
  match x with
  | .nan => .nan
  | x => if !cLt x (.fin false 0) then x else neg x

/-- `isNaN` (Double 293-299, Float 183-189): `x != x`. -/
def isNaN (x : Flt) : Bool := !cEq x x
/-- `isInfinite` (Double 283-291, Float 173-181). -/
def isInfinite (x : Flt) : Bool := cEq x (.inf false) || cEq x (.inf true)
/-- `isFinite` (Double 279-281, Float 169-171): `abs(x) <= MAX_VALUE`. -/
def isFinite (f : Fmt) (x : Flt) : Bool :=
  cLt (abs x) (maxValue f) || cEq (abs x) (maxValue f)

/-- Conversion to an integer type with the values from `lo` to `hi`: the fraction is dropped;
what does not fit is undefined (Double 98-120, Float 139-157). -/
def toInteger (f : Fmt) (lo hi : Int) (x : Flt) : Outcome Int :=
  match x with
  | .nan => .ub
  | .inf _ => .ub
  | .fin neg k =>
    let v := signed neg (k / 2 ^ f.unit)
    if lo ≤ v ∧ v ≤ hi then .ok v else .ub

/-- `intValue` (Double 102-104, Float 143-145). -/
def intValue (f : Fmt) : Flt → Outcome Int := toInteger f (-2 ^ 31) (2 ^ 31 - 1)
/-- `longValue` (Double 106-108, Float 147-149). -/
def longValue (f : Fmt) : Flt → Outcome Int := toInteger f (-2 ^ 63) (2 ^ 63 - 1)
/-- `shortValue` (Double 98-100, Float 139-141). -/
def shortValue (f : Fmt) : Flt → Outcome Int := toInteger f (-2 ^ 15) (2 ^ 15 - 1)
/-- `byteValue` (Double 118-120, Float 155-157); `byte` is `unsigned char` (Type.hpp:38). -/
def byteValue (f : Fmt) : Flt → Outcome Int := toInteger f 0 (2 ^ 8 - 1)

/-! ### The floating point functions of `Math` -/

/-- `Math::max` (Math 263-265, 271-273). -/
def fmax (x y : Flt) : Flt := if cLt y x then x else y
/-- `Math::min` (Math 279-281, 287-289), `Double::min`, `Float::min`. -/
def fmin (x y : Flt) : Flt := if cLt x y then x else y

/-- The sign bit (that of NaN is not modelled). -/
def signBit : Flt → Bool
  | .nan => false
  | .inf a => a
  | .fin a _ => a

/-- `Math::signum` (Math 427-444): `copySign(1.0, x)`. -/
def signum (f : Fmt) (x : Flt) : Flt :=
  if cEq x (.fin false 0) || isNaN x then x else .fin (signBit x) (2 ^ f.unit)

/-- `Math::getExponent` (Math 173-209). `frexp` gives a mantissa from 1/2 up to 1, with the
sign of the value, so `mantissas * 10 >= 1.0` says that the value is above zero. -/
def getExponent (f : Fmt) (x : Flt) : Int :=
  match x with
  | .nan => f.bias + 1
  | .inf _ => f.bias + 1
  | .fin neg k =>
    if k = 0 then 1 - f.bias - 1
    else
      let e : Int := (k.log2 : Int) - f.unit
      if !neg ∧ e < 1 - f.bias then 1 - f.bias - 1 else e

/-- `Math::powerOfTwoD` (Math 382-390): an `int` is shifted by 52 places, which is undefined. -/
def powerOfTwoD (e : Int) : Outcome Flt :=
  if e < -1022 ∨ 1023 < e then .throw .assertion else .ub

/-- `1 << s` of `int`: undefined from 32 on; 31 gives `INT_MIN`. -/
def shiftOne (s : Int) : Outcome Int :=
  if s < 0 ∨ 32 ≤ s then .ub else if s = 31 then .ok (-2 ^ 31) else .ok (2 ^ s.toNat)

/-- `Math::ulp(double)` (Math 523-549). -/
def ulp64 (x : Flt) : Outcome Flt :=
  if cEq x (maxValue f64) || cEq x (neg (maxValue f64)) then .ok (.fin false (2 ^ (971 + 1074)))
  else
    let e := getExponent f64 x
    if e = 1024 then .ok (abs x)
    else if e = -1023 then .ok (minValue f64)
    else if 1023 < e ∨ e < -1022 then .throw .assertion
    else if -1022 ≤ e - 52 then powerOfTwoD (e - 52)
    else (shiftOne (e - 52 - (-1022 - 52))).bind ofBits

/-- `Math::powerOfTwoF` (Math 393-400): the computation is commented out. -/
def powerOfTwoF (e : Int) : Outcome Flt :=
  if e < -126 ∨ 127 < e then .throw .assertion else .ok (.fin false 0)

/-- `Math::ulp(float)` (Math 498-521). -/
def ulp32 (x : Flt) : Outcome Flt :=
  if cEq x (maxValue f32) || cEq x (neg (maxValue f32)) then .ok (.fin false (2 ^ (104 + 149)))
  else
    let e := getExponent f32 x
    if e = 128 then .ok (abs x)
    else if e = -127 then .ok (minValue f32)
    else if 127 < e ∨ e < -126 then .throw .assertion
    else if -126 ≤ e - 23 then powerOfTwoF (e - 23)
    else .ok (.fin false 0)

/-- `Math::nextDown` (Math 339-360); `toward` is `nexttoward(x, -INFINITY)`. -/
def nextDown (f : Fmt) (toward : Flt → Flt) (x : Flt) : Flt :=
  if isNaN x || cEq x (.inf true) then x
  else if cEq x (.fin false 0) then neg (minValue f)
  else toward x

/-- `::round`: to the nearest, halves away from zero; in whole numbers. -/
def roundAway (f : Fmt) (k : Nat) : Nat := (2 * k + 2 ^ f.unit) / (2 * 2 ^ f.unit)

/-- `Math::round` (Math 411-417), to the integer type from `lo` to `hi`. -/
def round (f : Fmt) (lo hi : Int) (x : Flt) : Outcome Int :=
  match x with
  | .nan => .ub
  | .inf _ => .ub
  | .fin neg k =>
    let v := signed neg (roundAway f k)
    if lo ≤ v ∧ v ≤ hi then .ok v else .ub

end Verif.Floats
