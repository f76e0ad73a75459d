import Verif.Floats.Model
/-!
# What `Double` and `Float` promise

IEEE 754's layout and the numbers of `java.lang.Double` and `java.lang.Float`, without the
model's functions (only its names for values: `Flt`, and for the widths: `Fmt`).
-/
namespace Verif.Floats

/-- The value of a pattern of `1 + w + p` bits, by IEEE 754: sign, exponent, fraction; a
subnormal value counts units of `2 ^ -unit`. -/
def ieee (f : Fmt) (b : Nat) : Flt :=
  let neg := b / 2 ^ (f.p + f.w) % 2 == 1
  let e := b / 2 ^ f.p % 2 ^ f.w
  let m := b % 2 ^ f.p
  if e = 2 ^ f.w - 1 then (if m = 0 then .inf neg else .nan)
  else if e = 0 then .fin neg m
  else .fin neg ((2 ^ f.p + m) * 2 ^ (e - 1))

/-- `x` is a value of the type. -/
def IsValue (f : Fmt) (x : Flt) : Prop := ∃ b, b < 2 ^ (f.p + f.w + 1) ∧ ieee f b = x

/-- A pattern of bits as a signed integer, the way `long` and `int` hold it. -/
def asSigned (f : Fmt) (b : Nat) : Int :=
  if b < 2 ^ (f.p + f.w) then b else (b : Int) - 2 ^ (f.p + f.w + 1)

/-- The real number, in units. -/
def num (neg : Bool) (k : Nat) : Int := if neg then -(k : Int) else k

/-- `x` comes before `y` in the order of `java.lang.Double.compare`: by number, minus zero
before zero, NaN last. -/
def Before : Flt → Flt → Prop
  | .nan, _ => False
  | .inf _, .nan => True
  | .fin _ _, .nan => True
  | .inf a, .inf b => a = true ∧ b = false
  | .inf a, .fin _ _ => a = true
  | .fin _ _, .inf b => b = false
  | .fin a k, .fin b l => num a k < num b l ∨ (k = 0 ∧ l = 0 ∧ a = true ∧ b = false)

/-- What `compare` has to return. -/
def Compares (x y : Flt) (c : Int) : Prop :=
  (c < 0 ↔ Before x y) ∧ (0 < c ↔ Before y x)

/-- The magnitudes, of `k` units, that `doubleToRawLongBits` gets right: zero, the multiples
of `2 ^ -(p + 1)` below 1, and from 1 on those below `2 ^ 30` whose first binary place after
the point is 0. -/
def Fine (f : Fmt) (k : Nat) : Prop :=
  (k < 2 ^ f.unit ∧ 2 ^ (f.unit - (f.p + 1)) ∣ k) ∨
    (2 ^ f.unit ≤ k ∧ k < 2 ^ 30 * 2 ^ f.unit ∧ k % 2 ^ f.unit < 2 ^ (f.unit - 1))

/-- The values among them that are not minus zero, and the special ones. -/
def FineValue (f : Fmt) (x : Flt) : Prop :=
  IsValue f x ∧ match x with
    | .nan => True
    | .inf _ => True
    | .fin neg k => Fine f k ∧ ¬ (neg = true ∧ k = 0)

/-- A value of magnitude below `2 ^ 30`, or a special one. -/
def Small (f : Fmt) : Flt → Prop
  | .nan => True
  | .inf _ => True
  | .fin _ k => k < 2 ^ 30 * 2 ^ f.unit

/-- `x` with the other sign. -/
def opposite : Flt → Flt
  | .nan => .nan
  | .inf a => .inf (!a)
  | .fin a k => .fin (!a) k

/-- What `Math.max(x, y)` returns in Java: NaN if one is NaN, the later one otherwise. -/
def JavaMax (x y r : Flt) : Prop :=
  if x = .nan ∨ y = .nan then r = .nan
  else (r = x ∨ r = y) ∧ ¬ Before r x ∧ ¬ Before r y

/-- What `Math.min(x, y)` returns in Java. -/
def JavaMin (x y r : Flt) : Prop :=
  if x = .nan ∨ y = .nan then r = .nan
  else (r = x ∨ r = y) ∧ ¬ Before x r ∧ ¬ Before y r

/-- `y` is the value just below `x`. -/
def JustBelow (f : Fmt) (y x : Flt) : Prop :=
  IsValue f y ∧ Before y x ∧ ∀ z, IsValue f z → Before z x → z = y ∨ Before z y ∨
    (∃ a b, z = .fin a 0 ∧ y = .fin b 0)

/-- The exponent `Math.getExponent` gives in Java for a finite pattern: that of the bits. -/
def javaExponent (f : Fmt) (b : Nat) : Int := ((b / 2 ^ f.p % 2 ^ f.w : Nat) : Int) - f.bias

/-- `Math.ulp` in Java for a finite pattern, in units: the value of the last place. -/
def javaUlp (f : Fmt) (b : Nat) : Nat :=
  let e := b / 2 ^ f.p % 2 ^ f.w
  if e = 0 then 1 else 2 ^ (e - 1)

/-- `Math.round` in Java before it is cut to the type: `floor(x + 1/2)`. -/
def javaRound (f : Fmt) (neg : Bool) (k : Nat) : Int :=
  (2 * num neg k + 2 ^ f.unit) / (2 * 2 ^ f.unit)

end Verif.Floats
