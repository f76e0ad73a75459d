import Verif.Floats.Model
/-!
# `Java::Lang::Double` and `Java::Lang::Float`: texts, parsing, objects

`/repo/library/Java/Lang/Double/Double.cpp` ("Double") and `Float/Float.cpp` ("Float").

`sprintf`, `asprintf` and `sscanf` of glibc are modelled for the conversions the code uses
(`%.15f`, `%f`, `%g`, `%lg`): they round correctly, to nearest with ties to even. Not modelled:
the sign of a NaN (the text may be `-nan`), hexadecimal texts, locales other than "C", a failing
`calloc` or `asprintf`.
-/
namespace Verif.FloatText
open Verif.Floats

/-! ### glibc -/

/-- `a / b` rounded to the nearest whole number, ties to even. -/
def divEven (a b : Nat) : Nat :=
  if 2 * (a % b) < b then a / b
  else if b < 2 * (a % b) then a / b + 1
  else if a / b % 2 = 0 then a / b else a / b + 1

/-- The character of the last decimal digit of `v`. -/
def digit (v : Nat) : Char := Char.ofNat (48 + v % 10)

/-- The last `n` decimal digits of `v`. -/
def padded : Nat → Nat → List Char
  | 0, _ => []
  | n + 1, v => padded n (v / 10) ++ [digit v]

/-- The decimal digits of `v`, at most `fuel` of them. -/
def decLoop : Nat → Nat → List Char
  | 0, _ => []
  | fuel + 1, v => if v < 10 then [digit v] else decLoop fuel (v / 10) ++ [digit v]

/-- The decimal digits of `v`. -/
def decimal (v : Nat) : List Char := decLoop (v.log2 + 1) v

/-- `-` for values below zero and minus zero. -/
def signText (neg : Bool) : List Char := if neg then ['-'] else []

/-- `%.nf` -/
def fixedText (f : Fmt) (n : Nat) : Flt → List Char
  | .nan => ['n', 'a', 'n']
  | .inf neg => signText neg ++ ['i', 'n', 'f']
  | .fin neg k =>
    let v := divEven (k * 10 ^ n) (2 ^ f.unit)
    signText neg ++ decimal (v / 10 ^ n) ++ ('.' :: padded n v)

/-- The smallest `j ≤ fuel` (counted from `j`) with `10 ^ j` times `k` units at least 1. -/
def scaleLoop (f : Fmt) (k : Nat) : Nat → Nat → Nat
  | 0, j => j
  | fuel + 1, j => if 2 ^ f.unit ≤ k * 10 ^ j then j else scaleLoop f k fuel (j + 1)

/-- The decimal exponent of `k ≠ 0` units. -/
def exponent10 (f : Fmt) (k : Nat) : Int :=
  if 2 ^ f.unit ≤ k then ((decimal (k / 2 ^ f.unit)).length : Int) - 1
  else -(scaleLoop f k f.unit 0 : Int)

/-- `k` units times `10 ^ s`, rounded. -/
def scaled (f : Fmt) (k : Nat) (s : Int) : Nat :=
  if 0 ≤ s then divEven (k * 10 ^ s.toNat) (2 ^ f.unit)
  else divEven k (2 ^ f.unit * 10 ^ (-s).toNat)

/-- Without the zeros at the end. -/
def dropZeros (t : List Char) : List Char := (t.reverse.dropWhile (· = '0')).reverse

/-- A fraction with its point, nothing if it is empty. -/
def pointed (t : List Char) : List Char := if t = [] then [] else '.' :: t

/-- `%g`: six significant digits, without zeros at the end. -/
def shortText (f : Fmt) : Flt → List Char
  | .nan => ['n', 'a', 'n']
  | .inf neg => signText neg ++ ['i', 'n', 'f']
  | .fin neg k =>
    if k = 0 then signText neg ++ ['0']
    else
      let x := exponent10 f k
      let v := scaled f k (5 - x)
      let x := if v = 10 ^ 6 then x + 1 else x
      let v := if v = 10 ^ 6 then 10 ^ 5 else v
      let t := padded 6 v
      signText neg ++
        if x < -4 ∨ 6 ≤ x then
          t.take 1 ++ pointed (dropZeros (t.drop 1)) ++ ['e', if x < 0 then '-' else '+'] ++
            (if x.natAbs < 10 then padded 2 x.natAbs else decimal x.natAbs)
        else if 0 ≤ x then
          t.take (x.toNat + 1) ++ pointed (dropZeros (t.drop (x.toNat + 1)))
        else ['0', '.'] ++ List.replicate ((-x).toNat - 1) '0' ++ dropZeros t

/-- `isspace` -/
def isSpace (c : Char) : Bool :=
  c = ' ' || c = '\t' || c = '\n' || c = '\x0b' || c = '\x0c' || c = '\r'

/-- `isdigit` -/
def isDigit (c : Char) : Bool := decide (48 ≤ c.toNat ∧ c.toNat ≤ 57)

/-- The digits at the start: the number they continue from `acc`, how many, the rest. -/
def readDigits : Nat → Nat → List Char → Nat × Nat × List Char
  | acc, n, [] => (acc, n, [])
  | acc, n, c :: l =>
    if isDigit c then readDigits (acc * 10 + (c.toNat - 48)) (n + 1) l else (acc, n, c :: l)

/-- The exponent `e12`, `E-7` at the start; 0 if there is none. -/
def readExponent : List Char → Int
  | c :: l =>
    if c = 'e' ∨ c = 'E' then
      match l with
      | '-' :: l => -((readDigits 0 0 l).1 : Int)
      | '+' :: l => (readDigits 0 0 l).1
      | l => (readDigits 0 0 l).1
    else 0
  | [] => 0

/-- What the text of a number says. -/
inductive Num where
  | nan
  | inf (neg : Bool)
  /-- `mant * 10 ^ exp` -/
  | dec (neg : Bool) (mant : Nat) (exp : Int)
  deriving DecidableEq, Repr

/-- The number after the sign. -/
def readUnsigned (neg : Bool) (t : List Char) : Option Num :=
  let low := t.map Char.toLower
  if low.take 3 = ['i', 'n', 'f'] then some (.inf neg)
  else if low.take 3 = ['n', 'a', 'n'] then some .nan
  else
    match readDigits 0 0 t with
    | (i, ni, '.' :: r) =>
      match readDigits i 0 r with
      | (v, nf, r) => if ni + nf = 0 then none else some (.dec neg v (readExponent r - nf))
    | (i, ni, r) => if ni = 0 then none else some (.dec neg i (readExponent r))

/-- The number at the start of a C string, after blanks. -/
def readNum (t : List Char) : Option Num :=
  match (t.takeWhile (· ≠ '\x00')).dropWhile isSpace with
  | '-' :: l => readUnsigned true l
  | '+' :: l => readUnsigned false l
  | l => readUnsigned false l

/-- The value nearest to `a / b`, ties to even; infinite beyond the largest. -/
def nearest (f : Fmt) (neg : Bool) (a b : Nat) : Flt :=
  let e := (a * 2 ^ f.unit / b).log2 - f.p
  let k := divEven (a * 2 ^ f.unit) (b * 2 ^ e) * 2 ^ e
  if (2 ^ (f.p + 1) - 1) * 2 ^ (2 ^ f.w - 3) < k then .inf neg else .fin neg k

/-- The value of a number in a text. -/
def numValue (f : Fmt) : Num → Flt
  | .nan => .nan
  | .inf neg => .inf neg
  | .dec neg m e =>
    if 0 ≤ e then nearest f neg (m * 10 ^ e.toNat) 1 else nearest f neg m (10 ^ (-e).toNat)

/-! ### The classes -/

/-- An object: `original` and `originalString` (Double.hpp, Float.hpp). -/
structure Obj where
  val : Flt
  text : List Char
  deriving DecidableEq, Repr

/-- `sprintf` into a block of 1079 characters: too long a text is undefined behaviour. -/
def sprintf (t : List Char) : Outcome (List Char) := if t.length < 1079 then .ok t else .ub

/-- The two branches with `sprintf` (Double 39-44). -/
def doubleText (x : Flt) : Outcome (List Char) :=
  if cEq x (.fin false 0) && cLt x (.fin false 0) then sprintf ('-' :: fixedText f64 15 x)
  else sprintf (fixedText f64 15 x)

/-- `Double()` (Double 31-34). -/
def newDouble : Obj := ⟨.fin false 0, shortText f64 (.fin false 0)⟩
/-- `Double(double)` (Double 36-45). -/
def ofDouble (x : Flt) : Outcome Obj := (doubleText x).bind fun t => .ok ⟨x, t⟩
/-- `Double(const Double &)` (Double 47-57). -/
def copyDouble (o : Obj) : Outcome Obj := (doubleText o.val).bind fun t => .ok ⟨o.val, t⟩
/-- `operator=` (Double 174-185): the object afterwards. -/
def assignDouble (_ target : Obj) : Outcome Obj :=
  (doubleText target.val).bind fun t => .ok ⟨target.val, t⟩
/-- `toString` (Double 71-73, Float 159-161). -/
def toText (o : Obj) : List Char := o.text
/-- `parseDouble`, `valueOf(String)` (Double 65-69, 699-701): without a number `result` is read
uninitialised. -/
def parseDouble (t : List Char) : Outcome Obj :=
  match readNum t with
  | none => .ub
  | some n => ofDouble (numValue f64 n)
/-- `charValue` (Double 80-96): `result == ""` compares pointers and is false. -/
def charValue (o : Obj) : Outcome Char :=
  (doubleText o.val).bind fun t => .ok (t.headD '\x00')
/-- `a += b` and the others (Double 187-201), with the arithmetic as a parameter: the object
afterwards and the result. -/
def compoundDouble (op : Flt → Flt → Flt) (a b : Obj) : Outcome (Obj × Obj) :=
  (ofDouble (op a.val b.val)).bind fun r => .ok (a, r)
/-- `a + b` and the others (Double 122-136). -/
def binaryDouble (op : Flt → Flt → Flt) (a b : Obj) : Outcome Obj := ofDouble (op a.val b.val)
/-- The hash of the containers (Double.hpp 549-551, 559-563, Float.hpp 587-600): that of the
text. -/
def hashOf (h : List Char → Nat) (o : Obj) : Nat := h (toText o)

/-- `Float()` (Float 33-36). -/
def newFloat : Obj := ⟨.fin false 0, shortText f32 (.fin false 0)⟩
/-- `Float(float)` (Float 38-41). -/
def ofFloat (x : Flt) : Obj := ⟨x, shortText f32 x⟩
/-- `Float(const Float &)` (Float 43-46). -/
def copyFloat (o : Obj) : Obj := ⟨o.val, shortText f32 o.val⟩
/-- `operator=` (Float 112-117). -/
def assignFloat (_ target : Obj) : Obj := ⟨target.val, fixedText f32 6 target.val⟩
/-- `parseFloat`, `valueOf(String)`, `Float(String)` (Float 48-51, 163-167). -/
def parseFloat (t : List Char) : Outcome Obj :=
  match readNum t with
  | none => .ub
  | some n => .ok (ofFloat (numValue f32 n))
/-- `a += b` and the others (Float 119-133). -/
def compoundFloat (op : Flt → Flt → Flt) (a b : Obj) : Obj × Obj := (a, ofFloat (op a.val b.val))

end Verif.FloatText
