import Verif.NumText.Model
import Verif.Obj
/-!
# Number objects: Bytes, Short, Integer and Long, and Boolean

Each number object holds a value and the text made from it by `asprintf`.  The
text's memory is freed only right before it is made again, so the model keeps
the text itself.
-/
namespace Verif.Wrappers

open Verif.JString Verif.NumText

/-- The four classes. -/
inductive Cls
  | bytes | short | integer | long
  deriving DecidableEq, Repr

/-- Bytes.hpp:41-42, Short.hpp:37-38, Integer.hpp:44-45, Long.hpp:39-40: the
fields `original` (within the range of its type) and `originalString`. -/
structure Num where
  value : Int
  text : Str
  deriving DecidableEq, Repr

/-- `asprintf("%d")` and `asprintf("%ld")` of a value of the promoted type. -/
def fmt (v : Int) : Str :=
  if v < 0 then chr '-' :: digits 10 64 v.natAbs else digits 10 64 v.natAbs

/-- An arithmetic result: computed in `int` for the three small types, in `long`
for `Long`; overflow is undefined. -/
def expr : Cls → Int → Outcome Int
  | .long, x => chk64 x
  | _, x => chk32 x

/-- Conversion of an arithmetic result to the type of the field: to `unsigned
char`, to `short` (gcc keeps the low 16 bits), or none. -/
def conv : Cls → Int → Int
  | .bytes, x => ((BitVec.ofInt 8 x).toNat : Int)
  | .short, x => (BitVec.ofInt 16 x).toInt
  | _, x => x

/-- The constructors from a value (Bytes.cpp:35-38, Short.cpp:46-49,
Integer.cpp:43-46, Long.cpp:48-51) and of copies (Bytes.cpp:259-262,
Short.cpp:56-59, Integer.cpp:53-56, Long.cpp:59-62). -/
def make (v : Int) : Num := ⟨v, fmt v⟩

/-- The default constructors (Bytes.cpp:45-48, Short.cpp:36-39,
Integer.cpp:38-41, Long.cpp:37-40). -/
def zero : Num := ⟨0, txt "0"⟩

inductive Arith
  | add | sub | mul | div | mod
  deriving DecidableEq, Repr

/-- What happens on a zero divisor: Bytes.cpp:170-172, 177-179, 233-235, 243-245
and Integer.cpp:140-142, 151-153, 172-174, 189-191 check it; Short.cpp:192-194,
201-203 and Long.cpp:682-696, 823-834 do not. -/
def zeroDivisor : Cls → Outcome Int
  | .bytes => .throw .arithmetic
  | .integer => .throw .arithmetic
  | .short => .ub
  | .long => .ub

/-- The arithmetic of the binary operators (Bytes.cpp:161-185, Short.cpp:165-203,
Integer.cpp:107-113, 139-155, Long.cpp:660-707).  The remainder is undefined
when the quotient is. -/
def compute (c : Cls) (o : Arith) (a b : Int) : Outcome Int :=
  match o with
  | .add => expr c (a + b)
  | .sub => expr c (a - b)
  | .mul => expr c (a * b)
  | .div => if b = 0 then zeroDivisor c else expr c (a.tdiv b)
  | .mod => if b = 0 then zeroDivisor c else do
    let _ ← expr c (a.tdiv b)
    .ok (a.tmod b)

/-- The binary operators: a new object from the result. -/
def operate (c : Cls) (o : Arith) (a b : Num) : Outcome Num := do
  let r ← compute c o a.value b.value
  .ok (make (conv c r))

/-- `operator=` (Bytes.cpp:252-257, Short.cpp:140-145, Integer.cpp:100-105,
Long.cpp:645-652). -/
def assign (_this target : Num) : Num := ⟨target.value, fmt target.value⟩

/-- The compound operators: Bytes.cpp:211-250 and Integer.cpp:157-196 make the
text again, Long.cpp:796-834 change the value only.  Short.hpp declares them,
Short.cpp does not define them, so no program using them links. -/
def compound (c : Cls) (o : Arith) (this target : Num) : Outcome Num := do
  let r ← compute c o this.value target.value
  match c with
  | .long => .ok ⟨r, this.text⟩
  | _ => .ok ⟨conv c r, fmt (conv c r)⟩

/-- `toString()` (Bytes.cpp:130-132, Short.cpp:83-85, Integer.cpp:494-496,
Long.cpp:531-533): a `String` from the C string. -/
def toString (n : Num) : Str := cstr n.text

/-- `compareTo` (Bytes.cpp:68-70: difference; Integer.cpp:215-229 and
Long.cpp:108-127: -1, 0 or 1).  `Short` has none. -/
def compareTo (c : Cls) (a b : Num) : Int :=
  match c with
  | .bytes => a.value - b.value
  | _ => if a.value < b.value then -1 else if a.value > b.value then 1 else 0

/-- The comparison operators (Bytes.cpp:187-209, Short.cpp:210-259,
Integer.cpp:115-137, Long.cpp:715-789). -/
def opEq (a b : Num) : Bool := a.value == b.value
def opNe (a b : Num) : Bool := !(a.value == b.value)
def opLt (a b : Num) : Bool := decide (a.value < b.value)
def opGt (a b : Num) : Bool := decide (a.value > b.value)
def opLe (a b : Num) : Bool := decide (a.value ≤ b.value)
def opGe (a b : Num) : Bool := decide (a.value ≥ b.value)

/-! ## Programs with number variables -/

/-- `==`, `!=`, `<`, `>`, `<=`, `>=`. -/
inductive Rel
  | eq | ne | lt | gt | le | ge
  deriving DecidableEq, Repr

def relate : Rel → Num → Num → Bool
  | .eq => opEq
  | .ne => opNe
  | .lt => opLt
  | .gt => opGt
  | .le => opLe
  | .ge => opGe

/-- The calls of a program on variables `x 0`, `x 1`, … of one class.  Aliased
operands (`x 0 -= x 0`) are included. -/
inductive Op
  | new (i : Nat) (v : Int)
  | copy (i j : Nat)
  | binary (o : Arith) (i j k : Nat)
  | update (o : Arith) (i j : Nat)
  | text (i : Nat)
  | value (i : Nat)
  | compare (i j : Nat)
  | rel (r : Rel) (i j : Nat)
  deriving DecidableEq, Repr

inductive Ans
  | done
  | text (s : Str)
  | int (v : Int)
  | bool (b : Bool)
  deriving DecidableEq, Repr

abbrev Vars := Nat → Num

def set (s : Vars) (i : Nat) (n : Num) : Vars := fun j => if j = i then n else s j

/-- Store the result of a call, or throw. -/
def store (s : Vars) (i : Nat) : Outcome Num → Res Vars Ans
  | .ok n => .ret (set s i n) .done
  | .throw e => .exc s e
  | .ub => .ub
  | .diverge => .diverge

/-- One statement: `x i = T(v)`, `x i = x j`, `x i = x j ∘ x k`, `x i ∘= x j`
and the observers. -/
def step (c : Cls) : Op → OM Vars Ans
  | .new i v, s => .ret (set s i (assign (s i) (make v))) .done
  | .copy i j, s => .ret (set s i (assign (s i) (s j))) .done
  | .binary o i j k, s => store s i ((operate c o (s j) (s k)).bind fun t => .ok (assign (s i) t))
  | .update o i j, s => store s i (compound c o (s i) (s j))
  | .text i, s => .ret s (.text (toString (s i)))
  | .value i, s => .ret s (.int (s i).value)
  | .compare i j, s => .ret s (.int (compareTo c (s i) (s j)))
  | .rel r i j, s => .ret s (.bool (relate r (s i) (s j)))

/-- All variables default-constructed. -/
def start : Vars := fun _ => zero

/-! ## Texts to numbers -/

/-- Bytes.cpp:118-124 `parseBytes(String, radix)`. -/
def parseBytes (s : Str) (radix : Int) : Outcome Int := do
  let v ← parseInt s radix
  if v.toInt < 0 ∨ v.toInt > 255 then .throw .numberFormat else .ok v.toInt

/-- Bytes.cpp:40-43, 153-159: `Bytes(String)`, `valueOf(String, radix)`. -/
def bytesOf (s : Str) (radix : Int) : Outcome Num := do
  let v ← parseBytes s radix
  .ok (make v)

/-- Bytes.cpp:72-78 `decode`. -/
def decodeBytes (m : Sem) (s : Str) : Outcome Num := do
  let v ← decode m s
  if v.toInt < 0 ∨ v.toInt > 255 then .throw .numberFormat else .ok (make v.toInt)

/-- Bytes.cpp:85-92 `equals`: compares with the number parsed from the text. -/
def bytesEquals (a b : Num) : Outcome Bool := do
  let v ← parseBytes (toString b) 10
  .ok (a.value == v)

/-- The value of `sscanf`'s number: `strtol` keeps within `long`. -/
def saturate (v : Int) : Int :=
  if v ≥ 2 ^ 63 then 2 ^ 63 - 1 else if v < -2 ^ 63 then -2 ^ 63 else v

/-- The digits of `%i` after the sign: base 16 after `0x`, 8 after `0`, else 10;
`none` without digits. -/
def scanI (s : Str) : Option Nat :=
  match s with
  | [] => none
  | z :: t =>
    if z = chr '0' then
      match t with
      | [] => some 0
      | x :: u => if toLowerB x = chr 'x' then some (scan 16 0 u) else some (scan 8 0 t)
    else if startsDigit 10 s then some (scan 10 0 s) else none

/-- glibc's `sscanf(s, "%hi", &result)`: white space, sign, digits; the value is
stored in a `short`. -/
def sscanfHi (s : Str) : Option Int :=
  let (negative, s) := stripSign ((cstr s).dropWhile isSpace)
  match scanI s with
  | none => none
  | some n => some (BitVec.ofInt 16 (saturate (if negative then -(n : Int) else n))).toInt

/-- Short.cpp:73-77 `parseShort`: `result` is uninitialised, so a text without a
number leads to a read of an indeterminate value. -/
def parseShort (s : Str) : Outcome Num :=
  match sscanfHi s with
  | some v => .ok (make v)
  | none => .ub

/-! ## ByteCache -/

/-- `ByteCache::instance` (Bytes.hpp, Bytes.cpp:33): null, a live object or a
deleted one. -/
inductive Cache
  | null | live | deleted
  deriving DecidableEq, Repr

/-- Bytes.cpp:146-151 `valueOf(byte)` with `ByteCache::getInstance` and
`getByteAtIndex`: the instance is deleted, but the pointer stays.  Entry `i` of
the cache is `Bytes(i)`. -/
def valueOfByte (v : Int) : OM Cache Num
  | .null => .ret .deleted (make v)
  | .live => .ret .deleted (make v)
  | .deleted => .ub

/-! ## Boolean -/

/-- Boolean.cpp:48-54 `Boolean(const_string)`. -/
def booleanOf (s : Str) : Bool := strcmp s (txt "True") == 0

/-- Boolean.cpp:110-112, 134-136 `getBoolean`, `parseBoolean`, and 181-193
`valueOf(text)`. -/
def parseBoolean (s : Str) : Bool := equals (toLowerCase (cstr s)) (txt "true")

/-- Boolean.cpp:144-163 `toString`. -/
def booleanText (b : Bool) : Str := if b then txt "true" else txt "false"

/-- Boolean.cpp:83-100 `compare`, `compareTo`: `bool` operands promoted to `int`. -/
def booleanCompare (a b : Bool) : Int := (if a then 1 else 0) - (if b then 1 else 0)

end Verif.Wrappers
