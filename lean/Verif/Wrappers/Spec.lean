import Verif.Wrappers.Model
/-!
# What number variables should do

A variable holds an integer.  Shared with the model: only the names of the calls
and answers.
-/
namespace Verif.Wrappers

/-- The decimal text of an integer. -/
def decimal (v : Int) : List Byte := txt (ToString.toString v)

/-- The values of a class. -/
def Cls.Range : Cls → Int → Prop
  | .bytes, v => 0 ≤ v ∧ v ≤ 255
  | .short, v => -32768 ≤ v ∧ v ≤ 32767
  | .integer, v => -2147483648 ≤ v ∧ v ≤ 2147483647
  | .long, v => -9223372036854775808 ≤ v ∧ v ≤ 9223372036854775807

/-- Exact arithmetic, division towards zero; none for a zero divisor. -/
def Arith.exact : Arith → Int → Int → Option Int
  | .add, a, b => some (a + b)
  | .sub, a, b => some (a - b)
  | .mul, a, b => some (a * b)
  | .div, a, b => if b = 0 then none else some (a.tdiv b)
  | .mod, a, b => if b = 0 then none else some (a.tmod b)

/-- The value kept of an exact result: modulo 2^8, the representative of least
magnitude modulo 2^16, or the result. -/
def Cls.keep : Cls → Int → Int
  | .bytes, v => v % 256
  | .short, v => v.bmod 65536
  | _, v => v

/-- Variables holding integers. -/
abbrev Ints := Nat → Int

def put (t : Ints) (i : Nat) (v : Int) : Ints := fun j => if j = i then v else t j

/-- Store the result of an operation in variable `i`, or throw. -/
def result (c : Cls) (t : Ints) (i : Nat) : Option Int → Ints × Except Exc Ans
  | some v => (put t i (c.keep v), .ok .done)
  | none => (t, .error .arithmetic)

def Rel.holds : Rel → Int → Int → Bool
  | .eq, a, b => decide (a = b)
  | .ne, a, b => decide (a ≠ b)
  | .lt, a, b => decide (a < b)
  | .gt, a, b => decide (b < a)
  | .le, a, b => decide (a ≤ b)
  | .ge, a, b => decide (b ≤ a)

def spec (c : Cls) : Op → Ints → Ints × Except Exc Ans
  | .new i v, t => (put t i v, .ok .done)
  | .copy i j, t => (put t i (t j), .ok .done)
  | .binary o i j k, t => result c t i (o.exact (t j) (t k))
  | .update o i j, t => result c t i (o.exact (t i) (t j))
  | .text i, t => (t, .ok (.text (decimal (t i))))
  | .value i, t => (t, .ok (.int (t i)))
  | .compare i j, t => (t, .ok (.int (if c = .bytes then t i - t j else if t i < t j then -1 else if t i = t j then 0 else 1)))
  | .rel r i j, t => (t, .ok (.bool (r.holds (t i) (t j))))

/-- The quotient or result of an operation is a value of the class. -/
def Fits (c : Cls) (o : Arith) (a b : Int) : Prop :=
  match o with
  | .mod => b ≠ 0 → c.Range (a.tdiv b)
  | _ => ∀ r, o.exact a b = some r → c.Range r

/-- Calls whose effect is described: variables are made from values of the class
and, for the two large types, results are values of the class. -/
def Exact (c : Cls) : Op → Ints → Prop
  | .new _ v, _ => c.Range v
  | .binary o _ j k, t => (c = .integer ∨ c = .long) → Fits c o (t j) (t k)
  | .update o i j, t => (c = .integer ∨ c = .long) → Fits c o (t i) (t j)
  | _, _ => True

/-- No zero divisor. -/
def NonZero : Op → Ints → Prop
  | .binary .div _ _ k, t => t k ≠ 0
  | .binary .mod _ _ k, t => t k ≠ 0
  | .update .div _ j, t => t j ≠ 0
  | .update .mod _ j, t => t j ≠ 0
  | _, _ => True

/-- The call is not a compound assignment. -/
def Plain : Op → Prop
  | .update _ _ _ => False
  | _ => True

/-- The calls a class has: `Short` has no `compareTo` and no compound assignments. -/
def Has : Cls → Op → Prop
  | .short, .update _ _ _ => False
  | .short, .compare _ _ => False
  | _, _ => True

/-- The spellings of "true" in any mix of cases. -/
def SpellsTrue (s : List Byte) : Prop :=
  ∃ a b c d, s = [a, b, c, d] ∧ (a = chr 't' ∨ a = chr 'T') ∧ (b = chr 'r' ∨ b = chr 'R') ∧ (c = chr 'u' ∨ c = chr 'U') ∧ (d = chr 'e' ∨ d = chr 'E')

end Verif.Wrappers
