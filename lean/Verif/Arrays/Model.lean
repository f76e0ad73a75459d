import Verif.CInt
/-!
# `java.util.Arrays`

`/repo/library/Java/Util/Arrays/Arrays.hpp`.  An array is the list of its
elements.  Every template exists twice in the source, for `Type array[]` and
for `Array<Type>`, with the same text; `Kind` tells them apart: an access
outside the array throws for `Array<Type>` and is undefined for `Type array[]`.
`<`, `>`, `>=` and `==` of the element type are parameters.

Simplification: `i++`, `j--`, `arraySize - 1` are not checked for overflow:
the indices stay within one of the array's ends.
-/
namespace Verif.Arrays

/-- Which of the two overloads. -/
inductive Kind
  | raw
  | boxed
  deriving DecidableEq, Repr

/-- `array[i]`, `array->get(i)`. -/
def rd (k : Kind) (a : List α) (i : Int) : Outcome α :=
  match k with
  | .boxed => Arr.get a i
  | .raw => if 0 ≤ i ∧ i < a.length then Arr.get a i else .ub

/-- `array[i] = v`, `array->operator[](i) = v`. -/
def wr (k : Kind) (a : List α) (i : Int) (v : α) : Outcome (List α) :=
  match k with
  | .boxed => Arr.set a i v
  | .raw => if 0 ≤ i ∧ i < a.length then Arr.set a i v else .ub

/-! ## Sorting -/

/-- Arrays.hpp:510-511, 555-556: `while (array[i] < key && i <= j) i++`. -/
def scanUpBody (k : Kind) (lt : α → α → Bool) (a : List α) (key : α) (j : Int) (i : Int) : Outcome (Step Int Int) := do
  let x ← rd k a i
  if lt x key = true ∧ i ≤ j then .ok (.next (i + 1)) else .ok (.done i)

/-- Arrays.hpp:512-513, 557-558: `while (array[j] > key && j >= i) j--`. -/
def scanDownBody (k : Kind) (lt : α → α → Bool) (a : List α) (key : α) (i : Int) (j : Int) : Outcome (Step Int Int) := do
  let x ← rd k a j
  if lt key x = true ∧ j ≥ i then .ok (.next (j - 1)) else .ok (.done j)

/-- Arrays.hpp:516-518, 561-563. -/
def swap (k : Kind) (a : List α) (i j : Int) : Outcome (List α) := do
  let temp ← rd k a i
  let y ← rd k a j
  let a ← wr k a i y
  wr k a j temp

/-- Local variables of the partition loop. -/
structure Part (α : Type u) where
  a : List α
  i : Int
  j : Int

/-- Arrays.hpp:515-522, 560-567. -/
def swapStep (k : Kind) (s : Part α) : Outcome (Part α) :=
  if s.i ≤ s.j then do
    let a ← swap k s.a s.i s.j
    .ok ⟨a, s.i + 1, s.j - 1⟩
  else .ok s

/-- Arrays.hpp:509-523, 554-568: one turn of `while (i <= j)`. -/
def partBody (k : Kind) (lt : α → α → Bool) (key : α) (s : Part α) : Outcome (Step (Part α) (Part α)) :=
  if s.i ≤ s.j then do
    let i ← iter (scanUpBody k lt s.a key s.j) (s.a.length + 2) s.i
    let j ← iter (scanDownBody k lt s.a key i) (s.a.length + 2) s.j
    let s ← swapStep k ⟨s.a, i, j⟩
    .ok (.next s)
  else .ok (.done s)

/-- Local variables of the two outer loops; the stack holds pairs
(`fromIndex`, `toIndex`), top first. -/
structure Srt (α : Type u) where
  a : List α
  stack : List (Int × Int)
  left : Int
  right : Int

/-- Arrays.hpp:504-529, 549-574: one turn of `while (left < right)`. -/
def segBody (k : Kind) (lt : α → α → Bool) (s : Srt α) : Outcome (Step (Srt α) (Srt α)) :=
  if s.left < s.right then do
    let sum ← chk32 (s.left + s.right)
    let key ← rd k s.a (sum.tdiv 2)
    let p ← iter (partBody k lt key) (s.a.length + 2) ⟨s.a, s.left, s.right⟩
    .ok (.next ⟨p.a, if p.i < s.right then (p.i, s.right) :: s.stack else s.stack, s.left, p.j⟩)
  else .ok (.done s)

/-- Arrays.hpp:498-530, 543-575: one turn of `while (!positionKeeper.empty())`. -/
def sortBody (k : Kind) (lt : α → α → Bool) (s : List α × List (Int × Int)) :
    Outcome (Step (List α × List (Int × Int)) (List α)) :=
  match s.2 with
  | [] => .ok (.done s.1)
  | (left, right) :: rest => do
    let r ← iter (segBody k lt) (s.1.length + 2) ⟨s.1, rest, left, right⟩
    .ok (.next (r.a, r.stack))

/-- Arrays.hpp:490-532, 535-577 `sortOrigin`; also `sort(array, from, to)`,
`sortByIndex` (99-103, 398-402, 410-414). -/
def sortRange (k : Kind) (lt : α → α → Bool) (a : List α) (fromIndex toIndex : Int) : Outcome (List α) :=
  iter (sortBody k lt) (2 * a.length + 2) (a, [(fromIndex, toIndex)])

/-- Arrays.hpp:93-97, 393-396, 405-408 `sort(array, arraySize)`. -/
def sort (k : Kind) (lt : α → α → Bool) (a : List α) (arraySize : Int) : Outcome (List α) :=
  sortRange k lt a 0 (arraySize - 1)

/-! ## Searching -/

/-- Arrays.hpp:429-436, 468-475: the halving step, new `left` and `right`. -/
def halve (k : Kind) (ge : α → α → Bool) (a : List α) (key : α) (left right : Int) : Outcome (Int × Int) := do
  let sum ← chk32 (left + right)
  let x ← rd k a (sum.tdiv 2)
  if ge x key then .ok (left, sum.tdiv 2) else .ok (sum.tdiv 2 + 1, right)

/-- Arrays.hpp:438-447, 477-486: the test when two candidates are left. -/
def lastTwo (k : Kind) (eq : α → α → Bool) (a : List α) (key : α) (left right : Int) : Outcome Int := do
  let x ← rd k a left
  if eq x key then .ok left
  else do
    let y ← rd k a right
    if eq y key then .ok right else .ok (-1)

/-- Arrays.hpp:428-450, 467-489: one turn of `while (left < right)`. -/
def searchBody (k : Kind) (ge eq : α → α → Bool) (a : List α) (key : α) (s : Int × Int) :
    Outcome (Step (Int × Int) Int) :=
  if s.1 < s.2 then do
    let h ← halve k ge a key s.1 s.2
    if h.1 = h.2 - 1 then do
      let r ← lastTwo k eq a key h.1 h.2
      .ok (.done r)
    else .ok (.next h)
  else .ok (.done (-1))

/-- Arrays.hpp:413-450, 452-489 `BinarySearch`; also `binarySearchByIndex`
(34-40). -/
def binarySearchByIndex (k : Kind) (ge eq : α → α → Bool) (a : List α) (fromIndex toIndex : Int) (key : α) : Outcome Int :=
  if fromIndex < 0 ∨ toIndex < 0 ∨ toIndex < fromIndex then .ok (-1)
  else iter (searchBody k ge eq a key) (a.length + 2) (fromIndex, toIndex)

/-- Arrays.hpp:42-47, 166-171, 181-186: `binarySearchByKey(array, key, size)`,
`binarySearch(array, key, size)`. -/
def binarySearchByKey (k : Kind) (ge eq : α → α → Bool) (a : List α) (key : α) (arraySize : Int) : Outcome Int :=
  binarySearchByIndex k ge eq a 0 (arraySize - 1) key

/-- Arrays.hpp:173-179, 188-194: `binarySearch(array, from, to, key)` passes 0
for `fromIndex`. -/
def binarySearch (k : Kind) (ge eq : α → α → Bool) (a : List α) (_fromIndex toIndex : Int) (key : α) : Outcome Int :=
  binarySearchByIndex k ge eq a 0 toIndex key

/-! ## Copying, filling, comparing -/

/-- `for (index = i; index < i + n; ++index) result.push(original.get(index))`. -/
def pushLoop (a : List α) : (i n : Nat) → List α → Outcome (List α)
  | _, 0, r => .ok r
  | i, n + 1, r => do
    let x ← Arr.get a i
    pushLoop a (i + 1) n (r ++ [x])

/-- Arrays.hpp:579-597 `copyOfOrigin`; `copyOf` passes `NULL` as padding
(49-53, 204-208), here `pad`. -/
def copyOf (pad : α) (a : List α) (newLength : Int) : Outcome (List α) := do
  let copyLength := if (a.length : Int) < newLength then (a.length : Int) else newLength
  let r ← pushLoop a 0 copyLength.toNat []
  .ok (r ++ List.replicate (newLength - copyLength).toNat pad)

/-- Arrays.hpp:599-617 `copyOfRangeOrigin`, `copyOfRange`. -/
def copyOfRange (a : List α) (fromIndex toIndex : Int) : Outcome (List α) :=
  if fromIndex < 0 ∨ toIndex < 0 ∨ toIndex < fromIndex ∨ toIndex > (a.length : Int) - 1 then .ok []
  else pushLoop a fromIndex.toNat (toIndex - fromIndex).toNat []

/-- Arrays.hpp:625-629, the loop; `n` elements are left. -/
def equalsLoop (ne : α → α → Bool) (a b : List α) : (i n : Nat) → Outcome Bool
  | _, 0 => .ok true
  | i, n + 1 => do
    let x ← Arr.get a i
    let y ← Arr.get b i
    if ne x y then .ok false else equalsLoop ne a b (i + 1) n

/-- Arrays.hpp:619-633 `equalsOrigin`, `equals`. -/
def equals (ne : α → α → Bool) (a b : List α) : Outcome Bool :=
  if a.length ≠ b.length then .ok false else equalsLoop ne a b 0 a.length

/-- Arrays.hpp:646-648, the loop. -/
def fillLoop (v : α) : (i n : Nat) → List α → Outcome (List α)
  | _, 0, a => .ok a
  | i, n + 1, a => do
    let a ← Arr.set a i v
    fillLoop v (i + 1) n a

/-- Arrays.hpp:635-649 `fileOrigin`, `fillByIndex`; both ends are included. -/
def fillByIndex (a : List α) (fromIndex toIndex : Int) (v : α) : Outcome (List α) :=
  if fromIndex < 0 ∨ toIndex < 0 ∨ toIndex < fromIndex ∨ toIndex > (a.length : Int) - 1 then .ok a
  else fillLoop v fromIndex.toNat (toIndex - fromIndex + 1).toNat a

/-- Arrays.hpp:68-72 `fill`. -/
def fill (a : List α) (v : α) : Outcome (List α) := fillByIndex a 0 ((a.length : Int) - 1) v

/-- The loops `for (element : array) result = 31 * result + h(element)`. -/
def hashLoop (m : Sem) : BitVec 32 → List (BitVec 32) → Outcome (BitVec 32)
  | r, [] => .ok r
  | r, e :: l => do
    let p ← CInt.mul m 31 r
    let s ← CInt.add m p e
    hashLoop m s l

/-- Arrays.hpp:80-91 `hashCode` for the integral types up to `int`, the element
converted to `int`. -/
def hashCodeInt (m : Sem) (a : List (BitVec 32)) : Outcome (BitVec 32) :=
  if a.length = 0 then .ok 0 else hashLoop m 1 a

/-- Arrays.hpp:316-327 `hashCode(Array<boolean>)`. -/
def hashCodeBool (m : Sem) (a : List Bool) : Outcome (BitVec 32) :=
  if a.length = 0 then .ok 0 else hashLoop m 1 (a.map fun e => if e then 1231 else 1237)

/-- Arrays.hpp:342-354 `hashCode(Array<long>)`. -/
def hashCodeLong (m : Sem) (a : List (BitVec 64)) : Outcome (BitVec 32) :=
  if a.length = 0 then .ok 0 else hashLoop m 1 (a.map fun e => (e ^^^ e.sshiftRight 32).setWidth 32)

end Verif.Arrays
