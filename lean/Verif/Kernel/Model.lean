import Verif.Common
/-!
# The kernel: arrays, the start of a program, objects, enumerations, throwables, sets

`/repo/library/Kernel/Java.hpp`, `Kernel/Common.hpp`, `Java/Lang/Object`, `Java/Lang/Enum`,
`Java/Lang/Throwable`, `Java/Util/Set`. Memory always suffices.
-/
namespace Verif.Kernel

/-- The conversion of a size to `int` (Kernel/Java.hpp:88, 97, 107, 149, 195). -/
def asInt (n : Int) : Int := (n + 2147483648) % 4294967296 - 2147483648

/-- `Array<E>` (Kernel/Java.hpp:65-198): the vector and the public field `length`. -/
structure KArr (α : Type u) where
  items : List α
  len : Int
  deriving DecidableEq, Repr

namespace KArr
variable {α : Type u}

/-- Kernel/Java.hpp:74-76. -/
def empty : KArr α := ⟨[], 0⟩

/-- Kernel/Java.hpp:83-89, from an initializer list. -/
def ofList (l : List α) : KArr α := ⟨l, asInt l.length⟩

/-- Kernel/Java.hpp:105-108: `resize` of a negative `long`, a huge `size_t`, throws. -/
def ofSize (dflt : α) (n : Int) : Outcome (KArr α) :=
  if n < 0 then .throw .lengthError else .ok ⟨List.replicate n.toNat dflt, asInt n⟩

/-- Kernel/Java.hpp:91-98, the loop: pointers up to a null pointer; past the end of the memory it is
undefined. -/
def readPtrs : List (Option α) → Outcome (List α)
  | [] => .ub
  | none :: _ => .ok []
  | some a :: l => (readPtrs l).bind fun r => .ok (a :: r)

/-- Kernel/Java.hpp:91-98. -/
def ofPtrs (mem : List (Option α)) : Outcome (KArr α) :=
  (readPtrs mem).bind fun l => .ok ⟨l, asInt l.length⟩

/-- Kernel/Java.hpp:147-150 `push`. -/
def push (a : KArr α) (x : α) : KArr α := ⟨a.items ++ [x], asInt (a.items ++ [x]).length⟩

/-- Kernel/Java.hpp:190-197 `operator+=`, which returns a copy. -/
def append (a : KArr α) (l : List α) : KArr α := ⟨a.items ++ l, asInt (a.items ++ l).length⟩

/-- Kernel/Java.hpp:158-160, 170-172, 180-182 `get`, `operator[]`. -/
def get (a : KArr α) (i : Int) : Outcome α := Arr.get a.items i

/-- Kernel/Java.hpp:170-172, an assignment through `operator[]`. -/
def set (a : KArr α) (i : Int) (x : α) : Outcome (KArr α) :=
  (Arr.set a.items i x).bind fun l => .ok { a with items := l }

/-- `for (E e : array)` (Kernel/Java.hpp:41-63, 127-138): the end is taken at the start of the loop;
the body may change the array. The result is the array and the elements seen; `pos` is an `int`. -/
def each (body : α → KArr α → KArr α) (e : Int) : Nat → Int → KArr α → Outcome (KArr α × List α)
  | 0, _, _ => .diverge
  | fuel + 1, pos, a =>
    if pos = e then .ok (a, [])
    else (a.get pos).bind fun x => (chk32 (pos + 1)).bind fun pos' =>
      (each body e fuel pos' (body x a)).bind fun (a', l) => .ok (a', x :: l)

/-- The whole loop. -/
def forEach (fuel : Nat) (body : α → KArr α → KArr α) (a : KArr α) : Outcome (KArr α × List α) :=
  each body a.len fuel 0 a

end KArr

/-! ### The start of a program -/

/-- How the function given to `Application` ends. -/
inductive Ending
  | returns
  /-- an `Exception` with its message -/
  | exception (msg : String)
  /-- an `Error`, which is no `Exception` (Java/Lang/Error/Error.hpp:36) -/
  | error (msg : String)
  /-- anything else, such as `std::out_of_range` -/
  | other
  deriving DecidableEq, Repr

/-- What is seen of a run of `Application`: the arguments its function was called with, the output and
the result. -/
structure Seen where
  args : Option (List String)
  out : List String
  result : Int
  deriving DecidableEq, Repr

/-- `Application` (Java/Lang/Object/Object.cpp:42-57). The array built from `argc` is not used:
`program(argv)` converts `argv` by the constructor for arrays of pointers. A null pointer among the
first `argc` makes `std::string` throw. -/
def application (program : List String → Ending) (argc : Nat) (mem : List (Option String)) :
    Outcome Seen :=
  if mem.length < argc then .ub
  else if (mem.take argc).all Option.isSome then
    (KArr.ofPtrs mem).bind fun a =>
      match program a.items with
      | .returns => .ok ⟨some a.items, [], 0⟩
      | .exception msg => .ok ⟨some a.items, ["Application Exception: " ++ msg], 1⟩
      | .error _ => .ok ⟨some a.items, ["Unhandled Exception"], 1⟩
      | .other => .ok ⟨some a.items, ["Unhandled Exception"], 1⟩
  else .ok ⟨none, ["Unhandled Exception"], 1⟩

/-! ### Objects -/

/-- Objects of some classes that derive from `Object`: one that overrides nothing, at an address, and
those that override `hashCode`. -/
inductive Obj
  | plain (addr : BitVec 64)
  | integer (v : BitVec 32)
  | byte (v : BitVec 8)
  | uuid (hi lo : BitVec 64)
  deriving DecidableEq, Repr

/-- `hashCode`: Java/Lang/Object/Object.hpp:118-120, Java/Lang/Integer/Integer.cpp:507-513,
Java/Lang/Bytes/Bytes.cpp:98-100, Java/Util/UUID/UUID.cpp:169-172. A `Boolean` uses its address
(Java/Lang/Boolean/Boolean.cpp:120-122), so it is `plain`. -/
def hashCode : Obj → BitVec 32
  | .plain a => a.setWidth 32
  | .integer v => v
  | .byte v => v.setWidth 32
  | .uuid hi lo => ((hi ^^^ lo) >>> 32).setWidth 32 ^^^ (hi ^^^ lo).setWidth 32

/-- `Object::equals`, `operator==` (Java/Lang/Object/Object.hpp:168-173, 576-587), called on a
reference to `Object`. -/
def objEquals (a b : Obj) : Bool := if hashCode a = hashCode b then true else false

/-! ### instanceof -/

/-- `instanceof` (Kernel/Common.hpp:134-137): the names of the dynamic type and of `Base` are at the
same address; classes are numbers here. -/
def instanceOf (base dyn : Nat) : Bool := dyn == base

/-! ### Enumerations -/

/-- `Enum` (Java/Lang/Enum/Enum.hpp:35-52). -/
structure EnumC where
  name : String
  ordinal : Int
  deriving DecidableEq, Repr

/-- Java/Lang/Enum/Enum.hpp:70-72 `compareTo`. -/
def enumCompare (a b : EnumC) : Outcome Int := chk32 (a.ordinal - b.ordinal)

/-- Java/Lang/Enum/Enum.hpp:103-105 `equals`. -/
def enumEquals (a b : EnumC) : Bool := a.ordinal == b.ordinal

/-! ### Throwables -/

/-- `Throwable` (Java/Lang/Throwable/Throwable.hpp:34-39); the pointer may be uninitialised. -/
structure Thr where
  message : String
  /-- `none`: not initialised; `some none`: null -/
  cause : Option (Option Nat)
  deriving DecidableEq, Repr

/-- The four constructors (Java/Lang/Throwable/Throwable.cpp:32-48). -/
inductive MakeThr
  | plain
  | message (m : String)
  | both (m : String) (c : Option Nat)
  | cause (c : Option Nat)
  deriving DecidableEq, Repr

/-- Java/Lang/Throwable/Throwable.cpp:32-48: two of them leave `cause` as it is. -/
def makeThr : MakeThr → Thr
  | .plain => ⟨"", none⟩
  | .message m => ⟨m, none⟩
  | .both m c => ⟨m, some c⟩
  | .cause c => ⟨"", some c⟩

/-- Java/Lang/Throwable/Throwable.cpp:50-52. -/
def getMessage (t : Thr) : String := t.message

/-- Java/Lang/Throwable/Throwable.cpp:54-56; reading an uninitialised pointer is undefined. -/
def getCause (t : Thr) : Outcome (Option Nat) :=
  match t.cause with
  | none => .ub
  | some c => .ok c

/-! ### Sets -/

/-- `std::set::insert` in the order `lt`: an element that is there stays. -/
def insert {α : Type u} (lt : α → α → Bool) (x : α) : List α → List α
  | [] => [x]
  | y :: l => if lt x y then x :: y :: l else if lt y x then y :: insert lt x l else y :: l

/-- A call on a `Set` (Java/Util/Set/Set.hpp). -/
inductive SetOp (α : Type u)
  | add (x : α)
  | addAll (c : List α)
  | clear
  | contains (x : α)
  | containsAll (c : List α)
  | remove (x : α)
  | removeAll (c : List α)
  | retainAll (c : List α)
  | equals (c : List α)
  | isEmpty
  | size

/-- Results. -/
inductive SetRes
  | bool (b : Bool)
  | int (n : Int)
  | unit
  deriving DecidableEq, Repr

/-- Java/Util/Set/Set.hpp:78-206. `add` compares the iterator it gets with the end, which `insert`
never returns; most others are stubs. -/
def setStep {α : Type u} (lt : α → α → Bool) (s : List α) : SetOp α → List α × SetRes
  | .add x => (insert lt x s, .bool true)
  | .addAll _ => (s, .bool true)
  | .clear => ([], .unit)
  | .contains _ => (s, .bool true)
  | .containsAll _ => (s, .bool true)
  | .remove _ => (s, .bool true)
  | .removeAll _ => (s, .bool true)
  | .retainAll _ => (s, .bool true)
  | .equals _ => (s, .bool true)
  | .isEmpty => (s, .bool s.isEmpty)
  | .size => (s, .int (asInt s.length))

/-- A history of calls on one set. -/
def setRun {α : Type u} (lt : α → α → Bool) (s : List α) : List (SetOp α) → List α × List SetRes
  | [] => (s, [])
  | op :: ops =>
    ((setRun lt (setStep lt s op).1 ops).1, (setStep lt s op).2 :: (setRun lt (setStep lt s op).1 ops).2)

end Verif.Kernel
