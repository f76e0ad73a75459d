import Verif.Kernel.Model
/-!
# What is asked of the kernel
-/
namespace Verif.Kernel

/-- A call on an array and its result. -/
inductive ArrOp (α : Type u)
  | push (x : α)
  | append (l : List α)
  | get (i : Int)
  | set (i : Int) (x : α)
  | length

inductive ArrRes (α : Type u)
  | unit
  | elem (x : α)
  | int (n : Int)
  | outOfRange
  deriving DecidableEq, Repr

/-- The calls of `KArr` one after the other. -/
def arrStep {α : Type u} (a : KArr α) : ArrOp α → KArr α × ArrRes α
  | .push x => (a.push x, .unit)
  | .append l => (a.append l, .unit)
  | .get i => (a, match a.get i with | .ok x => .elem x | _ => .outOfRange)
  | .set i x => match a.set i x with | .ok a' => (a', .unit) | _ => (a, .outOfRange)
  | .length => (a, .int a.len)

def arrRun {α : Type u} (a : KArr α) : List (ArrOp α) → KArr α × List (ArrRes α)
  | [] => (a, [])
  | op :: ops => ((arrRun (arrStep a op).1 ops).1, (arrStep a op).2 :: (arrRun (arrStep a op).1 ops).2)

/-- A growing list: what an array should be. -/
def listStep {α : Type u} (l : List α) : ArrOp α → List α × ArrRes α
  | .push x => (l ++ [x], .unit)
  | .append m => (l ++ m, .unit)
  | .get i => (l, if h : 0 ≤ i ∧ i.toNat < l.length then .elem (l[i.toNat]'h.2) else .outOfRange)
  | .set i x => if 0 ≤ i ∧ i.toNat < l.length then (l.set i.toNat x, .unit) else (l, .outOfRange)
  | .length => (l, .int l.length)

def listRun {α : Type u} (l : List α) : List (ArrOp α) → List α × List (ArrRes α)
  | [] => (l, [])
  | op :: ops => ((listRun (listStep l op).1 ops).1, (listStep l op).2 :: (listRun (listStep l op).1 ops).2)

/-- Equivalent in the order: neither is less. -/
def same {α : Type u} (lt : α → α → Bool) (x y : α) : Prop := lt x y = false ∧ lt y x = false

/-- A strict weak order, what `std::set` asks of `operator<`. -/
structure WeakOrder {α : Type u} (lt : α → α → Bool) : Prop where
  irrefl : ∀ x, lt x x = false
  trans : ∀ x y z, lt x y = true → lt y z = true → lt x z = true
  weak : ∀ x y z, lt x z = true → lt x y = true ∨ lt y z = true

/-- The elements added since the last `clear`, in the order of their adding; `l` before the history. -/
def added {α : Type u} (l : List α) : List (SetOp α) → List α
  | [] => l
  | .add x :: ops => added (l ++ [x]) ops
  | .clear :: ops => added [] ops
  | _ :: ops => added l ops

end Verif.Kernel
