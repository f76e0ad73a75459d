import Verif.Vector.Model
/-!
# `java.util.Stack`

`/repo/library/Java/Util/Stack/Stack.hpp`: a `Vector` whose last element is the
top.
-/
namespace Verif.Stack

open Verif.Vector

variable {α : Type}

/-- Stack.hpp:52-54 `empty`. -/
def empty : OM (Vec α) Bool := do
  let n ← size
  OM.ret (decide (n = 0))

/-- Stack.hpp:62-68 `peek`. -/
def peek : OM (Vec α) α := do
  let len ← size
  if len = 0 then OM.raise .emptyStack else get (len - 1)

/-- Stack.hpp:76-81 `pop`. -/
def pop : OM (Vec α) α := do
  let len ← size
  let result ← peek
  let _ ← removeAt (len - 1)
  OM.ret result

/-- Stack.hpp:89-92 `push`. -/
def push (e : α) : OM (Vec α) α := do
  let _ ← add e
  OM.ret e

/-- Stack.hpp:100-106 `search`. -/
def search [DecidableEq α] (e : α) : OM (Vec α) Int := do
  let index ← lastIndexOf e
  if index ≥ 0 then OM.ret index else OM.ret (-1)

/-- Calls on a `Stack`. -/
inductive Op (α : Type)
  | push (e : α)
  | pop
  | peek
  | empty

/-- What a call returns. -/
inductive Ans (α : Type)
  | bool (b : Bool)
  | elem (e : α)
  deriving DecidableEq, Repr

/-- Dispatch. -/
def step : Op α → OM (Vec α) (Ans α)
  | .push e => do let x ← push e; OM.ret (.elem x)
  | .pop => do let x ← pop; OM.ret (.elem x)
  | .peek => do let x ← peek; OM.ret (.elem x)
  | .empty => do let b ← empty; OM.ret (.bool b)

end Verif.Stack
