import Verif.ArrayList.Model
/-!
# The abstract sequence

What each call should do to a sequence, and answer.  Written on lists only; the
model's functions are not used.
-/
namespace Verif.ArrayList

variable {α : Type}

/-- Position of the first occurrence, or -1. -/
def firstAt [DecidableEq α] (e : α) (t : List α) : Int :=
  match t.findIdx? (fun x => decide (x = e)) with
  | some k => k
  | none => -1

/-- Position of the last occurrence, or -1. -/
def lastAt [DecidableEq α] (e : α) (t : List α) : Int :=
  match t.reverse.findIdx? (fun x => decide (x = e)) with
  | some k => (t.length : Int) - 1 - k
  | none => -1

/-- Effect and answer of every call on the abstract sequence `t`. -/
def spec [DecidableEq α] : Op α → List α → List α × Except Exc (Ans α)
  | .add e, t => (t ++ [e], .ok (.bool true))
  | .addAt i e, t =>
    if 0 ≤ i ∧ i ≤ t.length then (t.take i.toNat ++ e :: t.drop i.toNat, .ok .unit) else (t, .error .indexOutOfBounds)
  | .set i e, t =>
    if 0 ≤ i ∧ i < t.length then (t.set i.toNat e, .ok (.elem e)) else (t, .error .indexOutOfBounds)
  | .removeAt i, t =>
    if h : 0 ≤ i ∧ i < t.length then (t.eraseIdx i.toNat, .ok (.elem (t[i.toNat]'(by omega)))) else (t, .error .indexOutOfBounds)
  | .removeElem e, t => (t.erase e, .ok (.bool (decide (e ∈ t))))
  | .clear, _ => ([], .ok .unit)
  | .removeRange i j, t =>
    if 0 ≤ i ∧ i ≤ j ∧ j ≤ t.length then (t.take i.toNat ++ t.drop j.toNat, .ok .unit) else (t, .error .indexOutOfBounds)
  | .get i, t =>
    if h : 0 ≤ i ∧ i < t.length then (t, .ok (.elem (t[i.toNat]'(by omega)))) else (t, .error .indexOutOfBounds)
  | .size, t => (t, .ok (.int t.length))
  | .isEmpty, t => (t, .ok (.bool (decide (t = []))))
  | .contains e, t => (t, .ok (.bool (decide (e ∈ t))))
  | .indexOf e, t => (t, .ok (.int (firstAt e t)))
  | .lastIndexOf e, t => (t, .ok (.int (lastAt e t)))
  | .toArray, t => (t, .ok (.elems t))

/-- The calls for which the code does what the specification says: insertion
before an existing element (or at 0 of an empty list), and `removeRange` with a
range of the list. -/
def Legal : Op α → List α → Prop
  | .addAt i _, t => 0 ≤ i ∧ (i < t.length ∨ i = 0)
  | .removeRange i j, t => 0 ≤ i ∧ i ≤ j ∧ j ≤ t.length
  | _, _ => True

/-- Elements separated by `, `. -/
def joined : List (List Byte) → List Byte
  | [] => []
  | [x] => x
  | x :: r => x ++ [44#8, 32#8] ++ joined r

end Verif.ArrayList
