import Verif.Vector.Model
/-! # The abstract sequence behind `Vector` -/
namespace Verif.Vector

variable {α : Type}

/-- Position of the first occurrence at or after `i`, or -1. -/
def firstFrom [DecidableEq α] (e : α) (i : Nat) (t : List α) : Int :=
  match (t.drop i).findIdx? (fun x => decide (x = e)) with
  | some k => ((i + k : Nat) : Int)
  | none => -1

/-- Position of the last occurrence among the first `n` elements, or -1. -/
def lastUpTo [DecidableEq α] (e : α) (n : Nat) (t : List α) : Int :=
  match (t.take n).reverse.findIdx? (fun x => decide (x = e)) with
  | some k => (((t.take n).length - 1 - k : Nat) : Int)
  | none => -1

/-- Effect and answer of every call on the abstract sequence `t`. -/
def spec [DecidableEq α] (dflt : α) : Op α → List α → List α × Except Exc (Ans α)
  | .add e, t => (t ++ [e], .ok (.bool true))
  | .addAt i e, t =>
    if 0 ≤ i ∧ i ≤ t.length then (t.take i.toNat ++ [e] ++ t.drop i.toNat, .ok .unit) else (t, .error .illegalArgument)
  | .addAll l, t => (t ++ l, .ok (.bool (decide (l ≠ []))))
  | .addAllAt i l, t =>
    if 0 ≤ i ∧ i ≤ t.length then (t.take i.toNat ++ l ++ t.drop i.toNat, .ok (.bool (decide (l ≠ [])))) else (t, .error .illegalArgument)
  | .clear, _ => ([], .ok .unit)
  | .get i, t => if h : 0 ≤ i ∧ i < t.length then (t, .ok (.elem (t[i.toNat]'(by omega)))) else (t, .error .illegalArgument)
  | .indexOf e, t => (t, .ok (.int (firstFrom e 0 t)))
  | .indexOfFrom e i, t => if 0 ≤ i ∧ i < t.length then (t, .ok (.int (firstFrom e i.toNat t))) else (t, .error .illegalArgument)
  | .lastIndexOf e, t => (t, .ok (.int (lastUpTo e t.length t)))
  | .lastIndexOfFrom e i, t => if 0 ≤ i ∧ i < t.length then (t, .ok (.int (lastUpTo e (i.toNat + 1) t))) else (t, .error .illegalArgument)
  | .contains e, t => (t, .ok (.bool (decide (e ∈ t))))
  | .containsAll l, t => (t, .ok (.bool (decide (∀ x ∈ l, x ∈ t))))
  | .firstElement, t => (t, match t.head? with | some x => .ok (.elem x) | none => .error .exception)
  | .lastElement, t => (t, match t.getLast? with | some x => .ok (.elem x) | none => .error .exception)
  | .removeAt i, t => if h : 0 ≤ i ∧ i < t.length then (t.eraseIdx i.toNat, .ok (.elem (t[i.toNat]'(by omega)))) else (t, .error .illegalArgument)
  | .removeObj (some e), t => (t.erase e, .ok (.bool (decide (e ∈ t))))
  | .removeObj none, t => (t, .ok (.bool false))
  | .removeAll l, t => (t.filter (fun x => decide (x ∉ l)), .ok (.bool (decide (∃ x ∈ t, x ∈ l))))
  | .retainAll l, t => (t.filter (fun x => decide (x ∈ l)), .ok (.bool (decide (∃ x ∈ t, x ∉ l))))
  | .removeRange i j, t =>
    if 0 ≤ i ∧ i ≤ j ∧ j ≤ t.length then (t.take i.toNat ++ t.drop j.toNat, .ok .unit) else (t, .error .illegalArgument)
  | .set i e, t => if h : 0 ≤ i ∧ i < t.length then (t.set i.toNat e, .ok (.elem (t[i.toNat]'(by omega)))) else (t, .error .illegalArgument)
  | .setSize n, t =>
    if 0 ≤ n then (t.take n.toNat ++ List.replicate (n.toNat - t.length) dflt, .ok .unit) else (t, .error .illegalArgument)
  | .size, t => (t, .ok (.int t.length))
  | .isEmpty, t => (t, .ok (.bool (decide (t = []))))
  | .toArray, t => (t, .ok (.elems t))
  | .trimToSize, t => (t, .ok .unit)

/-- The calls for which the code does what the specification says. -/
def Legal : Op α → List α → Prop
  | .add _, t => t.length < 2 ^ 30
  | .addAt _ _, t => t.length < 2 ^ 30
  | .addAll l, t => t.length + l.length ≤ 2 ^ 30 ∧ (t = [] ∨ l = [])
  | .addAllAt i l, t => t.length + l.length ≤ 2 ^ 30 ∧ (l = [] → 0 ≤ i ∧ i ≤ t.length)
  | .lastIndexOf _, t => t ≠ []
  | .removeObj none, t => t = []
  | .removeRange i j, t => (0 ≤ i ∧ i ≤ j ∧ j ≤ t.length) → (i < j ∧ j < t.length)
  | .setSize n, _ => n ≤ 2 ^ 30
  | _, _ => True

/-- A vector that holds the sequence `t`: not more elements than capacity, a
capacity and an increment in the range where `int` sums cannot overflow. -/
structure Holds (v : Vec α) (t : List α) : Prop where
  elems : v.elems = t
  fits : v.elems.length ≤ v.cap
  cap : (v.cap : Int) ≤ INT_MAX
  size : v.elems.length ≤ 2 ^ 30
  inc : v.inc ≤ 2 ^ 30

end Verif.Vector
