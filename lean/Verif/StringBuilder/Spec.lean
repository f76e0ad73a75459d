import Verif.StringBuilder.Model
/-! # The abstract text behind `StringBuilder` -/
namespace Verif.StringBuilder

/-- Effect and answer of every call on the abstract text `t`. -/
def spec : Op → List Byte → List Byte × Except Exc Ans
  | .append l, t => (t ++ l, .ok .unit)
  | .appendSlice l i j, t =>
    if 0 ≤ i ∧ i ≤ j ∧ j ≤ l.length then (t ++ (l.take j.toNat).drop i.toNat, .ok .unit) else (t, .error .indexOutOfBounds)
  | .insert i l, t =>
    if 0 ≤ i ∧ i ≤ t.length then (t.take i.toNat ++ l ++ t.drop i.toNat, .ok .unit) else (t, .error .stringIndexOutOfBounds)
  | .insertChar i c, t =>
    if 0 ≤ i ∧ i ≤ t.length then (t.take i.toNat ++ [c] ++ t.drop i.toNat, .ok .unit) else (t, .error .indexOutOfBounds)
  | .insertSlice i l o n, t =>
    if 0 ≤ i ∧ i ≤ t.length ∧ 0 ≤ o ∧ 0 ≤ n ∧ o + n ≤ l.length then
      (t.take i.toNat ++ (l.take (o + n).toNat).drop o.toNat ++ t.drop i.toNat, .ok .unit) else (t, .error .stringIndexOutOfBounds)
  | .insertSub i l a b, t =>
    if 0 ≤ i ∧ i ≤ t.length ∧ 0 ≤ a ∧ a ≤ b ∧ b ≤ l.length then
      (t.take i.toNat ++ (l.take b.toNat).drop a.toNat ++ t.drop i.toNat, .ok .unit) else (t, .error .indexOutOfBounds)
  | .deleteRange i j, t =>
    if 0 ≤ i ∧ i ≤ j ∧ i ≤ t.length then (t.take i.toNat ++ t.drop j.toNat, .ok (.built (t.take i.toNat ++ t.drop j.toNat)))
    else (t, .error .stringIndexOutOfBounds)
  | .deleteCharAt i, t =>
    if 0 ≤ i ∧ i < t.length then (t.eraseIdx i.toNat, .ok (.built (t.eraseIdx i.toNat))) else (t, .error .stringIndexOutOfBounds)
  | .replace i j l, t =>
    if 0 ≤ i ∧ i ≤ j ∧ i ≤ t.length then (t.take i.toNat ++ l ++ t.drop j.toNat, .ok (.built (t.take i.toNat ++ l ++ t.drop j.toNat)))
    else (t, .error .stringIndexOutOfBounds)
  | .reverse, t => (t.reverse, .ok (.built t.reverse))
  | .setCharAt i c, t => if 0 ≤ i ∧ i < t.length then (t.set i.toNat c, .ok .unit) else (t, .error .stringIndexOutOfBounds)
  | .setLength n, t =>
    if 0 ≤ n then (t.take n.toNat ++ List.replicate (n.toNat - t.length) 0#8, .ok .unit) else (t, .error .indexOutOfBounds)
  | .ensureCapacity _, t => (t, .ok .unit)
  | .trimToSize, t => (t, .ok .unit)
  | .charAt i, t => if h : 0 ≤ i ∧ i < t.length then (t, .ok (.char (t[i.toNat]'(by omega)))) else (t, .error .indexOutOfBounds)
  | .codePointAt i, t => if h : 0 ≤ i ∧ i < t.length then (t, .ok (.int (t[i.toNat]'(by omega)).toInt)) else (t, .error .indexOutOfBounds)
  | .codePointBefore i, t =>
    if h : 1 ≤ i ∧ i ≤ t.length then (t, .ok (.int (t[(i - 1).toNat]'(by omega)).toInt)) else (t, .error .indexOutOfBounds)
  | .codePointCount i j, t => if 0 ≤ i ∧ i ≤ j ∧ j ≤ t.length then (t, .ok (.int (j - i))) else (t, .error .indexOutOfBounds)
  | .length, t => (t, .ok (.int t.length))
  | .toString, t => (t, .ok (.text t))
  | .substring i j, t =>
    if 0 ≤ i ∧ i ≤ j ∧ j ≤ t.length then (t, .ok (.text ((t.take j.toNat).drop i.toNat))) else (t, .error .stringIndexOutOfBounds)
  | .substringFrom i, t =>
    if 0 ≤ i ∧ i ≤ t.length then (t, .ok (.text (t.drop i.toNat))) else (t, .error .stringIndexOutOfBounds)

/-- The texts stay below 2^30 characters, `int` arguments do not overflow, and a text handed out as a
`String` has no NUL character. -/
def Legal : Op → List Byte → Prop
  | .append l, t => t.length + l.length < 2 ^ 30
  | .appendSlice l _ _, t => t.length + l.length < 2 ^ 30
  | .insert _ l, t => t.length + l.length < 2 ^ 30
  | .insertChar _ _, t => t.length + 1 < 2 ^ 30
  | .insertSlice _ l o n, t => t.length + l.length < 2 ^ 30 ∧ INT_MIN ≤ o + n ∧ o + n ≤ INT_MAX
  | .insertSub _ l _ _, t => t.length + l.length < 2 ^ 30
  | .replace _ _ l, t => t.length + l.length < 2 ^ 30
  | .setLength n, _ => n < 2 ^ 30
  | .ensureCapacity n, _ => n < 2 ^ 30
  | .codePointBefore i, _ => INT_MIN < i ∧ i ≤ INT_MAX
  | .toString, t => t.length < 2 ^ 30 ∧ 0 ∉ t
  | .substring i j, t => 0 ∉ (t.take j.toNat).drop i.toNat
  | .substringFrom i, t => 0 ∉ t.drop i.toNat
  | _, _ => True

/-- The object holds the text `t` and its fields describe its block. -/
def Holds (s : SB) (t : List Byte) : Prop :=
  s.len = t.length ∧ s.cap = s.mem.length ∧ ∃ rest, s.mem = t.map some ++ rest

/-- `p` occurs in `t` at position `i`. -/
def OccursAt (p t : List Byte) (i : Nat) : Prop := i + p.length ≤ t.length ∧ (t.drop i).take p.length = p

instance (p t : List Byte) (i : Nat) : Decidable (OccursAt p t i) := by unfold OccursAt; infer_instance

/-- `r` is the least position at or after `i` where `p` occurs, or -1. -/
def IsFirst (p t : List Byte) (i : Nat) (r : Int) : Prop :=
  (∃ k : Nat, r = k ∧ i ≤ k ∧ OccursAt p t k ∧ ∀ j, i ≤ j → j < k → ¬OccursAt p t j) ∨
  (r = -1 ∧ ∀ j, i ≤ j → ¬OccursAt p t j)

/-- `r` is the greatest position up to `i` where `p` occurs, or -1. -/
def IsLast (p t : List Byte) (i : Nat) (r : Int) : Prop :=
  (∃ k : Nat, r = k ∧ k ≤ i ∧ OccursAt p t k ∧ ∀ j, k < j → j ≤ i → ¬OccursAt p t j) ∨
  (r = -1 ∧ ∀ j, j ≤ i → ¬OccursAt p t j)

end Verif.StringBuilder
