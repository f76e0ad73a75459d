import Verif.StringBuffer.Model
/-!
# The abstract text behind `StringBuffer`

Next to the text a caller knows the capacity (`capacity()`).  `clean` says that
every byte between the length and the capacity is known to be NUL: it holds for a
fresh buffer and is lost when the buffer grows.
-/
namespace Verif.StringBuffer

structure Txt where
  text : List Byte
  cap : Nat
  clean : Bool
  deriving DecidableEq, Repr

/-- The capacity after asking for `n`: doubled and increased by two as often as
needed. -/
def grow (cap n : Nat) : Nat := if n ≤ cap then cap else grow (2 * cap + 2) n
  termination_by n - cap

/-- The text becomes `t` after room for `n` characters was asked for. -/
def Txt.room (a : Txt) (n : Nat) (t : List Byte) : Txt := ⟨t, grow a.cap n, a.clean && decide (n ≤ a.cap)⟩

/-- The capacity stays. -/
def Txt.put (a : Txt) (t : List Byte) : Txt := ⟨t, a.cap, a.clean⟩

/-- Where a replacement up to `j` stops. -/
def stop (a : Txt) (j : Int) : Nat := min j.toNat a.text.length

/-- Effect and answer of every call on the abstract text. -/
def spec : Op → Txt → Txt × Except Exc Ans
  | .append l, a => (a.room (a.text.length + l.length) (a.text ++ l), .ok .unit)
  | .appendSlice l o n, a =>
    if 0 ≤ o ∧ 0 ≤ n ∧ o + n ≤ l.length then
      (a.room (a.text.length + n.toNat) (a.text ++ (l.drop o.toNat).take n.toNat), .ok .unit)
    else (a, .error .indexOutOfBounds)
  | .appendSub l i j, a =>
    if 0 ≤ i ∧ i ≤ j ∧ j ≤ l.length then
      (a.room (a.text.length + (j - i).toNat) (a.text ++ (l.take j.toNat).drop i.toNat), .ok .unit)
    else (a, .error .indexOutOfBounds)
  | .appendChar c, a => (a.room (a.text.length + 1) (a.text ++ [c]), .ok .unit)
  | .appendCodePoint c, a => (a.room (a.text.length + 1) (a.text ++ [c.setWidth 8]), .ok .unit)
  | .insert i l, a =>
    if 0 ≤ i ∧ i ≤ a.text.length then
      (a.room (a.text.length + l.length) (a.text.take i.toNat ++ l ++ a.text.drop i.toNat), .ok .unit)
    else (a, .error .stringIndexOutOfBounds)
  | .insertSlice i l o n, a =>
    if 0 ≤ i ∧ i ≤ a.text.length ∧ 0 ≤ o ∧ 0 ≤ n ∧ o + n ≤ l.length then
      (a.room (a.text.length + n.toNat) (a.text.take i.toNat ++ (l.drop o.toNat).take n.toNat ++ a.text.drop i.toNat), .ok .unit)
    else (a, .error .stringIndexOutOfBounds)
  | .insertSub i l x y, a =>
    if 0 ≤ i ∧ i ≤ a.text.length ∧ 0 ≤ x ∧ x ≤ y ∧ y ≤ l.length then
      (a.room (a.text.length + (y - x).toNat) (a.text.take i.toNat ++ (l.take y.toNat).drop x.toNat ++ a.text.drop i.toNat), .ok .unit)
    else (a, .error .indexOutOfBounds)
  | .insertChar i c, a =>
    if 0 ≤ i ∧ i ≤ a.text.length then
      (a.room (a.text.length + 1) (a.text.take i.toNat ++ [c] ++ a.text.drop i.toNat), .ok .unit)
    else (a, .error .stringIndexOutOfBounds)
  | .deletes i j, a =>
    if 0 ≤ i ∧ i ≤ j ∧ i ≤ a.text.length then (a.put (a.text.take i.toNat ++ a.text.drop j.toNat), .ok .unit)
    else (a, .error .stringIndexOutOfBounds)
  | .deleteCharAt i, a =>
    if 0 ≤ i ∧ i < a.text.length then (a.put (a.text.eraseIdx i.toNat), .ok .unit) else (a, .error .stringIndexOutOfBounds)
  | .replace i j l, a =>
    if 0 ≤ i ∧ i ≤ j ∧ i ≤ a.text.length then
      ({ a.room (a.text.length + l.length + i.toNat - stop a j) (a.text.take i.toNat ++ l ++ a.text.drop j.toNat) with
          clean := a.clean && decide (a.text.length + l.length + i.toNat - stop a j ≤ a.cap ∧ a.text.length ≤ i.toNat + 2 * l.length) },
        .ok .unit)
    else (a, .error .stringIndexOutOfBounds)
  | .reverse, a => (a.put a.text.reverse, .ok .unit)
  | .setCharAt i c, a =>
    if 0 ≤ i ∧ i < a.text.length then (a.put (a.text.set i.toNat c), .ok .unit) else (a, .error .indexOutOfBounds)
  | .setLength n, a =>
    if 0 ≤ n then
      (a.room n.toNat (a.text.take n.toNat ++ List.replicate (n.toNat - a.text.length) 0#8), .ok .unit)
    else (a, .error .indexOutOfBounds)
  | .ensureCapacity n, a => (a.room n.toNat a.text, .ok .unit)
  | .trimToSize, a => (⟨a.text, a.text.length, a.clean⟩, .ok .unit)
  | .charAt i, a => if h : 0 ≤ i ∧ i < a.text.length then (a, .ok (.char (a.text[i.toNat]'(by omega)))) else (a, .error .indexOutOfBounds)
  | .codePointAt i, a =>
    if h : 0 ≤ i ∧ i < a.text.length then (a, .ok (.int (a.text[i.toNat]'(by omega)).toInt)) else (a, .error .indexOutOfBounds)
  | .codePointBefore i, a =>
    if h : 1 ≤ i ∧ i ≤ a.text.length then (a, .ok (.int (a.text[(i - 1).toNat]'(by omega)).toInt)) else (a, .error .indexOutOfBounds)
  | .codePointCount i j, a =>
    if 0 ≤ i ∧ i ≤ j ∧ j ≤ a.text.length then (a, .ok (.int (j - i))) else (a, .error .indexOutOfBounds)
  | .length, a => (a, .ok (.int a.text.length))
  | .capacity, a => (a, .ok (.int a.cap))
  | .toString, a => (a, .ok (.text a.text))
  | .subString i j, a =>
    if 0 ≤ i ∧ i ≤ j ∧ j ≤ a.text.length then (a, .ok (.text ((a.text.take j.toNat).drop i.toNat)))
    else (a, .error .stringIndexOutOfBounds)
  | .subStringFrom i, a =>
    if 0 ≤ i ∧ i ≤ a.text.length then (a, .ok (.text (a.text.drop i.toNat))) else (a, .error .stringIndexOutOfBounds)

/-- What a caller must see to: texts below 2^30 characters, no NUL where a C
string is made, and spare room in the places where the code touches bytes behind
the text. -/
def Legal : Op → Txt → Prop
  | .append l, a => a.text.length + l.length < 2 ^ 30
  | .appendSlice l o n, a => a.text.length + l.length < 2 ^ 30 ∧ o + n ≤ INT_MAX
  | .appendSub l _ j, a => a.text.length + l.length < 2 ^ 30 ∧ j ≤ INT_MAX
  | .appendChar c, a => a.text.length + 1 < 2 ^ 30 ∧ c ≠ 0
  | .appendCodePoint c, a => a.text.length + 1 < 2 ^ 30 ∧ 0 < c.toNat ∧ c.toNat < 256
  | .insert _ l, a => a.text.length + l.length < 2 ^ 30
  | .insertSlice _ l o n, a => a.text.length + l.length < 2 ^ 30 ∧ o + n ≤ INT_MAX
  | .insertSub _ l _ _, a => a.text.length + l.length < 2 ^ 30
  | .insertChar _ c, a => a.text.length + 1 < 2 ^ 30 ∧ c ≠ 0
  | .deletes i j, a =>
    i < j → i < a.text.length →
      if a.text.length < j then 2 * a.text.length ≤ a.cap else (j - i) + a.text.length ≤ a.cap
  | .deleteCharAt _, a => a.text.length < a.cap
  | .replace i j l, a =>
    a.text.length + l.length < 2 ^ 30 ∧
    (a.text.length - stop a j ≤ l.length ∨ (stop a j : Int) = i + l.length) ∧
    (l ≠ [] → stop a j + l.length ≤ grow a.cap (a.text.length + l.length + i.toNat - stop a j) ∧
      i + 2 * l.length ≤ grow a.cap (a.text.length + l.length + i.toNat - stop a j))
  | .setLength n, a => n < 2 ^ 30 ∧ if a.text.length < n then n < grow a.cap n.toNat else a.text.length < a.cap
  | .ensureCapacity n, _ => n < 2 ^ 30
  | .codePointCount i j, a => i < j → j = a.text.length → a.clean = true ∧ a.text.length < a.cap
  | .toString, a => a.clean = true ∧ a.text.length < a.cap ∧ 0 ∉ a.text
  | .subString i j, a => i ≠ a.text.length ∧ 0 ∉ (a.text.take j.toNat).drop i.toNat
  | .subStringFrom i, a => i ≠ a.text.length ∧ 0 ∉ a.text.drop i.toNat
  | _, _ => True

open Verif.StringBuilder (SB)

/-- The object holds the text, and its fields describe its block. -/
def Holds (s : SB) (a : Txt) : Prop :=
  s.len = a.text.length ∧ s.cap = a.cap ∧ s.mem.length = a.cap ∧
  ∃ rest, s.mem = a.text.map some ++ rest ∧ (a.clean = true → ∀ x ∈ rest, x = some 0#8)

end Verif.StringBuffer
