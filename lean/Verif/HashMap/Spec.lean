import Verif.HashMap.Model
/-!
# The finite map

The abstract state is a function from keys to values; the model's functions are
not used.
-/
namespace Verif.HashMap

variable {K V : Type}

/-- A partial function with finitely many keys. -/
abbrev FMap (K V : Type) := K → Option V

/-- Bind `k` to `v`. -/
def FMap.set [DecidableEq K] (m : FMap K V) (k : K) (v : Option V) : FMap K V := fun x => if x = k then v else m x

/-- `m` has exactly `n` keys. -/
def FMap.HasSize (m : FMap K V) (n : Nat) : Prop := ∃ ks : List K, ks.Nodup ∧ (∀ k, k ∈ ks ↔ m k ≠ none) ∧ ks.length = n

/-- The bindings of `o` added to `m`, the later ones and those of `o` winning. -/
def FMap.union [DecidableEq K] (m : FMap K V) : List (K × V) → FMap K V
  | [] => m
  | e :: r => FMap.union (m.set e.1 (some e.2)) r

/-- A call on a map: the state before, the state after, and the answer. `d` is
the value reported for a missing key. -/
def Does [DecidableEq K] [DecidableEq V] (d : Option V) : Op K V → FMap K V → FMap K V → Except Exc (Ans V) → Prop
  | .put k v, m, m', a => m' = m.set k (some v) ∧ a = .ok .unit
  | .putAll o, m, m', a => m' = m.union o ∧ a = .ok .unit
  | .putIfAbsent k v, m, m', a =>
    (∃ w, m k = some w ∧ m' = m ∧ a = .ok (.val w)) ∨ (∃ x, m k = none ∧ d = some x ∧ m' = m.set k (some v) ∧ a = .ok (.val x))
  | .get k, m, m', a => m' = m ∧ ((∃ w, m k = some w ∧ a = .ok (.val w)) ∨ (∃ x, m k = none ∧ d = some x ∧ a = .ok (.val x)))
  | .getOrDefault k x, m, m', a => m' = m ∧ ((∃ w, m k = some w ∧ a = .ok (.val w)) ∨ (m k = none ∧ a = .ok (.val x)))
  | .containsKey k, m, m', a => m' = m ∧ ∃ b, a = .ok (.bool b) ∧ (b = true ↔ ∃ v, m k = some v)
  | .containsValue v, m, m', a => m' = m ∧ ∃ b, a = .ok (.bool b) ∧ (b = true ↔ ∃ k, m k = some v)
  | .remove k, m, m', a =>
    (∃ w, m k = some w ∧ m' = m.set k none ∧ a = .ok (.val w)) ∨ (∃ x, m k = none ∧ d = some x ∧ m' = m ∧ a = .ok (.val x))
  | .removePair k v, m, m', a =>
    (m k = some v ∧ m' = m.set k none ∧ a = .ok (.bool true)) ∨ (m k ≠ some v ∧ m' = m ∧ a = .ok (.bool false))
  | .replace k v, m, m', a =>
    (∃ w, m k = some w ∧ m' = m.set k (some v) ∧ a = .ok (.val w)) ∨ (∃ x, m k = none ∧ d = some x ∧ m' = m ∧ a = .ok (.val x))
  | .replacePair k o n, m, m', a =>
    (m k = some o ∧ m' = m.set k (some n) ∧ a = .ok (.bool true)) ∨ (m k ≠ some o ∧ m' = m ∧ a = .ok (.bool false))
  | .isEmpty, m, m', a => m' = m ∧ ∃ b, a = .ok (.bool b) ∧ (b = true ↔ ∀ k, m k = none)
  | .size, m, m', a => m' = m ∧ ∃ n, a = .ok (.int (n : Nat)) ∧ m.HasSize n
  | .clear, _, m', a => m' = (fun _ => none) ∧ a = .ok .unit

/-- The calls the code handles: `put` and `putAll` of new keys (or of the value
already there), and no missing key where the value type has no default. -/
def Legal (d : Option V) : Op K V → FMap K V → Prop
  | .put k v, m => m k = none ∨ m k = some v
  | .putAll o, m => (∀ e ∈ o, m e.1 = none ∨ m e.1 = some e.2) ∧ o.Pairwise (fun a b => a.1 ≠ b.1)
  | .putIfAbsent k _, m => m k ≠ none ∨ d ≠ none
  | .get k, m => m k ≠ none ∨ d ≠ none
  | .remove k, m => m k ≠ none ∨ d ≠ none
  | .replace k _, m => m k ≠ none ∨ d ≠ none
  | _, _ => True

/-- The object's bindings are those of `m`, each key once. -/
structure Holds (l : List (K × V)) (m : FMap K V) : Prop where
  nodup : (l.map (·.1)).Nodup
  mem : ∀ k v, (k, v) ∈ l ↔ m k = some v

end Verif.HashMap
