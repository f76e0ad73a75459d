import Verif.ConcMap.Model
/-! # What the calls of a concurrent map should do -/
namespace Verif.ConcMap

variable {K V : Type} [DecidableEq K] [DecidableEq V]

/-- The answer of a call made while the map holds `m` (for `remove`, the previous
value, or the default when there is none). -/
def answer (dflt : V) (m : K → Option V) : Call K V → Ans V
  | .put _ _ => .unit
  | .clear => .unit
  | .get k => .value ((m k).getD dflt)
  | .getOrDefault k d => .value ((m k).getD d)
  | .containsKey k => .bool (m k).isSome
  | .remove k => .value ((m k).getD dflt)
  | .removeIf k v => .bool (decide (m k = some v))

/-- The call says that it removed the mapping of `k` to `v`. -/
def Told (k : K) (v : V) (d : Done K V) : Bool :=
  match d.call, d.ans with
  | .remove j, .value w => decide (j = k ∧ w = v)
  | .removeIf j _, .bool b => decide (j = k) && b
  | _, _ => false

/-- A removal of `k` that has begun and not returned. -/
def Removing (k : K) : Pos K V → Prop
  | .start (.remove j) => j = k
  | .start (.removeIf j _) => j = k
  | .erase j _ => j = k
  | .eraseIf j _ => j = k
  | _ => False

/-- The call neither puts a value for `k` nor clears the map. -/
def Keeps (k : K) : Call K V → Prop
  | .put j _ => j ≠ k
  | .clear => False
  | _ => True

/-- No call of the schedule puts a value for `k` or clears the map. -/
def NoPut (k : K) (xs : List (Move K V)) : Prop := ∀ t c, Move.call t c ∈ xs → Keeps k c

/-- At no moment of the schedule are two removals of `k` under way. -/
def OneAtATime (dflt : V) (m : K → Option V) (k : K) (xs : List (Move K V)) : Prop :=
  ∀ ys zs s, xs = ys ++ zs → run dflt (init m) ys = some s → ∀ t u, Removing k (s.pos t) → Removing k (s.pos u) → t = u

/-- The call cannot change the mapping of `k`. -/
def Leaves (k : K) : Call K V → Prop
  | .put j _ => j ≠ k
  | .remove j => j ≠ k
  | .removeIf j _ => j ≠ k
  | .clear => False
  | _ => True

/-- The call asks for the mapping of `k`. -/
def Asks (k : K) : Call K V → Prop
  | .get j => j = k
  | .getOrDefault j _ => j = k
  | .containsKey j => j = k
  | _ => False

end Verif.ConcMap
