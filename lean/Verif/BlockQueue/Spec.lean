import Verif.BlockQueue.Model
import Verif.LightSema.Spec
/-!
# What users of the blocking queue rely on
-/
namespace Verif.BlockQueue
open LightSema (sum)

/-- The state after some schedule of `k` threads on a new queue. -/
def Reach (k : Nat) (s : Sys) : Prop := ∃ ms, run (init k) ms = some s

/-- The items a call that returned has got. -/
def gotOf : Op × Res → List Int
  | (_, .got items) => items
  | _ => []

/-- The items a running call has got. -/
def gotBy : Local → List Int
  | .draining _ _ got => got
  | _ => []

/-- The items a running call is still to get. -/
def leftOf : Local → Nat
  | .draining _ left _ => left
  | _ => 0

/-- How often `x` was got, by calls that returned and by running calls. -/
def Sys.gotCount (s : Sys) (x : Int) : Int :=
  sum (fun d => ((gotOf d).count x : Int)) s.log + sum (fun l => ((gotBy l).count x : Int)) s.locals

/-- No thread is in a call. -/
def Quiet (s : Sys) : Prop := ∀ l ∈ s.locals, l = .idle

instance (s : Sys) : Decidable (Quiet s) := by unfold Quiet; infer_instance

/-- The thread can make a move other than an inner call that finds nothing. -/
def CanGo (s : Sys) (i : Nat) : Prop :=
  (∃ ok s', move s (.inner i ok) = some s') ∨ (∃ c s', move s (.sem i c) = some s') ∨
  ∃ picks s', picks ≠ [] ∧ move s (.take i picks) = some s'

/-- The items a call asks for. -/
def wanted : Op → Nat
  | .tryDequeue => 1
  | .waitDequeue => 1
  | .waitTimed => 1
  | .tryBulk max => max
  | .waitBulk max => max
  | .waitBulkTimed max => max
  | _ => 0

/-- What a call may return. -/
def Result : Op → Res → Prop
  | .enqueue _, r => ∃ ok, r = .added ok
  | .size, r => ∃ n, r = .size n
  | .waitDequeue, r => ∃ x, r = .got [x]
  | .waitBulk max, r => ∃ items, r = .got items ∧ 1 ≤ items.length ∧ items.length ≤ max
  | op, r => ∃ items, r = .got items ∧ items.length ≤ wanted op

/-- A call that gets items. -/
def Gets : Op → Prop
  | .enqueue _ => False
  | .size => False
  | _ => True

end Verif.BlockQueue
