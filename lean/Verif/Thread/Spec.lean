import Verif.Thread.Model
/-!
# What users of a thread rely on
-/
namespace Verif.Thread

/-- No thread wakes spuriously from a condition variable. -/
def NoSpurious (es : List Ev) : Prop := ∀ e ∈ es, ∀ u, e ≠ .sem (.wake u)

/-- A call that makes the function run. -/
def asks : Ev → Nat
  | .call _ .start => 1
  | .call _ .run => 1
  | _ => 0

/-- How often somebody called `start()` or `run()`. -/
def asked (es : List Ev) : Nat := (es.map asks).sum

/-- The agent is in the function. -/
def inFunction : Pos → Prop
  | .rFunc _ => True
  | .oFunc _ => True
  | _ => False

/-- The agent is in a run of the thread, before the function has returned. -/
def before : Pos → Bool
  | .rTid _ => true
  | .rTls _ => true
  | .rSet _ => true
  | .rFunc _ => true
  | .oFunc _ => true
  | _ => false

/-- How many runs of the thread have begun and are not past the function. -/
def running (s : Sys) : Nat := s.pos.countP before

/-- Nobody is in a call and every operating-system thread has ended. -/
def AtRest (s : Sys) : Prop := ∀ p ∈ s.pos, p = .idle ∨ p = .ended

/-- The agent is in a run of the thread, after the function has returned. -/
def after : Pos → Prop
  | .rRelease _ => True
  | .rIn _ => True
  | .rClear _ => True
  | _ => False

/-- The agent is a worker: an operating-system thread made by `start()`. -/
def worker : Pos → Bool
  | .rTid w => w
  | .rTls w => w
  | .rSet w => w
  | .rFunc w => w
  | .oFunc w => w
  | .rRelease w => w
  | .rIn w => w
  | .rClear w => w
  | .ended => true
  | _ => false

/-- The object is used with care from `s` on: it is never detached; when it is
destroyed no caller is in a call of it, and nobody calls it after that. -/
def Careful (body : Body) : Sys → List Ev → Prop
  | _, [] => True
  | s, e :: es => (∀ t, e ≠ .call t .detach) ∧
    (∀ t, e = .call t .destroy → (∀ (u : Nat) (p : Pos), s.pos[u]? = some p → p = .idle ∨ worker p = true) ∧ ∀ x ∈ es, ∀ u op, x ≠ .call u op) ∧
    ∀ s', step body s e = some s' → Careful body s' es

end Verif.Thread
