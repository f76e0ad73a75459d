import Verif.WeakSema.Model
/-!
# What the semaphore promises on the memory of C++
-/
namespace Verif.WeakSema
open Verif.Weak (View Below)
open Verif.LightSema (Op)

/-- A state of `k` threads and a semaphore with `base` permits that some schedule leads to. -/
def Reach (base k : Nat) (s : Sys) : Prop := ∃ ms, run (init base k) ms = some s

/-- Every permit taken is one that was put in, no two are the same, and who took it knows all that was known to the one that
put it in: a list of pairs, for each permit taken the number of the permit put in and what is known to its taker. -/
def Matched (given took : List (View Loc)) : Prop :=
  ∃ ps : List (Nat × View Loc), ps.map (·.2) = took ∧ (ps.map (·.1)).Nodup ∧ ∀ p ∈ ps, ∃ u, given[p.1]? = some u ∧ Below u p.2

/-- What thread `i` knows. -/
def Sees (s : Sys) (i : Nat) (v : View Loc) : Prop := ∃ th, s.threads[i]? = some th ∧ Below v th.tv.cur

/-- Calls that take permits. -/
def takes : Op → Bool
  | .signal _ => false
  | .available => false
  | _ => true

/-- The permits that calls returned with: `true` is one, `false` none. -/
def returned (log : List (Op × Option Nat)) : Nat := (log.map fun e => if takes e.1 then e.2.getD 0 else 0).sum

/-- No call is running. -/
def Idle (s : Sys) : Prop := ∀ th ∈ s.threads, th.call = none

/-- Thread `i` sleeps in `m_sema`. -/
def Sleeps (s : Sys) (i : Nat) : Prop := ∃ tv op, s.threads[i]? = some ⟨tv, some (op, .sleep)⟩

/-- No call of `signal` is running. -/
def NoSignal (s : Sys) : Prop := ∀ th ∈ s.threads, ∀ n p, th.call ≠ some (.signal n, p)

end Verif.WeakSema
