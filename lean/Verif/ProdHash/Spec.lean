import Verif.ProdHash.Model
/-!
# What is asked of the table of producers
-/
namespace Verif.ProdHash

/-- A state that some schedule of `k` threads reaches. -/
def Reach (hid : Nat → Nat) (k : Nat) (s : Sys) : Prop := ∃ ms, run hid (init k) ms = some s

/-- No thread is in a call. -/
def AtRest (s : Sys) : Prop := ∀ o ∈ s.threads, o = none

/-- Thread `i` is in a call. -/
def InCall (s : Sys) (i : Nat) : Prop := ∃ p, s.threads[i]? = some (some p)

/-- Thread `i` is in no call. -/
def Out (s : Sys) (i : Nat) : Prop := s.threads[i]? = some none

/-- The positions between taking and clearing the flag of a resize. -/
def resizing : Pos → Bool
  | .reload _ | .grow _ _ | .unlock _ _ | .subLocked | .unlockFail => true
  | _ => false

/-- Thread `i` alone for `n` steps; `cs k`: at step `k` memory can be had. -/
def solo (i : Nat) (cs : Nat → Bool) (n : Nat) : List Move := (List.range n).map fun k => .go i (cs k)

/-- The number of steps of thread `i` in a schedule. -/
def stepsOf (i : Nat) : List Move → Nat
  | [] => 0
  | .go j _ :: ms => (if j = i then 1 else 0) + stepsOf i ms
  | _ :: ms => stepsOf i ms

/-- Thread 0 to 14 each make a call by themselves, thread 15 takes the flag and stops, threads 16 to
22 each make a call, thread 23 begins one. -/
def crowd : List Move :=
  (List.range 15).flatMap (fun i => .start i :: List.replicate 7 (.go i true)) ++
  (.start 15 :: List.replicate 4 (.go 15 true)) ++
  (List.range' 16 7).flatMap (fun i => .start i :: List.replicate 8 (.go i true)) ++
  (.start 23 :: List.replicate 4 (.go 23 true))

end Verif.ProdHash
