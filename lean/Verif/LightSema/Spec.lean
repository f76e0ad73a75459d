import Verif.LightSema.Model
/-!
# What callers of the semaphore rely on
-/
namespace Verif.LightSema

/-- The permits a call that returned has got. -/
def granted : Op × Option Nat → Nat
  | (.tryWait, some r) => r
  | (.wait _, some r) => r
  | (.tryWaitMany _, some r) => r
  | (.waitMany _ _, some r) => r
  | _ => 0

/-- The permits a call that returned has put in. -/
def putIn : Op × Option Nat → Int
  | (.signal n, some _) => n
  | _ => 0

/-- The permits a running call is putting in. -/
def puttingIn : Thread → Int
  | some (.signal n, _) => n
  | _ => 0

/-- The sum over a list. -/
def sum {α : Type} (f : α → Int) : List α → Int
  | [] => 0
  | a :: l => f a + sum f l

/-- The permits got so far. -/
def Sys.granted (s : Sys) : Int := sum (fun d => (LightSema.granted d : Int)) s.log

/-- The permits put in by calls that returned. -/
def Sys.putIn (s : Sys) : Int := sum LightSema.putIn s.log

/-- The permits being put in. -/
def Sys.puttingIn (s : Sys) : Int := sum LightSema.puttingIn s.threads

/-- No thread is in a call. -/
def Quiet (s : Sys) : Prop := ∀ t ∈ s.threads, t = none

instance (s : Sys) : Decidable (Quiet s) := by unfold Quiet; infer_instance

/-- The thread can take a step. -/
def CanGo (s : Sys) (i : Nat) : Prop := ∃ c s', move s (.go i c) = some s'

/-- The state after a schedule that begins with `n` permits. -/
def Reach (n k : Nat) (s : Sys) : Prop := ∃ ms, run (init n k) ms = some s

/-- The thread is in a call of `signal`. -/
def Signalling : Thread → Prop
  | some (.signal _, _) => True
  | _ => False

instance (t : Thread) : Decidable (Signalling t) := by
  rcases t with _ | ⟨op, p⟩
  · exact .isFalse id
  · cases op <;> first | exact .isTrue trivial | exact .isFalse id

/-- The thread has counted itself as a waiter and has not got its permit yet: it is asleep, or
its time is up and it takes itself out again. -/
def Waiting : Thread → Bool
  | some (_, .sleep) => true
  | some (_, .adjLoad) => true
  | some (_, .adjTest _) => true
  | _ => false

/-- The number of waiters. -/
def Sys.waiters (s : Sys) : Nat := (s.threads.filter Waiting).length

/-- What a call may return. -/
def Result : Op → Option Nat → Prop
  | .tryWait, r => r = some 0 ∨ r = some 1
  | .wait t, r => r = some 1 ∨ (t = true ∧ r = some 0)
  | .tryWaitMany m, r => (m < 0 ∧ r = none) ∨ ∃ k : Nat, r = some k ∧ (k : Int) ≤ m
  | .waitMany m t, r => (m < 0 ∧ r = none) ∨ (m = 0 ∧ t = false ∧ r = none) ∨
      (t = true ∧ r = some 0 ∧ 0 ≤ m) ∨ ∃ k : Nat, r = some k ∧ 1 ≤ k ∧ (k : Int) ≤ m
  | .signal n, r => (n < 0 ∧ r = none) ∨ (0 ≤ n ∧ r = some 0)
  | .available, r => ∃ k, r = some k

/-- Permits taken by a call that runs on. -/
def held : Pos → Int
  | .load h => h
  | .test h _ => h
  | _ => 0

/-- Permits taken by a thread in a call that runs on (`waitMany` that has one and tries for more). -/
def holding : Thread → Int
  | none => 0
  | some (_, p) => held p

/-- The permits taken by calls that run on. -/
def Sys.holding (s : Sys) : Int := sum LightSema.holding s.threads

/-- `ms` holds no beginning of a call by thread `i`. -/
def NoStart (i : Nat) (ms : List Move) : Prop := ∀ m ∈ ms, ∀ op, m ≠ .start i op

/-- The number of steps of thread `i` in `ms`. -/
def stepsOf (i : Nat) (ms : List Move) : Nat :=
  (ms.filter fun m => match m with | .go j _ => j == i | _ => false).length

/-- The count is above zero all the time while `ms` is done. -/
def AlwaysSome (s : Sys) (ms : List Move) : Prop :=
  ∀ ms1 ms2 s', ms = ms1 ++ ms2 → run s ms1 = some s' → 0 < s'.sh.count

/-- The permits a call asks for. -/
def wanted : Op → Int
  | .tryWait => 1
  | .wait _ => 1
  | .tryWaitMany m => m
  | .waitMany m _ => m
  | _ => 0

/-- Nanoseconds since the epoch. -/
def Time.nanos (t : Time) : Int := t.sec * 1000000000 + t.nsec

/-- What `sem_timedwait` takes. -/
def Time.Valid (t : Time) : Prop := 0 ≤ t.nsec ∧ t.nsec < 1000000000

end Verif.LightSema
