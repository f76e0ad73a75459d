import Verif.Semaphore.Model
/-!
# What callers of a semaphore rely on
-/
namespace Verif.Semaphore

/-- By how much a call that returned changed the number of permits. -/
def change : Done → Int
  | .acquire n => -max n 0
  | .tryAcquire n true => -n
  | .tryAcquire _ false => 0
  | .release n => n
  | .available _ => 0

/-- The permits handed out by a call that returned. -/
def granted : Done → Int
  | .acquire n => max n 0
  | .tryAcquire n true => n
  | _ => 0

/-- The permits a call that returned put in. -/
def putIn : Done → Int
  | .release n => n
  | _ => 0

/-- The permits asked for by a call of `release` that is running. -/
def puttingIn : Pos → Int
  | .rLockC n => n
  | .rLockP n => n
  | .rAdd n => n
  | .rUnlockP n => n
  | .rNotify n => n
  | .rUnlockC n => n
  | .rRet n => n
  | _ => 0

/-- No thread is in a call. -/
def Quiet (s : Sys) : Prop := ∀ p ∈ s.threads, p = .idle

/-- A thread is in a call and not asleep. -/
def Busy (s : Sys) : Prop := ∃ (t : Nat) (p : Pos), s.threads[t]? = some p ∧ p ≠ .idle ∧ asleep p = false

/-- The execution contains no call of `acquire` and puts in no negative number. -/
def TryOnly : List Ev → Prop
  | [] => True
  | .call _ (.acquire _) :: _ => False
  | .call _ (.release n) :: es => 0 ≤ n ∧ TryOnly es
  | .call _ (.tryAcquire n) :: es => 0 ≤ n ∧ TryOnly es
  | _ :: es => TryOnly es

/-- No thread wakes spuriously. -/
def NoSpurious : List Ev → Prop
  | [] => True
  | .wake _ :: _ => False
  | _ :: es => NoSpurious es

end Verif.Semaphore
