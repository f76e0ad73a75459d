import Verif.LinkedQueue.Spec
/-!
# What the end of a queue leaves behind
-/
namespace Verif.LinkedQueue

variable {E : Type}

/-- Of the elements added, each was returned by one `poll` (by `src`) or is one of `dead` (by
`dsrc`), and not both; and all of `dead` were added. -/
structure Accounted (l : List (Rec E)) (dead : List E) (src dsrc : Nat → Nat) : Prop where
  got : Matched l src
  were : ∀ k e, dead[k]? = some e → ∃ t, Added l (dsrc k) t e
  once : ∀ k k', k < dead.length → k' < dead.length → dsrc k = dsrc k' → k = k'
  apart : ∀ n e k, Got l n e → k < dead.length → src n ≠ dsrc k
  all : ∀ n t e, Added l n t e →
    (∃ m e', Got l m e' ∧ src m = n) ∨ ∃ k, k < dead.length ∧ dsrc k = n

end Verif.LinkedQueue
