import Verif.TokenQueue.Model
/-!
# What is expected of a queue with a producer token
-/
namespace Verif.TokenQueue

variable {E : Type}

/-- The elements a call put into the queue. -/
def Rec.sent : Rec E → List E
  | .enq x true => [x]
  | .bulk l true => l
  | _ => []

/-- The elements put into the queue by calls that returned true, in their order. -/
def sent (log : List (Rec E)) : List E := log.flatMap Rec.sent

/-- The elements a call took out of the queue. -/
def Rec.got : Rec E → List E
  | .deq _ _ l => l
  | _ => []

/-- The elements taken out of the queue, in the order in which the calls ended. -/
def taken (log : List (Rec E)) : List E := log.flatMap Rec.got

/-- The call at position `r` of the log is a `dequeue_bulk` with these arguments and this result. -/
def IsDeq (log : List (Rec E)) (r : Nat) (k : Call) (l : List E) : Prop := ∃ f, log[r]? = some (.deq k f l)

/-- The calls of consumers took what was sent: `place r` is the number of elements sent before those the
call at position `r` took. -/
structure Fifo (log : List (Rec E)) (place : Nat → Nat) : Prop where
  /-- a call returns no more than it was asked for -/
  few : ∀ r k l, IsDeq log r k l → l.length ≤ k.max
  /-- what it returns was sent by calls that had ended, one after the other -/
  run : ∀ r k l, IsDeq log r k l → l = ((sent (log.take r)).drop (place r)).take l.length
  /-- nothing is taken twice -/
  once : ∀ r k l r' k' l', IsDeq log r k l → IsDeq log r' k' l' → ∀ i,
    place r ≤ i → i < place r + l.length → place r' ≤ i → i < place r' + l'.length → r = r'
  /-- a call that ended before another one began took earlier elements -/
  order : ∀ r k l r' k' l', IsDeq log r k l → IsDeq log r' k' l' → r' < k.bf →
    place r' + l'.length ≤ place r

/-- No consumer is in the middle of a call. -/
def Sys.quiet (s : Sys E) : Prop := ∀ t, s.pos t = .idle

/-- No two calls of consumers overlapped. -/
def Serial (log : List (Rec E)) : Prop :=
  ∀ r k l r' k' l', IsDeq log r k l → IsDeq log r' k' l' → r' < r → r' < k.bf

/-- Every `enqueue_bulk` so far returned true. -/
def NoBulkFailed (log : List (Rec E)) : Prop := ∀ l, Rec.bulk l false ∉ log

/-- The steps of thread `t` in a list of moves. -/
def isCons (t : Nat) : Move E → Bool
  | .cons t' => t' == t
  | _ => false

/-- The steps of the producer. -/
def isProd : Move E → Bool
  | .prod _ => true
  | _ => false

/-- The moves that start a call of the producer. -/
def starts : Move E → Bool
  | .enq _ _ => true
  | .bulk _ _ => true
  | _ => false

/-- The pool and the allocator give what they are asked for, and the calls may allocate. -/
def Rich : Move E → Prop
  | .prod ok => ok = true
  | .enq can _ => can = true
  | .bulk can _ => can = true
  | _ => True

end Verif.TokenQueue
