import Verif.TokenQueue.Model
/-!
# The destructor of a producer

`~ExplicitProducer` (1729-1797 of concurrentqueue.hpp). It runs when neither the producer nor a consumer is
inside a call, so it is a function of the state. `none` is undefined behaviour or a loop without end: an
entry that was never written, no block index, the destructor of an element that is not there. The assertion
of line 1743 is not modelled, the block index itself is released whole.
-/
namespace Verif.TokenQueue

variable {E : Type}

/-- What is there while the destructor runs: the blocks, and the elements destroyed so far. -/
structure Ruin (E : Type) where
  blk : Nat → Blk E
  dead : List E

/-- `(*block)[j]->~T()` (1767). -/
def Ruin.kill (r : Ruin E) (b j : Nat) : Option (Ruin E) :=
  match (r.blk b).slots j with
  | none => none
  | some x => some { blk := upd r.blk b { r.blk b with slots := upd (r.blk b).slots j none }, dead := r.dead ++ [x] }

/-- The search for the block that is partially dequeued (1739-1744). The loop goes around the index; when it
is back where it was it goes on for ever. -/
def findHalf (c : Cfg) (s : Sys E) (h : Hdr) : Nat → Nat → Option Nat
  | 0, _ => none
  | n + 1, i =>
    match h.entry i with
    | none => none
    | some (base, b) => if base + c.B < s.head then findHalf c s h n ((i + 1) % s.size) else some b

/-- `halfDequeuedBlock` (1735-1745). -/
def half (c : Cfg) (s : Sys E) : Option (Option Nat) :=
  if s.head % c.B = 0 then some none
  else
    match s.cur with
    | none => none
    | some h => (findHalf c s (s.hdr h) s.size ((s.front + s.size - s.slots) % s.size)).map some

/-- `lastValidIndex` (1763), for the tail block; the other blocks have all their elements. -/
def limit (c : Cfg) (s : Sys E) (b : Nat) : Nat :=
  if s.tb = some b then (if s.tail % c.B = 0 then c.B else s.tail % c.B) else c.B

/-- The elements of one block (1765-1768), `n` places from `j` on. -/
def killRun (lim b : Nat) : Nat → Nat → Ruin E → Option (Ruin E)
  | 0, _, r => some r
  | n + 1, j, r =>
    if j = lim then some r
    else
      match r.kill b j with
      | none => none
      | some r' => killRun lim b n (j + 1) r'

/-- One block (1752-1768). -/
def endBlock (c : Cfg) (s : Sys E) (hf : Option Nat) (b : Nat) (r : Ruin E) : Option (Ruin E) :=
  if (s.blk b).empty c then some r
  else
    let j := if hf = some b then s.head % c.B else 0
    killRun (limit c s b) b (c.B - j) j r

/-- The loop over the blocks (1748-1769), the block before the first one is given. -/
def endWalk (c : Cfg) (s : Sys E) (hf : Option Nat) : Nat → Nat → Ruin E → Option (Ruin E)
  | 0, _, _ => none
  | n + 1, b, r =>
    match endBlock c s hf (s.next b) r with
    | none => none
    | some r' => if s.tb = some (s.next b) then some r' else endWalk c s hf n (s.next b) r'

/-- The loop that releases the blocks (1774-1785); a block of the pool goes to the free list, another one
is deallocated. -/
def endFree (s : Sys E) : Nat → Nat → Option (List Nat)
  | 0, _ => none
  | n + 1, b => if s.tb = some (s.next b) then some [b] else (endFree s n (s.next b)).map (b :: ·)

/-- The first half of `~ExplicitProducer` (1729-1770): the elements. -/
def endElems (c : Cfg) (s : Sys E) : Option (Ruin E) :=
  match s.tb with
  | none => some ⟨s.blk, []⟩
  | some t =>
    match half c s with
    | none => none
    | some hf => endWalk c s hf s.made t ⟨s.blk, []⟩

/-- The second half of `~ExplicitProducer` (1772-1785): the blocks. -/
def endBlocks (s : Sys E) : Option (List Nat) :=
  match s.tb with
  | none => some []
  | some t => endFree s s.made t

end Verif.TokenQueue
