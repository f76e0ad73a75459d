import Verif.LinkedQueue.Model
/-!
# The destructor of the queue

`~ConcurrentQueue` (cq:798-839) with `~ImplicitProducer` (cq:2376-2428).  It runs when no
thread is inside a call, so it is a function of the state.  `none` is undefined behaviour: an
index without an entry, a null block, the destructor of an element that is not there.

Simplifications.
* The block index, the producers and the table of producers are released whole; only blocks
  and elements are accounted for.
* The order in which the free list hands its blocks over is not told: it is a bag.
-/
namespace Verif.LinkedQueue

variable {E : Type}

/-- What is there while the destructor runs: the blocks, the free list, and the elements
destroyed so far, oldest first. -/
structure Ruin (E : Type) where
  heap : Nat → Blk E
  free : List Nat
  dead : List E

/-- `get_block_index_entry_for_index(index)->value` (cq:2876-2896, 2405). -/
def blockOf (x : Prod) (i : Nat) : Option Nat :=
  match (x.ents ((x.hdrs x.cur).index (x.hdrs x.cur).tail)).key with
  | none => none
  | some base =>
    match (x.ents ((x.hdrs x.cur).index
        (ringPos (x.hdrs x.cur).cap (x.hdrs x.cur).tail base i))).value with
    | some (some b) => some b
    | _ => none

/-- `add_block_to_free_list` (cq:3002-3008). -/
def Ruin.give (r : Ruin E) (b : Nat) : Ruin E := { r with free := b :: r.free }

/-- `((*block)[index])->~T()` (cq:2408). -/
def Ruin.kill (r : Ruin E) (b i : Nat) : Option (Ruin E) :=
  match (r.heap b).slots (i % 32) with
  | none => none
  | some e => some { r with
      heap := upd r.heap b { r.heap b with slots := upd (r.heap b).slots (i % 32) none }
      dead := r.dead ++ [e] }

/-- The block of the next element, the one before it given back (cq:2399-2406). -/
def endBlock (x : Prod) (i : Nat) (r : Ruin E) : Option Nat → Option (Nat × Ruin E)
  | none => (blockOf x i).map fun b => (b, r)
  | some o => if i % 32 = 0 then (blockOf x i).map fun b => (b, r.give o) else some (o, r)

/-- The loop over the elements left, `n` of them from `i` on (cq:2398-2410). -/
def endLoop (x : Prod) : Nat → Nat → Option Nat → Ruin E → Option (Ruin E)
  | 0, _, _, r => some r
  | n + 1, i, block, r =>
    match endBlock x i r block with
    | none => none
    | some (b, r1) =>
      match r1.kill b i with
      | none => none
      | some r2 => endLoop x n (i + 1) (some b) r2

/-- The last block (cq:2414-2416). -/
def endTail (x : Prod) (r : Ruin E) : Ruin E :=
  match x.tailBlock with
  | none => r
  | some b => if x.head ≠ x.tail ∨ x.tail % 32 ≠ 0 then r.give b else r

/-- `~ImplicitProducer` (cq:2376-2428). Past the tail the loop would not come to an end. -/
def endProd (x : Prod) (r : Ruin E) : Option (Ruin E) :=
  if x.tail < x.head then none
  else (endLoop x (x.tail - x.head) x.head none r).map (endTail x)

/-- The producers, youngest first (cq:801-809). -/
def endProds (s : Sys E) : Nat → Ruin E → Option (Ruin E)
  | 0, r => some r
  | n + 1, r =>
    match endProd (s.prods n) r with
    | none => none
    | some r' => endProds s n r'

/-- The free list, then the initial pool (cq:827-838). `pool b`: block `b` is one of the
initial pool, that is `dynamicallyAllocated` is false. Of the pool only the blocks that were
ever handed out are counted. -/
def released (pool : Nat → Bool) (made : Nat) (r : Ruin E) : List Nat :=
  r.free.filter (fun b => !pool b) ++ (List.range made).filter pool

/-- `~ConcurrentQueue` (cq:798-839) up to the release of the blocks. -/
def endQueue (s : Sys E) : Option (Ruin E) :=
  endProds s s.count { heap := s.heap, free := s.free, dead := [] }

end Verif.LinkedQueue
