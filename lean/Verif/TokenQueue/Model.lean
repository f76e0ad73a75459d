import Verif.Common
/-!
# Queues with a producer token

`ExplicitProducer` in `/repo/library/Java/Util/Concurrent/ConcurrentLinkedQueue/concurrentqueue.hpp`
(lines 1639-2359): the part of the queue that belongs to one producer token. One thread enqueues with the
token, singly or in bulk, and any number of threads dequeue, singly or in bulk (`dequeue` is
`dequeue_bulk` of at most one element).

One step per access to memory that several threads share. Steps that touch only what the producer alone
uses are made together with the next one; so is the test whether a block is empty, because an empty block
stays so until the producer resets it. Memory is sequentially consistent, indexes do not wrap around,
`MAX_SUBQUEUE_SIZE` is not set, sizes are counted as they are, so that `x & (size - 1)` is `x % size`;
elements are copied and moved without exceptions. A block from the pool (`requisition_block`, 3026-3044)
is one that nobody else has (`FreeList`); the pool may be empty and an allocation may fail at any time.
-/
namespace Verif.TokenQueue

/-- `BLOCK_SIZE`, and half the size of the first block index (1716-1726). -/
structure Cfg where
  B : Nat
  S : Nat
  posB : 0 < B
  posS : 0 < S

/-- `Block` (1499-1625): the elements, none where none is constructed, and the flags `emptyFlags`, here
in the order of the elements (the code keeps them in reverse). -/
structure Blk (E : Type) where
  slots : Nat → Option E
  gone : Nat → Bool

/-- `BlockIndexHeader` and its entries (2286-2298): `front` is none as long as it is -1, an entry is none
as long as it is not written. -/
structure Hdr where
  size : Nat
  front : Option Nat
  entry : Nat → Option (Nat × Nat)

/-- The local variables of `enqueue_bulk` (2006-2015). -/
structure Bulk (E : Type) where
  can : Bool
  items : List E
  startBlock : Option Nat
  origFront : Nat
  origSlots : Nat
  first : Option Nat
  /-- blocks still needed: `blockBaseDiff / BLOCK_SIZE` -/
  need : Nat
  /-- `currentTailIndex + BLOCK_SIZE` -/
  base : Nat
  /-- for the proofs only: a block was taken from the pool, or a new index was made after a block was
  used again -/
  hot : Bool

/-- Where the producer is. -/
inductive PPos (E : Type)
  | idle
  /-- at the test of line 1803 -/
  | chk (can : Bool) (x : E)
  /-- at line 1818 -/
  | grow (can : Bool) (x : E)
  /-- at line 1842 -/
  | take (can : Bool) (x : E)
  /-- at line 1884, to store `f` -/
  | fr (f : Nat) (x : E)
  /-- at line 1894 -/
  | put (x : E)
  /-- at line 1896 -/
  | pub (x : E)
  /-- at line 2018 -/
  | reuse (k : Bulk E)
  /-- at lines 2032-2047 -/
  | more (k : Bulk E)
  /-- at line 2062 -/
  | draw (k : Bulk E)
  /-- at line 2094 -/
  | opn (k : Bulk E)
  /-- at line 2123, with `endBlock`, `tailBlock`, `currentTailIndex` and the remaining elements -/
  | fill (k : Bulk E) (eb : Option Nat) (b : Option Nat) (i : Nat) (rest : List E)

/-- A call of a consumer: the greatest number of elements it asks for and, for the proofs only, how many
calls had ended when it began. -/
structure Call where
  max : Nat
  bf : Nat
  deriving DecidableEq, Repr

/-- Where a consumer is. -/
inductive DPos (E : Type)
  | idle
  /-- at line 2195 -/
  | tl (k : Call)
  /-- at line 2196 -/
  | ov (k : Call) (T : Nat)
  /-- at line 2197 -/
  | op (k : Call) (T o : Nat)
  /-- at line 2202 -/
  | inc (k : Call) (d o : Nat)
  /-- at line 2204 -/
  | again (k : Call) (m d o : Nat)
  /-- at line 2209 -/
  | short (k : Call) (a r : Nat)
  /-- at line 2278 -/
  | miss (k : Call) (d : Nat)
  /-- at line 2214 -/
  | head (k : Call) (a : Nat)
  /-- at line 2217 -/
  | idx (k : Call) (f a : Nat)
  /-- at line 2218 -/
  | frt (k : Call) (f a h : Nat)
  /-- at line 2220 -/
  | bas (k : Call) (f a h p : Nat)
  /-- at line 2231 -/
  | blk (k : Call) (f e h p i : Nat) (acc : List E)
  /-- at lines 2234-2237 -/
  | mv (k : Call) (f e h p b i0 i : Nat) (acc : List E)
  /-- at line 2270 -/
  | mark (k : Call) (f e h p b i0 i : Nat) (acc : List E)

/-- A call that has ended. A `deq` has the index of its first element and its elements. -/
inductive Rec (E : Type)
  | enq (x : E) (ok : Bool)
  | bulk (l : List E) (ok : Bool)
  | deq (k : Call) (f : Nat) (l : List E)
  deriving DecidableEq, Repr

structure Sys (E : Type) where
  tail : Nat
  head : Nat
  opt : Nat
  over : Nat
  blk : Nat → Blk E
  next : Nat → Nat
  /-- blocks from this number on are not ours -/
  made : Nat
  hdr : Nat → Hdr
  hdrs : Nat
  cur : Option Nat
  tb : Option Nat
  slots : Nat
  size : Nat
  front : Nat
  pp : PPos E
  pos : Nat → DPos E
  log : List (Rec E)
  /-- something undefined was done, or an assertion failed -/
  bad : Bool
  /-- for the proofs only: a call to `enqueue_bulk` failed when it was `hot` -/
  spoilt : Bool
  /-- for the proofs only: the elements moved out, and those whose flag was set -/
  moved : Nat → Bool
  done : Nat → Bool

def upd {α : Type u} (f : Nat → α) (i : Nat) (v : α) : Nat → α := fun j => if j = i then v else f j

variable {E : Type}

/-- `is_empty` (1509-1533). -/
def Blk.empty (c : Cfg) (b : Blk E) : Bool := (List.range c.B).all b.gone

/-- `reset_empty` (1591-1604) and `set_all_empty` (1576-1589). -/
def Blk.setAll (b : Blk E) (v : Bool) : Blk E := { b with gone := fun _ => v }

/-- The constructor (1712-1727): `new_block_index(0)` may fail. -/
def start (c : Cfg) (ok : Bool) : Sys E where
  tail := 0
  head := 0
  opt := 0
  over := 0
  blk := fun _ => ⟨fun _ => none, fun _ => false⟩
  next := fun _ => 0
  made := 0
  hdr := fun _ => ⟨2 * c.S, none, fun _ => none⟩
  hdrs := if ok then 1 else 0
  cur := if ok then some 0 else none
  tb := none
  slots := 0
  size := if ok then 2 * c.S else c.S
  front := 0
  pp := .idle
  pos := fun _ => .idle
  log := []
  bad := false
  spoilt := false
  moved := fun _ => false
  done := fun _ => false

/-- The old entries in their order (2315-2323). -/
def oldEntry (s : Sys E) (j : Nat) : Option (Nat × Nat) :=
  match s.cur with
  | none => none
  | some h => if j < s.slots then (s.hdr h).entry ((s.front + s.size - s.slots + j) % s.size) else none

/-- `new_block_index` (2301-2338) when the allocation succeeds. -/
def newIndex (s : Sys E) (expose : Nat) : Sys E :=
  { s with
    hdr := upd s.hdr s.hdrs ⟨2 * s.size, if expose = 0 then none else some (expose - 1), oldEntry s⟩
    hdrs := s.hdrs + 1
    cur := some s.hdrs
    size := 2 * s.size
    front := s.slots }

/-- Write `entries[pr_blockIndexFront]` and advance it (1881-1883, 1885; 2025-2028, 2086-2089). -/
def putEntry (s : Sys E) (base b : Nat) : Sys E :=
  match s.cur with
  | none => { s with bad := true }
  | some h =>
    { s with
      hdr := upd s.hdr h { s.hdr h with entry := upd (s.hdr h).entry s.front (some (base, b)) }
      front := (s.front + 1) % s.size }

/-- Store `front` (1884, 2104). -/
def putFront (s : Sys E) (f : Nat) : Sys E :=
  match s.cur with
  | none => { s with bad := true }
  | some h => { s with hdr := upd s.hdr h { s.hdr h with front := some f } }

/-- A block from the pool is linked in after the tail block (1849-1858, 2073-2084). -/
def link (s : Sys E) (v : Bool) : Sys E :=
  let n := s.made
  { s with
    made := n + 1
    blk := upd s.blk n ((s.blk n).setAll v)
    next := match s.tb with
      | none => upd s.next n n
      | some t => upd (upd s.next n (s.next t)) t n
    tb := some n
    slots := s.slots + 1 }

/-- The end of a call of the producer. -/
def Sys.ends (s : Sys E) (r : Rec E) : Sys E := { s with pp := .idle, log := s.log ++ [r] }

/-- `enqueue_bulk` gives up (2040-2053, 2063-2068). -/
def giveUp (s : Sys E) (k : Bulk E) : Sys E :=
  { s with
    front := k.origFront
    slots := k.origSlots
    tb := match k.startBlock with
      | none => k.first
      | some b => some b
    pp := .idle
    log := s.log ++ [.bulk k.items false]
    spoilt := s.spoilt || k.hot }

/-- The start of `enqueue_bulk` (2006-2016): `need` is the number of blocks to be started. -/
def callBulk (c : Cfg) (s : Sys E) (can : Bool) (l : List E) : Sys E :=
  let base := (s.tail + c.B - 1) / c.B * c.B
  let need := (s.tail + l.length + c.B - 1) / c.B - (s.tail + c.B - 1) / c.B
  let k : Bulk E := ⟨can, l, s.tb, s.front, s.slots, none, need, base, false⟩
  if need = 0 then { s with pp := .fill k s.tb s.tb s.tail l } else { s with pp := .reuse k }

/-- Reset the flags of the blocks from `b` to the tail block (2094-2101). -/
def resetFrom (s : Sys E) : Nat → Nat → Sys E
  | 0, _ => { s with bad := true }
  | fuel + 1, b =>
    let s' := { s with blk := upd s.blk b ((s.blk b).setAll false) }
    if s.tb = some b then s' else resetFrom s' fuel (s.next b)

/-- A step of the producer; `ok` says whether the pool has a block or the allocation succeeds. -/
def prodStep (c : Cfg) (s : Sys E) (ok : Bool) : Option (Sys E) :=
  match s.pp with
  | .idle => none
  | .chk can x =>
    match s.tb with
    | none => some { s with pp := .grow can x }
    | some t =>
      let n := s.next t
      if (s.blk n).empty c then
        let s' := putEntry { s with tb := some n, blk := upd s.blk n ((s.blk n).setAll false) } s.tail n
        some { s' with pp := .fr s.front x }
      else some { s with pp := .grow can x }
  | .grow can x =>
    if s.tail < s.head then some { s with bad := true, pp := .idle }
    else if s.cur.isNone || s.slots == s.size then
      if can && ok then some { newIndex s s.slots with pp := .take can x }
      else some (s.ends (.enq x false))
    else some { s with pp := .take can x }
  | .take _ x =>
    if ok then
      let s' := putEntry (link s false) s.tail s.made
      some { s' with pp := .fr s.front x }
    else some (s.ends (.enq x false))
  | .fr f x => some { putFront s f with pp := .put x }
  | .put x =>
    match s.tb with
    | none => some { s with bad := true, pp := .idle }
    | some b =>
      some { s with
        blk := upd s.blk b { s.blk b with slots := upd (s.blk b).slots (s.tail % c.B) (some x) }
        pp := .pub x }
  | .pub x => some { s.ends (.enq x true) with tail := s.tail + 1 }
  | .reuse k =>
    match s.tb with
    | none => some { s with pp := .more k }
    | some t =>
      let n := s.next t
      if k.need ≠ 0 ∧ k.first ≠ some n ∧ (s.blk n).empty c then
        let s' := putEntry { s with tb := some n } k.base n
        some { s' with
          pp := .reuse { k with need := k.need - 1, base := k.base + c.B, first := k.first.or (some n) } }
      else some { s with pp := .more k }
  | .more k =>
    if k.need = 0 then some { s with pp := .opn k }
    else if k.base < s.head then some { s with bad := true, pp := .idle }
    else if s.cur.isNone || s.slots == s.size then
      if k.can && ok then
        some { newIndex s k.origSlots with
          pp := .draw { k with origFront := k.origSlots, hot := k.hot || k.first.isSome } }
      else some (giveUp s k)
    else some { s with pp := .draw k }
  | .draw k =>
    if ok then
      let s' := putEntry (link s true) k.base s.made
      some { s' with
        pp := .more { k with
          need := k.need - 1, base := k.base + c.B, first := k.first.or (some s.made), hot := true } }
    else some (giveUp s k)
  | .opn k =>
    match k.first with
    | none => some { s with bad := true, pp := .idle }
    | some b =>
      let s' := putFront (resetFrom s s.made b) ((s.front + s.size - 1) % s.size)
      some { s' with
        pp := .fill k s.tb (if s.tail % c.B = 0 then some b else k.startBlock) s.tail k.items }
  | .fill k eb b i rest =>
    match rest with
    | [] =>
      if b = eb then
        some { s.ends (.bulk k.items true) with tail := s.tail + k.items.length, tb := eb }
      else some { s with bad := true, pp := .idle }
    | x :: rest =>
      match b with
      | none => some { s with bad := true, pp := .idle }
      | some b =>
        let s' := { s with
          blk := upd s.blk b { s.blk b with slots := upd (s.blk b).slots (i % c.B) (some x) } }
        let b' := if (i + 1) % c.B = 0 ∧ eb ≠ some b then s.next b else b
        some { s' with pp := .fill k eb (some b') (i + 1) rest }

/-- A consumer moves on. -/
def Sys.go (s : Sys E) (t : Nat) (d : DPos E) : Sys E := { s with pos := upd s.pos t d }

/-- The end of a call of a consumer. -/
def Sys.ret (s : Sys E) (t : Nat) (k : Call) (f : Nat) (l : List E) : Sys E :=
  { s with pos := upd s.pos t .idle, log := s.log ++ [.deq k f l] }

/-- Something undefined. -/
def Sys.wrong (s : Sys E) (t : Nat) : Sys E := { s with pos := upd s.pos t .idle, bad := true }

/-- The end of the run of elements from `i` on that are in one block (2229-2230). -/
def stop (c : Cfg) (i e : Nat) : Nat := min e ((i / c.B + 1) * c.B)

/-- A step of a consumer in `dequeue_bulk` (2193-2283); `dequeue` (1901-1998) does the same with 1 for the
greatest number. -/
def consStep (c : Cfg) (s : Sys E) (t : Nat) : Option (Sys E) :=
  match s.pos t with
  | .idle => none
  | .tl k => some (s.go t (.ov k s.tail))
  | .ov k T => some (s.go t (.op k T s.over))
  | .op k T o =>
    if s.opt < T + o then some (s.go t (.inc k (min (T + o - s.opt) k.max) o))
    else some (s.ret t k s.head [])
  | .inc k d o => some { s.go t (.again k s.opt d o) with opt := s.opt + d }
  | .again k m d o =>
    if m < s.tail + o then
      let a := min d (s.tail + o - m)
      if a < d then some (s.go t (.short k a (d - a))) else some (s.go t (.head k a))
    else some (s.go t (.miss k d))
  | .short k a r => some { s.go t (.head k a) with over := s.over + r }
  | .miss k d => some { s.ret t k s.head [] with over := s.over + d }
  | .head k a => some { s.go t (.idx k s.head a) with head := s.head + a }
  | .idx k f a =>
    match s.cur with
    | none => some (s.wrong t)
    | some h => some (s.go t (.frt k f a h))
  | .frt k f a h =>
    match (s.hdr h).front with
    | none => some (s.wrong t)
    | some p => some (s.go t (.bas k f a h p))
  | .bas k f a h p =>
    match (s.hdr h).entry p with
    | none => some (s.wrong t)
    | some (base, _) =>
      let off : Int := (((f / c.B * c.B : Nat) : Int) - base).tdiv c.B
      some (s.go t (.blk k f (f + a) h (((p : Int) + off) % (s.hdr h).size).toNat f []))
  | .blk k f e h p i acc =>
    match (s.hdr h).entry p with
    | none => some (s.wrong t)
    | some (_, b) => some (s.go t (.mv k f e h p b i i acc))
  | .mv k f e h p b i0 i acc =>
    match (s.blk b).slots (i % c.B) with
    | none => some (s.wrong t)
    | some x =>
      let s' := { s with
        blk := upd s.blk b { s.blk b with slots := upd (s.blk b).slots (i % c.B) none }
        moved := upd s.moved i true }
      if i + 1 = stop c i0 e then some (s'.go t (.mark k f e h p b i0 (i + 1) (acc ++ [x])))
      else some (s'.go t (.mv k f e h p b i0 (i + 1) (acc ++ [x])))
  | .mark k f e h p b i0 i acc =>
    if (List.range (i - i0)).any fun j => (s.blk b).gone (i0 % c.B + j) then some (s.wrong t)
    else
      let s' := { s with
        blk := upd s.blk b { s.blk b with
          gone := fun j => if i0 % c.B ≤ j ∧ j < i0 % c.B + (i - i0) then true else (s.blk b).gone j }
        done := fun j => if i0 ≤ j ∧ j < i then true else s.done j }
      if i = e then some (s'.ret t k f acc)
      else some (s'.go t (.blk k f e h ((p + 1) % (s.hdr h).size) i acc))

/-- What happens next: a step of the producer or of a consumer, or one of them starts a call: `enqueue`,
`try_enqueue` (with `can` false), `enqueue_bulk`, `try_enqueue_bulk`, `dequeue` (with `max` 1) or
`dequeue_bulk` with `max` not 0. -/
inductive Move (E : Type)
  | prod (ok : Bool)
  | enq (can : Bool) (x : E)
  | bulk (can : Bool) (l : List E)
  | cons (t : Nat)
  | deq (t max : Nat)

def move (c : Cfg) (s : Sys E) : Move E → Option (Sys E)
  | .prod ok => prodStep c s ok
  | .enq can x =>
    match s.pp with
    | .idle => some { s with pp := if s.tail % c.B = 0 then .chk can x else .put x }
    | _ => none
  | .bulk can l =>
    match s.pp with
    | .idle => some (callBulk c s can l)
    | _ => none
  | .cons t => consStep c s t
  | .deq t max =>
    match s.pos t with
    | .idle => if max = 0 then none else some (s.go t (.tl ⟨max, s.log.length⟩))
    | _ => none

def run (c : Cfg) (s : Sys E) : List (Move E) → Option (Sys E)
  | [] => some s
  | m :: ms =>
    match move c s m with
    | none => none
    | some s' => run c s' ms

/-- Reachable states. -/
def Reach (c : Cfg) (s : Sys E) : Prop := ∃ ok ms, run c (start c ok) ms = some s

end Verif.TokenQueue
