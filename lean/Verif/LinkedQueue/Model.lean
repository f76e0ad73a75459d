import Verif.Common
/-!
# `Java::Util::Concurrent::ConcurrentLinkedQueue`

`/repo/library/Java/Util/Concurrent/ConcurrentLinkedQueue/ConcurrentLinkedQueue.hpp`
("CLQ") over `concurrentqueue.hpp` ("cq"), moodycamel's lock-free queue.  Each thread
that calls `add` owns one *producer*: a stream of elements in blocks of 32, an index
from block numbers to blocks, and four counters.  `poll` looks at the producers, takes
a ticket from the counters of one of them and moves the element out.

Threads interleave between accesses to shared memory: one `tick` is one atomic load,
store or read-modify-write of cq (together with the local work up to the next one).
`none` is undefined behaviour: a null block, an index that was never filled, an element
read where none is constructed, an element constructed over a live one.

Simplifications.
* Memory is sequentially consistent: the `memory_order` arguments are dropped.
* `index_t` counts without wrapping (`circular_less_than` is `<`): a producer sees
  fewer than 2^63 calls.
* Allocation succeeds; copying, moving and destroying an element does not throw
  (`quiet` says whether the compiler knows that: it picks the branch cq:2459-2484).
* A thread finds its producer, or makes one and links it into the list, in one step:
  the table of cq:3326-3460 is a map from threads to producers here, and the list push
  (cq:3184-3203) succeeds at once.  `MOODYCAMEL_CPP11_THREAD_LOCAL_SUPPORTED` is not
  defined (cq:213), so producers are never recycled.
* The free list of blocks (cq:1390-1490) is a bag: adding is one step, taking one step
  that hands out any block of the bag, or none.
-/
namespace Verif.LinkedQueue

variable {E : Type}

/-- Change a function in one place. -/
def upd {α : Type} (f : Nat → α) (i : Nat) (x : α) : Nat → α :=
  fun j => if j = i then x else f j

/-- `Block` (cq:1499-1625): 32 raw places for elements, and
`elementsCompletelyDequeued`. -/
structure Blk (E : Type) where
  slots : Nat → Option E
  gone : Nat

/-- `Block()` (cq:1501-1502). -/
def newBlk : Blk E := { slots := fun _ => none, gone := 0 }

/-- `BlockIndexEntry` (cq:2822-2826). `key = none` is `INVALID_BLOCK_BASE`;
`value = none` has not been written yet, `some none` is `nullptr`. -/
structure Ent where
  key : Option Nat
  value : Option (Option Nat)

/-- `BlockIndexHeader` (cq:2828-2835): a ring of `cap` pointers to entries. -/
structure Hdr where
  cap : Nat
  tail : Nat
  index : Nat → Nat

/-- The tail moves on (cq:2845, 2851). -/
def Hdr.adv (h : Hdr) : Hdr := { h with tail := (h.tail + 1) % h.cap }

/-- `ProducerBase` and `ImplicitProducer` (cq:1687-1695, 2944-2947). Headers and
entries are never freed while the queue lives; `cur` numbers the header `blockIndex`
points to, `entCount` is the number of entries made. -/
structure Prod where
  tail : Nat
  head : Nat
  opt : Nat
  over : Nat
  tailBlock : Option Nat
  hdrs : Nat → Hdr
  cur : Nat
  ents : Nat → Ent
  entCount : Nat
  nextCap : Nat

/-- The header `new_block_index` makes when there is none (cq:2901-2941):
`IMPLICIT_INITIAL_INDEX_SIZE = 32` entries, the tail on the last. -/
def firstHdr : Hdr := { cap := 32, tail := 31, index := fun i => i }

/-- An entry after cq:2924-2927. -/
def newEnt : Ent := { key := none, value := none }

/-- `ImplicitProducer(parent)` (cq:2368-2374). -/
def newProd : Prod :=
  { tail := 0, head := 0, opt := 0, over := 0, tailBlock := none
    hdrs := fun _ => firstHdr, cur := 0
    ents := fun _ => newEnt, entCount := 32, nextCap := 64 }

/-- Where a thread stands inside `ImplicitProducer::enqueue` (cq:2430-2493). The
arguments are the locals: `currentTailIndex`, `idxEntry`, `newBlock`. -/
inductive AStg where
  /-- load `tailIndex` (cq:2432) -/
  | tail
  /-- load `headIndex` (cq:2436) -/
  | head (ct : Nat)
  /-- read the next entry of the block index (cq:2845-2848) -/
  | test (ct : Nat)
  /-- `new_block_index` (cq:2858) -/
  | grow (ct : Nat)
  /-- store the key (cq:2850, 2865) -/
  | key (ct en : Nat)
  /-- store the tail of the block index (cq:2851, 2866) -/
  | itail (ct en : Nat)
  /-- `requisition_block` (cq:2450) -/
  | get (ct en : Nat)
  /-- `reset_empty` (cq:2459) -/
  | reset (ct en b : Nat)
  /-- construct before publishing the block (cq:2461-2472) -/
  | cons1 (ct en b : Nat)
  /-- store the block in the index (cq:2475) -/
  | val (ct en b : Nat)
  /-- `tailBlock = newBlock` (cq:2477) -/
  | tb (ct b : Nat)
  /-- construct in the tail block (cq:2486) -/
  | cons (ct : Nat)
  /-- store `tailIndex` and return (cq:2480-2481, 2488-2489) -/
  | pub (ct : Nat)

/-- Where a thread stands inside `ImplicitProducer::dequeue` (cq:2495-2560). The
arguments are the locals: `tail`, `overcommit`, `myDequeueCount`, `index`, the header
and tail position of `get_block_index_index_for_index`, `entry`, `block`, the element. -/
inductive DStg (E : Type) where
  /-- load `tailIndex` (cq:2499) -/
  | tail
  /-- load `dequeueOvercommit` (cq:2500) -/
  | over (tl : Nat)
  /-- load `dequeueOptimisticCount` and compare (cq:2501) -/
  | opt (tl oc : Nat)
  /-- `dequeueOptimisticCount.fetch_add(1)` (cq:2504) -/
  | inc (oc : Nat)
  /-- load `tailIndex` again and compare (cq:2505-2506) -/
  | again (mine oc : Nat)
  /-- `headIndex.fetch_add(1)` (cq:2507) -/
  | head (mine : Nat)
  /-- `dequeueOvercommit.fetch_add(1)` (cq:2553) -/
  | miss (mine : Nat)
  /-- load `blockIndex` (cq:2889) -/
  | idx (i : Nat)
  /-- load the tail of the block index (cq:2890) -/
  | itail (i h : Nat)
  /-- load the key of the tail entry (cq:2891) -/
  | ikey (i h q : Nat)
  /-- load the block (cq:2513) -/
  | val (i en : Nat)
  /-- move the element out and destroy it (cq:2538-2539, 2527, 2534) -/
  | take (i en b : Nat)
  /-- `set_empty` (cq:2541, 2528) -/
  | mark (i en b : Nat) (e : E)
  /-- clear the entry (cq:2546, 2529) -/
  | null (i en b : Nat) (e : E)
  /-- `add_block_to_free_list` (cq:2548, 2530) -/
  | free (i b : Nat) (e : E)

/-- Which dequeue of `try_dequeue` this is: of the best producer (cq:1086), or of the
others, with `n` producers left behind it in the list (cq:1089-1093). -/
inductive Cont where
  | first
  | rest (best n : Nat)

/-- Where a thread stands. The producers are numbered in the order of their making; the
list runs from the youngest to the oldest (cq:1073), so a position in it is the number
`n` of producers left, the next one being `n - 1`. -/
inductive Pos (E : Type) where
  | idle
  /-- `get_or_add_implicit_producer` (cq:1315) -/
  | find (e : E)
  | add (p : Nat) (e : E) (a : AStg)
  /-- load `producerListTail` in `try_dequeue` (cq:1073) -/
  | poll
  /-- load `tailIndex` of producer `n - 1` (cq:1680) -/
  | scan (n cnt best bsz : Nat)
  /-- load its `headIndex` (cq:1681) -/
  | scanH (n cnt best bsz tl : Nat)
  | deq (k : Cont) (p : Nat) (d : DStg E)
  /-- load `producerListTail` again (cq:1089) -/
  | others (best : Nat)
  /-- load `producerListTail` in `size_approx` (cq:1268); `z`: for `isEmpty` -/
  | count (z : Bool)
  | countT (z : Bool) (n acc : Nat)
  | countH (z : Bool) (n acc tl : Nat)

/-- The calls of the class that reach the queue (CLQ:54-57, 71-75, 96-98, 108-110). -/
inductive Call (E : Type) where
  | add (e : E)
  | poll
  | size
  | isEmpty

/-- What a call answered. `refused` is `enqueue` returning `false`: `add` drops that
answer and returns `true` all the same. `polled none` is `try_dequeue` returning
`false`: `poll` then returns a default-initialised `E` (CLQ:72). -/
inductive Res (E : Type) where
  | added (e : E)
  | refused (e : E)
  | polled (e : Option E)
  | size (n : Int)
  | isEmpty (b : Bool)

/-- A finished call: who, what, and when it began and ended. -/
structure Rec (E : Type) where
  thr : Nat
  res : Res E
  began : Nat
  ended : Nat

/-- The queue and its threads. -/
structure Sys (E : Type) where
  /-- `ImplicitProducer` objects; those from `count` on are not made yet -/
  prods : Nat → Prod
  /-- the length of the list `producerListTail` heads -/
  count : Nat
  /-- the table of implicit producers, by thread -/
  own : Nat → Option Nat
  /-- blocks ever handed out, by number; those from `made` on are untouched -/
  heap : Nat → Blk E
  made : Nat
  /-- the free list -/
  free : List Nat
  /-- construction of an element from a `const E &` is `noexcept` -/
  quiet : Bool
  pos : Nat → Pos E
  /-- when each thread began its current call -/
  began : Nat → Nat
  /-- calls begun and ended so far -/
  clock : Nat
  /-- finished calls, oldest first -/
  log : List (Rec E)

/-- `ConcurrentQueue(capacity)` (cq:753-773). -/
def init (quiet : Bool) : Sys E :=
  { prods := fun _ => newProd, count := 0, own := fun _ => none
    heap := fun _ => newBlk, made := 0, free := [], quiet
    pos := fun _ => .idle, began := fun _ => 0, clock := 0, log := [] }

/-- A thread goes on. -/
def Sys.go (s : Sys E) (t : Nat) (x : Pos E) : Sys E := { s with pos := upd s.pos t x }

/-- A thread's call returns. -/
def Sys.ret (s : Sys E) (t : Nat) (r : Res E) : Sys E :=
  { s with
    pos := upd s.pos t .idle
    log := s.log ++ [{ thr := t, res := r, began := s.began t, ended := s.clock }]
    clock := s.clock + 1 }

/-- Change producer `p`. -/
def Sys.prod (s : Sys E) (p : Nat) (x : Prod) : Sys E := { s with prods := upd s.prods p x }

/-- Change block `b`. -/
def Sys.blk (s : Sys E) (b : Nat) (x : Blk E) : Sys E := { s with heap := upd s.heap b x }

/-- The first step of each call. -/
def start : Call E → Pos E
  | .add e => .find e
  | .poll => .poll
  | .size => .count false
  | .isEmpty => .count true

/-- `new_block_index` with an old one (cq:2901-2941). The ring is unrolled, oldest entry
first, and as many fresh entries follow. -/
def newHdr (x : Prod) : Prod :=
  let old := x.hdrs x.cur
  let h : Hdr :=
    { cap := x.nextCap
      tail := (old.cap - 1) % x.nextCap
      index := fun i =>
        if i < old.cap then old.index ((old.tail + 1 + i) % old.cap)
        else x.entCount + (i - old.cap) }
  { x with
    hdrs := upd x.hdrs (x.cur + 1) h
    cur := x.cur + 1
    entCount := x.entCount + old.cap
    nextCap := x.nextCap * 2 }

/-- `requisition_block` (cq:3026-3045): from the initial pool or the free list, else a
new one. Blocks of the pool and new blocks are alike, so the pool is not told apart.
`c` picks the block of the free list. -/
def requisition (s : Sys E) (c : Nat) : Nat × Sys E :=
  match s.free[c]? with
  | some b => (b, { s with free := s.free.eraseIdx c })
  | none => (s.made, { s with made := s.made + 1 })

/-- One step of `ImplicitProducer::enqueue` (cq:2430-2493) with
`insert_block_index_entry` (cq:2838-2868). -/
def addStep (s : Sys E) (t p : Nat) (e : E) (c : Nat) : AStg → Option (Sys E)
  | .tail =>
    let ct := (s.prods p).tail
    some (s.go t (.add p e (if ct % 32 = 0 then .head ct else .cons ct)))
  | .head ct =>
    if (s.prods p).head < ct + 32 then some (s.go t (.add p e (.test ct)))
    else some (s.ret t (.refused e))
  | .test ct =>
    let x := s.prods p
    let h := x.hdrs x.cur
    let en := h.index ((h.tail + 1) % h.cap)
    match (x.ents en).key, (x.ents en).value with
    | none, _ => some (s.go t (.add p e (.key ct en)))
    | some _, some none => some (s.go t (.add p e (.key ct en)))
    | some _, some (some _) => some (s.go t (.add p e (.grow ct)))
    | some _, none => none
  | .grow ct =>
    let x := newHdr (s.prods p)
    let h := x.hdrs x.cur
    some ((s.prod p x).go t (.add p e (.key ct (h.index ((h.tail + 1) % h.cap)))))
  | .key ct en =>
    let x := s.prods p
    some ((s.prod p { x with ents := upd x.ents en { x.ents en with key := some ct } }).go t
      (.add p e (.itail ct en)))
  | .itail ct en =>
    let x := s.prods p
    some ((s.prod p { x with hdrs := upd x.hdrs x.cur (x.hdrs x.cur).adv }).go t
      (.add p e (.get ct en)))
  | .get ct en =>
    let (b, s1) := requisition s c
    some (s1.go t (.add p e (.reset ct en b)))
  | .reset ct en b =>
    some ((s.blk b { s.heap b with gone := 0 }).go t
      (.add p e (if s.quiet then .val ct en b else .cons1 ct en b)))
  | .cons1 ct en b =>
    match (s.heap b).slots (ct % 32) with
    | some _ => none
    | none => some ((s.blk b { s.heap b with
        slots := upd (s.heap b).slots (ct % 32) (some e) }).go t (.add p e (.val ct en b)))
  | .val ct en b =>
    let x := s.prods p
    some ((s.prod p { x with
        ents := upd x.ents en { x.ents en with value := some (some b) } }).go t
      (.add p e (.tb ct b)))
  | .tb ct b =>
    some ((s.prod p { s.prods p with tailBlock := some b }).go t
      (.add p e (if s.quiet then .cons ct else .pub ct)))
  | .cons ct =>
    match (s.prods p).tailBlock with
    | none => none
    | some b =>
      match (s.heap b).slots (ct % 32) with
      | some _ => none
      | none => some ((s.blk b { s.heap b with
          slots := upd (s.heap b).slots (ct % 32) (some e) }).go t (.add p e (.pub ct)))
  | .pub ct => some ((s.prod p { s.prods p with tail := ct + 1 }).ret t (.added e))

/-- The loop over the other producers (cq:1089-1093): the first dequeue among the `n`
producers left, skipping `best`; `none` when there is none. -/
def nextDeq (best : Nat) : Nat → Option (Pos E)
  | 0 => none
  | n + 1 => if n = best then nextDeq best n else some (.deq (.rest best n) n .tail)

/-- `dequeue` returned `false` (cq:1086-1096). -/
def missed (s : Sys E) (t p : Nat) : Cont → Sys E
  | .first => s.go t (.others p)
  | .rest best n =>
    match nextDeq best n with
    | none => s.ret t (.polled none)
    | some x => s.go t x

/-- The place in the ring of the entry for index `i` (cq:2888-2896): the signed distance
in blocks from the tail entry, whose key is `base`. -/
def ringPos (cap q base i : Nat) : Nat :=
  (((q : Int) + (((i / 32 * 32 : Nat) : Int) - (base : Int)).tdiv 32) % (cap : Int)).toNat

/-- One step of `ImplicitProducer::dequeue` (cq:2495-2560). -/
def deqStep (s : Sys E) (t : Nat) (k : Cont) (p : Nat) : DStg E → Option (Sys E)
  | .tail => some (s.go t (.deq k p (.over (s.prods p).tail)))
  | .over tl => some (s.go t (.deq k p (.opt tl (s.prods p).over)))
  | .opt tl oc =>
    if (s.prods p).opt - oc < tl then some (s.go t (.deq k p (.inc oc)))
    else some (missed s t p k)
  | .inc oc =>
    let x := s.prods p
    some ((s.prod p { x with opt := x.opt + 1 }).go t (.deq k p (.again x.opt oc)))
  | .again mine oc =>
    if mine - oc < (s.prods p).tail then some (s.go t (.deq k p (.head mine)))
    else some (s.go t (.deq k p (.miss mine)))
  | .head _ =>
    let x := s.prods p
    some ((s.prod p { x with head := x.head + 1 }).go t (.deq k p (.idx x.head)))
  | .miss _ =>
    let x := s.prods p
    some (missed (s.prod p { x with over := x.over + 1 }) t p k)
  | .idx i => some (s.go t (.deq k p (.itail i (s.prods p).cur)))
  | .itail i h => some (s.go t (.deq k p (.ikey i h ((s.prods p).hdrs h).tail)))
  | .ikey i h q =>
    let x := s.prods p
    match (x.ents ((x.hdrs h).index q)).key with
    | none => none
    | some base =>
      some (s.go t (.deq k p (.val i ((x.hdrs h).index (ringPos (x.hdrs h).cap q base i)))))
  | .val i en =>
    match ((s.prods p).ents en).value with
    | some (some b) => some (s.go t (.deq k p (.take i en b)))
    | _ => none
  | .take i en b =>
    match (s.heap b).slots (i % 32) with
    | none => none
    | some e => some ((s.blk b { s.heap b with
        slots := upd (s.heap b).slots (i % 32) none }).go t (.deq k p (.mark i en b e)))
  | .mark i en b e =>
    let s1 := s.blk b { s.heap b with gone := (s.heap b).gone + 1 }
    if (s.heap b).gone = 31 then some (s1.go t (.deq k p (.null i en b e)))
    else some (s1.ret t (.polled (some e)))
  | .null i en b e =>
    let x := s.prods p
    some ((s.prod p { x with
        ents := upd x.ents en { x.ents en with value := some none } }).go t
      (.deq k p (.free i b e)))
  | .free _ b e => some ({ s with free := b :: s.free }.ret t (.polled (some e)))

/-- The end of one round of the scoring loop (cq:1073-1083), and what follows it. -/
def scanNext (s : Sys E) (t n cnt best bsz : Nat) : Sys E :=
  if cnt < 3 ∧ n ≠ 0 then s.go t (.scan n cnt best bsz)
  else if cnt = 0 then s.ret t (.polled none)
  else s.go t (.deq .first best .tail)

/-- The answer of `size()`, cast to `int` (CLQ:108-110), or of `isEmpty()` (CLQ:96-98). -/
def answer (z : Bool) (acc : Nat) : Res E :=
  if z then .isEmpty (acc == 0) else .size ((acc : Int).bmod (2 ^ 32))

/-- The end of one round of `size_approx` (cq:1268-1271). -/
def countNext (s : Sys E) (t : Nat) (z : Bool) (n acc : Nat) : Sys E :=
  if n = 0 then s.ret t (answer z acc) else s.go t (.countT z n acc)

/-- One step of thread `t`. `c` decides what the free list hands out. -/
def tick (s : Sys E) (t c : Nat) : Option (Sys E) :=
  match s.pos t with
  | .idle => none
  | .find e =>
    match s.own t with
    | some p => some (s.go t (.add p e .tail))
    | none =>
      some ({ s with count := s.count + 1, own := upd s.own t (some s.count) }.go t
        (.add s.count e .tail))
  | .add p e a => addStep s t p e c a
  | .poll => some (scanNext s t s.count 0 0 0)
  | .scan n cnt best bsz =>
    some (s.go t (.scanH n cnt best bsz (s.prods (n - 1)).tail))
  | .scanH n cnt best bsz tl =>
    -- `size_approx` of the producer, `next_prod` (cq:1074-1082)
    let sz := tl - (s.prods (n - 1)).head
    if sz = 0 then some (scanNext s t (n - 1) cnt best bsz)
    else if bsz < sz then some (scanNext s t (n - 1) (cnt + 1) (n - 1) sz)
    else some (scanNext s t (n - 1) (cnt + 1) best bsz)
  | .deq k p d => deqStep s t k p d
  | .others best =>
    match nextDeq best s.count with
    | none => some (s.ret t (.polled none))
    | some x => some (s.go t x)
  | .count z => some (countNext s t z s.count 0)
  | .countT z n acc => some (s.go t (.countH z n acc (s.prods (n - 1)).tail))
  | .countH z n acc tl =>
    some (countNext s t z (n - 1) (acc + (tl - (s.prods (n - 1)).head)))

/-- An idle thread calls. -/
def begin (s : Sys E) (t : Nat) (c : Call E) : Sys E :=
  { s with pos := upd s.pos t (start c), began := upd s.began t s.clock, clock := s.clock + 1 }

/-- One step of the system. -/
inductive Step (s : Sys E) : Sys E → Prop where
  | call (t : Nat) (c : Call E) : s.pos t = .idle → Step s (begin s t c)
  | tick (t c : Nat) {s' : Sys E} : tick s t c = some s' → Step s s'

/-- The states any number of threads, calling anything at any time, can reach. -/
inductive Reach (quiet : Bool) : Sys E → Prop where
  | init : Reach quiet (init quiet)
  | step {s s' : Sys E} : Reach quiet s → Step s s' → Reach quiet s'

/-! ### The calls that do not reach the queue -/

/-- The other members of the class. -/
inductive Stub (E : Type) where
  | offer (e : E)
  | clear
  | contains (e : E)
  | equals (e : E)
  | removeObject
  | removeAll
  | peek
  | element
  | remove

/-- What they answer (CLQ:59-69, 77-106): none touches the queue. `none` is an
`UnsupportedOperationException`, `some none` a `void` return. -/
def stub : Stub E → Option (Option Bool)
  | .offer _ => some (some true)
  | .clear => some none
  | .contains _ => some (some true)
  | .equals _ => some (some true)
  | .removeObject => some (some false)
  | .removeAll => some (some false)
  | .peek => none
  | .element => none
  | .remove => none

/-- Such a call as a whole: the queue is left as it is (CLQ:59-69, 77-106). -/
def stubCall (s : Sys E) (c : Stub E) : Sys E × Option (Option Bool) := (s, stub c)

/-- What the caller of `poll` gets (CLQ:71-75): the element, or the `E e;` of line 72.
`dflt` is what default initialisation makes of it: a value for a class, `none`, an
indeterminate value, for a number or a pointer. -/
def pollValue (dflt : Option E) : Option E → Option E
  | some e => some e
  | none => dflt

end Verif.LinkedQueue
