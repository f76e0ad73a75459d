import Verif.Common
/-!
# The table under `ConcurrentHashMap`: `libcuckoo::cuckoohash_map`

`/repo/library/Java/Util/Concurrent/ConcurrentHashMap/libcuckoo/cuckoohash_map.hh`
("map") and `bucket_container.hh` ("bc").  A cuckoo hash table with four slots per
bucket, two buckets per key, a breadth-first search for a free slot, doubling with
lazy migration of the old buckets, and one spinlock per stripe of buckets.

Threads interleave between critical sections: one step is what a thread does
while it holds its locks (for `lock_one`, `lock_two`, `lock_three`, `lock_all`), or
the read of the hash power before.  A section touches only buckets whose lock it
holds; the locks themselves are the subject of `Cuckoo/Locks.lean`.

Simplifications.  `size_type` is `Nat` (the hash power stays below 64: the bucket
array would not fit into memory).  `ConcurrentHashMap` makes its table with the
default constructor and has no call that shrinks it, so there are at least
`kMaxNumLocks` buckets and exactly `kMaxNumLocks` locks at all times:
`maybe_resize_locks` and the branch map:1718-1723 are left out.  `KeyEqual` is
equality of keys, equal keys have equal hashes.  Constructors of keys and values do
not throw, allocation succeeds, the maximum hash power is not set, no extra worker
threads (map:116).  The asserts on slots become undefined behaviour (`ub`):
constructing over a live pair, destroying a dead one, a full search queue, an index
outside the path, a read of deallocated buckets.
-/
namespace Verif.Cuckoo

variable {K V : Type} [DecidableEq K]

/-- The template parameters that matter, and the number of locks. -/
structure Cfg (K : Type) where
  /-- `std::hash` -/
  hash : K → BitVec 64
  /-- `is_simple()` (map:709-711) -/
  simple : Bool
  /-- `kMaxNumLocks = 1UL << 16` (map:2015) is `2 ^ lockBits`; a parameter, so that
  small tables can be computed with. The code has 16. -/
  lockBits : Nat

/-- A live pair and its partial key (bc:104-109). -/
structure Entry (K V : Type) where
  key : K
  part : BitVec 8
  val : V

/-- The bucket array: the pair in a slot of a bucket, if `occupied` (bc:62-110). -/
abbrev Buckets (K V : Type) := Nat → Nat → Option (Entry K V)

def Buckets.empty : Buckets K V := fun _ _ => none

/-- Write one slot. -/
def Buckets.put (b : Buckets K V) (i s : Nat) (x : Option (Entry K V)) : Buckets K V :=
  fun j r => if j = i ∧ r = s then x else b j r

/-- The members of the table (map:2045-2117). -/
structure Table (K V : Type) where
  /-- `buckets_.hashpower()` -/
  hp : Nat
  /-- `buckets_` -/
  cur : Buckets K V
  /-- `old_buckets_.hashpower()` -/
  oldHp : Nat
  /-- `old_buckets_` -/
  old : Buckets K V
  /-- `old_buckets_` has memory (`buckets_ != nullptr`, bc:274-289) -/
  oldMem : Bool
  /-- `is_migrated` of each lock (map:839) -/
  migrated : Nat → Bool
  /-- `elem_counter` of each lock (map:838) -/
  counter : Nat → Int
  /-- `num_remaining_lazy_rehash_locks_` -/
  remaining : Nat

/-- `slot_per_bucket()` (map:89, cuckoohash_config.hh:15). -/
abbrev SLOTS : Nat := 4

/-- `MAX_BFS_PATH_LEN` (map:1323). -/
abbrev MAX_BFS_PATH_LEN : Nat := 5

/-- `b_queue::MAX_CUCKOO_COUNT` (map:1594-1598). -/
abbrev MAX_CUCKOO_COUNT : Nat := 2 * ((SLOTS ^ MAX_BFS_PATH_LEN - 1) / (SLOTS - 1))

/-! ## Hashing -/

/-- `hashsize` (map:738-740). -/
def hashsize (hp : Nat) : Nat := 2 ^ hp

/-- `hashmask` (map:744-746). -/
def hashmask (hp : Nat) : Nat := hashsize hp - 1

/-- `partial_key` (map:752-761). -/
def partialKey (hash : BitVec 64) : BitVec 8 :=
  let hash32 : BitVec 32 := hash.setWidth 32 ^^^ (hash >>> 32).setWidth 32
  let hash16 : BitVec 16 := hash32.setWidth 16 ^^^ (hash32 >>> 16).setWidth 16
  hash16.setWidth 8 ^^^ (hash16 >>> 8).setWidth 8

/-- `index_hash` (map:765-767). -/
def indexHash (hp : Nat) (hash : BitVec 64) : Nat := hash.toNat &&& hashmask hp

/-- The product in `alt_index` (map:778-779); `size_type` wraps. -/
def tagProduct (part : BitVec 8) : Nat := (part.toNat + 1) * 0xc6a4a7935bd1e995 % 2 ^ 64

/-- `alt_index` (map:774-780). -/
def altIndex (hp : Nat) (part : BitVec 8) (index : Nat) : Nat :=
  (index ^^^ tagProduct part) &&& hashmask hp

/-- The two buckets of a hash (map:1055-1056). -/
def first (hp : Nat) (hash : BitVec 64) : Nat := indexHash hp hash
def second (hp : Nat) (hash : BitVec 64) : Nat := altIndex hp (partialKey hash) (indexHash hp hash)

/-- `kMaxNumLocks` (map:2015). -/
def numLocks (cfg : Cfg K) : Nat := 2 ^ cfg.lockBits

/-- `lock_ind` (map:1095-1097). -/
def lockInd (cfg : Cfg K) (bucket : Nat) : Nat := bucket &&& (numLocks cfg - 1)

/-! ## Slots -/

/-- `setKV` (bc:200-211). -/
def setKV (b : Buckets K V) (i s : Nat) (e : Entry K V) : Outcome (Buckets K V) :=
  match b i s with
  | some _ => .ub
  | none => .ok (b.put i s (some e))

/-- `eraseKV` (bc:214-219). -/
def eraseKV (b : Buckets K V) (i s : Nat) : Outcome (Buckets K V) :=
  match b i s with
  | some _ => .ok (b.put i s none)
  | none => .ub

/-- The test in the loops over slots (map:1150-1152, 1296-1300). -/
def hit (cfg : Cfg K) (part : BitVec 8) (key : K) (e : Entry K V) : Bool :=
  (cfg.simple || part == e.part) && decide (e.key = key)

/-- `try_read_from_bucket` (map:1145-1157). -/
def tryRead (cfg : Cfg K) (b : Nat → Option (Entry K V)) (part : BitVec 8) (key : K) : Option Nat :=
  (List.range SLOTS).find? fun i =>
    match b i with
    | none => false
    | some e => hit cfg part key e

/-- `cuckoo_find` (map:1129-1140). -/
def cuckooFind (cfg : Cfg K) (b : Buckets K V) (key : K) (part : BitVec 8) (i1 i2 : Nat) : Option (Nat × Nat) :=
  match tryRead cfg (b i1) part key with
  | some s => some (i1, s)
  | none =>
    match tryRead cfg (b i2) part key with
    | some s => some (i2, s)
    | none => none

/-- What `try_find_insert_bucket` finds: the key, or perhaps a free slot. -/
inductive Spot
  | duplicate (s : Nat)
  | free (s : Option Nat)

/-- The loop of `try_find_insert_bucket` (map:1295-1307). -/
def tryFindLoop (cfg : Cfg K) (b : Nat → Option (Entry K V)) (part : BitVec 8) (key : K) :
    List Nat → Option Nat → Spot
  | [], slot => .free slot
  | i :: rest, slot =>
    match b i with
    | some e => if hit cfg part key e then .duplicate i else tryFindLoop cfg b part key rest slot
    | none => tryFindLoop cfg b part key rest (some i)

/-- `try_find_insert_bucket` (map:1290-1309). -/
def tryFindInsert (cfg : Cfg K) (b : Nat → Option (Entry K V)) (part : BitVec 8) (key : K) : Spot :=
  tryFindLoop cfg b part key (List.range SLOTS) none

/-! ## Migration -/

/-- The loop of `move_bucket` (map:1754-1781); `n` is `new_bucket_slot`. The moved
pair stays in its old slot (as a moved-from object). -/
def moveSlots (cfg : Cfg K) (oldHp newHp : Nat) (old : Buckets K V) (ind : Nat) :
    List Nat → Nat → Buckets K V → Outcome (Buckets K V)
  | [], _, new => .ok new
  | s :: rest, n, new =>
    match old ind s with
    | none => moveSlots cfg oldHp newHp old ind rest n new
    | some e =>
      let hash := cfg.hash e.key
      let newInd := ind + hashsize oldHp
      if (ind = first oldHp hash ∧ first newHp hash = newInd) ∨ (ind = second oldHp hash ∧ second newHp hash = newInd)
      then (setKV new newInd n e).bind fun new => moveSlots cfg oldHp newHp old ind rest (n + 1) new
      else (setKV new ind s e).bind fun new => moveSlots cfg oldHp newHp old ind rest n new

/-- `move_bucket` (map:1738-1782). -/
def moveBucket (cfg : Cfg K) (oldHp newHp : Nat) (old new : Buckets K V) (ind : Nat) : Outcome (Buckets K V) :=
  moveSlots cfg oldHp newHp old ind (List.range SLOTS) 0 new

/-- The loop of `rehash_lock` (map:947-950), over the given old buckets. -/
def moveBuckets (cfg : Cfg K) (oldHp newHp : Nat) (old : Buckets K V) : List Nat → Buckets K V → Outcome (Buckets K V)
  | [], new => .ok new
  | i :: rest, new => (moveBucket cfg oldHp newHp old new i).bind (moveBuckets cfg oldHp newHp old rest)

/-- The old buckets under lock `l` (map:947-948). -/
def stripe (cfg : Cfg K) (oldHp l : Nat) : List Nat :=
  (List.range (2 ^ (oldHp - cfg.lockBits))).map fun j => l + j * numLocks cfg

/-- `clear_and_deallocate` of the old buckets (bc:242-244, 274-289). -/
def Table.drop (t : Table K V) : Table K V := { t with old := Buckets.empty, oldMem := false }

/-- `rehash_lock` (map:935-956) with `IS_LAZY` and
`decrement_num_remaining_lazy_rehash_locks` (map:2034-2041). -/
def rehashLock (cfg : Cfg K) (lazy : Bool) (t : Table K V) (l : Nat) : Outcome (Table K V) :=
  if t.migrated l then .ok t
  else if t.oldMem = false then .ub
  else (moveBuckets cfg t.oldHp t.hp t.old (stripe cfg t.oldHp l) t.cur).bind fun cur =>
    let t := { t with cur := cur, migrated := fun j => if j = l then true else t.migrated j }
    if lazy then
      let t' := { t with remaining := t.remaining - 1 }
      if t.remaining = 1 then .ok t'.drop else .ok t'
    else .ok t

/-- `rehash_lock` for several locks (map:997-998, 1034-1036, 1687-1689). -/
def rehashLocks (cfg : Cfg K) (lazy : Bool) : List Nat → Table K V → Outcome (Table K V)
  | [], t => .ok t
  | l :: rest, t => (rehashLock cfg lazy t l).bind (rehashLocks cfg lazy rest)

/-- Taking locks for these buckets at hash power `hp`: `none` if the hash power
changed (map:911-917, 965-1042), otherwise the stripes are migrated. The order of
the locks does not matter for the tables. -/
def section_ (cfg : Cfg K) (hp : Nat) (buckets : List Nat) (t : Table K V) : Outcome (Option (Table K V)) :=
  if t.hp ≠ hp then .ok none
  else (rehashLocks cfg true (buckets.map (lockInd cfg)) t).bind fun t => .ok (some t)

/-! ## Size -/

/-- `size()` (map:350-360): the sum of the counters. -/
def Table.size (cfg : Cfg K) (t : Table K V) : Int := ((List.range (numLocks cfg)).map t.counter).sum

/-- `++elem_counter()` (map:1281), `--elem_counter()` (map:1964). -/
def Table.count (cfg : Cfg K) (t : Table K V) (bucket : Nat) (d : Int) : Table K V :=
  { t with counter := fun l => if l = lockInd cfg bucket then t.counter l + d else t.counter l }

/-- `add_to_bucket` (map:1277-1282). -/
def addToBucket (cfg : Cfg K) (t : Table K V) (i s : Nat) (e : Entry K V) : Outcome (Table K V) :=
  (setKV t.cur i s e).bind fun cur => .ok ({ t with cur := cur }.count cfg i 1)

/-- `del_from_bucket` (map:1962-1965). -/
def delFromBucket (cfg : Cfg K) (t : Table K V) (i s : Nat) : Outcome (Table K V) :=
  (eraseKV t.cur i s).bind fun cur => .ok ({ t with cur := cur }.count cfg i (-1))

/-- The assignment of `insert_or_assign` (map:643-645) to a live pair. -/
def assignAt (t : Table K V) (i s : Nat) (v : V) : Outcome (Table K V) :=
  match t.cur i s with
  | some e => .ok { t with cur := t.cur.put i s (some { e with val := v }) }
  | none => .ub

/-- `load_factor() < minimum_load_factor()` (map:374-376, 1796): size / capacity
below 0.05. The capacity is a power of two, so the quotient is exact and never
lies between 1/20 and the double 0.05. -/
def loadTooLow (cfg : Cfg K) (t : Table K V) : Bool := decide (20 * t.size cfg < (hashsize t.hp * SLOTS : Nat))

/-! ## Calls -/

inductive Call (K V : Type)
  /-- `find(key)` (map:591-600) -/
  | find (k : K)
  /-- `insert_or_assign(key, val)` (map:643-646) by `uprase_fn` (map:543-557) -/
  | assign (k : K) (v : V)
  /-- `erase(key)` (map:652-654) by `erase_fn` (map:505-517) -/
  | erase (k : K)
  deriving DecidableEq

inductive Res (V : Type)
  /-- `find` returns the value, or throws `std::out_of_range` -/
  | value (v : Option V)
  /-- `insert_or_assign`: inserted; `erase`: found -/
  | bool (b : Bool)
  /-- `load_factor_too_low` -/
  | tooLow
  deriving DecidableEq

/-- `b_slot` (map:1534-1560). -/
structure BSlot where
  bucket : Nat
  pathcode : Nat
  depth : Nat
  deriving DecidableEq

/-- `CuckooRecord` (map:1315-1319); the partial key is a function of the hash. -/
structure Rec where
  bucket : Nat
  slot : Nat
  hash : BitVec 64
  deriving DecidableEq

/-- Where a thread is. -/
inductive Pc (K V : Type)
  | idle
  /-- `snapshot_and_lock_two` before it reads the hash power (map:1054) -/
  | snap (c : Call K V)
  /-- before it takes the two locks (map:1058) -/
  | lock (c : Call K V) (hp : Nat)
  /-- `slot_search` (map:1615-1651) for `insert_or_assign`, with the queue and the
  number of `b_slot`s that were put into it -/
  | search (k : K) (v : V) (hp : Nat) (q : List BSlot) (last : Nat)
  /-- `cuckoopath_search` (map:1415-1448): the records so far, the bucket to look at and
  the slots of the rest of the path -/
  | path (k : K) (v : V) (hp : Nat) (recs : List Rec) (bucket : Nat) (slots : List Nat)
  /-- `cuckoopath_move` (map:1460-1525) -/
  | move (k : K) (v : V) (hp : Nat) (recs : List Rec) (depth : Nat)
  /-- before `cuckoo_fast_double` (map:1186) -/
  | double (k : K) (v : V) (hp : Nat)
  /-- the locks are released, the call returns -/
  | done (c : Call K V) (r : Res V)

/-- The first entries of the queue (map:1617-1621). -/
def startSearch (k : K) (v : V) (hp : Nat) (hash : BitVec 64) : Pc K V :=
  .search k v hp [⟨first hp hash, 0, 0⟩, ⟨second hp hash, 1, 0⟩] 2

/-- What a look at one bucket gives (map:1628-1646). -/
inductive Scan
  | found (slot : Nat)
  | more (children : List BSlot)

/-- The loop over the slots (map:1628-1646). -/
def scanSlots (b : Nat → Option (Entry K V)) (hp : Nat) (x : BSlot) : List Nat → List BSlot → Scan
  | [], acc => .more acc
  | i :: rest, acc =>
    let slot := (x.pathcode % SLOTS + i) % SLOTS
    match b slot with
    | none => .found slot
    | some e =>
      if x.depth < MAX_BFS_PATH_LEN - 1 then
        scanSlots b hp x rest (acc ++ [⟨altIndex hp e.part x.bucket, x.pathcode * SLOTS + slot, x.depth + 1⟩])
      else scanSlots b hp x rest acc

/-- The slots of a path code (map:1406-1409): `n` slots, and what is left of the
code, which tells the bucket to start from (map:1416-1421). -/
def decode : Nat → Nat → Nat × List Nat
  | 0, code => (code, [])
  | n + 1, code =>
    let r := decode n (code / SLOTS)
    (r.1, r.2 ++ [code % SLOTS])

/-- The end of an insertion whose slot is free and whose two buckets are locked
(map:1259-1264, 548-556): look again, then assign or add. -/
def finish (cfg : Cfg K) (t : Table K V) (k : K) (v : V) (i s : Nat) : Outcome (Table K V × Pc K V) :=
  let hash := cfg.hash k
  match cuckooFind cfg t.cur k (partialKey hash) (first t.hp hash) (second t.hp hash) with
  | some (j, r) => (assignAt t j r v).bind fun t => .ok (t, .done (.assign k v) (.bool false))
  | none => (addToBucket cfg t i s ⟨k, partialKey hash, v⟩).bind fun t => .ok (t, .done (.assign k v) (.bool true))

/-- One step of a thread. `dbl` is the expansion of the table (`cuckoo_fast_double`
for a failed search at this hash power). -/
def step (cfg : Cfg K) (dbl : Table K V → Nat → Outcome (Table K V)) (t : Table K V) :
    Pc K V → Outcome (Table K V × Pc K V)
  | .idle => .ok (t, .idle)
  | .done c r => .ok (t, .done c r)
  | .snap c => .ok (t, .lock c t.hp)
  | .lock (.find k) hp =>
    let hash := cfg.hash k
    (section_ cfg hp [first hp hash, second hp hash] t).bind fun
    | none => .ok (t, .snap (.find k))
    | some t =>
      match cuckooFind cfg t.cur k (partialKey hash) (first hp hash) (second hp hash) with
      | none => .ok (t, .done (.find k) (.value none))
      | some (i, s) =>
        match t.cur i s with
        | none => .ub
        | some e => .ok (t, .done (.find k) (.value (some e.val)))
  | .lock (.erase k) hp =>
    let hash := cfg.hash k
    (section_ cfg hp [first hp hash, second hp hash] t).bind fun
    | none => .ok (t, .snap (.erase k))
    | some t =>
      match cuckooFind cfg t.cur k (partialKey hash) (first hp hash) (second hp hash) with
      | none => .ok (t, .done (.erase k) (.bool false))
      | some (i, s) => (delFromBucket cfg t i s).bind fun t => .ok (t, .done (.erase k) (.bool true))
  | .lock (.assign k v) hp =>
    -- cuckoo_insert (map:1219-1241)
    let hash := cfg.hash k
    let i1 := first hp hash
    let i2 := second hp hash
    (section_ cfg hp [i1, i2] t).bind fun
    | none => .ok (t, .snap (.assign k v))
    | some t =>
      match tryFindInsert cfg (t.cur i1) (partialKey hash) k with
      | .duplicate s => (assignAt t i1 s v).bind fun t => .ok (t, .done (.assign k v) (.bool false))
      | .free r1 =>
        match tryFindInsert cfg (t.cur i2) (partialKey hash) k with
        | .duplicate s => (assignAt t i2 s v).bind fun t => .ok (t, .done (.assign k v) (.bool false))
        | .free r2 =>
          match r1, r2 with
          | some s, _ => (addToBucket cfg t i1 s ⟨k, partialKey hash, v⟩).bind fun t => .ok (t, .done (.assign k v) (.bool true))
          | none, some s => (addToBucket cfg t i2 s ⟨k, partialKey hash, v⟩).bind fun t => .ok (t, .done (.assign k v) (.bool true))
          | none, none => .ok (t, startSearch k v hp hash)
  | .search k v hp [] _ => .ok (t, .double k v hp)
  | .search k v hp (x :: q) last =>
    (section_ cfg hp [x.bucket] t).bind fun
    | none => .ok (t, .snap (.assign k v))
    | some t =>
      match scanSlots (t.cur x.bucket) hp x (List.range SLOTS) [] with
      | .found slot =>
        let d := decode (x.depth + 1) (x.pathcode * SLOTS + slot)
        let hash := cfg.hash k
        .ok (t, .path k v hp [] (if d.1 = 0 then first hp hash else second hp hash) d.2)
      | .more children =>
        if last + children.length > MAX_CUCKOO_COUNT then .ub
        else .ok (t, .search k v hp (q ++ children) (last + children.length))
  | .path _ _ _ _ _ [] => .ub
  | .path k v hp recs bucket (s :: rest) =>
    (section_ cfg hp [bucket] t).bind fun
    | none => .ok (t, .snap (.assign k v))
    | some t =>
      match t.cur bucket s with
      | none => .ok (t, .move k v hp (recs ++ [⟨bucket, s, 0#64⟩]) recs.length)
      | some e =>
        let hash := cfg.hash e.key
        let recs' := recs ++ [⟨bucket, s, hash⟩]
        if rest = [] then .ok (t, .move k v hp recs' recs.length)
        else .ok (t, .path k v hp recs' (altIndex hp (partialKey hash) bucket) rest)
  | .move k v hp recs 0 =>
    let hash := cfg.hash k
    (section_ cfg hp [first hp hash, second hp hash] t).bind fun
    | none => .ok (t, .snap (.assign k v))
    | some t =>
      match recs[0]? with
      | none => .ub
      | some r =>
        match t.cur r.bucket r.slot with
        | some _ => .ok (t, startSearch k v hp hash)
        | none => finish cfg t k v r.bucket r.slot
  | .move k v hp recs (d + 1) =>
    let hash := cfg.hash k
    match recs[d]?, recs[d + 1]? with
    | some from_, some to =>
      let locks := if d = 0 then [first hp hash, second hp hash, to.bucket] else [from_.bucket, to.bucket]
      (section_ cfg hp locks t).bind fun
      | none => .ok (t, .snap (.assign k v))
      | some t =>
        match t.cur to.bucket to.slot, t.cur from_.bucket from_.slot with
        | none, some e =>
          if cfg.hash e.key ≠ from_.hash then .ok (t, startSearch k v hp hash)
          else
            (setKV t.cur to.bucket to.slot e).bind fun cur =>
            (eraseKV cur from_.bucket from_.slot).bind fun cur =>
              let t := { t with cur := cur }
              if d = 0 then
                match recs[0]? with
                | some r => finish cfg t k v r.bucket r.slot
                | none => .ub
              else .ok (t, .move k v hp recs d)
        | _, _ => .ok (t, startSearch k v hp hash)
    | _, _ => .ub
  | .double k v hp =>
    match dbl t hp with
    | .ok t => .ok (t, .snap (.assign k v))
    | .throw _ => .ok (t, .done (.assign k v) .tooLow)
    | .ub => .ub
    | .diverge => .diverge

/-! ## Expansion -/

/-- The exception `load_factor_too_low` (cuckoohash_util.hh:75-102), a `std::exception`. -/
abbrev lowLoad : Exc := .exception

/-- `cuckoo_fast_double` for pairs that move without exceptions (map:1658-1736), with
`check_resize_validity` (map:1790-1806), at hash power `hp`. -/
def fastDouble (cfg : Cfg K) (t : Table K V) (hp : Nat) : Outcome (Table K V) :=
  if loadTooLow cfg t then .throw lowLoad
  else if t.hp ≠ hp then .ok t
  else (rehashLocks cfg false (List.range (numLocks cfg)) t).bind fun t =>
    let t := { t with remaining := 0 }.drop
    .ok { t with
      hp := hp + 1, cur := Buckets.empty, oldHp := t.hp, old := t.cur, oldMem := true,
      migrated := fun _ => false, remaining := numLocks cfg }

/-- A new table (map:102-117, 2003-2010, bc:112-125); for `ConcurrentHashMap` the
hash power is 16. -/
def Table.new (hp : Nat) : Table K V :=
  { hp := hp, cur := Buckets.empty, oldHp := 0, old := Buckets.empty, oldMem := true,
    migrated := fun _ => true, counter := fun _ => 0, remaining := 0 }

/-- A call run to its end by one thread on a table nobody else uses. -/
def runAlone (cfg : Cfg K) (dbl : Table K V → Nat → Outcome (Table K V)) : Nat → Table K V → Pc K V → Outcome (Table K V × Pc K V)
  | 0, _, _ => .diverge
  | n + 1, t, pc =>
    match pc with
    | .done c r => .ok (t, .done c r)
    | pc => (step cfg dbl t pc).bind fun r => runAlone cfg dbl n r.1 r.2

/-- The pairs of the buckets in the order of map:1866-1873. -/
def entries (hp : Nat) (b : Buckets K V) : List (Entry K V) :=
  (List.range (hashsize hp)).flatMap fun i => (List.range SLOTS).filterMap fun s => b i s

/-- `new_map.insert` for each pair (map:1866-1873). An exception of the new map goes
on to the caller (map:1876, 1940). -/
def insertAll (insert : Table K V → K → V → Outcome (Table K V)) : List (Entry K V) → Table K V → Outcome (Table K V)
  | [], t => .ok t
  | e :: rest, t => (insert t e.key e.val).bind (insertAll insert rest)

/-- `insert` (map:631-634) on the new map: a found key is left alone. -/
def insertAlone (cfg : Cfg K) (dbl : Table K V → Nat → Outcome (Table K V)) (n : Nat) (t : Table K V) (k : K) (v : V) :
    Outcome (Table K V) :=
  (runAlone cfg dbl n t (.snap (.assign k v))).bind fun r =>
    match r.2 with
    | .done _ .tooLow => .throw lowLoad
    | _ => .ok r.1

/-- `cuckoo_expand_simple` (map:1843-1890) by `cuckoo_fast_double` (map:1659-1663) for
pairs whose move may throw: a new table is filled and its buckets taken over. The
first argument bounds the steps (`diverge` when they do not suffice). The new map's
keys are distinct, so that its `insert` assigns nothing. -/
def expandSimple (cfg : Cfg K) : Nat → Table K V → Nat → Outcome (Table K V)
  | 0, _, _ => .diverge
  | n + 1, t, hp =>
    if loadTooLow cfg t then .throw lowLoad
    else (rehashLocks cfg false (List.range (numLocks cfg)) t).bind fun t =>
      let t := { t with remaining := 0 }.drop
      (insertAll (insertAlone cfg (expandSimple cfg n) n) (entries t.hp t.cur) (Table.new (hp + 1))).bind fun new =>
      (rehashLocks cfg false (List.range (numLocks cfg)) new).bind fun new =>
        .ok { t with hp := new.hp, cur := new.cur }

/-! ## All locks -/

/-- The constructor of `locked_table` (map:2668-2672): all locks and `rehash_with_workers`
(map:1946-1956). -/
def lockTable (cfg : Cfg K) (t : Table K V) : Outcome (Table K V) :=
  (rehashLocks cfg false (List.range (numLocks cfg)) t).bind fun t => .ok ({ t with remaining := 0 }.drop)

/-! ## Threads -/

/-- The table and its threads. -/
structure Sys (K V : Type) where
  table : Table K V
  pc : Nat → Pc K V

/-- Thread `i` goes to `p`. -/
def goto (f : Nat → Pc K V) (i : Nat) (p : Pc K V) : Nat → Pc K V := fun j => if j = i then p else f j

/-- What can be seen of a thread: it calls, works, returns. -/
inductive Ev (K V : Type)
  | call (i : Nat) (c : Call K V)
  | tau (i : Nat)
  | ret (i : Nat) (c : Call K V) (r : Res V)

/-- One step of the system. -/
inductive Step (cfg : Cfg K) (dbl : Table K V → Nat → Outcome (Table K V)) : Sys K V → Ev K V → Sys K V → Prop
  | call (s : Sys K V) (i : Nat) (c : Call K V) (h : s.pc i = .idle) :
    Step cfg dbl s (.call i c) ⟨s.table, goto s.pc i (.snap c)⟩
  | work (s : Sys K V) (i : Nat) (t : Table K V) (p : Pc K V) (h : step cfg dbl s.table (s.pc i) = .ok (t, p)) :
    Step cfg dbl s (.tau i) ⟨t, goto s.pc i p⟩
  | ret (s : Sys K V) (i : Nat) (c : Call K V) (r : Res V) (h : s.pc i = .done c r) :
    Step cfg dbl s (.ret i c r) ⟨s.table, goto s.pc i .idle⟩
  /-- a thread takes all the locks for `forEach`, `containsValue`, `begin` or `end`
  (ConcurrentHashMap.hpp:76-82, 274-318) and reads the table -/
  | whole (s : Sys K V) (i : Nat) (t : Table K V) (hi : s.pc i = .idle) (h : lockTable cfg s.table = .ok t) :
    Step cfg dbl s (.tau i) ⟨t, s.pc⟩

/-- An execution. -/
inductive Run (cfg : Cfg K) (dbl : Table K V → Nat → Outcome (Table K V)) : Sys K V → List (Ev K V) → Sys K V → Prop
  | nil (s : Sys K V) : Run cfg dbl s [] s
  | cons {s s' s'' : Sys K V} {e : Ev K V} {es : List (Ev K V)} (h : Step cfg dbl s e s') (hr : Run cfg dbl s' es s'') :
    Run cfg dbl s (e :: es) s''

/-- A new table with no thread in a call. -/
def Sys.new (hp : Nat) : Sys K V := ⟨Table.new hp, fun _ => .idle⟩

/-! ## The whole table -/

/-- The first part of `cuckoo_clear` (map:1970, bc:222-236): the current buckets. -/
def Table.clearBuckets (t : Table K V) : Table K V := { t with cur := Buckets.empty }

/-- The second part (map:1973): the old buckets. -/
def Table.clearOld (t : Table K V) : Table K V := { t with remaining := 0 }.drop

/-- The third part (map:1974-1977): the counters and flags of the locks. -/
def Table.clearLocks (t : Table K V) : Table K V := { t with counter := fun _ => 0, migrated := fun _ => true }

/-- `cuckoo_clear` (map:1969-1978). `clear` (map:680-683) takes all the locks and, since
the lock manager is a temporary, releases them again before it calls this; so other
threads can be between the parts. -/
def Table.clear (t : Table K V) : Table K V := t.clearBuckets.clearOld.clearLocks

/-- `operator=(const cuckoohash_map &)` (map:250), by which `ConcurrentHashMap` is copied
(ConcurrentHashMap.hpp:66-68): both bucket arrays are copied slot by slot (bc:150-158,
312-331); the old array has at least one bucket to read (bc:193), even if its memory is
gone. Locks, counters and flags are copied. -/
def copyTable (t : Table K V) : Outcome (Table K V) := if t.oldMem then .ok t else .ub

/-- The loops of the iterator's `operator++` (map:2180-2194), from a position on. -/
def seek (size : Nat) (b : Buckets K V) (i s : Nat) : Nat × Nat :=
  if i < size then
    if s < SLOTS then
      if (b i s).isSome then (i, s) else seek size b i (s + 1)
    else seek size b (i + 1) 0
  else (i, s)
termination_by (size - i, SLOTS - s)

/-- `begin()` (map:2436, 2261-2269). -/
def begin_ (size : Nat) (b : Buckets K V) : Nat × Nat :=
  if (b 0 0).isSome then (0, 0) else seek size b 0 1

/-- The loop of `forEach` (ConcurrentHashMap.hpp:312-317). The answer of the action may
depend on all the pairs it has seen, the last one first. -/
def forEachLoop (size : Nat) (b : Buckets K V) (action : List (K × V) → Bool) : Nat → Nat × Nat → List (K × V) → Outcome (List (K × V))
  | 0, _, seen => .ok seen
  | n + 1, p, seen =>
    if p.1 < size then
      match b p.1 p.2 with
      | none => .ub
      | some e =>
        let seen := (e.key, e.val) :: seen
        if action seen then forEachLoop size b action n (seek size b p.1 (p.2 + 1)) seen else .ok seen
    else .ub

/-- `forEach` (ConcurrentHashMap.hpp:308-318): the pairs the action has seen, the last one
first, and the table. The action does not call the map. -/
def forEach (cfg : Cfg K) (t : Table K V) (action : List (K × V) → Bool) : Outcome (Table K V × List (K × V)) :=
  (lockTable cfg t).bind fun t =>
    (forEachLoop (hashsize t.hp) t.cur action (t.size cfg).toNat (begin_ (hashsize t.hp) t.cur) []).bind fun seen => .ok (t, seen)

/-- The action of `containsValue` (ConcurrentHashMap.hpp:276-282): go on unless this is the value. -/
def untilValue [DecidableEq V] (v : V) : List (K × V) → Bool
  | [] => true
  | p :: _ => decide (¬ v = p.2)

/-- `containsValue` (ConcurrentHashMap.hpp:274-284): stop at the value. -/
def containsValue [DecidableEq V] (cfg : Cfg K) (t : Table K V) (v : V) : Outcome (Table K V × Bool) :=
  (forEach cfg t (untilValue v)).bind fun r =>
    .ok (r.1, r.2.any fun p => decide (v = p.2))

end Verif.Cuckoo
