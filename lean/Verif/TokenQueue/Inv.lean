import Verif.TokenQueue.Ring
import Verif.TokenQueue.Spec
/-!
# The invariants
-/
namespace Verif.TokenQueue

variable {E : Type}

/-- The shared memory without the counts of the claims. -/
structure Core (E : Type) where
  tail : Nat
  head : Nat
  blk : Nat → Blk E
  next : Nat → Nat
  made : Nat
  hdr : Nat → Hdr
  hdrs : Nat
  cur : Option Nat
  tb : Option Nat
  slots : Nat
  size : Nat
  front : Nat
  moved : Nat → Bool
  done : Nat → Bool

def Sys.core (s : Sys E) : Core E :=
  ⟨s.tail, s.head, s.blk, s.next, s.made, s.hdr, s.hdrs, s.cur, s.tb, s.slots, s.size, s.front, s.moved, s.done⟩

/-- Blocks have numbers in the order of the elements. The blocks of the numbers from `lo` to below `mid` are
in use, those from `mid` to below `hi` are about to be; `spares` are in the circle without a number.
`off`, `top` and `nf` belong to a block index: where it has which number, up to which number it is right and
up to which number it is published. -/
structure G (E : Type) where
  lo : Nat
  mid : Nat
  hi : Nat
  bk : Nat → Nat
  spares : List Nat
  off : Nat → Nat
  top : Nat → Nat
  nf : Nat → Nat
  vals : List E

def G.ring (g : G E) : List Nat := g.spares ++ (span g.lo g.hi).map g.bk

structure Mem (c : Cfg) (g : G E) (s : Core E) : Prop where
  lm : g.lo ≤ g.mid
  mh : g.mid ≤ g.hi
  ring : Ring s.next g.ring
  nodup : g.ring.Nodup
  made : ∀ b ∈ g.ring, b < s.made
  tb : s.tb = g.ring.getLast?
  slots : s.slots = g.ring.length
  size : s.slots ≤ s.size
  pos : 0 < s.size
  zero : g.hi = 0 ↔ g.ring = []
  fresh : ∀ b, s.made ≤ b → ∀ j, (s.blk b).slots j = none
  spare : ∀ b ∈ g.spares, ∀ j, j < c.B → (s.blk b).slots j = none ∧ (s.blk b).gone j = true
  data : ∀ n, g.lo ≤ n → n < g.hi → ∀ j, j < c.B →
    (s.blk (g.bk n)).slots j = if s.moved (n * c.B + j) then none else g.vals[n * c.B + j]?
  flag : ∀ n, g.lo ≤ n → n < g.mid → ∀ j, j < c.B → (s.blk (g.bk n)).gone j = s.done (n * c.B + j)
  flagP : ∀ n, g.mid ≤ n → n < g.hi → ∀ j, j < c.B → (s.blk (g.bk n)).gone j = true
  old : ∀ i, i < g.lo * c.B → s.done i = true
  doneMoved : ∀ i, s.done i = true → s.moved i = true
  movedHead : ∀ i, s.moved i = true → i < s.head
  le : s.head ≤ s.tail
  valsLe : g.vals.length ≤ g.mid * c.B
  tailLe : s.tail ≤ g.vals.length
  none : s.cur = none → g.hi = 0
  cur : ∀ h, s.cur = some h → h < s.hdrs ∧ (s.hdr h).size = s.size ∧ s.front = posOf (g.off h) s.size g.hi ∧
    g.top h = g.hi ∧ s.tail ≤ g.nf h * c.B
  hsize : ∀ h, h < s.hdrs → 0 < (s.hdr h).size
  entry : ∀ h, h < s.hdrs → ∀ n, g.lo ≤ n → n < g.top h →
    (s.hdr h).entry (posOf (g.off h) (s.hdr h).size n) = some (n * c.B, g.bk n)
  nfTop : ∀ h, h < s.hdrs → g.nf h ≤ g.top h
  topHi : ∀ h, h < s.hdrs → g.top h ≤ g.hi
  front : ∀ h, h < s.hdrs →
    (s.hdr h).front = if g.nf h = 0 then .none else some (posOf (g.off h) (s.hdr h).size (g.nf h - 1))

/-! Numbers. -/

def ceil (B x : Nat) : Nat := (x + B - 1) / B

theorem ceil_le {B x n : Nat} (h : 0 < B) : ceil B x ≤ n ↔ x ≤ n * B := by
  unfold ceil
  constructor
  · intro h1
    have h2 := Nat.lt_mul_of_div_lt (Nat.lt_succ_of_le h1) h
    rw [Nat.succ_mul] at h2
    omega
  · intro h1
    refine Nat.le_of_lt_succ (Nat.div_lt_of_lt_mul ?_)
    rw [Nat.mul_succ, Nat.mul_comm]
    omega

theorem le_ceil {B x : Nat} (h : 0 < B) : x ≤ ceil B x * B := (ceil_le h).1 (Nat.le_refl _)

theorem ceil_mono {B x y : Nat} (h : 0 < B) (hx : x ≤ y) : ceil B x ≤ ceil B y :=
  (ceil_le h).2 (Nat.le_trans hx (le_ceil h))

theorem ceil_div {B x : Nat} (h : 0 < B) (hx : x % B = 0) : ceil B x = x / B := by
  apply Nat.le_antisymm
  · rw [ceil_le h]
    have := Nat.div_add_mod x B
    rw [hx, Nat.mul_comm] at this; omega
  · have := le_ceil (x := x) h
    exact (Nat.div_le_of_le_mul (by rw [Nat.mul_comm]; exact this))

theorem lt_div_iff {B x n : Nat} (h : 0 < B) : n ≤ x / B ↔ n * B ≤ x := Nat.le_div_iff_mul_le h

theorem div_lt_iff {B x n : Nat} (h : 0 < B) : x / B < n ↔ x < n * B := Nat.div_lt_iff_lt_mul h

theorem ceil_succ {B x : Nat} (h : 0 < B) : ceil B (x + 1) = x / B + 1 := by
  apply Nat.le_antisymm
  · rw [ceil_le h]
    have := (div_lt_iff (x := x) (n := x / B + 1) h).1 (by omega)
    omega
  · apply Nat.lt_of_not_le
    rw [ceil_le h]
    have := (lt_div_iff (x := x) (n := x / B) h).1 (Nat.le_refl _)
    omega

theorem ceil_pos {B x : Nat} (h : 0 < B) (hx : 0 < x) : 0 < ceil B x := by
  obtain ⟨y, rfl⟩ : ∃ y, x = y + 1 := ⟨x - 1, by omega⟩
  rw [ceil_succ h]; exact Nat.succ_pos _

theorem ceil_nondiv {B x : Nat} (h : 0 < B) (hx : x % B ≠ 0) : ceil B x = x / B + 1 := by
  obtain ⟨y, rfl⟩ : ∃ y, x = y + 1 := ⟨x - 1, by cases x with | zero => simp at hx | succ n => omega⟩
  rw [ceil_succ h, Nat.succ_div_of_not_dvd (fun hd => hx (Nat.mod_eq_zero_of_dvd hd))]

/-! What follows from the invariant of the memory. -/

namespace Mem
variable {c : Cfg} {g : G E} {s : Core E}

theorem inj (h : Mem c g s) {m n : Nat} (hm : g.lo ≤ m) (hmn : m < n) (hn : n < g.hi) : g.bk m ≠ g.bk n := by
  have h1 := (List.nodup_append.1 h.nodup).2.1
  rw [span_append (b := n) (by omega) (by omega), List.map_append] at h1
  have h2 := (List.nodup_append.1 h1).2.2
  exact h2 _ (List.mem_map.2 ⟨m, mem_span.2 ⟨hm, hmn⟩, rfl⟩) _
    (List.mem_map.2 ⟨n, mem_span.2 ⟨Nat.le_refl _, hn⟩, rfl⟩)

theorem inj' (h : Mem c g s) {m n : Nat} (hm : g.lo ≤ m) (hm2 : m < g.hi) (hn : g.lo ≤ n) (hn2 : n < g.hi)
    (he : g.bk m = g.bk n) : m = n := by
  rcases Nat.lt_trichotomy m n with h1 | h1 | h1
  · exact absurd he (h.inj hm h1 hn2)
  · exact h1
  · exact absurd he.symm (h.inj hn h1 hm2)

theorem mem_ring (_ : Mem c g s) {n : Nat} (hn : g.lo ≤ n) (hn2 : n < g.hi) : g.bk n ∈ g.ring :=
  List.mem_append_right _ (List.mem_map.2 ⟨n, mem_span.2 ⟨hn, hn2⟩, rfl⟩)

theorem not_spare (h : Mem c g s) {n : Nat} (hn : g.lo ≤ n) (hn2 : n < g.hi) : g.bk n ∉ g.spares := by
  intro hm
  exact (List.nodup_append.1 h.nodup).2.2 _ hm _ (List.mem_map.2 ⟨n, mem_span.2 ⟨hn, hn2⟩, rfl⟩) rfl

/-- The block of an element that is not done is in use. -/
theorem lo_le (h : Mem c g s) {i : Nat} (hd : s.done i = false) : g.lo ≤ i / c.B := by
  rw [lt_div_iff c.posB]
  apply Nat.le_of_not_lt
  intro hl
  rw [h.old i hl] at hd; cases hd

theorem not_done (h : Mem c g s) {i : Nat} (hi : s.head ≤ i) : s.done i = false := by
  cases hd : s.done i with
  | false => rfl
  | true => have := h.movedHead i (h.doneMoved i hd); omega

theorem not_moved (h : Mem c g s) {i : Nat} (hi : s.head ≤ i) : s.moved i = false := by
  cases hd : s.moved i with
  | false => rfl
  | true => have := h.movedHead i hd; omega

theorem lo_tail (h : Mem c g s) : g.lo * c.B ≤ s.tail := by
  apply Nat.le_of_not_lt
  intro hl
  have := h.old _ hl
  rw [h.not_done h.le] at this; cases this

theorem last (h : Mem c g s) (hl : g.lo < g.hi) : s.tb = some (g.bk (g.hi - 1)) := by
  rw [h.tb]
  unfold G.ring
  have : span g.lo g.hi = span g.lo (g.hi - 1) ++ [g.hi - 1] := by
    rw [← span_snoc (by omega), show g.hi - 1 + 1 = g.hi by omega]
  rw [this, List.map_append, ← List.append_assoc, List.map_cons, List.map_nil, List.getLast?_concat]

theorem hi_lo (h : Mem c g s) : g.hi ≤ g.lo + s.size := by
  have h1 := h.size
  rw [h.slots] at h1
  unfold G.ring at h1
  rw [List.length_append, List.length_map, length_span] at h1
  omega

theorem vals_none (h : Mem c g s) {n j : Nat} (hn : g.mid ≤ n) : g.vals[n * c.B + j]? = .none := by
  rw [List.getElem?_eq_none_iff]
  have h1 := h.valsLe
  have h2 : g.mid * c.B ≤ n * c.B := Nat.mul_le_mul_right _ hn
  omega

end Mem

theorem empty_iff {c : Cfg} {b : Blk E} : b.empty c = true ↔ ∀ j, j < c.B → b.gone j = true := by
  unfold Blk.empty
  rw [List.all_eq_true]
  exact ⟨fun h j hj => h j (List.mem_range.2 hj), fun h j hj => h j (List.mem_range.1 hj)⟩

/-! The parts of the invariant that belong to the producer. -/

/-- What only the producer changes, apart from blocks and headers. -/
structure PC where
  tail : Nat
  cur : Option Nat
  tb : Option Nat
  slots : Nat
  size : Nat
  hdrs : Nat

def Sys.pc (s : Sys E) : PC := ⟨s.tail, s.cur, s.tb, s.slots, s.size, s.hdrs⟩

/-- Between calls. -/
structure Rest (c : Cfg) (g : G E) (s : PC) (snt : List E) : Prop where
  mid : g.mid = g.hi
  hi : g.hi = ceil c.B s.tail
  vals : g.vals = snt

/-- While one element is enqueued and its block is there. -/
structure One (c : Cfg) (g : G E) (s : PC) (vals : List E) : Prop where
  mid : g.mid = g.hi
  hi : g.hi = s.tail / c.B + 1
  vals : g.vals = vals

/-- The block index is published far enough for the element `i`. -/
def Pub (c : Cfg) (g : G E) (s : PC) (i : Nat) : Prop := ∃ h, s.cur = some h ∧ i < g.nf h * c.B

/-- While `enqueue_bulk` finds its blocks. -/
structure Bk (c : Cfg) (g : G E) (s : PC) (snt : List E) (k : Bulk E) : Prop where
  vals : g.vals = snt
  mid : g.mid = ceil c.B s.tail
  base : k.base = g.hi * c.B
  need : g.hi + k.need = ceil c.B (s.tail + k.items.length)
  first : k.first = if g.mid < g.hi then some (g.bk g.mid) else none
  os1 : k.origSlots ≤ s.slots
  os2 : s.slots ≤ k.origSlots + (g.hi - g.mid)
  os0 : k.origSlots = 0 ↔ g.mid = 0
  sb : s.tail % c.B ≠ 0 → k.startBlock = some (g.bk (s.tail / c.B))
  cold1 : k.hot = false → s.slots = k.origSlots
  cold2 : k.hot = false → ∀ h, s.cur = some h → k.origFront = posOf (g.off h) s.size g.mid
  cold3 : k.hot = false → ∀ h, h < s.hdrs → g.nf h ≤ g.mid ∧ (s.cur ≠ some h → g.top h ≤ g.mid)
  cold4 : k.hot = false → k.startBlock =
    ((span g.mid g.hi).map g.bk ++ (g.spares ++ (span g.lo g.mid).map g.bk)).getLast?

def PInv (c : Cfg) (g : G E) (s : PC) (snt : List E) : PPos E → Prop
  | .idle => Rest c g s snt
  | .chk _ _ => Rest c g s snt ∧ s.tail % c.B = 0
  | .grow _ _ => Rest c g s snt ∧ s.tail % c.B = 0
  | .take _ _ => Rest c g s snt ∧ s.tail % c.B = 0 ∧ s.slots < s.size ∧ ∃ h, s.cur = some h
  | .fr f _ => One c g s snt ∧ ∃ h, s.cur = some h ∧ f = posOf (g.off h) s.size (g.hi - 1)
  | .put _ => One c g s snt ∧ Pub c g s s.tail
  | .pub x => One c g s (snt ++ [x]) ∧ Pub c g s s.tail
  | .reuse k => Bk c g s snt k ∧ 0 < k.items.length ∧ (k.need = 0 → g.mid < g.hi)
  | .more k => Bk c g s snt k ∧ 0 < k.items.length ∧ (k.need = 0 → g.mid < g.hi)
  | .draw k => Bk c g s snt k ∧ 0 < k.items.length ∧ 0 < k.need ∧ s.slots < s.size ∧ ∃ h, s.cur = some h
  | .opn k => Bk c g s snt k ∧ 0 < k.items.length ∧ k.need = 0 ∧ g.mid < g.hi
  | .fill k eb b i rest => g.mid = g.hi ∧ g.hi = ceil c.B (s.tail + k.items.length) ∧ eb = s.tb ∧
      (∃ ext, k.items = ext ++ rest ∧ g.vals = snt ++ ext ∧ i = s.tail + ext.length) ∧
      (rest = [] → b = eb) ∧ (rest ≠ [] → b = some (g.bk (i / c.B))) ∧
      (0 < k.items.length → Pub c g s (s.tail + k.items.length - 1))

/-! The parts that belong to the consumers. -/

/-- Who has the element of an index below the head: a thread, or a call that has ended. -/
inductive Own
  | run (t : Nat)
  | call (r : Nat)

/-- A thread has claimed the elements from `f` to below `e`, has moved out those below `i` and has set the
flags of those below `i0`. -/
structure Cl (g : G E) (s : Core E) (own : Nat → Own) (log : List (Rec E)) (t : Nat) (k : Call)
    (f i0 i e : Nat) (acc : List E) : Prop where
  fi : f ≤ i0
  ii : i0 ≤ i
  ie : i ≤ e
  fe : f < e
  eh : e ≤ s.head
  max : e - f ≤ k.max
  own : ∀ j, j < s.head → (own j = .run t ↔ f ≤ j ∧ j < e)
  undone : ∀ j, i0 ≤ j → j < e → s.done j = false
  unmoved : ∀ j, i ≤ j → j < e → s.moved j = false
  isMoved : ∀ j, i0 ≤ j → j < i → s.moved j = true
  acc : acc = (g.vals.drop f).take (i - f)
  before : ∀ r, r < k.bf → ∀ k' f' l', log[r]? = some (.deq k' f' l') → f' + l'.length ≤ f
  bf : k.bf ≤ log.length

/-- A thread has claimed nothing. -/
def Free (s : Core E) (own : Nat → Own) (t : Nat) : Prop := ∀ j, j < s.head → own j ≠ .run t

def CInv (c : Cfg) (g : G E) (s : Core E) (own : Nat → Own) (log : List (Rec E)) (t : Nat) : DPos E → Prop
  | .idle => Free s own t
  | .tl k => Free s own t ∧ k.bf ≤ log.length
  | .ov k _ => Free s own t ∧ k.bf ≤ log.length
  | .op k _ _ => Free s own t ∧ k.bf ≤ log.length
  | .inc k d _ => Free s own t ∧ k.bf ≤ log.length ∧ d ≤ k.max
  | .again k _ d _ => Free s own t ∧ k.bf ≤ log.length ∧ d ≤ k.max
  | .short k a _ => Free s own t ∧ k.bf ≤ log.length ∧ a ≤ k.max
  | .miss k _ => Free s own t ∧ k.bf ≤ log.length
  | .head k a => Free s own t ∧ k.bf ≤ log.length ∧ a ≤ k.max
  | .idx k f a => Cl g s own log t k f f f (f + a) []
  | .frt k f a h => Cl g s own log t k f f f (f + a) [] ∧ h < s.hdrs ∧ f + a ≤ g.nf h * c.B
  | .bas k f a h p => Cl g s own log t k f f f (f + a) [] ∧ h < s.hdrs ∧ f + a ≤ g.nf h * c.B ∧
      ∃ n, f / c.B ≤ n ∧ n < g.nf h ∧ p = posOf (g.off h) (s.hdr h).size n
  | .blk k f e h p i acc => Cl g s own log t k f i i e acc ∧ i < e ∧ h < s.hdrs ∧ e ≤ g.nf h * c.B ∧
      p = posOf (g.off h) (s.hdr h).size (i / c.B)
  | .mv k f e h p b i0 i acc => Cl g s own log t k f i0 i e acc ∧ i < stop c i0 e ∧ h < s.hdrs ∧
      e ≤ g.nf h * c.B ∧ p = posOf (g.off h) (s.hdr h).size (i0 / c.B) ∧ b = g.bk (i0 / c.B)
  | .mark k f e h p b i0 i acc => Cl g s own log t k f i0 i e acc ∧ i0 < i ∧ i = stop c i0 e ∧ h < s.hdrs ∧
      e ≤ g.nf h * c.B ∧ p = posOf (g.off h) (s.hdr h).size (i0 / c.B) ∧ b = g.bk (i0 / c.B)

structure LInv (g : G E) (s : Core E) (own : Nat → Own) (log : List (Rec E)) : Prop where
  tail : s.tail = (sent log).length
  vals : ∃ ext, g.vals = sent log ++ ext
  recs : ∀ r k f l, log[r]? = some (.deq k f l) → f + l.length ≤ s.head ∧ l.length ≤ k.max ∧
    l = (g.vals.drop f).take l.length ∧
    (∀ j, j < s.head → (own j = .call r ↔ f ≤ j ∧ j < f + l.length)) ∧ k.bf ≤ r ∧
    ∀ r', r' < k.bf → ∀ k' f' l', log[r']? = some (.deq k' f' l') → f' + l'.length ≤ f
  owned : ∀ j, j < s.head → ∀ r, own j = .call r → ∃ k f l, log[r]? = some (.deq k f l)
  since : ∀ r k f l, log[r]? = some (.deq k f l) → f + l.length ≤ (sent (log.take r)).length

structure Inv (c : Cfg) (g : G E) (own : Nat → Own) (fate : Nat → Fate) (s : Sys E) : Prop where
  mem : Mem c g s.core
  prod : PInv c g s.pc (sent s.log) s.pp
  tk : Tk s.tail s.head s.opt s.over s.pos fate
  cons : ∀ t, CInv c g s.core own s.log t (s.pos t)
  log : LInv g s.core own s.log
  bad : s.bad = false

end Verif.TokenQueue
