import Verif.LinkedQueue.Own
/-!
# What holds of blocks and their index

A ghost account of each producer: which blocks it has, in which entry each is found, and
what has become of each index.
-/
namespace Verif.LinkedQueue

variable {E : Type}

/-- What has become of an index. -/
inductive St (E : Type) where
  | raw
  | full (e : E)
  | taken (e : E)
  | done (e : E)

def St.isDone : St E → Bool
  | .done _ => true
  | _ => false

/-- What the slot of an index in this state holds. -/
def St.held : St E → Option E
  | .full e => some e
  | _ => none

/-- The account of one producer. -/
structure G (E : Type) where
  /-- blocks whose key is in the index -/
  N : Nat
  /-- blocks that are in the index -/
  M : Nat
  /-- by header: where block 0 would be -/
  off : Nat → Nat
  /-- by header: the blocks up to its tail -/
  cnt : Nat → Nat
  /-- the memory of a block, from its entry into the index until it is cleared -/
  blk : Nat → Option Nat
  st : Nat → St E
  /-- the element at the tail is constructed but not published -/
  con : Bool

/-- The place of block `b` in the ring of header `h`. -/
def ring (x : Prod) (g : G E) (h b : Nat) : Nat := (b + g.off h) % (x.hdrs h).cap

/-- The entry of block `b`. -/
def ent (x : Prod) (g : G E) (b : Nat) : Nat := (x.hdrs x.cur).index (ring x g x.cur b)

/-- The index. -/
structure HInv (x : Prod) (g : G E) : Prop where
  capPos : ∀ h, h ≤ x.cur → 0 < (x.hdrs h).cap
  next : x.nextCap = (x.hdrs x.cur).cap * 2
  tailOf : ∀ h, h ≤ x.cur →
    (x.hdrs h).tail = (g.cnt h + g.off h + (x.hdrs h).cap - 1) % (x.hdrs h).cap
  cntLe : ∀ h, h ≤ x.cur → g.cnt h ≤ g.N
  cntOld : ∀ h, h < x.cur → g.cnt h ≤ g.M
  cntNow : g.M ≤ g.cnt x.cur
  inj : ∀ q q', q < (x.hdrs x.cur).cap → q' < (x.hdrs x.cur).cap →
    (x.hdrs x.cur).index q = (x.hdrs x.cur).index q' → q = q'
  bound : ∀ q, q < (x.hdrs x.cur).cap → (x.hdrs x.cur).index q < x.entCount
  unused : ∀ en, x.entCount ≤ en → x.ents en = newEnt
  rings : ∀ h b0 b, h ≤ x.cur → g.blk b0 ≠ none → b0 ≤ b → b < g.cnt h →
    (x.hdrs h).index (ring x g h b) = ent x g b
  keys : ∀ b0 b, g.blk b0 ≠ none → b0 ≤ b → b < g.N →
    (x.ents (ent x g b)).key = some (32 * b)
  win : ∀ b, g.blk b ≠ none → b < g.M ∧ g.N ≤ b + (x.hdrs x.cur).cap
  val : ∀ b y, g.blk b = some y → (x.ents (ent x g b)).value = some (some y)
  wrote : ∀ en, (x.ents en).key ≠ none → (x.ents en).value ≠ none ∨
    (g.M < g.N ∧ en = ent x g g.M)
  mn : g.M ≤ g.N ∧ g.N ≤ g.M + 1

/-- The indexes. -/
structure SInv (x : Prod) (g : G E) : Prop where
  lo : x.tail ≤ 32 * g.M
  hi : 32 * g.M ≤ x.tail + 32
  raw : ∀ i, x.tail ≤ i → (i = x.tail → g.con = false) → g.st i = .raw
  con : g.con = true → x.tail < 32 * g.M ∧ ∃ e, g.st x.tail = .full e
  full : ∀ i, x.head ≤ i → i < x.tail → ∃ e, g.st i = .full e
  low : ∀ i, (∃ e, g.st i = .taken e ∨ g.st i = .done e) → i < x.head
  live : ∀ i, i < 32 * g.M → (g.st i).isDone = false → g.blk (i / 32) ≠ none
  tb : x.tail % 32 ≠ 0 → x.tailBlock = g.blk (x.tail / 32)

/-- Between calls of `add`. -/
def Rest (x : Prod) (g : G E) : Prop :=
  g.N = g.M ∧ g.M = (x.tail + 31) / 32 ∧ g.cnt x.cur = g.N ∧ g.con = false ∧
    ∀ y, g.M ≠ 0 → g.blk (g.M - 1) = some y → x.tailBlock = some y

/-- Stages in which `add` has changed the index but not the tail. -/
def AStg.busy : AStg → Bool
  | .tail | .head _ | .test _ | .grow _ | .key _ _ => false
  | _ => true

/-- The key is stored, the block is not. -/
def Opening (x : Prod) (g : G E) (en : Nat) : Prop :=
  g.N = g.M + 1 ∧ 32 * g.M = x.tail ∧ en = ent x g g.M ∧ g.con = false ∧
    (x.ents en).key = some (32 * g.M)

/-- The tail lies in the last block. -/
def Open (x : Prod) (g : G E) : Prop :=
  g.N = g.M ∧ g.M = x.tail / 32 + 1 ∧ g.cnt x.cur = g.N

/-- What a thread inside `enqueue` knows. -/
def AClaim (quiet : Bool) (x : Prod) (g : G E) (e : E) : AStg → Prop
  | .tail | .head _ | .test _ | .grow _ => True
  | .key _ en => en = ent x g g.N ∧ ((x.ents en).key = none ∨ (x.ents en).value = some none)
  | .itail _ en => Opening x g en ∧ g.cnt x.cur = g.M
  | .get _ en | .reset _ en _ | .val _ en _ => Opening x g en ∧ g.cnt x.cur = g.N
  | .cons1 _ en _ => Opening x g en ∧ g.cnt x.cur = g.N ∧ quiet = false
  | .tb _ b => Open x g ∧ g.blk (x.tail / 32) = some b ∧ g.con = !quiet ∧
    (quiet = false → g.st x.tail = .full e)
  | .cons _ => Open x g ∧ g.con = false ∧ x.tailBlock = g.blk (x.tail / 32)
  | .pub _ => Open x g ∧ g.con = true ∧ g.st x.tail = .full e ∧
    x.tailBlock = g.blk (x.tail / 32)

/-- What a thread inside `dequeue` knows. -/
def DClaim (x : Prod) (g : G E) : DStg E → Prop
  | .idx i => i < x.head ∧ ∃ e, g.st i = .full e
  | .itail i h => i < x.head ∧ (∃ e, g.st i = .full e) ∧ h ≤ x.cur ∧ i / 32 < g.cnt h
  | .ikey i h q => i < x.head ∧ (∃ e, g.st i = .full e) ∧ h ≤ x.cur ∧
    ∃ b, i / 32 ≤ b ∧ b < g.cnt h ∧ q = ring x g h b
  | .val i en => i < x.head ∧ (∃ e, g.st i = .full e) ∧ en = ent x g (i / 32)
  | .take i en b => i < x.head ∧ (∃ e, g.st i = .full e) ∧ en = ent x g (i / 32) ∧
    g.blk (i / 32) = some b
  | .mark i en b e => i < x.head ∧ g.st i = .taken e ∧ en = ent x g (i / 32) ∧
    g.blk (i / 32) = some b
  | .null i en b e => i < x.head ∧ g.st i = .done e ∧ en = ent x g (i / 32) ∧
    g.blk (i / 32) = some b ∧ ∀ j, j / 32 = i / 32 → (g.st j).isDone = true
  | .free i _ e => i < x.head ∧ g.st i = .done e
  | _ => True

/-- The index a thread has taken and not finished with. -/
def DStg.ix : DStg E → Option Nat
  | .idx i | .itail i _ | .ikey i _ _ | .val i _ | .take i _ _ | .mark i _ _ _
  | .null i _ _ _ | .free i _ _ => some i
  | _ => none

/-- The block a thread is about to clear. -/
def DStg.nl : DStg E → Option Nat
  | .null i _ _ _ => some (i / 32)
  | _ => none

/-- A block in a thread's hands, what is in its first slot, and whether it is reset. -/
def hand (quiet : Bool) : Pos E → Option (Nat × Option E × Bool)
  | .add _ _ (.reset _ _ b) => some (b, none, false)
  | .add _ _ (.cons1 _ _ b) => some (b, none, true)
  | .add _ e (.val _ _ b) => some (b, if quiet then none else some e, true)
  | .deq _ _ (.free _ b _) => some (b, none, false)
  | _ => none

/-- A thread has no block in its hands and is not about to clear one. -/
def Pos.calm : Pos E → Bool
  | .add _ _ (.reset ..) | .add _ _ (.cons1 ..) | .add _ _ (.val ..) => false
  | .deq _ _ (.null ..) | .deq _ _ (.free ..) => false
  | _ => true

/-- Index, counters and positions. -/
structure InvC (s : Sys E) (Γ : Nat → G E) : Prop where
  idx : ∀ p, HInv (s.prods p) (Γ p)
  stat : ∀ p, SInv (s.prods p) (Γ p)
  rest : ∀ p, (∀ t e a, s.pos t = .add p e a → a.busy = false) → Rest (s.prods p) (Γ p)
  acl : ∀ t p e a, s.pos t = .add p e a → AClaim s.quiet (s.prods p) (Γ p) e a
  dcl : ∀ t k p d, s.pos t = .deq k p d → DClaim (s.prods p) (Γ p) d
  uniq : ∀ t t' k k' p d d' i, s.pos t = .deq k p d → s.pos t' = .deq k' p d' →
    d.ix = some i → d'.ix = some i → t = t'
  nul : ∀ t t' k k' p d d' i, s.pos t = .deq k p d → s.pos t' = .deq k' p d' →
    d.nl = some i → d'.nl = some i → t = t'

/-- The memory of blocks. -/
structure InvH (s : Sys E) (Γ : Nat → G E) : Prop where
  blk : ∀ p b y, (Γ p).blk b = some y → y < s.made ∧ y ∉ s.free ∧
    (∀ j, j < 32 → (s.heap y).slots j = ((Γ p).st (32 * b + j)).held) ∧
    (s.heap y).gone = (List.range 32).countP fun j => ((Γ p).st (32 * b + j)).isDone
  inj : ∀ p b p' b' y, (Γ p).blk b = some y → (Γ p').blk b' = some y → p = p' ∧ b = b'
  hands : ∀ t y c z, hand s.quiet (s.pos t) = some (y, c, z) → y < s.made ∧ y ∉ s.free ∧
    (∀ p b, (Γ p).blk b ≠ some y) ∧
    (∀ j, j < 32 → (s.heap y).slots j = if j = 0 then c else none) ∧
    (z = true → (s.heap y).gone = 0)
  two : ∀ t t' y c z c' z', hand s.quiet (s.pos t) = some (y, c, z) →
    hand s.quiet (s.pos t') = some (y, c', z') → t = t'
  free : ∀ y, y ∈ s.free → y < s.made ∧ ∀ j, j < 32 → (s.heap y).slots j = none
  nodup : s.free.Nodup
  fresh : ∀ y, s.made ≤ y → ∀ j, j < 32 → (s.heap y).slots j = none
  cover : ∀ y, y < s.made → y ∈ s.free ∨ (∃ p b, (Γ p).blk b = some y) ∨
    ∃ t c z, hand s.quiet (s.pos t) = some (y, c, z)
  spent : ∀ p b y, (Γ p).blk b = some y → (s.heap y).gone < 32 ∨
    ∃ t k i en e, s.pos t = .deq k p (.null i en y e)

/-- The account of a producer nobody has used. -/
def newG : G E :=
  { N := 0, M := 0, off := fun _ => 0, cnt := fun _ => 0, blk := fun _ => none
    st := fun _ => .raw, con := false }

theorem HInv.init : HInv newProd (newG : G E) where
  capPos := by intro h _; simp [newProd, firstHdr]
  next := rfl
  tailOf := by intro h _; simp [newProd, firstHdr, newG]
  cntLe := by intro h _; simp [newG]
  cntOld := by intro h _; simp [newG]
  cntNow := by simp [newG]
  inj := by intro q q' _ _ h; exact h
  bound := by intro q hq; exact hq
  unused := by intro _ _; rfl
  rings := by intro h b0 b _ hb; exact absurd rfl hb
  keys := by intro b0 b hb; exact absurd rfl hb
  win := by intro b hb; exact absurd rfl hb
  val := by intro b y hb; cases hb
  wrote := by intro en h; exact absurd rfl h
  mn := by simp [newG]

theorem SInv.init : SInv newProd (newG : G E) where
  lo := by simp [newG, newProd]
  hi := by simp [newG, newProd]
  raw := by intro i _ _; rfl
  con := by intro h; cases h
  full := by intro i _ h; simp [newProd] at h
  low := by rintro i ⟨e, h | h⟩ <;> cases h
  live := by intro i h; simp [newG] at h
  tb := by intro h; simp [newProd] at h

theorem InvC.init (q : Bool) : InvC (init q : Sys E) (fun _ => newG) where
  idx := fun _ => HInv.init
  stat := fun _ => SInv.init
  rest := fun _ _ => ⟨rfl, by simp [newG, LinkedQueue.init, newProd], rfl, rfl, fun _ h => absurd rfl h⟩
  acl := by intro t p e a h; cases h
  dcl := by intro t k p d h; cases h
  uniq := by intro t t' k k' p d d' i h; cases h
  nul := by intro t t' k k' p d d' i h; cases h

theorem InvH.init (q : Bool) : InvH (init q : Sys E) (fun _ => newG) where
  blk := by intro p b y h; cases h
  inj := by intro p b p' b' y h; cases h
  hands := by intro t y c z h; cases h
  two := by intro t t' y c z c' z' h; cases h
  free := by intro y h; cases h
  nodup := by simp [LinkedQueue.init]
  fresh := by intro y _ j _; rfl
  cover := by intro y h; exact absurd h (Nat.not_lt_zero _)
  spent := by intro p b y h; cases h

theorem calm_hand {q : Bool} {y : Pos E} (h : y.calm = true) : hand q y = none := by
  cases y with
  | add p e a => cases a <;> first | rfl | cases h
  | deq k p d => cases d <;> first | rfl | cases h
  | _ => rfl

theorem calm_null {y : Pos E} (h : y.calm = true) {k p i en b e} : y ≠ .deq k p (.null i en b e) := by
  rintro rfl; cases h

theorem hand_null {q : Bool} {y : Pos E} {z : Nat × Option E × Bool} (h : hand q y = some z) {k p i en b e} :
    y ≠ .deq k p (.null i en b e) := by
  rintro rfl; cases h

theorem calm_plain {y : Pos E} (h : match y with
    | .add .. => False
    | .deq _ _ .tail => True
    | .deq .. => False
    | _ => True) : y.calm = true := by
  cases y with
  | add p e a => exact absurd h id
  | deq k p d => cases d <;> first | rfl | exact absurd h id
  | _ => rfl

/-! ### Rings -/

theorem mod_inj {a b c : Nat} (h : a % c = b % c) (h1 : a ≤ b) (h2 : b < a + c) : a = b := by
  have h3 : (b - a) % c = 0 := by
    have := Nat.sub_mod_eq_zero_of_mod_eq h.symm
    exact this
  have h4 : b - a < c := by omega
  rw [Nat.mod_eq_of_lt h4] at h3
  omega

/-- Blocks less than a capacity apart have different places. -/
theorem ring_inj {x : Prod} {g : G E} {h b b' : Nat} (he : ring x g h b = ring x g h b')
    (h1 : b ≤ b') (h2 : b' < b + (x.hdrs h).cap) : b = b' := by
  have := mod_inj (a := b + g.off h) (b := b' + g.off h) (c := (x.hdrs h).cap) he (by omega)
    (by omega)
  omega

theorem ring_lt {x : Prod} {g : G E} {h b : Nat} (hc : 0 < (x.hdrs h).cap) :
    ring x g h b < (x.hdrs h).cap := Nat.mod_lt _ hc

theorem HInv.ent_inj {x : Prod} {g : G E} (hi : HInv x g) {b b' : Nat}
    (he : ent x g b = ent x g b') (h1 : b ≤ b') (h2 : b' < b + (x.hdrs x.cur).cap) :
    b = b' := by
  have hc := hi.capPos x.cur (Nat.le_refl _)
  exact ring_inj (hi.inj _ _ (ring_lt hc) (ring_lt hc) he) h1 h2

/-- The entry of a live block is nobody else's. -/
theorem HInv.ent_ne {x : Prod} {g : G E} (hi : HInv x g) {b b' : Nat}
    (hb : g.blk b ≠ none) (hb' : g.blk b' ≠ none ∨ b' = g.M ∧ g.N = g.M + 1)
    (hne : b ≠ b') : ent x g b ≠ ent x g b' := by
  intro he
  have h1 := hi.win b hb
  have h0 := hi.mn
  have h2 : b' < g.N ∧ g.N ≤ b' + (x.hdrs x.cur).cap := by
    have hc := hi.capPos x.cur (Nat.le_refl _)
    rcases hb' with h | ⟨rfl, h⟩
    · have := hi.win b' h; omega
    · omega
  rcases Nat.le_total b b' with h | h
  · exact hne (hi.ent_inj he h (by omega))
  · exact hne (hi.ent_inj he.symm h (by omega)).symm

/-- The place after the tail is that of the next block. -/
theorem HInv.next_pos {x : Prod} {g : G E} (hi : HInv x g) :
    ((x.hdrs x.cur).tail + 1) % (x.hdrs x.cur).cap = ring x g x.cur (g.cnt x.cur) := by
  have hc := hi.capPos x.cur (Nat.le_refl _)
  rw [hi.tailOf x.cur (Nat.le_refl _), ring]
  rw [Nat.add_mod, Nat.mod_mod, ← Nat.add_mod]
  have : g.cnt x.cur + g.off x.cur + (x.hdrs x.cur).cap - 1 + 1 =
      g.cnt x.cur + g.off x.cur + (x.hdrs x.cur).cap := by omega
  rw [this, Nat.add_mod_right]

theorem ringPos_eq {cap off b b' i : Nat} (hc : 0 < cap) (hb : i / 32 = b) (h : b ≤ b') :
    ringPos cap ((b' + off) % cap) (32 * b') i = (b + off) % cap := by
  unfold ringPos
  rw [hb]
  have h1 : (((b * 32 : Nat) : Int) - ((32 * b' : Nat) : Int)).tdiv 32 = (b : Int) - b' := by
    have : (((b * 32 : Nat) : Int) - ((32 * b' : Nat) : Int)) = ((b : Int) - b') * 32 := by
      omega
    rw [this]
    exact Int.mul_tdiv_cancel _ (by decide)
  rw [h1]
  have h2 : ((((b' + off) % cap : Nat) : Int) + ((b : Int) - b')) % (cap : Int) =
      (((b + off) % cap : Nat) : Int) := by
    rw [Int.natCast_emod, Int.emod_add_emod]
    have : (((b' + off : Nat) : Int) + ((b : Int) - b')) = ((b + off : Nat) : Int) := by omega
    rw [this, ← Int.natCast_emod]
  rw [h2]
  rfl

end Verif.LinkedQueue
