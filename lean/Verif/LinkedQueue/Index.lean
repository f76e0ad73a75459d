import Verif.LinkedQueue.Frame
/-!
# The steps that change the index of blocks
-/
namespace Verif.LinkedQueue

variable {E : Type}

/-- An index that is taken and not done lies in a live block. -/
theorem SInv.alive {x : Prod} {g : G E} (hs : SInv x g) (hht : x.head ≤ x.tail) {i : Nat}
    (hi : i < x.head) (hd : (g.st i).isDone = false) : g.blk (i / 32) ≠ none :=
  hs.live i (by have := hs.lo; omega) hd

/-- What a thread inside `dequeue` knows survives changes elsewhere. -/
theorem DClaim.keep {x x' : Prod} {g g' : G E} {d : DStg E} (hs : SInv x g)
    (hht : x.head ≤ x.tail) (hh : x.head ≤ x'.head) (hcur : x.cur ≤ x'.cur)
    (hcnt : ∀ h, h ≤ x.cur → g.cnt h ≤ g'.cnt h)
    (hring : ∀ h b, h ≤ x.cur → ring x' g' h b = ring x g h b)
    (hent : ∀ b, g.blk b ≠ none → ent x' g' b = ent x g b)
    (hst : ∀ i, d.ix = some i → g'.st i = g.st i)
    (hblk : ∀ i, d.ix = some i → (g.st i).isDone = false →
      g'.blk (i / 32) = g.blk (i / 32))
    (hnl : ∀ b, d.nl = some b → g'.blk b = g.blk b ∧ ∀ j, j / 32 = b → g'.st j = g.st j)
    (hd : DClaim x g d) : DClaim x' g' d := by
  cases d with
  | idx i =>
    obtain ⟨h1, h2⟩ := hd
    exact ⟨by omega, by rw [hst i rfl]; exact h2⟩
  | itail i h =>
    obtain ⟨h1, h2, h3, h4⟩ := hd
    exact ⟨by omega, by rw [hst i rfl]; exact h2, by omega, Nat.lt_of_lt_of_le h4 (hcnt h h3)⟩
  | ikey i h q =>
    obtain ⟨h1, h2, h3, b, h4, h5, h6⟩ := hd
    exact ⟨by omega, by rw [hst i rfl]; exact h2, by omega, b, h4,
      Nat.lt_of_lt_of_le h5 (hcnt h h3), by rw [hring h b h3]; exact h6⟩
  | val i en =>
    obtain ⟨h1, ⟨e, h2⟩, h3⟩ := hd
    have hl := hs.alive hht h1 (by rw [h2]; rfl)
    exact ⟨by omega, by rw [hst i rfl]; exact ⟨e, h2⟩, by rw [hent _ hl]; exact h3⟩
  | take i en b =>
    obtain ⟨h1, ⟨e, h2⟩, h3, h4⟩ := hd
    have hl := hs.alive hht h1 (by rw [h2]; rfl)
    exact ⟨by omega, by rw [hst i rfl]; exact ⟨e, h2⟩, by rw [hent _ hl]; exact h3,
      by rw [hblk i rfl (by rw [h2]; rfl)]; exact h4⟩
  | mark i en b e =>
    obtain ⟨h1, h2, h3, h4⟩ := hd
    have hl := hs.alive hht h1 (by rw [h2]; rfl)
    exact ⟨by omega, by rw [hst i rfl]; exact h2, by rw [hent _ hl]; exact h3,
      by rw [hblk i rfl (by rw [h2]; rfl)]; exact h4⟩
  | null i en b e =>
    obtain ⟨h1, h2, h3, h4, h5⟩ := hd
    obtain ⟨h6, h7⟩ := hnl (i / 32) rfl
    refine ⟨by omega, by rw [h7 i rfl]; exact h2, ?_, by rw [h6]; exact h4, ?_⟩
    · rw [hent _ (by rw [h4]; simp)]; exact h3
    · intro j hj; rw [h7 j hj]; exact h5 j hj
  | free i b e =>
    obtain ⟨h1, h2⟩ := hd
    exact ⟨by omega, by rw [hst i rfl]; exact h2⟩
  | _ => trivial

/-! ### A bigger index -/

/-- The account after `new_block_index`. -/
def growG (x : Prod) (g : G E) : G E :=
  { g with
    off := upd g.off (x.cur + 1)
      ((x.hdrs x.cur).cap + ((x.hdrs x.cur).cap * 2 - 1) * g.N)
    cnt := upd g.cnt (x.cur + 1) g.N }

theorem grow_hdr_old (x : Prod) {h : Nat} (hh : h ≤ x.cur) :
    (newHdr x).hdrs h = x.hdrs h := by
  simp only [newHdr]
  exact upd_ne _ _ (by omega)

theorem grow_ring_old (x : Prod) (g : G E) {h : Nat} (b : Nat) (hh : h ≤ x.cur) :
    ring (newHdr x) (growG x g) h b = ring x g h b := by
  unfold ring
  rw [grow_hdr_old x hh]
  simp only [growG]
  rw [upd_ne _ _ (by omega)]

theorem grow_cap (x : Prod) : ((newHdr x).hdrs (newHdr x).cur).cap = x.nextCap := by
  simp [newHdr]

theorem grow_index (x : Prod) (i : Nat) : ((newHdr x).hdrs (newHdr x).cur).index i =
    if i < (x.hdrs x.cur).cap then
      (x.hdrs x.cur).index (((x.hdrs x.cur).tail + 1 + i) % (x.hdrs x.cur).cap)
    else x.entCount + (i - (x.hdrs x.cur).cap) := by
  simp [newHdr]

/-- Where a block is in the new ring: blocks are counted back from the middle. -/
theorem grow_ring {x : Prod} {g : G E} (hi : HInv x g) {b : Nat} :
    ∀ r, b + (x.hdrs x.cur).cap = g.N + r → r < (x.hdrs x.cur).cap * 2 →
    ring (newHdr x) (growG x g) (newHdr x).cur b = r := by
  intro r hr hlt
  unfold ring
  rw [grow_cap, hi.next]
  have h1 : (growG x g).off (newHdr x).cur =
      (x.hdrs x.cur).cap + ((x.hdrs x.cur).cap * 2 - 1) * g.N := by
    simp [growG, newHdr]
  rw [h1]
  have hc := hi.capPos x.cur (Nat.le_refl _)
  generalize (x.hdrs x.cur).cap = C at *
  have h2 : b + (C + (C * 2 - 1) * g.N) = r + C * 2 * g.N := by
    have h3 : (C * 2 - 1) * g.N + g.N = C * 2 * g.N := by
      have : C * 2 = C * 2 - 1 + 1 := by omega
      conv => rhs; rw [this, Nat.add_mul, Nat.one_mul]
    omega
  rw [h2, Nat.add_mul_mod_self_left]
  exact Nat.mod_eq_of_lt hlt

theorem grow_ent {x : Prod} {g : G E} (hi : HInv x g) (hn : g.cnt x.cur = g.N) {b : Nat}
    (h1 : b < g.N) (h2 : g.N ≤ b + (x.hdrs x.cur).cap) :
    ent (newHdr x) (growG x g) b = ent x g b := by
  have hc := hi.capPos x.cur (Nat.le_refl _)
  unfold ent
  rw [grow_ring hi (b + (x.hdrs x.cur).cap - g.N) (by omega) (by omega), grow_index,
    if_pos (by omega), hi.tailOf x.cur (Nat.le_refl _), hn]
  congr 1
  unfold ring
  generalize (x.hdrs x.cur).cap = C at *
  generalize g.off x.cur = o at *
  have : ((g.N + o + C - 1) % C + 1 + (b + C - g.N)) % C =
      ((g.N + o + C - 1) + (1 + (b + C - g.N))) % C := by
    rw [Nat.add_assoc, Nat.add_mod, Nat.mod_mod, ← Nat.add_mod]
  rw [this]
  have h3 : g.N + o + C - 1 + (1 + (b + C - g.N)) = b + o + C + C := by omega
  rw [h3, Nat.add_mod_right, Nat.add_mod_right]

theorem HInv.grow {x : Prod} {g : G E} (hi : HInv x g) (hn : g.cnt x.cur = g.N)
    (hm : g.N = g.M) : HInv (newHdr x) (growG x g) := by
  have hc := hi.capPos x.cur (Nat.le_refl _)
  have hcur : (newHdr x).cur = x.cur + 1 := rfl
  have hold : ∀ h, h ≤ (newHdr x).cur → h ≠ (newHdr x).cur → h ≤ x.cur := by
    intro h h1 h2; rw [hcur] at h1 h2; omega
  have hcnt : (growG x g).cnt (newHdr x).cur = g.N := by simp [growG, newHdr]
  have hcntO : ∀ h, h ≤ x.cur → (growG x g).cnt h = g.cnt h := by
    intro h h1; simp only [growG]; exact upd_ne _ _ (by omega)
  have hwin : ∀ b0 b, g.blk b0 ≠ none → b0 ≤ b → b < g.N →
      ent (newHdr x) (growG x g) b = ent x g b := by
    intro b0 b h1 h2 h3
    have := hi.win b0 h1
    exact grow_ent hi hn h3 (by omega)
  refine ⟨?_, ?_, ?_, ?_, ?_, ?_, ?_, ?_, ?_, ?_, ?_, ?_, ?_, ?_, hi.mn⟩
  · intro h hh
    by_cases e : h = (newHdr x).cur
    · subst e; rw [grow_cap, hi.next]; omega
    · rw [grow_hdr_old x (hold h hh e)]; exact hi.capPos h (hold h hh e)
  · rw [grow_cap]; rfl
  · intro h hh
    by_cases e : h = (newHdr x).cur
    · subst e
      rw [grow_cap, hcnt]
      have h1 : (growG x g).off (newHdr x).cur =
          (x.hdrs x.cur).cap + ((x.hdrs x.cur).cap * 2 - 1) * g.N := by
        simp [growG, newHdr]
      have h2 : ((newHdr x).hdrs (newHdr x).cur).tail = ((x.hdrs x.cur).cap - 1) % x.nextCap := by
        simp [newHdr]
      rw [h1, h2, hi.next]
      generalize (x.hdrs x.cur).cap = C at *
      have h3 : (C * 2 - 1) * g.N + g.N = C * 2 * g.N := by
        have : C * 2 = C * 2 - 1 + 1 := by omega
        conv => rhs; rw [this, Nat.add_mul, Nat.one_mul]
      have h4 : g.N + (C + (C * 2 - 1) * g.N) + C * 2 - 1 = (C - 1) + C * 2 * g.N + C * 2 := by
        omega
      rw [h4, Nat.add_mod_right, Nat.add_mul_mod_self_left]
    · have := hold h hh e
      rw [grow_hdr_old x this, hcntO h this]
      have h1 : (growG x g).off h = g.off h := by
        simp only [growG]; exact upd_ne _ _ (by omega)
      rw [h1]
      exact hi.tailOf h this
  · intro h hh
    by_cases e : h = (newHdr x).cur
    · subst e; rw [hcnt]; exact Nat.le_refl _
    · have := hold h hh e
      rw [hcntO h this]; exact hi.cntLe h this
  · intro h hh
    rw [hcur] at hh
    have : h ≤ x.cur := by omega
    rw [hcntO h this]
    have h1 := hi.cntLe h this
    show g.cnt h ≤ g.M
    omega
  · rw [hcnt]; show g.M ≤ g.N; omega
  · intro q q' hq hq' he
    rw [grow_cap, hi.next] at hq hq'
    rw [grow_index, grow_index] at he
    have hr : ∀ q, q < (x.hdrs x.cur).cap →
        (x.hdrs x.cur).index (((x.hdrs x.cur).tail + 1 + q) % (x.hdrs x.cur).cap) < x.entCount :=
      fun q _ => hi.bound _ (Nat.mod_lt _ hc)
    by_cases a : q < (x.hdrs x.cur).cap <;> by_cases b : q' < (x.hdrs x.cur).cap
    · rw [if_pos a, if_pos b] at he
      have h1 := hi.inj _ _ (Nat.mod_lt _ hc) (Nat.mod_lt _ hc) he
      rcases Nat.le_total q q' with h2 | h2
      · have := mod_inj h1 (by omega) (by omega); omega
      · have := mod_inj h1.symm (by omega) (by omega); omega
    · rw [if_pos a, if_neg b] at he; have := hr q a; omega
    · rw [if_neg a, if_pos b] at he; have := hr q' b; omega
    · rw [if_neg a, if_neg b] at he; omega
  · intro q hq
    rw [grow_cap, hi.next] at hq
    rw [grow_index]
    have h1 : (newHdr x).entCount = x.entCount + (x.hdrs x.cur).cap := rfl
    rw [h1]
    split
    · have := hi.bound (((x.hdrs x.cur).tail + 1 + q) % (x.hdrs x.cur).cap) (Nat.mod_lt _ hc)
      omega
    · omega
  · intro en hen
    have h1 : (newHdr x).entCount = x.entCount + (x.hdrs x.cur).cap := rfl
    rw [h1] at hen
    exact hi.unused en (by omega)
  · intro h b0 b hh h1 h2 h3
    by_cases e : h = (newHdr x).cur
    · subst e; rfl
    · have ho := hold h hh e
      rw [hcntO h ho] at h3
      rw [grow_ring_old x g b ho, grow_hdr_old x ho, hi.rings h b0 b ho h1 h2 h3]
      have := hi.cntLe h ho
      exact (hwin b0 b h1 h2 (by omega)).symm
  · intro b0 b h1 h2 h3
    rw [hwin b0 b h1 h2 h3]
    exact hi.keys b0 b h1 h2 h3
  · intro b h1
    rw [grow_cap, hi.next]
    have := hi.win b h1
    exact ⟨this.1, by show g.N ≤ _; omega⟩
  · intro b y hb
    have h1 : g.blk b ≠ none := by rw [show g.blk b = some y from hb]; simp
    have := hi.win b h1
    rw [hwin b b h1 (Nat.le_refl _) (by omega)]
    exact hi.val b y hb
  · intro en hk
    rcases hi.wrote en hk with h1 | h1
    · exact .inl h1
    · omega

/-- The entry for the next block after growing is a fresh one. -/
theorem grow_next {x : Prod} {g : G E} (hi : HInv x g) :
    ent (newHdr x) (growG x g) g.N = x.entCount := by
  have hc := hi.capPos x.cur (Nat.le_refl _)
  unfold ent
  rw [grow_ring hi (x.hdrs x.cur).cap rfl (by omega), grow_index]
  simp

/-! ### A key -/

def keyG (g : G E) : G E := { g with N := g.N + 1 }

def keyP (x : Prod) (en ct : Nat) : Prod :=
  { x with ents := upd x.ents en { x.ents en with key := some ct } }

theorem HInv.key {x : Prod} {g : G E} (hi : HInv x g) (hn : g.cnt x.cur = g.N)
    (hm : g.N = g.M) {en : Nat} (he : en = ent x g g.N)
    (hdead : (x.ents en).key = none ∨ (x.ents en).value = some none) :
    HInv (keyP x en (32 * g.N)) (keyG g) := by
  -- the entry belongs to no live block
  have hne : ∀ b, g.blk b ≠ none → ent x g b ≠ en := by
    intro b hb h1
    have hw := hi.win b hb
    rcases hdead with h2 | h2
    · have := hi.keys b b hb (Nat.le_refl _) (by omega)
      rw [h1, h2] at this; cases this
    · cases hy : g.blk b with
      | none => exact hb hy
      | some y =>
        have := hi.val b y hy
        rw [h1, h2] at this; cases this
  have hstrict : ∀ b, g.blk b ≠ none → g.N < b + (x.hdrs x.cur).cap := by
    intro b hb
    have hw := hi.win b hb
    rcases Nat.lt_or_ge g.N (b + (x.hdrs x.cur).cap) with h1 | h1
    · exact h1
    · exfalso
      apply hne b hb
      rw [he]
      have : g.N = b + (x.hdrs x.cur).cap := by omega
      unfold ent
      rw [this]
      congr 1
      unfold ring
      rw [Nat.add_right_comm, Nat.add_mod_right]
  have hwin : ∀ b0 b, g.blk b0 ≠ none → b0 ≤ b → b < g.N → ent x g b ≠ en := by
    intro b0 b h1 h2 h3 h4
    rw [he] at h4
    have := hi.ent_inj h4 (by omega) (by have := hstrict b0 h1; omega)
    omega
  have hcap : ∀ h, ((keyP x en (32 * g.N)).hdrs h) = x.hdrs h := fun _ => rfl
  have hent : ∀ b, ent (keyP x en (32 * g.N)) (keyG g) b = ent x g b := fun _ => rfl
  have hmn := hi.mn
  refine ⟨hi.capPos, hi.next, hi.tailOf, ?_, ?_, hi.cntNow, hi.inj, hi.bound, ?_, hi.rings, ?_,
    ?_, ?_, ?_, ?_⟩
  · intro h hh; exact Nat.le_succ_of_le (hi.cntLe h hh)
  · intro h hh; exact hi.cntOld h hh
  · intro en' hen
    have : en' ≠ en := by
      rintro rfl
      rw [he] at hen
      have := hi.bound _ (ring_lt (hi.capPos x.cur (Nat.le_refl _)) (b := g.N) (g := g))
      exact absurd hen (Nat.not_le.mpr this)
    show upd x.ents en _ en' = newEnt
    rw [upd_ne _ _ this]
    exact hi.unused en' hen
  · intro b0 b h1 h2 h3
    have h3' : b < g.N + 1 := h3
    rw [hent]
    show (upd x.ents en _ (ent x g b)).key = some (32 * b)
    rcases Nat.lt_or_ge b g.N with h4 | h4
    · rw [upd_ne _ _ (hwin b0 b h1 h2 h4)]
      exact hi.keys b0 b h1 h2 h4
    · have : b = g.N := by omega
      subst this
      rw [← he, upd_same]
  · intro b hb
    have h1 := hi.win b hb
    have h2 := hstrict b hb
    exact ⟨h1.1, by show g.N + 1 ≤ _; exact h2⟩
  · intro b y hb
    have h1 : g.blk b ≠ none := by rw [show g.blk b = some y from hb]; simp
    rw [hent]
    show (upd x.ents en _ (ent x g b)).value = some (some y)
    rw [upd_ne _ _ (hne b h1)]
    exact hi.val b y hb
  · intro en' hk
    by_cases h1 : en' = en
    · right
      exact ⟨by show g.M < g.N + 1; omega, by
        show en' = ent x g g.M
        rw [h1, he, hm]⟩
    · left
      have hk' : (x.ents en').key ≠ none := by
        have h2 : (upd x.ents en { x.ents en with key := some (32 * g.N) } en').key ≠ none := hk
        rwa [upd_ne _ _ h1] at h2
      show (upd x.ents en _ en').value ≠ none
      rw [upd_ne _ _ h1]
      rcases hi.wrote en' hk' with h2 | h2
      · exact h2
      · omega
  · constructor
    · show g.M ≤ g.N + 1; omega
    · show g.N + 1 ≤ g.M + 1; omega

/-! ### The tail of the index -/

def itailG (x : Prod) (g : G E) : G E := { g with cnt := upd g.cnt x.cur g.N }

def itailP (x : Prod) : Prod := { x with hdrs := upd x.hdrs x.cur (x.hdrs x.cur).adv }

theorem itail_cap (x : Prod) (h : Nat) : ((itailP x).hdrs h).cap = (x.hdrs h).cap :=
  upd_field Hdr.cap x.hdrs x.cur (x.hdrs x.cur).adv rfl h

theorem itail_index (x : Prod) (h : Nat) : ((itailP x).hdrs h).index = (x.hdrs h).index :=
  upd_field Hdr.index x.hdrs x.cur (x.hdrs x.cur).adv rfl h

theorem itail_ring (x : Prod) (g : G E) (h b : Nat) :
    ring (itailP x) (itailG x g) h b = ring x g h b := by
  unfold ring
  rw [itail_cap]
  rfl

theorem itail_ent (x : Prod) (g : G E) (b : Nat) :
    ent (itailP x) (itailG x g) b = ent x g b := by
  unfold ent
  rw [show (itailP x).cur = x.cur from rfl, itail_ring, itail_index]

theorem HInv.itail {x : Prod} {g : G E} (hi : HInv x g) (hn : g.cnt x.cur = g.M)
    (hm : g.N = g.M + 1) : HInv (itailP x) (itailG x g) := by
  have hcur : (itailP x).cur = x.cur := rfl
  have hc := hi.capPos x.cur (Nat.le_refl _)
  refine ⟨?_, ?_, ?_, ?_, ?_, ?_, ?_, ?_, hi.unused, ?_, ?_, ?_, ?_, ?_, hi.mn⟩
  · intro h hh; rw [itail_cap]; exact hi.capPos h hh
  · rw [hcur, itail_cap]; exact hi.next
  · intro h hh
    rw [itail_cap]
    show (upd x.hdrs x.cur _ h).tail = (upd g.cnt x.cur g.N h + g.off h + _ - 1) % _
    by_cases e : h = x.cur
    · subst e
      rw [upd_same, upd_same]
      show ((x.hdrs x.cur).tail + 1) % (x.hdrs x.cur).cap = _
      rw [hi.next_pos, hn, hm]
      unfold ring
      have : g.M + 1 + g.off x.cur + (x.hdrs x.cur).cap - 1 =
          g.M + g.off x.cur + (x.hdrs x.cur).cap := by omega
      rw [this, Nat.add_mod_right]
    · rw [upd_ne _ _ e, upd_ne _ _ e]; exact hi.tailOf h hh
  · intro h hh
    show upd g.cnt x.cur g.N h ≤ g.N
    by_cases e : h = x.cur
    · subst e; rw [upd_same]; exact Nat.le_refl _
    · rw [upd_ne _ _ e]; exact hi.cntLe h hh
  · intro h hh
    show upd g.cnt x.cur g.N h ≤ g.M
    have : h < x.cur := hh
    rw [upd_ne _ _ (by omega)]; exact hi.cntOld h hh
  · show g.M ≤ upd g.cnt x.cur g.N x.cur
    rw [upd_same]; omega
  · rw [hcur, itail_cap, itail_index]; exact hi.inj
  · rw [hcur, itail_cap, itail_index]; exact hi.bound
  · intro h b0 b hh h1 h2 h3
    rw [itail_ring, itail_ent, itail_index]
    by_cases e : h = x.cur
    · subst e; rfl
    · have h3' : b < upd g.cnt x.cur g.N h := h3
      rw [upd_ne _ _ e] at h3'
      exact hi.rings h b0 b hh h1 h2 h3'
  · intro b0 b h1 h2 h3
    rw [itail_ent]
    exact hi.keys b0 b h1 h2 h3
  · intro b hb; rw [hcur, itail_cap]; exact hi.win b hb
  · intro b y hb; rw [itail_ent]; exact hi.val b y hb
  · intro en hk
    rcases hi.wrote en hk with h1 | ⟨h1, h2⟩
    · exact .inl h1
    · exact .inr ⟨h1, by rw [itail_ent]; exact h2⟩

/-! ### The block -/

/-- The account after the block `b` is in the index. -/
def valG (g : G E) (b ct : Nat) (quiet : Bool) (e : E) : G E :=
  { g with
    M := g.M + 1
    blk := upd g.blk g.M (some b)
    con := !quiet
    st := if quiet then g.st else upd g.st ct (.full e) }

def valP (x : Prod) (en : Nat) (v : Option Nat) : Prod :=
  { x with ents := upd x.ents en { x.ents en with value := some v } }

theorem HInv.val_step {x : Prod} {g : G E} (hi : HInv x g) {en b ct : Nat} {quiet : Bool}
    {e : E} (ho : Opening x g en) (hcn : g.cnt x.cur = g.N) :
    HInv (valP x en (some b)) (valG g b ct quiet e) := by
  obtain ⟨hN, hT, he, _, hk⟩ := ho
  have hc := hi.capPos x.cur (Nat.le_refl _)
  have hent : ∀ b', ent (valP x en (some b)) (valG g b ct quiet e) b' = ent x g b' := fun _ => rfl
  have hblk : ∀ b', (valG g b ct quiet e).blk b' ≠ none → b' = g.M ∨ g.blk b' ≠ none := by
    intro b' h1
    by_cases h2 : b' = g.M
    · exact .inl h2
    · right
      have h3 : upd g.blk g.M (some b) b' ≠ none := h1
      rwa [upd_ne _ _ h2] at h3
  have hold : ∀ b', g.blk b' ≠ none → b' ≠ g.M := by
    intro b' h1 h2
    have := hi.win b' h1
    omega
  have hkey : ∀ en', ((valP x en (some b)).ents en').key = (x.ents en').key :=
    fun en' => upd_field Ent.key x.ents en { x.ents en with value := some (some b) } rfl en'
  refine ⟨hi.capPos, hi.next, hi.tailOf, hi.cntLe, ?_, ?_, hi.inj, hi.bound, ?_, ?_, ?_, ?_, ?_,
    ?_, ?_⟩
  · intro h hh; exact Nat.le_succ_of_le (hi.cntOld h hh)
  · show g.M + 1 ≤ g.cnt x.cur; omega
  · intro en' hen
    have : en' ≠ en := by
      rintro rfl
      rw [he] at hen
      have := hi.bound _ (ring_lt hc (b := g.M) (g := g))
      exact absurd hen (Nat.not_le.mpr this)
    show upd x.ents en _ en' = newEnt
    rw [upd_ne _ _ this]
    exact hi.unused en' hen
  · intro h b0 b' hh h1 h2 h3
    rcases hblk b0 h1 with h4 | h4
    · subst h4
      by_cases e' : h = x.cur
      · subst e'; rfl
      · have hh' : h ≤ x.cur := hh
        have h5 := hi.cntOld h (by omega)
        have h6 : b' < g.cnt h := h3
        omega
    · exact hi.rings h b0 b' hh h4 h2 h3
  · intro b0 b' h1 h2 h3
    rw [hent, hkey]
    have h3' : b' < g.N := h3
    rcases hblk b0 h1 with h4 | h4
    · subst h4
      have : b' = g.M := by omega
      subst this
      rw [← he]; exact hk
    · exact hi.keys b0 b' h4 h2 h3
  · intro b' h1
    rcases hblk b' h1 with h2 | h2
    · subst h2
      exact ⟨by show g.M < g.M + 1; omega, by show g.N ≤ g.M + (x.hdrs x.cur).cap; omega⟩
    · have := hi.win b' h2
      exact ⟨by show b' < g.M + 1; omega, this.2⟩
  · intro b' y hb
    rw [hent]
    have hb' : upd g.blk g.M (some b) b' = some y := hb
    show (upd x.ents en _ (ent x g b')).value = some (some y)
    by_cases h2 : b' = g.M
    · subst h2
      rw [upd_same] at hb'
      cases hb'
      rw [← he, upd_same]
    · rw [upd_ne _ _ h2] at hb'
      have h3 : g.blk b' ≠ none := by rw [hb']; simp
      have h4 : ent x g b' ≠ en := by
        rw [he]; exact hi.ent_ne h3 (.inr ⟨rfl, hN⟩) h2
      rw [upd_ne _ _ h4]
      exact hi.val b' y hb'
  · intro en' hk'
    left
    show (upd x.ents en _ en').value ≠ none
    rw [hkey] at hk'
    by_cases h1 : en' = en
    · subst h1; rw [upd_same]; simp
    · rw [upd_ne _ _ h1]
      rcases hi.wrote en' hk' with h2 | ⟨_, h2⟩
      · exact h2
      · exact absurd (h2.trans he.symm) h1
  · constructor
    · show g.M + 1 ≤ g.N; omega
    · show g.N ≤ g.M + 1 + 1; omega

/-! ### Clearing a block -/

def nullG (g : G E) (b : Nat) : G E := { g with blk := upd g.blk b none }

theorem HInv.null {x : Prod} {g : G E} (hi : HInv x g) {b en : Nat} (hb : g.blk b ≠ none)
    (he : en = ent x g b) : HInv (valP x en none) (nullG g b) := by
  have hent : ∀ b', ent (valP x en none) (nullG g b) b' = ent x g b' := fun _ => rfl
  have hc := hi.capPos x.cur (Nat.le_refl _)
  have hblk : ∀ b', (nullG g b).blk b' ≠ none → b' ≠ b ∧ g.blk b' ≠ none := by
    intro b' h1
    have h3 : upd g.blk b none b' ≠ none := h1
    by_cases h2 : b' = b
    · subst h2; rw [upd_same] at h3; exact absurd rfl h3
    · rw [upd_ne _ _ h2] at h3; exact ⟨h2, h3⟩
  have hkey : ∀ en', ((valP x en none).ents en').key = (x.ents en').key :=
    fun en' => upd_field Ent.key x.ents en { x.ents en with value := some none } rfl en'
  refine ⟨hi.capPos, hi.next, hi.tailOf, hi.cntLe, hi.cntOld, hi.cntNow, hi.inj, hi.bound, ?_, ?_,
    ?_, ?_, ?_, ?_, hi.mn⟩
  · intro en' hen
    have : en' ≠ en := by
      rintro rfl
      rw [he] at hen
      have := hi.bound _ (ring_lt hc (b := b) (g := g))
      exact absurd hen (Nat.not_le.mpr this)
    show upd x.ents en _ en' = newEnt
    rw [upd_ne _ _ this]
    exact hi.unused en' hen
  · intro h b0 b' hh h1 h2 h3
    exact hi.rings h b0 b' hh (hblk b0 h1).2 h2 h3
  · intro b0 b' h1 h2 h3
    rw [hent, hkey]
    exact hi.keys b0 b' (hblk b0 h1).2 h2 h3
  · intro b' h1; exact hi.win b' (hblk b' h1).2
  · intro b' y hb'
    have h1 : (nullG g b).blk b' ≠ none := by rw [hb']; simp
    obtain ⟨h2, h3⟩ := hblk b' h1
    have h4 : g.blk b' = some y := by
      have h5 : upd g.blk b none b' = some y := hb'
      rwa [upd_ne _ _ h2] at h5
    rw [hent]
    show (upd x.ents en _ (ent x g b')).value = some (some y)
    have h5 : ent x g b' ≠ en := by rw [he]; exact hi.ent_ne h3 (.inl hb) h2
    rw [upd_ne _ _ h5]
    exact hi.val b' y h4
  · intro en' hk'
    rw [hkey] at hk'
    show (upd x.ents en _ en').value ≠ none ∨ _
    by_cases h1 : en' = en
    · subst h1; left; rw [upd_same]; simp
    · rw [upd_ne _ _ h1]; exact hi.wrote en' hk'

end Verif.LinkedQueue
