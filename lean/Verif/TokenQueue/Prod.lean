import Verif.TokenQueue.ProdMem
/-!
# The producer keeps the invariants
-/
namespace Verif.TokenQueue

variable {E : Type} {c : Cfg} {g : G E} {s s' : Sys E} {own : Nat → Own} {fate : Nat → Fate}

/-- What the producer leaves as it is for the consumers. -/
structure Ext (g g' : G E) (s s' : Core E) : Prop where
  head : s'.head = s.head
  moved : s'.moved = s.moved
  done : s'.done = s.done
  hdrs : s.hdrs ≤ s'.hdrs
  off : ∀ h, h < s.hdrs → g'.off h = g.off h
  size : ∀ h, h < s.hdrs → (s'.hdr h).size = (s.hdr h).size
  nf : ∀ h, h < s.hdrs → g.nf h ≤ g'.nf h
  bk : ∀ n, n < g.mid → g'.bk n = g.bk n
  vals : ∃ e, g'.vals = g.vals ++ e

theorem take_drop_append {l e : List E} {f n : Nat} (h : f + n ≤ l.length) :
    ((l ++ e).drop f).take n = (l.drop f).take n := by
  rw [List.drop_append, List.take_append, List.length_drop, show n - (l.length - f) = 0 by omega, List.take_zero,
    List.append_nil]

variable {g' : G E} {log log' : List (Rec E)} {t : Nat}

theorem Cl.ext {cs cs' : Core E} {k : Call} {f i0 i e : Nat} {acc : List E}
    (h : Cl g cs own log t k f i0 i e acc) (x : Ext g g' cs cs') (m : Mem c g cs)
    (hl : log.length ≤ log'.length) (hlog : ∀ r, r < log.length → log'[r]? = log[r]?) :
    Cl g' cs' own log' t k f i0 i e acc := by
  have h1 := h.eh
  have h2 := m.le
  have h3 := m.tailLe
  have h4 := h.fi
  have h5 := h.ii
  have h6 := h.ie
  obtain ⟨ex, hex⟩ := x.vals
  exact
    { h with
      eh := by rw [x.head]; exact h.eh
      own := by rw [x.head]; exact h.own
      undone := by rw [x.done]; exact h.undone
      unmoved := by rw [x.moved]; exact h.unmoved
      isMoved := by rw [x.moved]; exact h.isMoved
      acc := by rw [hex, take_drop_append (by omega)]; exact h.acc
      before := fun r hr k' f' l' he => h.before r hr k' f' l' (by
        rw [← hlog r (Nat.lt_of_lt_of_le hr h.bf)]; exact he)
      bf := Nat.le_trans h.bf hl }

theorem CInv.ext {cs cs' : Core E} {p : DPos E} (h : CInv c g cs own log t p) (x : Ext g g' cs cs')
    (m : Mem c g cs) (hl : log.length ≤ log'.length) (hlog : ∀ r, r < log.length → log'[r]? = log[r]?) :
    CInv c g' cs' own log' t p := by
  have hfree : Free cs own t → Free cs' own t := by
    intro hf; unfold Free; rw [x.head]; exact hf
  have hnf : ∀ {h n}, h < cs.hdrs → n ≤ g.nf h * c.B → n ≤ g'.nf h * c.B := fun {h n} h1 h2 =>
    Nat.le_trans h2 (Nat.mul_le_mul_right _ (x.nf h h1))
  have hbk : ∀ {k f i0 i e acc}, Cl g cs own log t k f i0 i e acc → i0 < e → g'.bk (i0 / c.B) = g.bk (i0 / c.B) := by
    intro k f i0 i e acc hc hlt
    apply x.bk
    rw [div_lt_iff c.posB]
    have h1 := hc.eh
    have h2 := m.le
    have h3 := m.tailLe
    have h4 := m.valsLe
    omega
  cases p with
  | idle => exact hfree h
  | tl k => exact ⟨hfree h.1, Nat.le_trans h.2 hl⟩
  | ov k T => exact ⟨hfree h.1, Nat.le_trans h.2 hl⟩
  | op k T o => exact ⟨hfree h.1, Nat.le_trans h.2 hl⟩
  | inc k d o => exact ⟨hfree h.1, Nat.le_trans h.2.1 hl, h.2.2⟩
  | again k m d o => exact ⟨hfree h.1, Nat.le_trans h.2.1 hl, h.2.2⟩
  | short k a r => exact ⟨hfree h.1, Nat.le_trans h.2.1 hl, h.2.2⟩
  | miss k d => exact ⟨hfree h.1, Nat.le_trans h.2 hl⟩
  | head k a => exact ⟨hfree h.1, Nat.le_trans h.2.1 hl, h.2.2⟩
  | idx k f a => exact Cl.ext h x m hl hlog
  | frt k f a hh =>
    obtain ⟨h1, h2, h3⟩ := h
    exact ⟨h1.ext x m hl hlog, Nat.lt_of_lt_of_le h2 x.hdrs, hnf h2 h3⟩
  | bas k f a hh p =>
    obtain ⟨h1, h2, h3, n, h4, h5, h6⟩ := h
    refine ⟨h1.ext x m hl hlog, Nat.lt_of_lt_of_le h2 x.hdrs, hnf h2 h3, n, h4,
      Nat.lt_of_lt_of_le h5 (x.nf hh h2), ?_⟩
    rw [x.off hh h2, x.size hh h2]; exact h6
  | blk k f e hh p i acc =>
    obtain ⟨h1, h2, h3, h4, h5⟩ := h
    refine ⟨h1.ext x m hl hlog, h2, Nat.lt_of_lt_of_le h3 x.hdrs, hnf h3 h4, ?_⟩
    rw [x.off hh h3, x.size hh h3]; exact h5
  | mv k f e hh p b i0 i acc =>
    obtain ⟨h1, h2, h3, h4, h5, h6⟩ := h
    have hlt : i0 < e := by
      have h7 := h1.ii
      have h8 : stop c i0 e ≤ e := Nat.min_le_left _ _
      omega
    refine ⟨h1.ext x m hl hlog, h2, Nat.lt_of_lt_of_le h3 x.hdrs, hnf h3 h4, ?_, ?_⟩
    · rw [x.off hh h3, x.size hh h3]; exact h5
    · rw [hbk h1 hlt]; exact h6
  | mark k f e hh p b i0 i acc =>
    obtain ⟨h1, h7, h2, h3, h4, h5, h6⟩ := h
    have hlt : i0 < e := by
      have h8 := h1.ie
      omega
    refine ⟨h1.ext x m hl hlog, h7, h2, Nat.lt_of_lt_of_le h3 x.hdrs, hnf h3 h4, ?_, ?_⟩
    · rw [x.off hh h3, x.size hh h3]; exact h5
    · rw [hbk h1 hlt]; exact h6

theorem take_same (hlog : ∀ r, r < log.length → log'[r]? = log[r]?) {r : Nat} (hr : r ≤ log.length) :
    log'.take r = log.take r := by
  apply List.ext_getElem?
  intro i
  rw [List.getElem?_take, List.getElem?_take]
  split
  · exact hlog i (by omega)
  · rfl

theorem LInv.ext {cs cs' : Core E} (h : LInv g cs own log) (x : Ext g g' cs cs') (m : Mem c g cs)
    (hlog : ∀ r, r < log.length → log'[r]? = log[r]?)
    (hnew : ∀ r k f l, log'[r]? = some (.deq k f l) → r < log.length)
    (htail : cs'.tail = (sent log').length) (hvals : ∃ ext, g'.vals = sent log' ++ ext) :
    LInv g' cs' own log' where
  tail := htail
  vals := hvals
  recs := by
    intro r k f l he
    have hr := hnew r k f l he
    rw [hlog r hr] at he
    obtain ⟨h1, h2, h3, h4, h5, h6⟩ := h.recs r k f l he
    have h7 := m.le
    have h8 := m.tailLe
    obtain ⟨ex, hex⟩ := x.vals
    refine ⟨by rw [x.head]; exact h1, h2, ?_, by rw [x.head]; exact h4, h5, ?_⟩
    · rw [hex, take_drop_append (by omega)]; exact h3
    · intro r' hr' k' f' l' he'
      rw [hlog r' (by omega)] at he'
      exact h6 r' hr' k' f' l' he'
  owned := by
    intro j hj r he
    rw [x.head] at hj
    obtain ⟨k, f, l, h1⟩ := h.owned j hj r he
    have hr : r < log.length := by
      apply Nat.lt_of_not_le
      intro hc
      rw [List.getElem?_eq_none hc] at h1; cases h1
    exact ⟨k, f, l, by rw [hlog r hr]; exact h1⟩
  since := by
    intro r k f l he
    have hr := hnew r k f l he
    rw [hlog r hr] at he
    rw [take_same hlog (Nat.le_of_lt hr)]
    exact h.since r k f l he

/-- A step of the producer that ends no call. -/
theorem inv_quiet (h : Inv c g own fate s) (hm : Mem c g' s'.core) (hp : PInv c g' s'.pc (sent s'.log) s'.pp)
    (x : Ext g g' s.core s'.core) (e1 : s'.tail = s.tail) (e2 : s'.head = s.head) (e3 : s'.opt = s.opt)
    (e4 : s'.over = s.over) (e5 : s'.pos = s.pos) (e6 : s'.log = s.log) (e7 : s'.bad = s.bad) :
    Inv c g' own fate s' where
  mem := hm
  prod := hp
  tk := by rw [e1, e2, e3, e4, e5]; exact h.tk
  cons t := by rw [e5, e6]; exact (h.cons t).ext x h.mem (Nat.le_refl _) (fun _ _ => rfl)
  log := by
    rw [e6]
    refine h.log.ext x h.mem (fun _ _ => rfl) (fun r k f l he => ?_) ?_ ?_
    · apply Nat.lt_of_not_le
      intro hc
      rw [List.getElem?_eq_none hc] at he; cases he
    · show s'.tail = _
      rw [e1]; exact h.log.tail
    · obtain ⟨e, he⟩ := x.vals
      obtain ⟨e', he'⟩ := h.log.vals
      exact ⟨e' ++ e, by rw [he, he', List.append_assoc]⟩
  bad := by rw [e7]; exact h.bad

/-- The end of a call of the producer. -/
theorem inv_end (h : Inv c g own fate s) {r : Rec E} (hr : ∀ k f l, r ≠ .deq k f l)
    (hm : Mem c g' s'.core) (hp : PInv c g' s'.pc (sent s'.log) s'.pp)
    (x : Ext g g' s.core s'.core) (e1 : s'.tail = s.tail + r.sent.length) (e2 : s'.head = s.head)
    (e3 : s'.opt = s.opt) (e4 : s'.over = s.over) (e5 : s'.pos = s.pos) (e6 : s'.log = s.log ++ [r])
    (e7 : s'.bad = s.bad) (hv : g'.vals = sent s'.log) : Inv c g' own fate s' where
  mem := hm
  prod := hp
  tk := by rw [e1, e2, e3, e4, e5]; exact h.tk.tail_le (by omega)
  cons t := by
    rw [e5, e6]
    refine (h.cons t).ext x h.mem ?_ (fun r hr => List.getElem?_append_left hr)
    rw [List.length_append]; omega
  log := by
    rw [e6] at hv ⊢
    have hs : sent (s.log ++ [r]) = sent s.log ++ r.sent := by
      unfold sent; rw [List.flatMap_append]; simp
    refine h.log.ext x h.mem (fun r hr => List.getElem?_append_left hr) (fun r' k f l he => ?_) ?_ ?_
    · apply Nat.lt_of_not_le
      intro hc
      rw [List.getElem?_append_right hc] at he
      cases hd : r' - s.log.length with
      | zero =>
        rw [hd] at he
        exact hr k f l (by simpa using he)
      | succ n => rw [hd] at he; simp at he
    · show s'.tail = _
      have h1 : s.tail = (sent s.log).length := h.log.tail
      rw [e1, hs, List.length_append, h1]
    · exact ⟨[], by rw [hv, List.append_nil]⟩
  bad := by rw [e7]; exact h.bad

theorem Ext.refl (g : G E) (s : Core E) : Ext g g s s :=
  ⟨rfl, rfl, rfl, Nat.le_refl _, fun _ _ => rfl, fun _ _ => rfl, fun _ _ => Nat.le_refl _, fun _ _ => rfl,
    ⟨[], (List.append_nil _).symm⟩⟩

theorem upd_size {hdr : Nat → Hdr} {hd : Nat} {v : Hdr} (hv : v.size = (hdr hd).size) (h : Nat) :
    (upd hdr hd v h).size = (hdr h).size := by
  by_cases e : h = hd
  · subst e; rw [upd_self]; exact hv
  · rw [upd_ne e]

theorem sent_enq_false (log : List (Rec E)) (x : E) : sent (log ++ [.enq x false]) = sent log := by
  unfold sent; rw [List.flatMap_append]; simp [Rec.sent]

theorem sent_bulk_false (log : List (Rec E)) (l : List E) : sent (log ++ [.bulk l false]) = sent log := by
  unfold sent; rw [List.flatMap_append]; simp [Rec.sent]

theorem sent_enq_true (log : List (Rec E)) (x : E) : sent (log ++ [.enq x true]) = sent log ++ [x] := by
  unfold sent; rw [List.flatMap_append]; simp [Rec.sent]

theorem sent_bulk_true (log : List (Rec E)) (l : List E) : sent (log ++ [.bulk l true]) = sent log ++ l := by
  unfold sent; rw [List.flatMap_append]; simp [Rec.sent]

/-- There is an index when there are numbers. -/
theorem Mem.has_cur {s : Core E} (h : Mem c g s) (hp : 0 < g.hi) : ∃ hd, s.cur = some hd := by
  cases hc : s.cur with
  | none => have := h.none hc; omega
  | some hd => exact ⟨hd, rfl⟩

theorem tail_eq {B tl : Nat} (h : tl % B = 0) : tl / B * B = tl := by
  have := Nat.div_add_mod tl B
  rw [h, Nat.mul_comm] at this; exact this

/-- The first block of the circle is the one after the tail block. -/
theorem Mem.first (h : Mem c g s.core) {t : Nat} (ht : s.tb = some t) :
    ∃ l, g.ring = s.next t :: l := by
  have htb : s.tb = g.ring.getLast? := h.tb
  cases hr : g.ring with
  | nil => rw [hr, ht] at htb; cases htb
  | cons x l =>
    refine ⟨l, ?_⟩
    have h1 : Ring s.next (x :: l) := by rw [← hr]; exact h.ring
    rw [Ring.next_last h1 (by rw [← hr, ← htb, ht])]

/-- The block for one element is there. -/
theorem prod_chk (h : Inv c g own fate s) {can : Bool} {x : E} (hpp : s.pp = .chk can x)
    {t : Nat} (ht : s.tb = some t) (he : (s.blk (s.next t)).empty c = true) :
    ∃ g', Inv c g' own fate
      { putEntry { s with tb := some (s.next t), blk := upd s.blk (s.next t) ((s.blk (s.next t)).setAll false) }
          s.tail (s.next t) with pp := .fr s.front x } := by
  obtain ⟨hr, hmod⟩ : Rest c g s.pc (sent s.log) ∧ s.tail % c.B = 0 := by
    have := h.prod; rw [hpp] at this; exact this
  have hm := h.mem
  obtain ⟨l, hl⟩ := hm.first ht
  have hpos : 0 < g.hi := by
    apply Nat.pos_of_ne_zero
    intro e
    rw [hm.zero.1 e] at hl; cases hl
  obtain ⟨hd, hc⟩ := hm.has_cur hpos
  have hc' : s.cur = some hd := hc
  have hr1 : g.spares ++ (span g.lo g.mid).map g.bk = s.next t :: l := by rw [hr.mid]; exact hl
  obtain ⟨sp, lo, h1, h2, h3, h4, h5, h6⟩ := peel hm hr1 he
  have hrot := mem_rotate hm hc' hr1 h1 h2 h3 h4 h5 h6 he
  have htl : g.hi * c.B = s.tail := by
    have e : g.hi = ceil c.B s.tail := hr.hi
    rw [ceil_div c.posB hmod] at e
    rw [e]; exact tail_eq hmod
  have hdiv : s.tail / c.B = g.hi := by rw [hr.hi]; exact (ceil_div c.posB hmod).symm
  rw [htl, putEntry_some (by exact hc')] at hrot
  rw [putEntry_some (by exact hc')]
  have hopen := mem_open hrot (blk := upd s.blk (s.next t) ((s.blk (s.next t)).setAll false))
    (fun b hb => upd_ne (fun e => hb (by
      show b ∈ (span g.mid (g.hi + 1)).map (upd g.bk g.hi (s.next t))
      rw [e]
      refine List.mem_map.2 ⟨g.hi, mem_span.2 ⟨hm.mh, Nat.lt_succ_self _⟩, upd_self _ _ _⟩)))
    (fun b hb => by
      obtain ⟨n, hn1, hn2⟩ := List.mem_map.1 hb
      have hn3 : g.mid ≤ n ∧ n < g.hi + 1 := mem_span.1 hn1
      have hn4 : n = g.hi := by have := hr.mid; omega
      subst hn4
      have : b = s.next t := by rw [← hn2]; exact upd_self _ _ _
      subst this
      exact upd_self _ _ _)
  have hcur := hm.cur hd hc
  refine ⟨_, inv_quiet h hopen ?_ ?_ rfl rfl rfl rfl rfl rfl rfl⟩
  · refine ⟨⟨rfl, ?_, hr.vals⟩, hd, hc', ?_⟩
    · show g.hi + 1 = s.tail / c.B + 1
      rw [hdiv]
    · exact hcur.2.2.1
  · exact
      { head := rfl, moved := rfl, done := rfl, hdrs := Nat.le_refl _, off := fun _ _ => rfl
        size := fun h' _ => upd_size (by rfl) h'
        nf := fun _ _ => Nat.le_refl _
        bk := fun n hn => upd_ne (by have := hr.mid; omega)
        vals := ⟨[], (List.append_nil _).symm⟩ }

/-- A block from the pool for one element. -/
theorem prod_take (h : Inv c g own fate s) {can : Bool} {x : E} (hpp : s.pp = .take can x) :
    ∃ g', Inv c g' own fate { putEntry (link s false) s.tail s.made with pp := .fr s.front x } := by
  obtain ⟨hr, hmod, hlt, hd, hc⟩ : Rest c g s.pc (sent s.log) ∧ s.tail % c.B = 0 ∧ s.slots < s.size ∧
      ∃ hd, s.cur = some hd := by
    have := h.prod; rw [hpp] at this; exact this
  have hm := h.mem
  have hdiv : s.tail / c.B = g.hi := by rw [hr.hi]; exact (ceil_div c.posB hmod).symm
  have htl : g.hi * c.B = s.tail := by rw [← hdiv]; exact tail_eq hmod
  have hlink := mem_link hm hc hlt
  rw [htl, putEntry_some (by exact hc)] at hlink
  rw [putEntry_some (by exact hc)]
  have hopen := mem_open hlink (blk := upd s.blk s.made ((s.blk s.made).setAll false))
    (fun b hb => by
      have hne : b ≠ s.made := fun e => hb (by
        show b ∈ (span g.mid (g.hi + 1)).map (upd g.bk g.hi s.made)
        rw [e]
        exact List.mem_map.2 ⟨g.hi, mem_span.2 ⟨hm.mh, Nat.lt_succ_self _⟩, upd_self _ _ _⟩)
      show _ = upd s.blk s.made _ b
      rw [upd_ne hne, upd_ne hne])
    (fun b hb => by
      obtain ⟨n, hn1, hn2⟩ := List.mem_map.1 hb
      have hn3 : g.mid ≤ n ∧ n < g.hi + 1 := mem_span.1 hn1
      have hn4 : n = g.hi := by have := hr.mid; omega
      subst hn4
      have : b = s.made := by rw [← hn2]; exact upd_self _ _ _
      subst this
      show _ = (upd s.blk s.made _ s.made).setAll false
      rw [upd_self, upd_self]; rfl)
  have hcur := hm.cur hd hc
  refine ⟨_, inv_quiet h hopen ?_ ?_ rfl rfl rfl rfl rfl rfl rfl⟩
  · refine ⟨⟨rfl, ?_, hr.vals⟩, hd, hc, ?_⟩
    · show g.hi + 1 = s.tail / c.B + 1
      rw [hdiv]
    · exact hcur.2.2.1
  · exact
      { head := rfl, moved := rfl, done := rfl, hdrs := Nat.le_refl _, off := fun _ _ => rfl
        size := fun h' _ => upd_size (by rfl) h'
        nf := fun _ _ => Nat.le_refl _
        bk := fun n hn => upd_ne (by have := hr.mid; omega)
        vals := ⟨[], (List.append_nil _).symm⟩ }

/-- A new block index leaves the old ones alone. -/
theorem ext_grown {ex : Nat} : Ext g (g.grown s ex) s.core (newIndex s ex).core where
  head := rfl
  moved := rfl
  done := rfl
  hdrs := Nat.le_succ _
  off h hl := upd_ne (by have : h < s.hdrs := hl; omega)
  size h hl := by
    show (upd s.hdr s.hdrs _ h).size = _
    rw [upd_ne (by have : h < s.hdrs := hl; omega)]; rfl
  nf h hl := by
    show g.nf h ≤ upd g.nf s.hdrs _ h
    rw [upd_ne (by have : h < s.hdrs := hl; omega)]; exact Nat.le_refl _
  bk _ _ := rfl
  vals := ⟨[], (List.append_nil _).symm⟩

theorem prod_grow (h : Inv c g own fate s) {can : Bool} {x : E} (hpp : s.pp = .grow can x) :
    ∃ g', Inv c g' own fate { newIndex s s.slots with pp := .take can x } := by
  obtain ⟨hr, hmod⟩ : Rest c g s.pc (sent s.log) ∧ s.tail % c.B = 0 := by
    have := h.prod; rw [hpp] at this; exact this
  have hm := h.mem
  have hsl : s.slots = g.ring.length := hm.slots
  have ht : s.tail ≤ g.hi * c.B := by
    have h1 : s.tail ≤ g.vals.length := hm.tailLe
    have h2 := hm.valsLe
    rw [hr.mid] at h2
    omega
  have hz : s.slots = 0 ↔ g.hi = 0 := by rw [hsl, hm.zero, List.length_eq_zero_iff]
  have hnew := mem_newIndex hm (ex := s.slots) (Nat.le_refl _)
    (fun e => by rw [hz.1 e, Nat.zero_mul] at ht; omega)
    (fun e => ⟨by have : g.hi ≠ 0 := fun e2 => e (hz.2 e2)
                  omega, by rw [Nat.add_sub_cancel]; exact ht⟩)
  refine ⟨_, inv_quiet h hnew ⟨⟨hr.mid, hr.hi, hr.vals⟩, hmod, ?_, s.hdrs, rfl⟩ ext_grown rfl rfl rfl rfl rfl rfl rfl⟩
  have h1 : s.slots ≤ s.size := hm.size
  have h2 : 0 < s.size := hm.pos
  show s.slots < 2 * s.size
  omega

theorem prod_fr (h : Inv c g own fate s) {f : Nat} {x : E} (hpp : s.pp = .fr f x) :
    ∃ g', Inv c g' own fate { putFront s f with pp := .put x } := by
  obtain ⟨ho, hd, hc, hf⟩ : One c g s.pc (sent s.log) ∧ ∃ hd, s.cur = some hd ∧
      f = posOf (g.off hd) s.size (g.hi - 1) := by
    have := h.prod; rw [hpp] at this; exact this
  have hm := h.mem
  have hhi : g.hi = s.tail / c.B + 1 := ho.hi
  have hnew := mem_front hm hc (by rw [hhi]; exact Nat.succ_pos _)
  rw [← hf] at hnew
  rw [putFront_some hc] at hnew ⊢
  refine ⟨_, inv_quiet h hnew ⟨⟨ho.mid, ho.hi, ho.vals⟩, hd, hc, ?_⟩ ?_ rfl rfl rfl rfl rfl rfl rfl⟩
  · show s.tail < upd g.nf hd g.hi hd * c.B
    rw [upd_self, ← div_lt_iff c.posB, hhi]; exact Nat.lt_succ_self _
  · exact
      { head := rfl, moved := rfl, done := rfl, hdrs := Nat.le_refl _, off := fun _ _ => rfl
        size := fun h' _ => upd_size (by rfl) h'
        nf := fun h' hl' => by
          show g.nf h' ≤ upd g.nf hd g.hi h'
          by_cases e : h' = hd
          · subst e; rw [upd_self]; exact Nat.le_trans (hm.nfTop _ hl') (hm.topHi _ hl')
          · rw [upd_ne e]; exact Nat.le_refl _
        bk := fun _ _ => rfl
        vals := ⟨[], (List.append_nil _).symm⟩ }

theorem prod_put (h : Inv c g own fate s) {x : E} (hpp : s.pp = .put x) :
    ∃ b, s.tb = some b ∧ ∃ g', Inv c g' own fate
      { s with blk := setSlot s.blk b (s.tail % c.B) (some x), pp := .pub x } := by
  obtain ⟨ho, hpub⟩ : One c g s.pc (sent s.log) ∧ Pub c g s.pc s.tail := by
    have := h.prod; rw [hpp] at this; exact this
  have hm := h.mem
  have hhi : g.hi = s.tail / c.B + 1 := ho.hi
  have hlo : g.lo ≤ s.tail / c.B := (lt_div_iff c.posB).2 hm.lo_tail
  have htl : s.tail = g.vals.length := by
    have h1 : s.tail = (sent s.log).length := h.log.tail
    rw [h1, ho.vals]
  have htb : s.tb = some (g.bk (g.hi - 1)) := hm.last (by omega)
  rw [hhi, Nat.add_sub_cancel] at htb
  refine ⟨_, htb, ?_⟩
  have hnew := mem_put hm (x := x) htl (by rw [ho.mid, ← div_lt_iff c.posB, hhi]; exact Nat.lt_succ_self _)
  refine ⟨_, inv_quiet h hnew ⟨⟨ho.mid, ho.hi, ?_⟩, hpub⟩ ?_ rfl rfl rfl rfl rfl rfl rfl⟩
  · show g.vals ++ [x] = _
    rw [ho.vals]
  · exact { Ext.refl g s.core with vals := ⟨[x], rfl⟩ }

theorem prod_pub (h : Inv c g own fate s) {x : E} (hpp : s.pp = .pub x) :
    ∃ g', Inv c g' own fate { s.ends (.enq x true) with tail := s.tail + 1 } := by
  obtain ⟨ho, hd, hc, hlt⟩ : One c g s.pc (sent s.log ++ [x]) ∧ Pub c g s.pc s.tail := by
    have := h.prod; rw [hpp] at this; exact this
  have hm := h.mem
  have h1 : s.tail = (sent s.log).length := h.log.tail
  have hnew := mem_tail hm (n := s.tail + 1) (by omega)
    (by rw [ho.vals, List.length_append, ← h1]; exact Nat.le_refl _)
    (fun h' e => by
      have hc' : s.cur = some hd := hc
      rw [hc'] at e; cases e; exact hlt)
  refine ⟨g, inv_end h (r := .enq x true) (fun k f l e => nomatch e) hnew ⟨ho.mid, ?_, ?_⟩
    { Ext.refl g s.core with } rfl rfl rfl rfl rfl rfl rfl ?_⟩
  · show g.hi = ceil c.B (s.tail + 1)
    rw [ceil_succ c.posB]; exact ho.hi
  · show g.vals = sent (s.log ++ [.enq x true])
    rw [sent_enq_true]; exact ho.vals
  · show g.vals = sent (s.log ++ [.enq x true])
    rw [sent_enq_true]; exact ho.vals

end Verif.TokenQueue
