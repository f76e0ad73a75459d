import Verif.TokenQueue.ProdBulk
/-!
# The consumers keep the invariants
-/
namespace Verif.TokenQueue

variable {E : Type} {c : Cfg} {g : G E} {s s' : Sys E} {own own' : Nat → Own} {fate fate' : Nat → Fate}
  {log log' : List (Rec E)}

/-- What a step of another consumer leaves as it is for thread `t`. -/
structure Keep (own own' : Nat → Own) (s s' : Core E) (t : Nat) : Prop where
  head : s.head ≤ s'.head
  old : ∀ j, j < s.head → (own' j = .run t ↔ own j = .run t)
  new : ∀ j, s.head ≤ j → j < s'.head → own' j ≠ .run t
  moved : ∀ j, j < s.head → own j = .run t → s'.moved j = s.moved j
  done : ∀ j, j < s.head → own j = .run t → s'.done j = s.done j
  hdrs : s'.hdrs = s.hdrs
  hdr : s'.hdr = s.hdr

theorem Keep.refl (own : Nat → Own) (s : Core E) (t : Nat) : Keep own own s s t :=
  ⟨Nat.le_refl _, fun _ _ => Iff.rfl, fun _ h1 h2 => absurd h1 (Nat.not_le_of_lt h2), fun _ _ _ => rfl,
    fun _ _ _ => rfl, rfl, rfl⟩

variable {t : Nat}

theorem Cl.keep {cs cs' : Core E} {k : Call} {f i0 i e : Nat} {acc : List E}
    (h : Cl g cs own log t k f i0 i e acc) (x : Keep own own' cs cs' t)
    (hl : log.length ≤ log'.length) (hlog : ∀ r, r < log.length → log'[r]? = log[r]?) :
    Cl g cs' own' log' t k f i0 i e acc := by
  have heh := h.eh
  have h1 := h.fi
  have h2 := h.ii
  have hmine : ∀ j, f ≤ j → j < e → j < cs.head ∧ own j = .run t := fun j h3 h4 =>
    ⟨by omega, (h.own j (by omega)).2 ⟨h3, h4⟩⟩
  exact
    { h with
      eh := Nat.le_trans h.eh x.head
      own := by
        intro j hj
        by_cases hlt : j < cs.head
        · rw [x.old j hlt]; exact h.own j hlt
        · constructor
          · intro e2; exact absurd e2 (x.new j (by omega) hj)
          · intro e2; omega
      undone := by
        intro j h3 h4
        have := hmine j (by omega) h4
        rw [x.done j this.1 this.2]; exact h.undone j h3 h4
      unmoved := by
        intro j h3 h4
        have := hmine j (by omega) h4
        rw [x.moved j this.1 this.2]; exact h.unmoved j h3 h4
      isMoved := by
        intro j h3 h4
        have h5 := h.ie
        have := hmine j (by omega) (by omega)
        rw [x.moved j this.1 this.2]; exact h.isMoved j h3 h4
      before := fun r hr k' f' l' he => h.before r hr k' f' l' (by
        rw [← hlog r (Nat.lt_of_lt_of_le hr h.bf)]; exact he)
      bf := Nat.le_trans h.bf hl }

theorem CInv.keep {cs cs' : Core E} {p : DPos E} (h : CInv c g cs own log t p) (x : Keep own own' cs cs' t)
    (hl : log.length ≤ log'.length) (hlog : ∀ r, r < log.length → log'[r]? = log[r]?) :
    CInv c g cs' own' log' t p := by
  have hfree : Free cs own t → Free cs' own' t := by
    intro hf j hj
    by_cases hlt : j < cs.head
    · rw [Ne, x.old j hlt]; exact hf j hlt
    · exact x.new j (by omega) hj
  cases p with
  | idle => exact hfree h
  | tl k => exact ⟨hfree h.1, Nat.le_trans h.2 hl⟩
  | ov k T => exact ⟨hfree h.1, Nat.le_trans h.2 hl⟩
  | op k T o => exact ⟨hfree h.1, Nat.le_trans h.2 hl⟩
  | inc k d o => exact ⟨hfree h.1, Nat.le_trans h.2.1 hl, h.2.2⟩
  | again k m d o => exact ⟨hfree h.1, Nat.le_trans h.2.1 hl, h.2.2⟩
  | short k a r => exact ⟨hfree h.1, Nat.le_trans h.2.1 hl, h.2.2⟩
  | miss k d => exact ⟨hfree h.1, Nat.le_trans h.2 hl⟩
  | head k a => exact ⟨hfree h.1, Nat.le_trans h.2.1 hl, h.2.2⟩
  | idx k f a => exact Cl.keep h x hl hlog
  | frt k f a hh => exact ⟨h.1.keep x hl hlog, by rw [x.hdrs]; exact h.2.1, h.2.2⟩
  | bas k f a hh p =>
    refine ⟨h.1.keep x hl hlog, by rw [x.hdrs]; exact h.2.1, h.2.2.1, ?_⟩
    rw [x.hdr]; exact h.2.2.2
  | blk k f e hh p i acc =>
    refine ⟨h.1.keep x hl hlog, h.2.1, by rw [x.hdrs]; exact h.2.2.1, h.2.2.2.1, ?_⟩
    rw [x.hdr]; exact h.2.2.2.2
  | mv k f e hh p b i0 i acc =>
    refine ⟨h.1.keep x hl hlog, h.2.1, by rw [x.hdrs]; exact h.2.2.1, h.2.2.2.1, ?_⟩
    rw [x.hdr]; exact h.2.2.2.2
  | mark k f e hh p b i0 i acc =>
    refine ⟨h.1.keep x hl hlog, h.2.1, h.2.2.1, by rw [x.hdrs]; exact h.2.2.2.1, h.2.2.2.2.1, ?_⟩
    rw [x.hdr]; exact h.2.2.2.2.2

/-- A step of consumer `t` that ends no call. -/
theorem inv_go (h : Inv c g own fate s) {p : DPos E} (hm : Mem c g s'.core)
    (htk : Tk s'.tail s'.head s'.opt s'.over s'.pos fate') (e1 : s'.pos = upd s.pos t p)
    (e2 : s'.log = s.log) (e3 : s'.pc = s.pc) (e4 : s'.pp = s.pp) (e5 : s'.bad = s.bad)
    (hp : CInv c g s'.core own' s.log t p) (hx : ∀ t', t' ≠ t → Keep own own' s.core s'.core t')
    (hl : LInv g s'.core own' s.log) : Inv c g own' fate' s' where
  mem := hm
  prod := by rw [e2, e3, e4]; exact h.prod
  tk := htk
  cons t' := by
    rw [e1, e2]
    by_cases e : t' = t
    · subst e; rw [upd_self]; exact hp
    · rw [upd_ne e]
      exact (h.cons t').keep (hx t' e) (Nat.le_refl _) (fun _ _ => rfl)
  log := by rw [e2]; exact hl
  bad := by rw [e5]; exact h.bad

/-- A step that changes only the position, and the counts. -/
theorem inv_move (h : Inv c g own fate s) {p : DPos E} (hc : s'.core = s.core)
    (htk : Tk s'.tail s'.head s'.opt s'.over s'.pos fate') (e1 : s'.pos = upd s.pos t p)
    (e2 : s'.log = s.log) (e4 : s'.pp = s.pp) (e5 : s'.bad = s.bad)
    (hp : CInv c g s.core own s.log t p) : Inv c g own fate' s' := by
  have e3 : s'.pc = s.pc := by
    have h1 : s'.pc = ⟨s'.core.tail, s'.core.cur, s'.core.tb, s'.core.slots, s'.core.size, s'.core.hdrs⟩ := rfl
    rw [h1, hc]; rfl
  refine inv_go h (by rw [hc]; exact h.mem) htk e1 e2 e3 e4 e5 (by rw [hc]; exact hp) ?_ (by rw [hc]; exact h.log)
  intro t' _
  rw [hc]; exact Keep.refl _ _ _

theorem sent_deq (log : List (Rec E)) (k : Call) (f : Nat) (l : List E) : sent (log ++ [.deq k f l]) = sent log := by
  unfold sent; rw [List.flatMap_append]; simp [Rec.sent]

theorem lookup_lt {r : Nat} {a : Rec E} (h : log[r]? = some a) : r < log.length := by
  apply Nat.lt_of_not_le
  intro hc
  rw [List.getElem?_eq_none hc] at h; cases h

/-- No element belongs to a call that has not ended. -/
theorem LInv.fresh {cs : Core E} (h : LInv g cs own log) {j : Nat} (hj : j < cs.head) : own j ≠ .call log.length := by
  intro e
  obtain ⟨k, f, l, h1⟩ := h.owned j hj _ e
  exact absurd (lookup_lt h1) (Nat.lt_irrefl _)

/-- Who has the elements when a call has ended. -/
def ended (own : Nat → Own) (f e r : Nat) : Nat → Own := fun j => if f ≤ j ∧ j < e then .call r else own j

theorem ended_in {f e r j : Nat} (h1 : f ≤ j) (h2 : j < e) : ended own f e r j = .call r := if_pos ⟨h1, h2⟩

theorem ended_out {f e r j : Nat} (h : ¬(f ≤ j ∧ j < e)) : ended own f e r j = own j := if_neg h

theorem linv_ret {cs cs' : Core E} (h : LInv g cs own log) {k : Call} {f : Nat} {l : List E}
    (e1 : cs'.tail = cs.tail) (e2 : cs'.head = cs.head) (hle : f + l.length ≤ cs.head)
    (hht : cs.head ≤ cs.tail)
    (hmine : ∀ j, f ≤ j → j < f + l.length → own j = .run t) (hmax : l.length ≤ k.max)
    (hl : l = (g.vals.drop f).take l.length) (hbf : k.bf ≤ log.length)
    (hbefore : ∀ r, r < k.bf → ∀ k' f' l', log[r]? = some (.deq k' f' l') → f' + l'.length ≤ f) :
    LInv g cs' (ended own f (f + l.length) log.length) (log ++ [.deq k f l]) where
  tail := by rw [e1, sent_deq]; exact h.tail
  vals := by rw [sent_deq]; exact h.vals
  recs := by
    intro r k' f' l' he
    rw [e2]
    by_cases hr : r < log.length
    · rw [List.getElem?_append_left hr] at he
      obtain ⟨h1, h2, h3, h4, h5, h6⟩ := h.recs r k' f' l' he
      refine ⟨h1, h2, h3, ?_, h5, ?_⟩
      · intro j hj
        by_cases hin : f ≤ j ∧ j < f + l.length
        · rw [ended_in hin.1 hin.2]
          constructor
          · intro e; injection e with e; omega
          · intro hh
            have := (h4 j hj).2 hh
            rw [hmine j hin.1 hin.2] at this; cases this
        · rw [ended_out hin]; exact h4 j hj
      · intro r' hr' k'' f'' l'' he''
        rw [List.getElem?_append_left (by omega)] at he''
        exact h6 r' hr' k'' f'' l'' he''
    · have hr2 : r = log.length := by
        have h1 := lookup_lt he
        rw [List.length_append] at h1
        simp at h1; omega
      subst hr2
      rw [List.getElem?_append_right (Nat.le_refl _), Nat.sub_self] at he
      simp at he
      obtain ⟨rfl, rfl, rfl⟩ := he
      refine ⟨hle, hmax, hl, ?_, hbf, ?_⟩
      · intro j hj
        by_cases hin : f ≤ j ∧ j < f + l.length
        · rw [ended_in hin.1 hin.2]; exact ⟨fun _ => hin, fun _ => rfl⟩
        · rw [ended_out hin]
          exact ⟨fun e => absurd e (h.fresh hj), fun e => absurd e hin⟩
      · intro r' hr' k'' f'' l'' he''
        rw [List.getElem?_append_left (by omega)] at he''
        exact hbefore r' hr' k'' f'' l'' he''
  owned := by
    intro j hj r he
    rw [e2] at hj
    by_cases hin : f ≤ j ∧ j < f + l.length
    · rw [ended_in hin.1 hin.2] at he
      injection he with he
      subst he
      exact ⟨k, f, l, by rw [List.getElem?_append_right (Nat.le_refl _), Nat.sub_self]; rfl⟩
    · rw [ended_out hin] at he
      obtain ⟨k', f', l', h1⟩ := h.owned j hj r he
      exact ⟨k', f', l', by rw [List.getElem?_append_left (lookup_lt h1)]; exact h1⟩
  since := by
    intro r k' f' l' he
    by_cases hr : r < log.length
    · rw [List.getElem?_append_left hr] at he
      rw [List.take_append_of_le_length (Nat.le_of_lt hr)]
      exact h.since r k' f' l' he
    · have hr2 : r = log.length := by
        have h1 := lookup_lt he
        rw [List.length_append] at h1
        simp at h1; omega
      subst hr2
      rw [List.getElem?_append_right (Nat.le_refl _), Nat.sub_self] at he
      simp at he
      obtain ⟨rfl, rfl, rfl⟩ := he
      rw [List.take_append_of_le_length (Nat.le_refl _), List.take_length, ← h.tail]
      exact Nat.le_trans hle hht

/-- The end of a call of consumer `t`. -/
theorem inv_ret (h : Inv c g own fate s) {k : Call} {f : Nat} {l : List E} (hm : Mem c g s'.core)
    (htk : Tk s'.tail s'.head s'.opt s'.over s'.pos fate') (e1 : s'.pos = upd s.pos t .idle)
    (e2 : s'.log = s.log ++ [.deq k f l]) (e3 : s'.pc = s.pc) (e4 : s'.pp = s.pp) (e5 : s'.bad = s.bad)
    (e6 : s'.head = s.head) (hle : f + l.length ≤ s.head)
    (hmine : ∀ j, j < s.head → (own j = .run t ↔ f ≤ j ∧ j < f + l.length)) (hmax : l.length ≤ k.max)
    (hl : l = (g.vals.drop f).take l.length) (hbf : k.bf ≤ s.log.length)
    (hbefore : ∀ r, r < k.bf → ∀ k' f' l', s.log[r]? = some (.deq k' f' l') → f' + l'.length ≤ f)
    (hx : ∀ t', t' ≠ t → Keep own own s.core s'.core t') :
    ∃ own', Inv c g own' fate' s' := by
  have hx' : ∀ t', t' ≠ t → Keep own (ended own f (f + l.length) s.log.length) s.core s'.core t' := by
    intro t' ht
    have h1 := hx t' ht
    exact
      { h1 with
        old := by
          intro j hj
          by_cases hin : f ≤ j ∧ j < f + l.length
          · rw [ended_in hin.1 hin.2, (hmine j hj).2 hin]
            constructor
            · intro e; cases e
            · intro e; injection e with e; exact absurd e.symm ht
          · rw [ended_out hin]
        new := fun j h2 h3 => by
          have h4 : s'.core.head = s.core.head := e6
          omega }
  refine ⟨ended own f (f + l.length) s.log.length, hm, ?_, htk, ?_, ?_, ?_⟩
  · rw [e2, e3, e4, sent_deq]; exact h.prod
  · intro t'
    rw [e1, e2]
    have hll : s.log.length ≤ (s.log ++ [Rec.deq k f l]).length := by rw [List.length_append]; omega
    by_cases e : t' = t
    · subst e
      rw [upd_self]
      intro j hj
      have hj' : j < s.head := by
        have : j < s'.head := hj
        omega
      by_cases hin : f ≤ j ∧ j < f + l.length
      · rw [ended_in hin.1 hin.2]; intro e; cases e
      · rw [ended_out hin]
        intro e; exact hin ((hmine j hj').1 e)
    · rw [upd_ne e]
      exact (h.cons t').keep (hx' t' e) hll (fun r hr => List.getElem?_append_left hr)
  · rw [e2]
    have e7 : s'.tail = s.tail := congrArg PC.tail e3
    exact linv_ret h.log e7 e6 hle h.mem.le (fun j h1 h2 => (hmine j (by omega)).2 ⟨h1, h2⟩) hmax hl hbf hbefore
  · rw [e5]; exact h.bad

/-- A call that finds nothing. -/
theorem inv_nothing (h : Inv c g own fate s) {k : Call} (hc : s'.core = s.core)
    (htk : Tk s'.tail s'.head s'.opt s'.over s'.pos fate') (e1 : s'.pos = upd s.pos t .idle)
    (e2 : s'.log = s.log ++ [.deq k s.head []]) (e4 : s'.pp = s.pp) (e5 : s'.bad = s.bad)
    (hf : Free s.core own t) (hbf : k.bf ≤ s.log.length) : ∃ own', Inv c g own' fate' s' := by
  have e3 : s'.pc = s.pc := by
    have h1 : s'.pc = ⟨s'.core.tail, s'.core.cur, s'.core.tb, s'.core.slots, s'.core.size, s'.core.hdrs⟩ := rfl
    rw [h1, hc]; rfl
  have e6 : s'.head = s.head := by
    have h1 : s'.head = s'.core.head := rfl
    rw [h1, hc]; rfl
  refine inv_ret h (by rw [hc]; exact h.mem) htk e1 e2 e3 e4 e5 e6 (Nat.le_refl _) ?_ (Nat.zero_le _) rfl hbf ?_ ?_
  · intro j hj
    exact ⟨fun e => absurd e (hf j hj), fun e => by simp at e; omega⟩
  · intro r _ k' f' l' he
    exact (h.log.recs r k' f' l' he).1
  · intro t' _
    rw [hc]; exact Keep.refl _ _ _

/-- Who has the elements when some are claimed. -/
def claimed (own : Nat → Own) (f a t : Nat) : Nat → Own := fun j => if f ≤ j ∧ j < f + a then .run t else own j

theorem claimed_in {f a t j : Nat} (h1 : f ≤ j) (h2 : j < f + a) : claimed own f a t j = .run t := if_pos ⟨h1, h2⟩

theorem claimed_out {f a t j : Nat} (h : ¬(f ≤ j ∧ j < f + a)) : claimed own f a t j = own j := if_neg h

theorem cons_head (h : Inv c g own fate s) {k : Call} {a : Nat} (hpos : s.pos t = .head k a) :
    ∃ own' fate', Inv c g own' fate' { s.go t (.idx k s.head a) with head := s.head + a } := by
  have hm := h.mem
  have hci := h.cons t
  rw [hpos] at hci
  obtain ⟨hfree, hbf, hmax⟩ := hci
  have ha : 0 < a := by have := h.tk.early t; rw [hpos] at this; exact this
  have hb := h.tk.bound t
  rw [hpos] at hb
  have hb' : s.head + a ≤ s.tail := hb
  obtain ⟨fate', htk⟩ := h.tk.claim (t := t) (a := a) (p := .idx k s.head a) (by intros; rw [hpos]; intro e; cases e)
    (by rw [hpos]; rfl) rfl (by rw [hpos]; rfl) (fun _ => trivial)
  have hout : ∀ j, j < s.head → claimed own s.head a t j = own j := fun j hj => claimed_out (by omega)
  refine ⟨claimed own s.head a t, fate', inv_go h (p := .idx k s.head a) ?_ htk rfl rfl rfl rfl rfl ?_ ?_ ?_⟩
  · exact
      { hm with
        movedHead := fun i hi => Nat.lt_of_lt_of_le (hm.movedHead i hi) (Nat.le_add_right _ _)
        le := hb' }
  · exact
      { fi := Nat.le_refl _
        ii := Nat.le_refl _
        ie := Nat.le_add_right _ _
        fe := by omega
        eh := Nat.le_refl _
        max := by rw [Nat.add_sub_cancel_left]; exact hmax
        own := by
          intro j hj
          by_cases hin : s.head ≤ j ∧ j < s.head + a
          · rw [claimed_in hin.1 hin.2]; exact ⟨fun _ => hin, fun _ => rfl⟩
          · have hj' : j < s.head + a := hj
            rw [claimed_out hin]
            exact ⟨fun e => absurd e (hfree j (by show j < s.head; omega)), fun e => absurd e hin⟩
        undone := fun j h1 _ => hm.not_done h1
        unmoved := fun j h1 _ => hm.not_moved h1
        isMoved := fun j h1 h2 => by omega
        acc := by rw [Nat.sub_self, List.take_zero]
        before := fun r _ k' f' l' he => (h.log.recs r k' f' l' he).1
        bf := hbf }
  · intro t' ht
    exact
      { head := Nat.le_add_right _ _
        old := fun j hj => by rw [hout j hj]
        new := fun j h1 h2 e => by
          rw [claimed_in (f := s.head) h1 h2] at e
          injection e with e; exact ht e.symm
        moved := fun _ _ _ => rfl
        done := fun _ _ _ => rfl
        hdrs := rfl
        hdr := rfl }
  · exact
      { h.log with
        recs := by
          intro r k' f' l' he
          obtain ⟨h1, h2, h3, h4, h5, h6⟩ := h.log.recs r k' f' l' he
          have h1' : f' + l'.length ≤ s.head := h1
          refine ⟨Nat.le_trans h1 (Nat.le_add_right _ _), h2, h3, ?_, h5, h6⟩
          intro j hj
          by_cases hlt : j < s.head
          · rw [hout j hlt]; exact h4 j hlt
          · have hj' : j < s.head + a := hj
            rw [claimed_in (by omega) hj']
            exact ⟨fun e => (nomatch e), fun e => by omega⟩
        owned := by
          intro j hj r he
          by_cases hlt : j < s.head
          · rw [hout j hlt] at he; exact h.log.owned j hlt r he
          · have hj' : j < s.head + a := hj
            rw [claimed_in (by omega) hj'] at he; cases he }

/-- What a thread has claimed is there. -/
theorem Cl.there {cs : Core E} {k : Call} {f i0 i e : Nat} {acc : List E} (h : Cl g cs own log t k f i0 i e acc)
    (hm : Mem c g cs) {j : Nat} (h1 : i0 ≤ j) (h2 : j < e) :
    g.lo ≤ j / c.B ∧ j / c.B < g.mid ∧ j < cs.head ∧ j < g.vals.length := by
  have h3 := h.eh
  have h4 := hm.le
  have h5 := hm.tailLe
  have h6 := hm.valsLe
  refine ⟨hm.lo_le (h.undone j h1 h2), ?_, by omega, by omega⟩
  rw [div_lt_iff c.posB]; omega

theorem stop_div {i0 i e : Nat} (h1 : i0 ≤ i) (h2 : i < stop c i0 e) : i / c.B = i0 / c.B ∧ i < e := by
  unfold stop at h2
  have h3 : i < (i0 / c.B + 1) * c.B := Nat.lt_of_lt_of_le h2 (Nat.min_le_right _ _)
  refine ⟨?_, Nat.lt_of_lt_of_le h2 (Nat.min_le_left _ _)⟩
  apply Nat.le_antisymm
  · exact Nat.le_of_lt_succ ((div_lt_iff c.posB).2 h3)
  · exact Nat.div_le_div_right h1

theorem lt_stop {i e : Nat} (h : i < e) : i < stop c i e := by
  unfold stop
  rw [Nat.lt_min]
  exact ⟨h, (div_lt_iff c.posB).1 (Nat.lt_succ_self _)⟩

theorem mod_div (i B : Nat) : i / B * B + i % B = i := by
  rw [Nat.mul_comm]; exact Nat.div_add_mod i B

theorem div_eq {n j B : Nat} (hj : j < B) : (n * B + j) / B = n ∧ (n * B + j) % B = j := by
  rw [Nat.mul_comm, Nat.mul_add_div (by omega), Nat.mul_add_mod, Nat.div_eq_of_lt hj, Nat.mod_eq_of_lt hj]
  exact ⟨rfl, rfl⟩

/-- An element is moved out. -/
theorem mem_mv (hm : Mem c g s.core) {i : Nat} (hlo : g.lo ≤ i / c.B) (hhi : i / c.B < g.hi) (hh : i < s.head) :
    Mem c g ({ s with
      blk := setSlot s.blk (g.bk (i / c.B)) (i % c.B) none
      moved := upd s.moved i true } : Sys E).core :=
  { hm with
    fresh := by
      intro b hb j
      show (setSlot s.blk _ _ _ b).slots j = none
      by_cases e : b = g.bk (i / c.B) ∧ j = i % c.B
      · rw [e.1, e.2]; exact setSlot_self
      · rw [setSlot_ne e]; exact hm.fresh b hb j
    spare := by
      intro b hb j hj
      show (setSlot s.blk _ _ _ b).slots j = none ∧ (setSlot s.blk _ _ _ b).gone j = true
      rw [setSlot_gone]
      by_cases e : b = g.bk (i / c.B) ∧ j = i % c.B
      · refine ⟨by rw [e.1, e.2]; exact setSlot_self, (hm.spare b hb j hj).2⟩
      · rw [setSlot_ne e]; exact hm.spare b hb j hj
    data := by
      intro n hn hn2 j hj
      show (setSlot s.blk _ _ _ (g.bk n)).slots j = if upd s.moved i true (n * c.B + j) = true then none else _
      by_cases e : n = i / c.B ∧ j = i % c.B
      · rw [e.1, e.2, mod_div, upd_self, if_pos rfl]; exact setSlot_self
      · have hne : n * c.B + j ≠ i := by
          intro e2
          obtain ⟨h1, h2⟩ := div_eq (n := n) hj
          rw [e2] at h1 h2
          exact e ⟨h1.symm, h2.symm⟩
        rw [upd_ne hne, setSlot_ne (fun e2 => e ⟨hm.inj' hn hn2 hlo hhi e2.1, e2.2⟩)]
        exact hm.data n hn hn2 j hj
    flag := by
      intro n hn hn2 j hj
      show (setSlot s.blk _ _ _ (g.bk n)).gone j = _
      rw [setSlot_gone]; exact hm.flag n hn hn2 j hj
    flagP := by
      intro n hn hn2 j hj
      show (setSlot s.blk _ _ _ (g.bk n)).gone j = _
      rw [setSlot_gone]; exact hm.flagP n hn hn2 j hj
    doneMoved := by
      intro j hj
      show upd s.moved i true j = true
      by_cases e : j = i
      · rw [e]; exact upd_self _ _ _
      · rw [upd_ne e]; exact hm.doneMoved j hj
    movedHead := by
      intro j hj
      have hj' : upd s.moved i true j = true := hj
      by_cases e : j = i
      · rw [e]; exact hh
      · rw [upd_ne e] at hj'; exact hm.movedHead j hj' }

/-- The blocks when flags have been set. -/
def setGone (blk : Nat → Blk E) (b o n : Nat) : Nat → Blk E :=
  upd blk b { blk b with gone := fun j => if o ≤ j ∧ j < o + n then true else (blk b).gone j }

theorem setGone_slots {blk : Nat → Blk E} {b o n : Nat} (b' : Nat) : (setGone blk b o n b').slots = (blk b').slots := by
  unfold setGone
  by_cases e : b' = b
  · subst e; rw [upd_self]
  · rw [upd_ne e]

theorem setGone_ne {blk : Nat → Blk E} {b o n b' : Nat} (h : b' ≠ b) : setGone blk b o n b' = blk b' := upd_ne h

theorem setGone_self {blk : Nat → Blk E} {b o n : Nat} (j : Nat) :
    (setGone blk b o n b).gone j = if o ≤ j ∧ j < o + n then true else (blk b).gone j := by
  unfold setGone
  rw [upd_self]

/-- The elements whose flags are set. -/
def setDone (done : Nat → Bool) (i0 i : Nat) : Nat → Bool := fun j => if i0 ≤ j ∧ j < i then true else done j

theorem mem_mark (hm : Mem c g s.core) {i0 i : Nat} (hi : i0 ≤ i) (hi2 : i ≤ (i0 / c.B + 1) * c.B)
    (hlo : g.lo ≤ i0 / c.B) (hmid : i0 / c.B < g.mid) (hmv : ∀ j, i0 ≤ j → j < i → s.moved j = true) :
    Mem c g ({ s with
      blk := setGone s.blk (g.bk (i0 / c.B)) (i0 % c.B) (i - i0)
      done := setDone s.done i0 i } : Sys E).core :=
  have hmh := hm.mh
  have hd0 := mod_div i0 c.B
  { hm with
    fresh := by
      intro b hb j
      show (setGone s.blk _ _ _ b).slots j = none
      rw [setGone_slots]; exact hm.fresh b hb j
    spare := by
      intro b hb j hj
      show (setGone s.blk _ _ _ b).slots j = none ∧ (setGone s.blk _ _ _ b).gone j = true
      rw [setGone_slots, setGone_ne (fun e => hm.not_spare hlo (by omega) (by rw [← e]; exact hb))]
      exact hm.spare b hb j hj
    data := by
      intro n hn hn2 j hj
      show (setGone s.blk _ _ _ (g.bk n)).slots j = _
      rw [setGone_slots]; exact hm.data n hn hn2 j hj
    flag := by
      intro n hn hn2 j hj
      show (setGone s.blk _ _ _ (g.bk n)).gone j = setDone s.done i0 i (n * c.B + j)
      have hf := hm.flag n hn hn2 j hj
      have hf' : (s.blk (g.bk n)).gone j = s.done (n * c.B + j) := hf
      by_cases e : n = i0 / c.B
      · subst e
        rw [setGone_self]
        unfold setDone
        rw [hf']
        have : (i0 % c.B ≤ j ∧ j < i0 % c.B + (i - i0)) ↔ (i0 ≤ i0 / c.B * c.B + j ∧ i0 / c.B * c.B + j < i) := by omega
        by_cases hin : i0 % c.B ≤ j ∧ j < i0 % c.B + (i - i0)
        · rw [if_pos hin, if_pos (this.1 hin)]
        · rw [if_neg hin, if_neg (fun h => hin (this.2 h))]
      · rw [setGone_ne (fun e2 => e (hm.inj' hn (by omega) hlo (by omega) e2)), hf']
        unfold setDone
        rw [if_neg]
        intro hin
        apply e
        have h1 : (n * c.B + j) / c.B = n := (div_eq hj).1
        rw [← h1]
        apply Nat.le_antisymm
        · exact Nat.le_of_lt_succ ((div_lt_iff c.posB).2 (Nat.lt_of_lt_of_le hin.2 hi2))
        · exact Nat.div_le_div_right hin.1
    flagP := by
      intro n hn hn2 j hj
      show (setGone s.blk _ _ _ (g.bk n)).gone j = _
      rw [setGone_ne (fun e2 => by
        have h1 : g.lo ≤ n := Nat.le_trans hm.lm hn
        have := hm.inj' h1 hn2 hlo (by omega) e2
        omega)]
      exact hm.flagP n hn hn2 j hj
    old := by
      intro j hj
      show setDone s.done i0 i j = true
      unfold setDone
      rw [show s.done j = true from hm.old j hj]
      split <;> rfl
    doneMoved := by
      intro j hj
      have hj' : (if i0 ≤ j ∧ j < i then true else s.done j) = true := hj
      by_cases e : i0 ≤ j ∧ j < i
      · exact hmv j e.1 e.2
      · rw [if_neg e] at hj'; exact hm.doneMoved j hj'
    movedHead := hm.movedHead }

theorem take_next {l : List E} {f i : Nat} {x : E} (h1 : f ≤ i) (h2 : l[i]? = some x) :
    (l.drop f).take (i - f) ++ [x] = (l.drop f).take (i + 1 - f) := by
  rw [show i + 1 - f = (i - f) + 1 by omega, List.take_add_one, List.getElem?_drop, show f + (i - f) = i by omega, h2]
  rfl

theorem cons_mv (h : Inv c g own fate s) {k : Call} {f e hh p b i0 i : Nat} {acc : List E}
    (hpos : s.pos t = .mv k f e hh p b i0 i acc) :
    ∃ x, (s.blk b).slots (i % c.B) = some x ∧ ∀ q : DPos E,
      (q = if i + 1 = stop c i0 e then .mark k f e hh p b i0 (i + 1) (acc ++ [x])
        else .mv k f e hh p b i0 (i + 1) (acc ++ [x])) →
      Inv c g own fate (({ s with
        blk := setSlot s.blk b (i % c.B) none
        moved := upd s.moved i true } : Sys E).go t q) := by
  have hm := h.mem
  have hci := h.cons t
  rw [hpos] at hci
  obtain ⟨hcl, hst, hhd, hnf, hp, hb⟩ := hci
  obtain ⟨hdiv, hie⟩ := stop_div hcl.ii hst
  obtain ⟨hlo, hmid, hhead, hvl⟩ := hcl.there hm hcl.ii hie
  have hmh := hm.mh
  have hun : s.moved i = false := hcl.unmoved i (Nat.le_refl _) hie
  have hd := hm.data (i / c.B) hlo (by omega) (i % c.B) (Nat.mod_lt _ c.posB)
  rw [mod_div, show s.core.moved i = false from hun, if_neg (by simp), List.getElem?_eq_getElem hvl, hdiv, ← hb] at hd
  refine ⟨g.vals[i], hd, fun q hq => ?_⟩
  have hcl' : Cl g ({ s with
        blk := setSlot s.blk b (i % c.B) none
        moved := upd s.moved i true } : Sys E).core own s.log t k f i0 (i + 1) e (acc ++ [g.vals[i]]) :=
    { hcl with
      ii := Nat.le_succ_of_le hcl.ii
      ie := hie
      unmoved := by
        intro j h1 h2
        show upd s.moved i true j = false
        rw [upd_ne (by omega)]; exact hcl.unmoved j (by omega) h2
      isMoved := by
        intro j h1 h2
        show upd s.moved i true j = true
        by_cases e2 : j = i
        · rw [e2]; exact upd_self _ _ _
        · rw [upd_ne e2]; exact hcl.isMoved j h1 (by omega)
      acc := by
        rw [hcl.acc]
        exact take_next (Nat.le_trans hcl.fi hcl.ii) (List.getElem?_eq_getElem hvl) }
  have htk : Tk s.tail s.head s.opt s.over (upd s.pos t q) fate := by
    have hq' : wants q = 0 ∧ owes q = 0 ∧ Early fate s.opt t q := by
      rw [hq]; split <;> exact ⟨rfl, rfl, trivial⟩
    refine h.tk.go (by rw [hpos]; exact hq'.1) (by rw [hpos]; exact hq'.2.1) ?_ hq'.2.2
    intros; rw [hpos]; intro e2; cases e2
  have hmem := mem_mv hm hlo (by omega) hhead
  rw [hdiv, ← hb] at hmem
  refine inv_go h (p := q) hmem htk rfl rfl rfl rfl rfl ?_ ?_ { h.log with }
  · have h5 : i + 1 ≤ stop c i0 e := hst
    have h6 := hcl.ii
    rw [hq]
    split
    · next e2 => exact ⟨hcl', by omega, e2, hhd, hnf, hp, hb⟩
    · next e2 => exact ⟨hcl', by omega, hhd, hnf, hp, hb⟩
  · intro t' ht
    exact
      { Keep.refl own s.core t' with
        moved := by
          intro j hj hown
          show upd s.moved i true j = s.moved j
          refine upd_ne (fun e2 => ?_)
          subst e2
          have h1 := (hcl.own j hj).2 ⟨Nat.le_trans hcl.fi hcl.ii, hie⟩
          rw [h1] at hown
          injection hown with hown
          exact ht hown.symm }

theorem cons_mark (h : Inv c g own fate s) {k : Call} {f e hh p b i0 i : Nat} {acc : List E}
    (hpos : s.pos t = .mark k f e hh p b i0 i acc) :
    ((List.range (i - i0)).any fun j => (s.blk b).gone (i0 % c.B + j)) = false ∧
    ∃ own', Inv c g own' fate
      (if i = e then ({ s with
          blk := setGone s.blk b (i0 % c.B) (i - i0)
          done := setDone s.done i0 i } : Sys E).ret t k f acc
       else ({ s with
          blk := setGone s.blk b (i0 % c.B) (i - i0)
          done := setDone s.done i0 i } : Sys E).go t (.blk k f e hh ((p + 1) % (s.hdr hh).size) i acc)) := by
  have hm := h.mem
  have hci := h.cons t
  rw [hpos] at hci
  obtain ⟨hcl, hlt, hst, hhd, hnf, hp, hb⟩ := hci
  have hie := hcl.ie
  have hst2 : i ≤ (i0 / c.B + 1) * c.B := by rw [hst]; exact Nat.min_le_right _ _
  obtain ⟨hlo, hmid, hhead, hvl⟩ := hcl.there hm (Nat.le_refl i0) (by omega)
  have hmh := hm.mh
  have hd0 := mod_div i0 c.B
  refine ⟨?_, ?_⟩
  · rw [List.any_eq_false]
    intro j hj
    rw [List.mem_range] at hj
    have hjB : i0 % c.B + j < c.B := by
      rw [Nat.succ_mul] at hst2; omega
    have h1 : (s.blk (g.bk (i0 / c.B))).gone (i0 % c.B + j) = s.done (i0 / c.B * c.B + (i0 % c.B + j)) :=
      hm.flag (i0 / c.B) hlo hmid _ hjB
    rw [← hb, show i0 / c.B * c.B + (i0 % c.B + j) = i0 + j by omega] at h1
    rw [h1, show s.done (i0 + j) = false from hcl.undone (i0 + j) (by omega) (by omega)]
    simp
  have hmem := mem_mark hm hcl.ii hst2 hlo hmid (fun j h1 h2 => hcl.isMoved j h1 h2)
  rw [← hb] at hmem
  have hkeep : ∀ t', t' ≠ t → Keep own own s.core ({ s with
          blk := setGone s.blk b (i0 % c.B) (i - i0)
          done := setDone s.done i0 i } : Sys E).core t' := by
    intro t' ht
    exact
      { Keep.refl own s.core t' with
        done := by
          intro j hj hown
          show setDone s.done i0 i j = s.done j
          refine if_neg (fun e2 => ?_)
          have h1 := (hcl.own j hj).2 ⟨by have := hcl.fi; omega, by omega⟩
          rw [h1] at hown
          injection hown with hown
          exact ht hown.symm }
  have hn : ∀ bf m d o, s.pos t ≠ .again bf m d o := by
    intros; rw [hpos]; intro e2; cases e2
  have heh : e ≤ s.head := hcl.eh
  have hlen : acc.length = i - f := by
    rw [hcl.acc, List.length_take, List.length_drop]
    have h1 : s.head ≤ s.tail := hm.le
    have h2 : s.tail ≤ g.vals.length := hm.tailLe
    omega
  have hfi := hcl.fi
  have hii := hcl.ii
  by_cases he : i = e
  · rw [if_pos he]
    have hfl : f + acc.length = e := by omega
    exact inv_ret h (t := t) (k := k) (f := f) (l := acc) hmem
      (h.tk.go (by rw [hpos]; rfl) (by rw [hpos]; rfl) hn trivial) rfl rfl rfl rfl rfl rfl (by omega)
      (fun j hj => by rw [hfl]; exact hcl.own j hj) (by have := hcl.max; omega)
      (by rw [hlen]; exact hcl.acc) hcl.bf hcl.before hkeep
  · rw [if_neg he]
    have hi' : i = (i0 / c.B + 1) * c.B := by
      unfold stop at hst
      omega
    have hdiv : i / c.B = i0 / c.B + 1 := by
      rw [hi', Nat.mul_div_cancel _ c.posB]
    refine ⟨own, inv_go h (t := t) hmem (h.tk.go (by rw [hpos]; rfl) (by rw [hpos]; rfl) hn trivial) rfl rfl rfl rfl
      rfl ⟨?_, by omega, hhd, hnf, ?_⟩ hkeep { h.log with }⟩
    · exact
        { hcl with
          fi := Nat.le_trans hfi hii
          ii := Nat.le_refl _
          undone := by
            intro j h1 h2
            show setDone s.done i0 i j = false
            unfold setDone
            rw [if_neg (by omega)]; exact hcl.undone j (by omega) h2
          isMoved := fun j h1 h2 => by omega }
    · show (p + 1) % (s.hdr hh).size = posOf (g.off hh) (s.hdr hh).size (i / c.B)
      rw [hp, hdiv]; exact posOf_succ

/-- Every step of a consumer. -/
theorem cons_step (h : Inv c g own fate s) (hs : consStep c s t = some s') :
    ∃ own' fate', Inv c g own' fate' s' := by
  have hm := h.mem
  have hci := h.cons t
  have hea := h.tk.early t
  rw [consStep.eq_def] at hs
  split at hs
  · cases hs
  · next k hpos =>
    rw [hpos] at hci hea
    injection hs with hs; subst hs
    exact ⟨own, fate, inv_move h rfl (h.tk.go (p := .ov k s.tail) (by rw [hpos]; rfl) (by rw [hpos]; rfl)
      (by intros; rw [hpos]; intro e; cases e) hea) rfl rfl rfl rfl hci⟩
  · next k T hpos =>
    rw [hpos] at hci hea
    injection hs with hs; subst hs
    exact ⟨own, fate, inv_move h rfl (h.tk.go (p := .op k T s.over) (by rw [hpos]; rfl) (by rw [hpos]; rfl)
      (by intros; rw [hpos]; intro e; cases e) ⟨hea, h.tk.lost_le⟩) rfl rfl rfl rfl hci⟩
  · next k T o hpos =>
    rw [hpos] at hci hea
    split at hs
    · next hlt =>
      injection hs with hs; subst hs
      refine ⟨own, fate, inv_move h rfl (h.tk.go (p := .inc k (min (T + o - s.opt) k.max) o) (by rw [hpos]; rfl)
        (by rw [hpos]; rfl) (by intros; rw [hpos]; intro e; cases e) ⟨?_, hea.2⟩) rfl rfl rfl rfl
        ⟨hci.1, hci.2, Nat.min_le_right _ _⟩⟩
      have := hea.1
      omega
    · injection hs with hs; subst hs
      obtain ⟨own', h1⟩ := inv_nothing h (s' := s.ret t k s.head []) (t := t) rfl
        (h.tk.go (p := .idle) (by rw [hpos]; rfl) (by rw [hpos]; rfl) (by intros; rw [hpos]; intro e; cases e) trivial)
        rfl rfl rfl rfl hci.1 hci.2
      exact ⟨own', fate, h1⟩
  · next k d o hpos =>
    rw [hpos] at hci hea
    injection hs with hs; subst hs
    obtain ⟨fate', htk⟩ := h.tk.inc hpos
    exact ⟨own, fate', inv_move h rfl htk rfl rfl rfl rfl hci⟩
  · next k m d o hpos =>
    rw [hpos] at hci hea
    have hd : 0 < d := hea.1
    split at hs
    · next hlt =>
      simp only at hs
      have hmin : min d (s.tail + o - m) ≤ d := Nat.min_le_left _ _
      have hmin2 : min d (s.tail + o - m) ≤ s.tail + o - m := Nat.min_le_right _ _
      have hpos2 : 0 < min d (s.tail + o - m) := by omega
      split at hs
      · injection hs with hs; subst hs
        obtain ⟨fate', htk⟩ := h.tk.decide hpos hmin (by omega)
          (p := .short k (min d (s.tail + o - m)) (d - min d (s.tail + o - m))) rfl rfl (fun _ => hpos2)
        exact ⟨own, fate', inv_move h rfl htk rfl rfl rfl rfl ⟨hci.1, hci.2.1, Nat.le_trans hmin hci.2.2⟩⟩
      · injection hs with hs; subst hs
        obtain ⟨fate', htk⟩ := h.tk.decide hpos hmin (by omega)
          (p := .head k (min d (s.tail + o - m))) rfl (by show 0 = _; omega) (fun _ => hpos2)
        exact ⟨own, fate', inv_move h rfl htk rfl rfl rfl rfl ⟨hci.1, hci.2.1, Nat.le_trans hmin hci.2.2⟩⟩
    · injection hs with hs; subst hs
      obtain ⟨fate', htk⟩ := h.tk.decide (a := 0) hpos (Nat.zero_le _) (fun e => absurd rfl e)
        (p := .miss k d) rfl rfl (fun _ => trivial)
      exact ⟨own, fate', inv_move h rfl htk rfl rfl rfl rfl ⟨hci.1, hci.2.1⟩⟩
  · next k a r hpos =>
    rw [hpos] at hci hea
    injection hs with hs; subst hs
    obtain ⟨fate', htk⟩ := h.tk.give (t := t) (r := r) (p := .head k a) (by intros; rw [hpos]; intro e; cases e)
      (by rw [hpos]; rfl) (by rw [hpos]; rfl) rfl (fun _ => hea)
    exact ⟨own, fate', inv_move h rfl htk rfl rfl rfl rfl hci⟩
  · next k d hpos =>
    rw [hpos] at hci hea
    injection hs with hs; subst hs
    obtain ⟨fate', htk⟩ := h.tk.give (t := t) (r := d) (p := .idle) (by intros; rw [hpos]; intro e; cases e)
      (by rw [hpos]; rfl) (by rw [hpos]; rfl) rfl (fun _ => trivial)
    obtain ⟨own', h1⟩ := inv_nothing h (s' := { s.ret t k s.head [] with over := s.over + d }) (t := t) rfl
      htk rfl rfl rfl rfl hci.1 hci.2
    exact ⟨own', fate', h1⟩
  · next k a hpos =>
    injection hs with hs; subst hs
    exact cons_head h hpos
  · next k f a hpos =>
    rw [hpos] at hci hea
    have hcl : Cl g s.core own s.log t k f f f (f + a) [] := hci
    obtain ⟨hlo, hmid, hhead, hvl⟩ := hcl.there hm (Nat.le_refl f) hcl.fe
    obtain ⟨hd, hc⟩ := hm.has_cur (by have := hm.mh; omega)
    have hc' : s.cur = some hd := hc
    split at hs
    · next hn => rw [hn] at hc'; cases hc'
    · next h' hn =>
      rw [hn] at hc'; injection hc' with hc'; subst hc'
      injection hs with hs; subst hs
      have hcur := hm.cur h' hc
      exact ⟨own, fate, inv_move h rfl (h.tk.go (p := .frt k f a h') (by rw [hpos]; rfl) (by rw [hpos]; rfl)
        (by intros; rw [hpos]; intro e; cases e) trivial) rfl rfl rfl rfl
        ⟨hcl, hcur.1, Nat.le_trans hcl.eh (Nat.le_trans hm.le hcur.2.2.2.2)⟩⟩
  · next k f a hd hpos =>
    rw [hpos] at hci hea
    obtain ⟨hcl, hhd, hnf⟩ := hci
    have hfe := hcl.fe
    have hlt : f / c.B < g.nf hd := by rw [div_lt_iff c.posB]; omega
    have hfr : (s.hdr hd).front = if g.nf hd = 0 then none else
      some (posOf (g.off hd) (s.hdr hd).size (g.nf hd - 1)) := hm.front hd hhd
    have hnz : 0 < g.nf hd := Nat.lt_of_le_of_lt (Nat.zero_le _) hlt
    rw [if_neg (by omega)] at hfr
    split at hs
    · next hn => rw [hn] at hfr; cases hfr
    · next p hn =>
      rw [hn] at hfr; injection hfr with hfr
      injection hs with hs; subst hs
      exact ⟨own, fate, inv_move h rfl (h.tk.go (p := .bas k f a hd p) (by rw [hpos]; rfl) (by rw [hpos]; rfl)
        (by intros; rw [hpos]; intro e; cases e) trivial) rfl rfl rfl rfl
        ⟨hcl, hhd, hnf, g.nf hd - 1, Nat.le_sub_one_of_lt hlt, Nat.sub_lt hnz Nat.one_pos, hfr⟩⟩
  · next k f a hd p hpos =>
    rw [hpos] at hci hea
    obtain ⟨hcl, hhd, hnf, n, hn1, hn2, hp⟩ := hci
    obtain ⟨hlo, hmid, hhead, hvl⟩ := hcl.there hm (Nat.le_refl f) hcl.fe
    have hen : (s.hdr hd).entry (posOf (g.off hd) (s.hdr hd).size n) = some (n * c.B, g.bk n) :=
      hm.entry hd hhd n (by omega) (Nat.lt_of_lt_of_le hn2 (hm.nfTop hd hhd))
    have hp' : p = posOf (g.off hd) (s.hdr hd).size n := hp
    rw [← hp'] at hen
    split at hs
    · next hn => rw [hn] at hen; cases hen
    · next base b hn =>
      rw [hn] at hen; injection hen with hen; injection hen with hen1 hen2
      injection hs with hs; subst hs
      refine ⟨own, fate, inv_move h rfl (h.tk.go (by rw [hpos]; rfl) (by rw [hpos]; rfl)
        (by intros; rw [hpos]; intro e; cases e) trivial) rfl rfl rfl rfl
        ⟨hcl, hcl.fe, hhd, hnf, ?_⟩⟩
      show _ = posOf (g.off hd) (s.hdr hd).size (f / c.B)
      rw [hen1, hp', posOf_int c.posB]
      rfl
  · next k f e hd p i acc hpos =>
    rw [hpos] at hci hea
    obtain ⟨hcl, hie, hhd, hnf, hp⟩ := hci
    obtain ⟨hlo, hmid, hhead, hvl⟩ := hcl.there hm (Nat.le_refl i) hie
    have hlt : i / c.B < g.nf hd := by rw [div_lt_iff c.posB]; omega
    have hen : (s.hdr hd).entry (posOf (g.off hd) (s.hdr hd).size (i / c.B)) = some (i / c.B * c.B, g.bk (i / c.B)) :=
      hm.entry hd hhd _ hlo (Nat.lt_of_lt_of_le hlt (hm.nfTop hd hhd))
    have hp' : p = posOf (g.off hd) (s.hdr hd).size (i / c.B) := hp
    rw [← hp'] at hen
    split at hs
    · next hn => rw [hn] at hen; cases hen
    · next base b hn =>
      rw [hn] at hen; injection hen with hen; injection hen with hen1 hen2
      injection hs with hs; subst hs
      exact ⟨own, fate, inv_move h rfl (h.tk.go (p := .mv k f e hd p b i i acc) (by rw [hpos]; rfl) (by rw [hpos]; rfl)
        (by intros; rw [hpos]; intro e; cases e) trivial) rfl rfl rfl rfl
        ⟨hcl, lt_stop hie, hhd, hnf, hp, hen2⟩⟩
  · next k f e hd p b i0 i acc hpos =>
    obtain ⟨x, hx, hq⟩ := cons_mv h hpos
    split at hs
    · next hn => rw [hn] at hx; cases hx
    · next x' hn =>
      rw [hn] at hx; injection hx with hx; subst hx
      simp only at hs
      split at hs
      · next e2 =>
        injection hs with hs; subst hs
        exact ⟨own, fate, hq _ (by rw [if_pos e2])⟩
      · next e2 =>
        injection hs with hs; subst hs
        exact ⟨own, fate, hq _ (by rw [if_neg e2])⟩
  · next k f e hd p b i0 i acc hpos =>
    obtain ⟨hany, own', hq⟩ := cons_mark h hpos
    rw [hany, if_neg (by simp)] at hs
    simp only at hs
    split at hs
    · next e2 =>
      injection hs with hs; subst hs
      rw [if_pos e2] at hq
      exact ⟨own', fate, hq⟩
    · next e2 =>
      injection hs with hs; subst hs
      rw [if_neg e2] at hq
      exact ⟨own', fate, hq⟩

theorem cons_call (h : Inv c g own fate s) {max : Nat} (hpos : s.pos t = .idle) (hmax : max ≠ 0) :
    Inv c g own fate (s.go t (.tl ⟨max, s.log.length⟩)) := by
  have hci := h.cons t
  rw [hpos] at hci
  exact inv_move h rfl (h.tk.go (p := .tl ⟨max, s.log.length⟩) (by rw [hpos]; rfl) (by rw [hpos]; rfl)
    (by intros; rw [hpos]; intro e; cases e) (Nat.pos_of_ne_zero hmax)) rfl rfl rfl rfl ⟨hci, Nat.le_refl _⟩

/-! Every state. -/

theorem spoilt_putEntry (s : Sys E) (base b : Nat) : (putEntry s base b).spoilt = s.spoilt := by
  unfold putEntry; split <;> rfl

theorem spoilt_putFront (s : Sys E) (f : Nat) : (putFront s f).spoilt = s.spoilt := by
  unfold putFront; split <;> rfl

theorem spoilt_reset {fuel : Nat} (s : Sys E) (b : Nat) : (resetFrom s fuel b).spoilt = s.spoilt := by
  induction fuel generalizing s b with
  | zero => rfl
  | succ fuel ih =>
    unfold resetFrom
    simp only
    split
    · rfl
    · rw [ih]

theorem spoilt_prod {ok : Bool} (h : prodStep c s ok = some s') (hs : s.spoilt = true) : s'.spoilt = true := by
  rw [prodStep.eq_def] at h
  repeat' (first | split at h | (simp only at h; split at h))
  all_goals first
    | (cases h; done)
    | (simp only [Option.some.injEq] at h
       subst h
       first
         | exact hs
         | (simp only [spoilt_putEntry, spoilt_putFront, spoilt_reset]; exact hs)
         | (simp only [giveUp, hs, Bool.true_or]))

theorem spoilt_cons (h : consStep c s t = some s') : s'.spoilt = s.spoilt := by
  rw [consStep.eq_def] at h
  repeat' (first | split at h | (simp only at h; split at h))
  all_goals first
    | (cases h; done)
    | (simp only [Option.some.injEq] at h
       subst h
       rfl)

theorem spoilt_mono {m : Move E} (h : move c s m = some s') (hs : s.spoilt = true) : s'.spoilt = true := by
  cases m with
  | prod ok => exact spoilt_prod h hs
  | enq can x =>
    unfold move at h
    simp only at h
    split at h
    · injection h with h; subst h; exact hs
    · cases h
  | bulk can l =>
    unfold move at h
    simp only at h
    split at h
    · injection h with h; subst h
      unfold callBulk
      simp only
      split <;> exact hs
    · cases h
  | cons t =>
    have h' : consStep c s t = some s' := h
    rw [spoilt_cons h']; exact hs
  | deq t max =>
    unfold move at h
    simp only at h
    split at h
    · split at h
      · cases h
      · injection h with h; subst h; exact hs
    · cases h

theorem spoilt_run {ms : List (Move E)} (h : run c s ms = some s') (hs : s.spoilt = true) : s'.spoilt = true := by
  induction ms generalizing s with
  | nil => unfold run at h; injection h with h; subst h; exact hs
  | cons m ms ih =>
    unfold run at h
    split at h
    · cases h
    · next s1 h1 => exact ih h (spoilt_mono h1 hs)

/-- Some numbering and some owners meet the invariants. -/
def Good (c : Cfg) (s : Sys E) : Prop := ∃ g own fate, Inv c g own fate s

theorem good_move {m : Move E} (h : Good c s) (hm : move c s m = some s') (hs : s'.spoilt = false) : Good c s' := by
  obtain ⟨g, own, fate, h⟩ := h
  cases m with
  | prod ok =>
    obtain ⟨g', h1⟩ := prod_step h hm hs
    exact ⟨g', own, fate, h1⟩
  | enq can x =>
    unfold move at hm
    simp only at hm
    split at hm
    · next hpp => injection hm with hm; subst hm; exact ⟨g, own, fate, prod_enq h hpp can x⟩
    · cases hm
  | bulk can l =>
    unfold move at hm
    simp only at hm
    split at hm
    · next hpp => injection hm with hm; subst hm; exact ⟨g, own, fate, prod_bulk h hpp can l⟩
    · cases hm
  | cons t =>
    obtain ⟨own', fate', h1⟩ := cons_step h hm
    exact ⟨g, own', fate', h1⟩
  | deq t max =>
    unfold move at hm
    simp only at hm
    split at hm
    · next hpp =>
      split at hm
      · cases hm
      · next hmax => injection hm with hm; subst hm; exact ⟨g, own, fate, cons_call h hpp hmax⟩
    · cases hm

theorem good_run {ms : List (Move E)} (h : Good c s) (hr : run c s ms = some s') (hs : s'.spoilt = false) :
    Good c s' := by
  induction ms generalizing s with
  | nil => unfold run at hr; injection hr with hr; subst hr; exact h
  | cons m ms ih =>
    unfold run at hr
    split at hr
    · cases hr
    · next s1 h1 =>
      refine ih (good_move h h1 ?_) hr
      cases hsp : s1.spoilt with
      | false => rfl
      | true => rw [spoilt_run hr hsp] at hs; cases hs

theorem good_start (c : Cfg) (ok : Bool) : Good c (start (E := E) c ok) := by
  have hB := c.posB
  have hS := c.posS
  refine ⟨⟨0, 0, 0, fun _ => 0, [], fun _ => 0, fun _ => 0, fun _ => 0, []⟩, fun _ => .call 0, fun _ => .got, ?_⟩
  have hz : ∀ n, ¬ n < 0 := fun n => Nat.not_lt_zero n
  constructor
  · exact
      { lm := Nat.le_refl _, mh := Nat.le_refl _, ring := trivial, nodup := List.nodup_nil
        made := fun b hb => nomatch hb
        tb := rfl, slots := rfl, size := Nat.zero_le _
        pos := by
          show 0 < if ok = true then 2 * c.S else c.S
          split <;> omega
        zero := ⟨fun _ => rfl, fun _ => rfl⟩
        fresh := fun _ _ _ => rfl
        spare := fun b hb => nomatch hb
        data := fun n _ h => absurd h (hz n)
        flag := fun n _ h => absurd h (hz n)
        flagP := fun n _ h => absurd h (hz n)
        old := fun i h => absurd h (by show ¬ i < 0 * c.B; omega)
        doneMoved := fun _ h => nomatch h
        movedHead := fun _ h => nomatch h
        le := Nat.le_refl _, valsLe := Nat.zero_le _, tailLe := Nat.le_refl _
        none := fun _ => rfl
        cur := by
          intro h e
          cases ok with
          | false => cases e
          | true =>
            cases e
            exact ⟨Nat.one_pos, rfl, (Nat.zero_mod _).symm, rfl, Nat.zero_le _⟩
        hsize := fun h _ => by show 0 < 2 * c.S; omega
        entry := fun h _ n _ hn => absurd hn (hz n)
        nfTop := fun _ _ => Nat.le_refl _
        topHi := fun _ _ => Nat.le_refl _
        front := fun _ _ => rfl }
  · refine ⟨rfl, ?_, rfl⟩
    show 0 = ceil c.B 0
    exact (Nat.le_zero.1 ((ceil_le hB).2 (Nat.zero_le _))).symm
  · exact Tk.start
  · intro t j hj
    exact absurd hj (hz j)
  · exact
      { tail := rfl
        vals := ⟨[], rfl⟩
        recs := fun r k f l h => nomatch h
        owned := fun j hj => absurd hj (hz j)
        since := fun r k f l h => nomatch h }
  · rfl

theorem good_reach (h : Reach c s) (hs : s.spoilt = false) : Good c s := by
  obtain ⟨ok, ms, hr⟩ := h
  exact good_run (good_start c ok) hr hs

end Verif.TokenQueue
