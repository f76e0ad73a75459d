import Verif.TokenQueue.Inv
/-!
# What the producer does to the memory
-/
namespace Verif.TokenQueue

variable {E : Type} {c : Cfg} {g : G E} {s : Sys E}

theorem map_upd {f : Nat → Nat} {a b x : Nat} (hb : b ≤ n) : (span a b).map (upd f n x) = (span a b).map f := by
  refine List.map_congr_left fun y hy => upd_ne ?_
  have := (mem_span.1 hy).2
  omega

theorem putEntry_some {b x h : Nat} (hc : s.cur = some h) : putEntry s b x =
    { s with
      hdr := upd s.hdr h { s.hdr h with entry := upd (s.hdr h).entry s.front (some (b, x)) }
      front := (s.front + 1) % s.size } := by
  unfold putEntry; rw [hc]

theorem putFront_some {f h : Nat} (hc : s.cur = some h) :
    putFront s f = { s with hdr := upd s.hdr h { s.hdr h with front := some f } } := by
  unfold putFront; rw [hc]

/-- The first block of the circle, when it is empty. -/
theorem peel (h : Mem c g s.core) {x : Nat} {l : List Nat}
    (hr : g.spares ++ (span g.lo g.mid).map g.bk = x :: l) (he : (s.blk x).empty c = true) :
    ∃ sp lo, l = sp ++ (span lo g.mid).map g.bk ∧ g.lo ≤ lo ∧ lo ≤ g.mid ∧ (∀ b ∈ sp, b ∈ g.spares) ∧
      (∀ i, i < lo * c.B → s.done i = true) ∧ ∀ j, j < c.B → (s.blk x).slots j = none := by
  cases hs : g.spares with
  | cons y sp =>
    rw [hs] at hr
    simp only [List.cons_append, List.cons.injEq] at hr
    refine ⟨sp, g.lo, hr.2.symm, Nat.le_refl _, h.lm, fun b hb => List.mem_cons_of_mem _ hb, h.old, ?_⟩
    intro j hj
    exact (h.spare x (by rw [hs, hr.1]; exact List.mem_cons_self) j hj).1
  | nil =>
    rw [hs, List.nil_append] at hr
    have hl : g.lo < g.mid := by
      apply Nat.lt_of_not_le
      intro hc
      rw [span_nil hc] at hr
      cases hr
    rw [span_cons hl, List.map_cons] at hr
    simp only [List.cons.injEq] at hr
    have hd : ∀ j, j < c.B → s.done (g.lo * c.B + j) = true := by
      intro j hj
      have := h.flag g.lo (Nat.le_refl _) hl j hj
      rw [hr.1] at this
      exact this.symm.trans (empty_iff.1 he j hj)
    refine ⟨[], g.lo + 1, hr.2.symm, by omega, hl, fun b hb => (nomatch hb), ?_, ?_⟩
    · intro i hi
      rw [Nat.succ_mul] at hi
      by_cases h1 : i < g.lo * c.B
      · exact h.old i h1
      · have := hd (i - g.lo * c.B) (by omega)
        rw [show g.lo * c.B + (i - g.lo * c.B) = i by omega] at this
        exact this
    · intro j hj
      have := h.data g.lo (Nat.le_refl _) (by have := h.mh; omega) j hj
      rw [hr.1] at this
      have h2 : s.core.moved (g.lo * c.B + j) = true := h.doneMoved _ (hd j hj)
      rw [h2] at this
      exact this

/-- The state of the ghosts after a block has got the next number. -/
def G.push (g : G E) (sp : List Nat) (lo x hd : Nat) : G E :=
  { g with lo := lo, hi := g.hi + 1, bk := upd g.bk g.hi x, spares := sp, top := upd g.top hd (g.hi + 1) }

/-- The new entry does not meet any that is needed. -/
theorem entry_put (h : Mem c g s.core) {hd lo x : Nat} {sp : List Nat} {hdr : Nat → Hdr}
    (hc : s.cur = some hd) (hlo : g.lo ≤ lo) (hfit : g.hi + 1 ≤ lo + s.size)
    (hh : hdr = upd s.hdr hd { s.hdr hd with entry := upd (s.hdr hd).entry s.front (some (g.hi * c.B, x)) })
    {h' : Nat} (hl : h' < s.hdrs) {n : Nat} (hn : lo ≤ n) (hn2 : n < (g.push sp lo x hd).top h') :
    (hdr h').entry (posOf (g.off h') (hdr h').size n) = some (n * c.B, (g.push sp lo x hd).bk n) := by
  subst hh
  obtain ⟨h1, h2, h3, h4, h5⟩ := h.cur hd hc
  have e2 : (s.hdr hd).size = s.size := h2
  have e3 : s.front = posOf (g.off hd) s.size g.hi := h3
  by_cases e : h' = hd
  · subst e
    have hn2' : n < g.hi + 1 := by
      have : (g.push sp lo x h').top h' = g.hi + 1 := upd_self _ _ _
      omega
    rw [upd_self]
    show upd (s.hdr h').entry s.front (some (g.hi * c.B, x)) (posOf (g.off h') (s.hdr h').size n) = _
    rw [e2, e3]
    by_cases e4 : n = g.hi
    · subst e4
      rw [upd_self]
      show _ = some (g.hi * c.B, upd g.bk g.hi x g.hi)
      rw [upd_self]
    · rw [upd_ne (posOf_inj (by omega) (by omega))]
      show _ = some (n * c.B, upd g.bk g.hi x n)
      rw [upd_ne e4, ← e2]
      exact h.entry h' hl n (by omega) (by rw [h4]; omega)
  · have hn2' : n < g.top h' := by
      have : (g.push sp lo x hd).top h' = g.top h' := upd_ne e
      omega
    rw [upd_ne e]
    show _ = some (n * c.B, upd g.bk g.hi x n)
    have := h.topHi h' hl
    rw [upd_ne (by omega)]
    exact h.entry h' hl n (by omega) hn2'

/-- The block after the tail block is used again. -/
theorem mem_rotate (h : Mem c g s.core) {x hd lo : Nat} {l sp : List Nat} (hc : s.cur = some hd)
    (hr : g.spares ++ (span g.lo g.mid).map g.bk = x :: l)
    (hl : l = sp ++ (span lo g.mid).map g.bk) (hlo : g.lo ≤ lo) (hlm : lo ≤ g.mid)
    (hsp : ∀ b ∈ sp, b ∈ g.spares) (hold : ∀ i, i < lo * c.B → s.done i = true)
    (hslot : ∀ j, j < c.B → (s.blk x).slots j = none) (he : (s.blk x).empty c = true) :
    Mem c (g.push sp lo x hd) (putEntry { s with tb := some x } (g.hi * c.B) x).core := by
  have hmh := h.mh
  have hring : g.ring = x :: (l ++ (span g.mid g.hi).map g.bk) := by
    unfold G.ring
    rw [span_append h.lm h.mh, List.map_append, ← List.append_assoc, hr]
    rfl
  have hring' : (g.push sp lo x hd).ring = (l ++ (span g.mid g.hi).map g.bk) ++ [x] := by
    show sp ++ (span lo (g.hi + 1)).map (upd g.bk g.hi x) = _
    rw [span_snoc (by omega), List.map_append, map_upd (Nat.le_refl _), List.map_cons, List.map_nil, upd_self,
      span_append hlm h.mh, List.map_append, hl]
    simp
  have hperm : ∀ b, b ∈ (g.push sp lo x hd).ring ↔ b ∈ g.ring := by
    intro b
    rw [hring', hring]
    simp only [List.mem_append, List.mem_cons, List.not_mem_nil, or_false]
    exact or_comm
  have hlen : (g.push sp lo x hd).ring.length = g.ring.length := by
    rw [hring', hring, List.length_append]; rfl
  have hnd : (g.push sp lo x hd).ring.Nodup := by
    rw [hring']
    have h1 := h.nodup
    rw [hring] at h1
    obtain ⟨h2, h3⟩ := List.nodup_cons.1 h1
    rw [List.nodup_append]
    exact ⟨h3, by simp, fun a ha b hb => by
      rw [List.mem_singleton] at hb; subst hb; intro e; exact h2 (e ▸ ha)⟩
  have hfit : g.hi + 1 ≤ lo + s.size := by
    have h1 : s.slots ≤ s.size := h.size
    have h2 : s.slots = g.ring.length := h.slots
    rw [← hlen, hring', hl] at h2
    simp only [List.length_append, List.length_map, length_span, List.length_cons, List.length_nil] at h2
    omega
  have hxn : ∀ n, lo ≤ n → n < g.hi → g.bk n ≠ x := by
    intro n h1 h2 e
    rw [hring'] at hnd
    obtain ⟨_, _, h3⟩ := List.nodup_append.1 hnd
    refine h3 (g.bk n) ?_ x (List.mem_singleton.2 rfl) e
    rw [hl, List.append_assoc, ← List.map_append, ← span_append hlm h.mh]
    exact List.mem_append_right _ (List.mem_map.2 ⟨n, mem_span.2 ⟨h1, h2⟩, rfl⟩)
  rw [putEntry_some (by exact hc)]
  have hcur := h.cur hd hc
  exact
    { lm := hlm
      mh := by show g.mid ≤ g.hi + 1; omega
      ring := by rw [hring']; exact Ring.rot1 (by have := h.ring; rw [hring] at this; exact this)
      nodup := hnd
      made := fun b hb => h.made b ((hperm b).1 hb)
      tb := by rw [hring', List.getLast?_concat]; rfl
      slots := by rw [hlen]; exact h.slots
      size := h.size
      pos := h.pos
      zero := by
        constructor
        · intro e; exact absurd e (Nat.succ_ne_zero _)
        · intro e; rw [hring'] at e; simp at e
      fresh := h.fresh
      spare := fun b hb => h.spare b (hsp b hb)
      data := by
        intro n hn hn2 j hj
        have hn2' : n < g.hi + 1 := hn2
        show (s.blk (upd g.bk g.hi x n)).slots j = _
        by_cases e : n = g.hi
        · subst e
          rw [upd_self, hslot j hj]
          have : (g.push sp lo x hd).vals[g.hi * c.B + j]? = none := h.vals_none hmh
          rw [this]
          split <;> rfl
        · rw [upd_ne e]
          exact h.data n (by have : lo ≤ n := hn; omega) (by omega) j hj
      flag := by
        intro n hn hn2 j hj
        have hn2' : n < g.mid := hn2
        show (s.blk (upd g.bk g.hi x n)).gone j = _
        rw [upd_ne (by omega)]
        exact h.flag n (by have : lo ≤ n := hn; omega) hn2' j hj
      flagP := by
        intro n hn hn2 j hj
        have hn2' : n < g.hi + 1 := hn2
        show (s.blk (upd g.bk g.hi x n)).gone j = _
        by_cases e : n = g.hi
        · subst e
          rw [upd_self]
          exact empty_iff.1 he j hj
        · rw [upd_ne e]
          exact h.flagP n hn (by omega) j hj
      old := hold
      doneMoved := h.doneMoved
      movedHead := h.movedHead
      le := h.le
      valsLe := h.valsLe
      tailLe := h.tailLe
      none := fun e => by
        have : s.cur = none := e
        rw [hc] at this; cases this
      cur := by
        intro h' e
        have e' : s.cur = some h' := e
        rw [hc] at e'; cases e'
        refine ⟨hcur.1, ?_, ?_, upd_self _ _ _, hcur.2.2.2.2⟩
        · show (upd s.hdr hd _ hd).size = _
          rw [upd_self]; exact hcur.2.1
        · show (s.front + 1) % s.size = posOf (g.off hd) s.size (g.hi + 1)
          rw [show s.front = posOf (g.off hd) s.size g.hi from hcur.2.2.1, posOf_succ]
      hsize := by
        intro h' hl'
        show 0 < (upd s.hdr hd _ h').size
        by_cases e : h' = hd
        · subst e; rw [upd_self]; exact h.hsize h' hl'
        · rw [upd_ne e]; exact h.hsize h' hl'
      entry := fun h' hl' n hn hn2 => entry_put h hc hlo hfit rfl hl' hn hn2
      nfTop := by
        intro h' hl'
        show g.nf h' ≤ upd g.top hd (g.hi + 1) h'
        have h1 := h.nfTop h' hl'
        have h2 := h.topHi h' hl'
        by_cases e : h' = hd
        · subst e; rw [upd_self]; omega
        · rw [upd_ne e]; exact h1
      topHi := by
        intro h' hl'
        show upd g.top hd (g.hi + 1) h' ≤ g.hi + 1
        have h2 := h.topHi h' hl'
        by_cases e : h' = hd
        · subst e; rw [upd_self]; exact Nat.le_refl _
        · rw [upd_ne e]; omega
      front := by
        intro h' hl'
        show (upd s.hdr hd _ h').front = _
        have h1 := h.front h' hl'
        by_cases e : h' = hd
        · subst e
          show (upd s.hdr h' _ h').front = if g.nf h' = 0 then _ else some (posOf (g.off h') (upd s.hdr h' _ h').size _)
          rw [upd_self]; exact h1
        · show (upd s.hdr hd _ h').front = if g.nf h' = 0 then _ else some (posOf (g.off h') (upd s.hdr hd _ h').size _)
          rw [upd_ne e]; exact h1 }

/-- A block from the pool. -/
theorem mem_link (h : Mem c g s.core) {hd : Nat} (hc : s.cur = some hd) (hlt : s.slots < s.size) :
    Mem c (g.push g.spares g.lo s.made hd) (putEntry (link s true) (g.hi * c.B) s.made).core := by
  have hmh := h.mh
  have hlm := h.lm
  have hring : (g.push g.spares g.lo s.made hd).ring = g.ring ++ [s.made] := by
    show g.spares ++ (span g.lo (g.hi + 1)).map (upd g.bk g.hi s.made) = _
    rw [span_snoc (by omega), List.map_append, map_upd (Nat.le_refl _), List.map_cons, List.map_nil, upd_self]
    unfold G.ring
    simp
  have hnm : s.made ∉ g.ring := fun hm => Nat.lt_irrefl _ (h.made _ hm)
  have hne : ∀ n, g.lo ≤ n → n < g.hi → g.bk n ≠ s.made := fun n h1 h2 e => hnm (e ▸ h.mem_ring h1 h2)
  have hfit : g.hi + 1 ≤ g.lo + s.size := by
    have h2 : s.slots = g.ring.length := h.slots
    unfold G.ring at h2
    simp only [List.length_append, List.length_map, length_span] at h2
    omega
  have hcur := h.cur hd hc
  rw [putEntry_some (by exact hc)]
  exact
    { lm := h.lm
      mh := by show g.mid ≤ g.hi + 1; omega
      ring := by
        rw [hring]
        show Ring (match s.tb with | none => upd s.next s.made s.made | some t => upd (upd s.next s.made (s.next t)) t s.made) _
        have htb : s.tb = g.ring.getLast? := h.tb
        cases ht : s.tb with
        | none =>
          rw [ht] at htb
          rw [List.getLast?_eq_none_iff.1 htb.symm]
          exact Ring.single
        | some t =>
          rw [ht] at htb
          exact Ring.insert h.ring htb.symm hnm h.nodup
      nodup := by
        rw [hring, List.nodup_append]
        exact ⟨h.nodup, by simp, fun a ha b hb => by
          rw [List.mem_singleton] at hb; subst hb; intro e; exact hnm (e ▸ ha)⟩
      made := by
        intro b hb
        show b < s.made + 1
        rw [hring, List.mem_append, List.mem_singleton] at hb
        rcases hb with hb | hb
        · have : b < s.made := h.made b hb
          omega
        · omega
      tb := by rw [hring, List.getLast?_concat]; rfl
      slots := by
        rw [hring, List.length_append]
        show s.slots + 1 = _
        rw [show s.slots = g.ring.length from h.slots]; rfl
      size := hlt
      pos := h.pos
      zero := by
        constructor
        · intro e; exact absurd e (Nat.succ_ne_zero _)
        · intro e; rw [hring] at e; simp at e
      fresh := by
        intro b hb j
        have hb' : s.made + 1 ≤ b := hb
        show (upd s.blk s.made _ b).slots j = _
        rw [upd_ne (by omega)]
        exact h.fresh b (by show s.made ≤ b; omega) j
      spare := by
        intro b hb j hj
        show (upd s.blk s.made _ b).slots j = none ∧ (upd s.blk s.made _ b).gone j = true
        have hbr : b ∈ g.ring := List.mem_append_left _ hb
        rw [upd_ne (fun e => hnm (by rw [← e]; exact hbr))]
        exact h.spare b hb j hj
      data := by
        intro n hn hn2 j hj
        have hn2' : n < g.hi + 1 := hn2
        show (upd s.blk s.made _ (upd g.bk g.hi s.made n)).slots j = _
        by_cases e : n = g.hi
        · subst e
          rw [upd_self, upd_self]
          show (s.blk s.made).slots j = _
          rw [show (s.blk s.made).slots j = none from h.fresh s.made (Nat.le_refl _) j]
          have : (g.push g.spares g.lo s.made hd).vals[g.hi * c.B + j]? = none := h.vals_none hmh
          rw [this]
          split <;> rfl
        · rw [upd_ne e, upd_ne (hne n hn (by omega))]
          exact h.data n hn (by omega) j hj
      flag := by
        intro n hn hn2 j hj
        have hn2' : n < g.mid := hn2
        show (upd s.blk s.made _ (upd g.bk g.hi s.made n)).gone j = _
        rw [upd_ne (show n ≠ g.hi by omega), upd_ne (hne n hn (by omega))]
        exact h.flag n hn hn2' j hj
      flagP := by
        intro n hn hn2 j hj
        have hn2' : n < g.hi + 1 := hn2
        have hn' : g.mid ≤ n := hn
        show (upd s.blk s.made _ (upd g.bk g.hi s.made n)).gone j = _
        by_cases e : n = g.hi
        · subst e; rw [upd_self, upd_self]; rfl
        · rw [upd_ne e, upd_ne (hne n (by omega) (by omega))]
          exact h.flagP n hn (by omega) j hj
      old := h.old
      doneMoved := h.doneMoved
      movedHead := h.movedHead
      le := h.le
      valsLe := h.valsLe
      tailLe := h.tailLe
      none := fun e => by
        have : s.cur = none := e
        rw [hc] at this; cases this
      cur := by
        intro h' e
        have e' : s.cur = some h' := e
        rw [hc] at e'; cases e'
        refine ⟨hcur.1, ?_, ?_, upd_self _ _ _, hcur.2.2.2.2⟩
        · show (upd s.hdr hd _ hd).size = _
          rw [upd_self]; exact hcur.2.1
        · show (s.front + 1) % s.size = posOf (g.off hd) s.size (g.hi + 1)
          rw [show s.front = posOf (g.off hd) s.size g.hi from hcur.2.2.1, posOf_succ]
      hsize := by
        intro h' hl'
        show 0 < (upd s.hdr hd _ h').size
        by_cases e : h' = hd
        · subst e; rw [upd_self]; exact h.hsize h' hl'
        · rw [upd_ne e]; exact h.hsize h' hl'
      entry := fun h' hl' n hn hn2 => entry_put h hc (Nat.le_refl _) hfit rfl hl' hn hn2
      nfTop := by
        intro h' hl'
        show g.nf h' ≤ upd g.top hd (g.hi + 1) h'
        have h1 := h.nfTop h' hl'
        have h2 := h.topHi h' hl'
        by_cases e : h' = hd
        · subst e; rw [upd_self]; omega
        · rw [upd_ne e]; exact h1
      topHi := by
        intro h' hl'
        show upd g.top hd (g.hi + 1) h' ≤ g.hi + 1
        have h2 := h.topHi h' hl'
        by_cases e : h' = hd
        · subst e; rw [upd_self]; exact Nat.le_refl _
        · rw [upd_ne e]; omega
      front := by
        intro h' hl'
        have h1 := h.front h' hl'
        by_cases e : h' = hd
        · subst e
          show (upd s.hdr h' _ h').front = if g.nf h' = 0 then _ else some (posOf (g.off h') (upd s.hdr h' _ h').size _)
          rw [upd_self]; exact h1
        · show (upd s.hdr hd _ h').front = if g.nf h' = 0 then _ else some (posOf (g.off h') (upd s.hdr hd _ h').size _)
          rw [upd_ne e]; exact h1 }

/-- The flags of the new blocks are reset. -/
theorem mem_open (h : Mem c g s.core) {blk : Nat → Blk E}
    (hb : ∀ b, b ∉ (span g.mid g.hi).map g.bk → blk b = s.blk b)
    (hp : ∀ b, b ∈ (span g.mid g.hi).map g.bk → blk b = (s.blk b).setAll false) :
    Mem c { g with mid := g.hi } ({ s with blk := blk } : Sys E).core := by
  have hmh := h.mh
  have hlm := h.lm
  have hslots : ∀ b, (blk b).slots = (s.blk b).slots := by
    intro b
    by_cases hm : b ∈ (span g.mid g.hi).map g.bk
    · rw [hp b hm]; rfl
    · rw [hb b hm]
  have hin : ∀ n, g.mid ≤ n → n < g.hi → g.bk n ∈ (span g.mid g.hi).map g.bk :=
    fun n h1 h2 => List.mem_map.2 ⟨n, mem_span.2 ⟨h1, h2⟩, rfl⟩
  exact
    { h with
      lm := by show g.lo ≤ g.hi; omega
      mh := Nat.le_refl _
      fresh := fun b hb' j => by
        show (blk b).slots j = none
        rw [hslots]; exact h.fresh b hb' j
      spare := by
        intro b hb' j hj
        show (blk b).slots j = none ∧ (blk b).gone j = true
        rw [hb b]
        · exact h.spare b hb' j hj
        · intro hm
          obtain ⟨n, h1, h2⟩ := List.mem_map.1 hm
          have h3 := mem_span.1 h1
          exact h.not_spare (by omega) h3.2 (h2 ▸ hb')
      data := fun n hn hn2 j hj => by
        show (blk (g.bk n)).slots j = _
        rw [hslots]; exact h.data n hn hn2 j hj
      flag := by
        intro n hn hn2 j hj
        show (blk (g.bk n)).gone j = s.done (n * c.B + j)
        by_cases e : n < g.mid
        · rw [hb]
          · exact h.flag n hn e j hj
          · intro hm
            obtain ⟨m, h1, h2⟩ := List.mem_map.1 hm
            have h3 := mem_span.1 h1
            have := h.inj' (by omega) h3.2 hn hn2 h2
            omega
        · rw [hp _ (hin n (by omega) hn2)]
          refine (h.not_done (i := n * c.B + j) ?_).symm
          have h1 := h.le
          have h2 := h.tailLe
          have h3 := h.valsLe
          have h4 : g.mid * c.B ≤ n * c.B := Nat.mul_le_mul_right _ (by omega)
          omega
      flagP := fun n hn hn2 => absurd hn2 (Nat.not_lt.2 hn)
      valsLe := Nat.le_trans h.valsLe (Nat.mul_le_mul_right _ hmh) }

/-- The index is published. -/
theorem mem_front (h : Mem c g s.core) {hd : Nat} (hc : s.cur = some hd) (hpos : 0 < g.hi) :
    Mem c { g with nf := upd g.nf hd g.hi } (putFront s (posOf (g.off hd) s.size (g.hi - 1))).core := by
  have hcur := h.cur hd hc
  rw [putFront_some hc]
  exact
    { h with
      cur := by
        intro h' e
        have e' : s.cur = some h' := e
        rw [hc] at e'; cases e'
        refine ⟨hcur.1, ?_, hcur.2.2.1, hcur.2.2.2.1, ?_⟩
        · show (upd s.hdr hd _ hd).size = _
          rw [upd_self]; exact hcur.2.1
        · show s.tail ≤ upd g.nf hd g.hi hd * c.B
          rw [upd_self]
          have h2 : s.tail ≤ g.vals.length := h.tailLe
          have h3 := h.valsLe
          have h4 : g.mid * c.B ≤ g.hi * c.B := Nat.mul_le_mul_right _ h.mh
          omega
      hsize := by
        intro h' hl'
        show 0 < (upd s.hdr hd _ h').size
        by_cases e : h' = hd
        · subst e; rw [upd_self]; exact h.hsize h' hl'
        · rw [upd_ne e]; exact h.hsize h' hl'
      entry := by
        intro h' hl' n hn hn2
        show (upd s.hdr hd _ h').entry (posOf (g.off h') (upd s.hdr hd _ h').size n) = _
        by_cases e : h' = hd
        · subst e; rw [upd_self]; exact h.entry h' hl' n hn hn2
        · rw [upd_ne e]; exact h.entry h' hl' n hn hn2
      nfTop := by
        intro h' hl'
        show upd g.nf hd g.hi h' ≤ g.top h'
        by_cases e : h' = hd
        · subst e; rw [upd_self, hcur.2.2.2.1]; exact Nat.le_refl _
        · rw [upd_ne e]; exact h.nfTop h' hl'
      front := by
        intro h' hl'
        show (upd s.hdr hd _ h').front =
          if upd g.nf hd g.hi h' = 0 then none else some (posOf (g.off h') (upd s.hdr hd _ h').size (upd g.nf hd g.hi h' - 1))
        by_cases e : h' = hd
        · subst e
          rw [upd_self, upd_self, if_neg (by omega)]
          show some (posOf (g.off h') s.size (g.hi - 1)) = some (posOf (g.off h') (s.hdr h').size (g.hi - 1))
          rw [show (s.hdr h').size = s.size from hcur.2.1]
        · rw [upd_ne e, upd_ne e]; exact h.front h' hl' }

/-- Where the numbers are in a new index, and up to which it is published. -/
def G.grown (g : G E) (s : Sys E) (ex : Nat) : G E :=
  { g with
    off := upd g.off s.hdrs (s.slots + (2 * s.size - 1) * g.hi)
    top := upd g.top s.hdrs g.hi
    nf := upd g.nf s.hdrs (if ex = 0 then 0 else g.hi + ex - s.slots) }

/-- Positions in the new index. -/
theorem posOf_grown {s : Sys E} {hi n : Nat} (hz : 0 < s.size) (hs : s.slots ≤ s.size) (hn : n ≤ hi)
    (hn2 : hi ≤ n + s.slots) :
    posOf (s.slots + (2 * s.size - 1) * hi) (2 * s.size) n = s.slots + n - hi := by
  unfold posOf
  have h1 : s.slots + (2 * s.size - 1) * hi + n = (s.slots + n - hi) + hi * (2 * s.size) := by
    have h2 : (2 * s.size - 1) * hi + hi = hi * (2 * s.size) := by
      rw [← Nat.succ_mul, show (2 * s.size - 1).succ = 2 * s.size by omega, Nat.mul_comm]
    omega
  rw [h1, Nat.add_mul_mod_self_right, Nat.mod_eq_of_lt (by omega)]

theorem mem_newIndex (h : Mem c g s.core) {ex : Nat} (he : ex ≤ s.slots)
    (h0 : ex = 0 → s.tail = 0) (h1 : ex ≠ 0 → s.slots < g.hi + ex ∧ s.tail ≤ (g.hi + ex - s.slots) * c.B) :
    Mem c (g.grown s ex) (newIndex s ex).core := by
  have hz : 0 < s.size := h.pos
  have hs : s.slots ≤ s.size := h.size
  have hhl : g.hi ≤ g.lo + s.slots := by
    have h2 : s.slots = g.ring.length := h.slots
    unfold G.ring at h2
    simp only [List.length_append, List.length_map, length_span] at h2
    omega
  have hold : ∀ h', h' < s.hdrs → h' ≠ s.hdrs := fun h' hl => by omega
  exact
    { h with
      size := by show s.slots ≤ 2 * s.size; omega
      pos := by show 0 < 2 * s.size; omega
      none := fun e => nomatch e
      cur := by
        intro h' e
        cases e
        refine ⟨Nat.lt_succ_self _, ?_, ?_, upd_self _ _ _, ?_⟩
        · show (upd s.hdr s.hdrs _ s.hdrs).size = _
          rw [upd_self]; rfl
        · show s.slots = posOf (upd g.off s.hdrs _ s.hdrs) (2 * s.size) g.hi
          rw [upd_self, posOf_grown hz hs (Nat.le_refl _) (by omega)]
          omega
        · show s.tail ≤ upd g.nf s.hdrs _ s.hdrs * c.B
          rw [upd_self]
          by_cases e : ex = 0
          · rw [h0 e]; exact Nat.zero_le _
          · rw [if_neg e]; exact (h1 e).2
      hsize := by
        intro h' hl'
        have hl'' : h' < s.hdrs + 1 := hl'
        show 0 < (upd s.hdr s.hdrs _ h').size
        by_cases e : h' = s.hdrs
        · subst e; rw [upd_self]; show 0 < 2 * s.size; omega
        · rw [upd_ne e]; exact h.hsize h' (by show h' < s.hdrs; omega)
      entry := by
        intro h' hl' n hn hn2
        have hl'' : h' < s.hdrs + 1 := hl'
        show (upd s.hdr s.hdrs _ h').entry (posOf (upd g.off s.hdrs _ h') (upd s.hdr s.hdrs _ h').size n) = some (n * c.B, g.bk n)
        by_cases e : h' = s.hdrs
        · subst e
          have hn3 : n < g.hi := by
            have : (g.grown s ex).top s.hdrs = g.hi := upd_self _ _ _
            omega
          have hn' : g.lo ≤ n := hn
          rw [upd_self, upd_self]
          show oldEntry s (posOf _ (2 * s.size) n) = _
          rw [posOf_grown hz hs (by omega) (by omega)]
          unfold oldEntry
          cases hc : s.cur with
          | none => have := h.none hc; omega
          | some hd =>
            obtain ⟨c1, c2, c3, c4, c5⟩ := h.cur hd hc
            show (if s.slots + n - g.hi < s.slots then _ else none) = _
            rw [if_pos (by omega), show s.front = posOf (g.off hd) s.size g.hi from c3,
              posOf_back (m := n) hs (by omega) hz]
            have := h.entry hd c1 n hn' (by rw [c4]; exact hn3)
            rw [← this]
            rw [show (s.core.hdr hd).size = s.size from c2]
            rfl
        · rw [upd_ne e, upd_ne e]
          have : (g.grown s ex).top h' = g.top h' := upd_ne e
          exact h.entry h' (by show h' < s.hdrs; omega) n hn (by omega)
      nfTop := by
        intro h' hl'
        have hl'' : h' < s.hdrs + 1 := hl'
        show upd g.nf s.hdrs _ h' ≤ upd g.top s.hdrs g.hi h'
        by_cases e : h' = s.hdrs
        · subst e
          rw [upd_self, upd_self]
          split
          · exact Nat.zero_le _
          · omega
        · rw [upd_ne e, upd_ne e]; exact h.nfTop h' (by show h' < s.hdrs; omega)
      topHi := by
        intro h' hl'
        have hl'' : h' < s.hdrs + 1 := hl'
        show upd g.top s.hdrs g.hi h' ≤ g.hi
        by_cases e : h' = s.hdrs
        · subst e; rw [upd_self]; exact Nat.le_refl _
        · rw [upd_ne e]; exact h.topHi h' (by show h' < s.hdrs; omega)
      front := by
        intro h' hl'
        have hl'' : h' < s.hdrs + 1 := hl'
        show (upd s.hdr s.hdrs _ h').front = if upd g.nf s.hdrs _ h' = 0 then none else
          some (posOf (upd g.off s.hdrs _ h') (upd s.hdr s.hdrs _ h').size (upd g.nf s.hdrs _ h' - 1))
        by_cases e : h' = s.hdrs
        · subst e
          rw [upd_self, upd_self, upd_self]
          show (if ex = 0 then none else some (ex - 1)) = _
          by_cases e : ex = 0
          · rw [if_pos e, if_pos e, if_pos rfl]
          · have := h1 e
            rw [if_neg e, if_neg e, if_neg (by omega)]
            show some (ex - 1) = some (posOf _ (2 * s.size) _)
            rw [posOf_grown hz hs (by omega) (by omega)]
            congr 1; omega
        · rw [upd_ne e, upd_ne e, upd_ne e]; exact h.front h' (by show h' < s.hdrs; omega) }

/-- `enqueue_bulk` gives up when it has only used blocks again. -/
def G.back (g : G E) (cur : Option Nat) : G E :=
  { g with
    hi := g.mid
    spares := (span g.mid g.hi).map g.bk ++ g.spares
    top := match cur with
      | none => g.top
      | some h => upd g.top h g.mid }

theorem mem_giveUp (h : Mem c g s.core) {snt : List E} {k : Bulk E} (hk : Bk c g s.pc snt k)
    (hot : k.hot = false) : Mem c (g.back s.cur) (giveUp s k).core := by
  have hring : (g.back s.cur).ring =
      (span g.mid g.hi).map g.bk ++ (g.spares ++ (span g.lo g.mid).map g.bk) := by
    show ((span g.mid g.hi).map g.bk ++ g.spares) ++ (span g.lo g.mid).map g.bk = _
    rw [List.append_assoc]
  have hring0 : g.ring = (g.spares ++ (span g.lo g.mid).map g.bk) ++ (span g.mid g.hi).map g.bk := by
    unfold G.ring
    rw [span_append h.lm h.mh, List.map_append, List.append_assoc]
  have hmem : ∀ b, b ∈ (g.back s.cur).ring ↔ b ∈ g.ring := by
    intro b
    rw [hring, hring0, List.mem_append, List.mem_append (t := (span g.mid g.hi).map g.bk)]
    exact or_comm
  have hlen : (g.back s.cur).ring.length = g.ring.length := by
    rw [hring, hring0, List.length_append, List.length_append (bs := (span g.mid g.hi).map g.bk)]
    exact Nat.add_comm _ _
  have hmh := h.mh
  have htop : ∀ h', h' < s.hdrs → (g.back s.cur).top h' ≤ g.mid := by
    intro h' hl'
    show (match s.cur with | none => g.top | some h => upd g.top h g.mid) h' ≤ g.mid
    have h1 := (hk.cold3 hot h' hl').2
    cases hc : s.cur with
    | none => exact h1 (by show s.cur ≠ _; rw [hc]; exact fun e => nomatch e)
    | some hd =>
      show upd g.top hd g.mid h' ≤ g.mid
      by_cases e : h' = hd
      · subst e; rw [upd_self]; exact Nat.le_refl _
      · rw [upd_ne e]; exact h1 (by show s.cur ≠ _; rw [hc]; exact fun e' => e (Option.some.inj e').symm)
  have htop2 : ∀ h', h' < s.hdrs → (g.back s.cur).top h' ≤ g.top h' := by
    intro h' hl'
    show (match s.cur with | none => g.top | some h => upd g.top h g.mid) h' ≤ g.top h'
    cases hc : s.cur with
    | none => exact Nat.le_refl _
    | some hd =>
      show upd g.top hd g.mid h' ≤ g.top h'
      by_cases e : h' = hd
      · subst e; rw [upd_self, (h.cur h' hc).2.2.2.1]; exact hmh
      · rw [upd_ne e]; exact Nat.le_refl _
  exact
    { h with
      mh := Nat.le_refl _
      ring := by rw [hring]; exact Ring.rot (by have := h.ring; rw [hring0] at this; exact this)
      nodup := by
        rw [hring]
        have h1 := h.nodup
        rw [hring0] at h1
        obtain ⟨h2, h3, h4⟩ := List.nodup_append.1 h1
        rw [List.nodup_append]
        exact ⟨h3, h2, fun a ha b hb e => h4 b hb a ha e.symm⟩
      made := fun b hb => h.made b ((hmem b).1 hb)
      tb := by
        rw [hring]
        have h1 := hk.cold4 hot
        rw [← h1]
        show (match k.startBlock with | none => k.first | some b => some b) = k.startBlock
        cases hsb : k.startBlock with
        | some b => rfl
        | none =>
          rw [hsb] at h1
          have h2 := List.getLast?_eq_none_iff.1 h1.symm
          have h3 := List.append_eq_nil_iff.1 h2
          show k.first = none
          rw [hk.first, if_neg]
          intro hlt
          rw [span_cons hlt] at h3
          exact absurd h3.1 (by simp)
      slots := by
        rw [hlen]
        have h1 : s.slots = k.origSlots := hk.cold1 hot
        have h2 : s.slots = g.ring.length := h.slots
        show k.origSlots = _
        omega
      size := by
        have h1 : s.slots = k.origSlots := hk.cold1 hot
        have h2 : s.slots ≤ s.size := h.size
        show k.origSlots ≤ s.size
        omega
      zero := by
        show g.mid = 0 ↔ _
        have h1 : s.slots = k.origSlots := hk.cold1 hot
        have h2 : s.slots = g.ring.length := h.slots
        rw [← hk.os0, ← List.length_eq_zero_iff, hlen]
        omega
      spare := by
        intro b hb j hj
        rcases List.mem_append.1 hb with hb | hb
        · obtain ⟨n, h1, h2⟩ := List.mem_map.1 hb
          have h3 := mem_span.1 h1
          have hlm := h.lm
          refine ⟨?_, ?_⟩
          · rw [← h2]
            have := h.data n (by omega) h3.2 j hj
            rw [h.vals_none h3.1] at this
            rw [show (giveUp s k).core.blk = s.core.blk from rfl, this]
            split <;> rfl
          · rw [← h2]; exact h.flagP n h3.1 h3.2 j hj
        · exact h.spare b hb j hj
      data := fun n hn hn2 => h.data n hn (by have : n < g.mid := hn2; omega)
      flagP := fun n hn hn2 => absurd hn2 (Nat.not_lt.2 hn)
      none := fun e => by
        have h1 : g.hi = 0 := h.none e
        show g.mid = 0
        omega
      cur := by
        intro h' e
        obtain ⟨c1, c2, c3, c4, c5⟩ := h.cur h' e
        refine ⟨c1, c2, hk.cold2 hot h' e, ?_, c5⟩
        show (match s.cur with | none => g.top | some h => upd g.top h g.mid) h' = g.mid
        rw [show s.cur = some h' from e]
        exact upd_self _ _ _
      entry := fun h' hl' n hn hn2 => h.entry h' hl' n hn (Nat.lt_of_lt_of_le hn2 (htop2 h' hl'))
      nfTop := by
        intro h' hl'
        show g.nf h' ≤ (match s.cur with | none => g.top | some h => upd g.top h g.mid) h'
        have h1 := (hk.cold3 hot h' hl').1
        cases hc : s.cur with
        | none => exact h.nfTop h' hl'
        | some hd =>
          show g.nf h' ≤ upd g.top hd g.mid h'
          by_cases e : h' = hd
          · subst e; rw [upd_self]; exact h1
          · rw [upd_ne e]; exact h.nfTop h' hl'
      topHi := htop }

/-- The blocks when one slot has changed. -/
def setSlot (blk : Nat → Blk E) (b j : Nat) (v : Option E) : Nat → Blk E :=
  upd blk b { blk b with slots := upd (blk b).slots j v }

theorem setSlot_gone {blk : Nat → Blk E} {b j : Nat} {v : Option E} (b' j' : Nat) :
    (setSlot blk b j v b').gone j' = (blk b').gone j' := by
  unfold setSlot
  by_cases e : b' = b
  · subst e; rw [upd_self]
  · rw [upd_ne e]

theorem setSlot_self {blk : Nat → Blk E} {b j : Nat} {v : Option E} :
    (setSlot blk b j v b).slots j = v := by
  unfold setSlot
  rw [upd_self]
  exact upd_self _ _ _

theorem setSlot_ne {blk : Nat → Blk E} {b j b' j' : Nat} {v : Option E} (h : ¬(b' = b ∧ j' = j)) :
    (setSlot blk b j v b').slots j' = (blk b').slots j' := by
  unfold setSlot
  by_cases e : b' = b
  · subst e; rw [upd_self]; exact upd_ne fun e2 => h ⟨rfl, e2⟩
  · rw [upd_ne e]

/-- An element is constructed. -/
theorem mem_put (h : Mem c g s.core) {i : Nat} {x : E} (hi : i = g.vals.length) (hlt : i < g.mid * c.B) :
    Mem c { g with vals := g.vals ++ [x] }
      ({ s with blk := setSlot s.blk (g.bk (i / c.B)) (i % c.B) (some x) } : Sys E).core := by
  have hmh := h.mh
  have hle : s.head ≤ s.tail := h.le
  have htl : s.tail ≤ g.vals.length := h.tailLe
  have hlo : g.lo ≤ i / c.B := h.lo_le (h.not_done (by show s.head ≤ i; omega))
  have hmid : i / c.B < g.mid := (div_lt_iff c.posB).2 hlt
  have hdm : i / c.B * c.B + i % c.B = i := by rw [Nat.mul_comm]; exact Nat.div_add_mod i c.B
  exact
    { h with
      fresh := by
        intro b hb j
        have : g.bk (i / c.B) < s.made := h.made _ (h.mem_ring hlo (by omega))
        have hb' : s.made ≤ b := hb
        show (setSlot s.blk _ _ _ b).slots j = none
        rw [setSlot_ne (by omega)]
        exact h.fresh b hb j
      spare := by
        intro b hb j hj
        show (setSlot s.blk _ _ _ b).slots j = none ∧ (setSlot s.blk _ _ _ b).gone j = true
        have hb' : b ∈ g.spares := hb
        rw [setSlot_ne (fun e => h.not_spare hlo (by omega) (by rw [← e.1]; exact hb')), setSlot_gone]
        exact h.spare b hb j hj
      data := by
        intro n hn hn2 j hj
        show (setSlot s.blk _ _ _ (g.bk n)).slots j = if s.moved (n * c.B + j) then none else (g.vals ++ [x])[n * c.B + j]?
        have hd := h.data n hn hn2 j hj
        by_cases e : n = i / c.B ∧ j = i % c.B
        · rw [e.1, e.2, setSlot_self, hdm, show s.moved i = false from h.not_moved (by show s.head ≤ i; omega), hi]
          simp
        · have hne : n * c.B + j ≠ g.vals.length := by
            intro e2
            rw [← hi] at e2
            apply e
            constructor
            · rw [← e2, Nat.mul_comm, Nat.mul_add_div c.posB, Nat.div_eq_of_lt hj]; rfl
            · rw [← e2, Nat.mul_comm, Nat.mul_add_mod, Nat.mod_eq_of_lt hj]
          rw [setSlot_ne (fun e2 => e ⟨h.inj' hn hn2 hlo (by omega) e2.1, e2.2⟩)]
          rw [show (s.blk (g.bk n)).slots j = _ from hd]
          show (if s.moved _ then _ else _) = _
          by_cases e3 : n * c.B + j < g.vals.length
          · rw [List.getElem?_append_left e3]
          · rw [List.getElem?_append_right (by omega), List.getElem?_eq_none (by omega : g.vals.length ≤ _),
              List.getElem?_eq_none (by simp only [List.length_cons, List.length_nil]; omega)]
      flag := fun n hn hn2 j hj => by
        show (setSlot s.blk _ _ _ (g.bk n)).gone j = _
        rw [setSlot_gone]; exact h.flag n hn hn2 j hj
      flagP := fun n hn hn2 j hj => by
        show (setSlot s.blk _ _ _ (g.bk n)).gone j = _
        rw [setSlot_gone]; exact h.flagP n hn hn2 j hj
      valsLe := by
        show (g.vals ++ [x]).length ≤ g.mid * c.B
        rw [List.length_append]; show g.vals.length + 1 ≤ _; omega
      tailLe := by
        show s.tail ≤ (g.vals ++ [x]).length
        rw [List.length_append]; omega }

/-- Elements are published. -/
theorem mem_tail (h : Mem c g s.core) {n : Nat} (hn : s.tail ≤ n) (hv : n ≤ g.vals.length)
    (hp : ∀ hd, s.cur = some hd → n ≤ g.nf hd * c.B) : Mem c g ({ s with tail := n } : Sys E).core :=
  { h with
    le := Nat.le_trans h.le hn
    tailLe := hv
    cur := fun h' e => by
      obtain ⟨c1, c2, c3, c4, c5⟩ := h.cur h' e
      exact ⟨c1, c2, c3, c4, hp h' e⟩ }

/-- The walk that resets the flags. -/
theorem resetFrom_path {s : Sys E} {b z : Nat} {l : List Nat} {fuel : Nat} (hp : Path s.next b l z)
    (ht : (b :: l).getLast? = s.tb) (hd : (b :: l).Nodup) (hf : (b :: l).length ≤ fuel) :
    ∃ blk, resetFrom s fuel b = { s with blk := blk } ∧ (∀ x, x ∉ b :: l → blk x = s.blk x) ∧
      ∀ x, x ∈ b :: l → blk x = (s.blk x).setAll false := by
  induction l generalizing b fuel s with
  | nil =>
    cases fuel with
    | zero => simp at hf
    | succ fuel =>
      simp at ht
      refine ⟨upd s.blk b ((s.blk b).setAll false), ?_, ?_, ?_⟩
      · show (if s.tb = some b then _ else _) = _
        rw [if_pos ht.symm]
      · intro x hx; exact upd_ne (by simpa using hx)
      · intro x hx
        have : x = b := by simpa using hx
        subst this; exact upd_self _ _ _
  | cons y l ih =>
    cases fuel with
    | zero => simp at hf
    | succ fuel =>
      obtain ⟨hn1, hn2⟩ := List.nodup_cons.1 hd
      have ht' : (y :: l).getLast? = s.tb := by rw [← ht]; simp [List.getLast?_cons_cons]
      have hne : s.tb ≠ some b := by
        intro e
        rw [e] at ht'
        exact hn1 (List.mem_of_getLast? ht')
      let s' : Sys E := { s with blk := upd s.blk b ((s.blk b).setAll false) }
      obtain ⟨blk, h1, h2, h3⟩ := ih (s := s') (b := y) (fuel := fuel) hp.2 ht' hn2
        (by simp only [List.length_cons] at hf ⊢; omega)
      refine ⟨blk, ?_, ?_, ?_⟩
      · show (if s.tb = some b then _ else resetFrom s' fuel (s.next b)) = _
        rw [if_neg hne, hp.1, h1]
      · intro x hx
        rw [h2 x (fun hm => hx (List.mem_cons_of_mem _ hm))]
        exact upd_ne (fun e => hx (by rw [e]; exact List.mem_cons_self))
      · intro x hx
        rcases List.mem_cons.1 hx with hx | hx
        · subst hx
          rw [h2 x hn1]
          exact upd_self _ _ _
        · rw [h3 x hx]
          show (upd s.blk b _ x).setAll false = _
          rw [upd_ne (fun e => hn1 (by rw [← e]; exact hx))]

/-- A list of different numbers below `n` is no longer than `n`. -/
theorem nodup_length {l : List Nat} {n : Nat} (hd : l.Nodup) (hl : ∀ x ∈ l, x < n) : l.length ≤ n := by
  induction n generalizing l with
  | zero =>
    cases l with
    | nil => exact Nat.le_refl _
    | cons x l => exact absurd (hl x List.mem_cons_self) (Nat.not_lt_zero _)
  | succ n ih =>
    have h1 := ih (l := l.erase n) (hd.erase n) (fun x hx => by
      have h2 := (List.Nodup.mem_erase_iff hd).1 hx
      have h3 := hl x h2.2
      have := h2.1
      omega)
    have h2 := List.length_erase (a := n) (l := l)
    split at h2 <;> omega

end Verif.TokenQueue
