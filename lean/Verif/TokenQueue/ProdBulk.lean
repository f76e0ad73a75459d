import Verif.TokenQueue.Prod
/-!
# The producer keeps the invariants: several elements at once
-/
namespace Verif.TokenQueue

variable {E : Type} {c : Cfg} {g : G E} {s s' : Sys E} {own : Nat → Own} {fate : Nat → Fate}

theorem Mem.next (h : Mem c g s.core) {n : Nat} (hn : g.lo ≤ n) (hn2 : n + 1 < g.hi) :
    s.next (g.bk n) = g.bk (n + 1) := by
  have h1 := h.ring
  unfold G.ring at h1
  rw [span_append (b := n) hn (by omega), span_cons (a := n) (by omega), span_cons (a := n + 1) hn2,
    List.map_append, ← List.append_assoc, List.map_cons, List.map_cons] at h1
  exact Ring.mid h1

/-- The blocks that are not new come first. -/
theorem Mem.ring_split {cs : Core E} (h : Mem c g cs) :
    g.ring = (g.spares ++ (span g.lo g.mid).map g.bk) ++ (span g.mid g.hi).map g.bk := by
  unfold G.ring
  rw [span_append h.lm h.mh, List.map_append, List.append_assoc]

theorem first_next {k : Option Nat} {bk : Nat → Nat} {mid hi x : Nat} (hm : mid ≤ hi)
    (h : k = if mid < hi then some (bk mid) else none) :
    k.or (some x) = if mid < hi + 1 then some (upd bk hi x mid) else none := by
  rw [if_pos (by omega), h]
  by_cases e : mid < hi
  · rw [if_pos e, upd_ne (by omega)]; rfl
  · rw [if_neg e, show mid = hi by omega, upd_self]; rfl

theorem prod_reuse (h : Inv c g own fate s) {k : Bulk E} (hpp : s.pp = .reuse k) {t : Nat} (ht : s.tb = some t)
    (hneed : k.need ≠ 0) (hfirst : k.first ≠ some (s.next t)) (he : (s.blk (s.next t)).empty c = true) :
    ∃ g', Inv c g' own fate
      { putEntry { s with tb := some (s.next t) } k.base (s.next t) with
        pp := .reuse { k with need := k.need - 1, base := k.base + c.B, first := k.first.or (some (s.next t)) } } := by
  obtain ⟨hk, hlen, -⟩ : Bk c g s.pc (sent s.log) k ∧ 0 < k.items.length ∧ (k.need = 0 → g.mid < g.hi) := by
    have := h.prod; rw [hpp] at this; exact this
  have hm := h.mem
  have hmh := hm.mh
  obtain ⟨l, hl⟩ := hm.first ht
  have hpos : 0 < g.hi := by
    apply Nat.pos_of_ne_zero
    intro e
    rw [hm.zero.1 e] at hl; cases hl
  obtain ⟨hd, hc⟩ := hm.has_cur hpos
  have hc' : s.cur = some hd := hc
  obtain ⟨l0, hr1⟩ : ∃ l0, g.spares ++ (span g.lo g.mid).map g.bk = s.next t :: l0 := by
    have h1 := hm.ring_split
    rw [hl] at h1
    cases hc : g.spares ++ (span g.lo g.mid).map g.bk with
    | cons y l0 =>
      rw [hc] at h1
      injection h1 with h2 _
      exact ⟨l0, by rw [h2]⟩
    | nil =>
      exfalso
      rw [hc, List.nil_append] at h1
      by_cases hlt : g.mid < g.hi
      · rw [span_cons hlt, List.map_cons] at h1
        injection h1 with h2 _
        apply hfirst
        rw [hk.first, if_pos hlt, h2]
      · rw [span_nil (by omega)] at h1; cases h1
  obtain ⟨sp, lo, h1, h2, h3, h4, h5, h6⟩ := peel hm hr1 he
  have hrot := mem_rotate hm hc' hr1 h1 h2 h3 h4 h5 h6 he
  rw [← hk.base, putEntry_some (by exact hc')] at hrot
  rw [putEntry_some (by exact hc')]
  have hcur := hm.cur hd hc
  refine ⟨_, inv_quiet h hrot ⟨?_, hlen, fun _ => ?_⟩ ?_ rfl rfl rfl rfl rfl rfl rfl⟩
  · exact
      { vals := hk.vals
        mid := hk.mid
        base := by
          show k.base + c.B = (g.hi + 1) * c.B
          rw [hk.base, Nat.succ_mul]
        need := by
          have := hk.need
          show g.hi + 1 + (k.need - 1) = ceil c.B (s.pc.tail + k.items.length)
          rw [← this]; omega
        first := first_next hmh hk.first
        os1 := hk.os1
        os2 := by
          have h7 : s.slots ≤ k.origSlots + (g.hi - g.mid) := hk.os2
          show s.slots ≤ k.origSlots + (g.hi + 1 - g.mid)
          omega
        os0 := hk.os0
        sb := by
          intro hne
          have hne' : s.tail % c.B ≠ 0 := hne
          have e := hk.mid
          have e' : g.mid = s.tail / c.B + 1 := by rw [e]; exact ceil_nondiv c.posB hne'
          show k.startBlock = some (upd g.bk g.hi (s.next t) (s.tail / c.B))
          rw [upd_ne (by omega)]
          exact hk.sb hne
        cold1 := hk.cold1
        cold2 := hk.cold2
        cold3 := by
          intro hh h' hl'
          obtain ⟨h7, h8⟩ := hk.cold3 hh h' hl'
          refine ⟨h7, fun hne => ?_⟩
          show upd g.top hd (g.hi + 1) h' ≤ g.mid
          rw [upd_ne (fun e => hne (by rw [e]; exact hc'))]
          exact h8 hne
        cold4 := by
          intro hh
          have h7 := hk.cold4 hh
          show k.startBlock = ((span g.mid (g.hi + 1)).map (upd g.bk g.hi (s.next t)) ++
            (sp ++ (span lo g.mid).map (upd g.bk g.hi (s.next t)))).getLast?
          rw [span_snoc hmh, List.map_append, map_upd (Nat.le_refl _), List.map_cons, List.map_nil, upd_self,
            map_upd hmh, ← h1]
          rw [h7, hr1]
          simp }
  · show g.mid < g.hi + 1
    omega
  · exact
      { head := rfl, moved := rfl, done := rfl, hdrs := Nat.le_refl _, off := fun _ _ => rfl
        size := fun h' _ => upd_size (by rfl) h'
        nf := fun _ _ => Nat.le_refl _
        bk := fun n hn => upd_ne (by omega)
        vals := ⟨[], (List.append_nil _).symm⟩ }

theorem prod_draw (h : Inv c g own fate s) {k : Bulk E} (hpp : s.pp = .draw k) :
    ∃ g', Inv c g' own fate
      { putEntry (link s true) k.base s.made with
        pp := .more { k with
          need := k.need - 1, base := k.base + c.B, first := k.first.or (some s.made), hot := true } } := by
  obtain ⟨hk, hlen, hneed, hlt, hd, hc⟩ : Bk c g s.pc (sent s.log) k ∧ 0 < k.items.length ∧ 0 < k.need ∧
      s.slots < s.size ∧ ∃ hd, s.cur = some hd := by
    have := h.prod; rw [hpp] at this; exact this
  have hm := h.mem
  have hmh := hm.mh
  have hlink := mem_link hm hc hlt
  rw [← hk.base, putEntry_some (by exact hc)] at hlink
  rw [putEntry_some (by exact hc)]
  refine ⟨_, inv_quiet h hlink ⟨?_, hlen, fun _ => ?_⟩ ?_ rfl rfl rfl rfl rfl rfl rfl⟩
  · exact
      { vals := hk.vals
        mid := hk.mid
        base := by
          show k.base + c.B = (g.hi + 1) * c.B
          rw [hk.base, Nat.succ_mul]
        need := by
          have := hk.need
          show g.hi + 1 + (k.need - 1) = _
          show _ = ceil c.B (s.pc.tail + k.items.length)
          rw [← this]; omega
        first := first_next hmh hk.first
        os1 := by
          have h7 : k.origSlots ≤ s.slots := hk.os1
          show k.origSlots ≤ s.slots + 1
          omega
        os2 := by
          have h7 : s.slots ≤ k.origSlots + (g.hi - g.mid) := hk.os2
          show s.slots + 1 ≤ k.origSlots + (g.hi + 1 - g.mid)
          omega
        os0 := hk.os0
        sb := by
          intro hne
          have hne' : s.tail % c.B ≠ 0 := hne
          have e := hk.mid
          have e' : g.mid = s.tail / c.B + 1 := by rw [e]; exact ceil_nondiv c.posB hne'
          show k.startBlock = some (upd g.bk g.hi s.made (s.tail / c.B))
          rw [upd_ne (by omega)]
          exact hk.sb hne
        cold1 := fun e => nomatch e
        cold2 := fun e => nomatch e
        cold3 := fun e => nomatch e
        cold4 := fun e => nomatch e }
  · show g.mid < g.hi + 1
    omega
  · exact
      { head := rfl, moved := rfl, done := rfl, hdrs := Nat.le_refl _, off := fun _ _ => rfl
        size := fun h' _ => upd_size (by rfl) h'
        nf := fun _ _ => Nat.le_refl _
        bk := fun n hn => upd_ne (by omega)
        vals := ⟨[], (List.append_nil _).symm⟩ }

theorem prod_index (h : Inv c g own fate s) {k : Bulk E} (hpp : s.pp = .more k) (hneed : k.need ≠ 0) :
    ∃ g', Inv c g' own fate
      { newIndex s k.origSlots with
        pp := .draw { k with origFront := k.origSlots, hot := k.hot || k.first.isSome } } := by
  obtain ⟨hk, hlen, -⟩ : Bk c g s.pc (sent s.log) k ∧ 0 < k.items.length ∧ (k.need = 0 → g.mid < g.hi) := by
    have := h.prod; rw [hpp] at this; exact this
  have hm := h.mem
  have hmh := hm.mh
  have ho1 : k.origSlots ≤ s.slots := hk.os1
  have ho2 : s.slots ≤ k.origSlots + (g.hi - g.mid) := hk.os2
  have ho0 := hk.os0
  have htl : s.tail ≤ g.mid * c.B := by
    have h1 : s.tail ≤ g.vals.length := hm.tailLe
    have h2 := hm.valsLe
    omega
  have hz : 0 < s.size := hm.pos
  have hs : s.slots ≤ s.size := hm.size
  have hhl : g.hi ≤ g.lo + s.slots := by
    have h2 : s.slots = g.ring.length := hm.slots
    unfold G.ring at h2
    simp only [List.length_append, List.length_map, length_span] at h2
    omega
  have hnew := mem_newIndex hm (ex := k.origSlots) ho1
    (fun e => by rw [ho0.1 e, Nat.zero_mul] at htl; omega)
    (fun e => by
      have h1 : g.mid ≠ 0 := fun e2 => e (ho0.2 e2)
      refine ⟨by omega, Nat.le_trans htl (Nat.mul_le_mul_right _ (by omega))⟩)
  refine ⟨_, inv_quiet h hnew ⟨?_, hlen, Nat.pos_of_ne_zero hneed, ?_, s.hdrs, rfl⟩ ext_grown rfl rfl rfl rfl rfl rfl rfl⟩
  · have hmid : (k.hot || k.first.isSome) = false → k.hot = false ∧ g.mid = g.hi := by
      intro e
      rw [Bool.or_eq_false_iff] at e
      refine ⟨e.1, ?_⟩
      apply Nat.le_antisymm hmh
      apply Nat.le_of_not_lt
      intro hlt
      have e2 := e.2
      rw [hk.first, if_pos hlt] at e2
      cases e2
    exact
      { vals := hk.vals, mid := hk.mid, base := hk.base, need := hk.need, first := hk.first, os1 := hk.os1
        os2 := hk.os2, os0 := hk.os0, sb := hk.sb
        cold1 := fun e => hk.cold1 (hmid e).1
        cold2 := by
          intro e h' he'
          obtain ⟨e1, e2⟩ := hmid e
          have he2 : some s.hdrs = some h' := he'
          injection he2 with he2
          have h1 : s.slots = k.origSlots := hk.cold1 e1
          show k.origSlots = posOf (upd g.off s.hdrs _ h') (2 * s.size) g.mid
          rw [← he2, upd_self, posOf_grown hz hs hmh (by omega)]
          omega
        cold3 := by
          intro e h' hl'
          obtain ⟨e1, e2⟩ := hmid e
          have hl2 : h' < s.hdrs + 1 := hl'
          by_cases he : h' = s.hdrs
          · subst he
            refine ⟨?_, fun hne => absurd rfl hne⟩
            show upd g.nf s.hdrs _ s.hdrs ≤ g.mid
            rw [upd_self]
            split <;> omega
          · have hl3 : h' < s.hdrs := by omega
            refine ⟨?_, fun _ => ?_⟩
            · show upd g.nf s.hdrs _ h' ≤ g.mid
              rw [upd_ne he]; exact (hk.cold3 e1 h' hl3).1
            · show upd g.top s.hdrs _ h' ≤ g.mid
              rw [upd_ne he, e2]; exact hm.topHi h' hl3
        cold4 := fun e => hk.cold4 (hmid e).1 }
  · show s.slots < 2 * s.size
    omega

theorem prod_giveUp (h : Inv c g own fate s) {k : Bulk E} (hk : Bk c g s.pc (sent s.log) k)
    (hot : k.hot = false) : ∃ g', Inv c g' own fate (giveUp s k) := by
  have hm := mem_giveUp h.mem hk hot
  refine ⟨_, inv_end h (r := .bulk k.items false) (fun k f l e => nomatch e) hm ⟨rfl, hk.mid, ?_⟩ ?_
    rfl rfl rfl rfl rfl rfl rfl ?_⟩
  · show g.vals = sent (s.log ++ [.bulk k.items false])
    rw [sent_bulk_false]; exact hk.vals
  · exact
      { head := rfl, moved := rfl, done := rfl, hdrs := Nat.le_refl _, off := fun _ _ => rfl
        size := fun _ _ => rfl
        nf := fun _ _ => Nat.le_refl _
        bk := fun _ _ => rfl
        vals := ⟨[], (List.append_nil _).symm⟩ }
  · show g.vals = sent (s.log ++ [.bulk k.items false])
    rw [sent_bulk_false]; exact hk.vals

theorem Path.prefix {nx : Nat → Nat} {a z : Nat} {l1 l2 : List Nat} (h : Path nx a (l1 ++ l2) z) :
    ∃ z', Path nx a l1 z' := by
  induction l1 generalizing a with
  | nil => exact ⟨_, rfl⟩
  | cons y l1 ih =>
    obtain ⟨h1, h2⟩ := h
    obtain ⟨z', h3⟩ := ih h2
    exact ⟨z', h1, h3⟩

theorem prod_opn (h : Inv c g own fate s) {k : Bulk E} (hpp : s.pp = .opn k) :
    ∃ b, k.first = some b ∧ ∃ g', Inv c g' own fate
      { putFront (resetFrom s s.made b) ((s.front + s.size - 1) % s.size) with
        pp := .fill k s.tb (if s.tail % c.B = 0 then some b else k.startBlock) s.tail k.items } := by
  obtain ⟨hk, hlen, hneed, hlt⟩ : Bk c g s.pc (sent s.log) k ∧ 0 < k.items.length ∧ k.need = 0 ∧ g.mid < g.hi := by
    have := h.prod; rw [hpp] at this; exact this
  have hm := h.mem
  have hmh := hm.mh
  refine ⟨g.bk g.mid, by rw [hk.first, if_pos hlt], ?_⟩
  obtain ⟨hd, hc⟩ := hm.has_cur (by omega)
  have hc' : s.cur = some hd := hc
  have hcur := hm.cur hd hc
  have hpend : (span g.mid g.hi).map g.bk = g.bk g.mid :: (span (g.mid + 1) g.hi).map g.bk := by
    rw [span_cons hlt]; rfl
  have hpath : ∃ z, Path s.next (g.bk g.mid) ((span (g.mid + 1) g.hi).map g.bk) z := by
    have h1 : Ring s.next g.ring := hm.ring
    rw [hm.ring_split] at h1
    have h2 := h1.rot
    rw [hpend, List.cons_append] at h2
    exact Path.prefix h2
  obtain ⟨z, hz⟩ := hpath
  have hlast : (g.bk g.mid :: (span (g.mid + 1) g.hi).map g.bk).getLast? = s.tb := by
    have h1 : s.tb = g.ring.getLast? := hm.tb
    rw [h1, hm.ring_split, hpend, List.getLast?_append, List.getLast?_cons]; rfl
  have hsub : ∀ b, b ∈ g.bk g.mid :: (span (g.mid + 1) g.hi).map g.bk → b ∈ g.ring := by
    intro b hb
    rw [hm.ring_split, hpend]; exact List.mem_append_right _ hb
  have hnd : (g.bk g.mid :: (span (g.mid + 1) g.hi).map g.bk).Nodup := by
    have h1 := hm.nodup
    rw [hm.ring_split, hpend] at h1
    exact (List.nodup_append.1 h1).2.1
  obtain ⟨blk, hr, hb1, hb2⟩ := resetFrom_path (fuel := s.made) hz hlast hnd (nodup_length hnd fun b hb => hm.made b (hsub b hb))
  rw [hr]
  have hopen := mem_open hm (blk := blk) (by rw [hpend]; exact hb1) (by rw [hpend]; exact hb2)
  have hfr := mem_front hopen (hd := hd) hc' (by show 0 < g.hi; omega)
  have hpos : (s.front + s.size - 1) % s.size = posOf (g.off hd) s.size (g.hi - 1) := by
    have h1 : s.front = posOf (g.off hd) s.size g.hi := hcur.2.2.1
    rw [h1]; exact posOf_pred (by omega) hm.pos
  rw [hpos]
  rw [putFront_some (by exact hc')] at hfr ⊢
  have hN : g.hi = ceil c.B (s.tail + k.items.length) := by
    have := hk.need
    rw [hneed] at this; exact this
  refine ⟨_, inv_quiet h hfr ⟨rfl, hN, rfl, ⟨[], rfl, ?_, rfl⟩, ?_, ?_, ?_⟩ ?_ rfl rfl rfl rfl rfl rfl rfl⟩
  · show g.vals = sent s.log ++ []
    rw [List.append_nil]; exact hk.vals
  · intro e; rw [e] at hlen; exact absurd hlen (Nat.lt_irrefl _)
  · intro _
    show (if s.tail % c.B = 0 then some (g.bk g.mid) else k.startBlock) = some (g.bk (s.tail / c.B))
    by_cases e : s.tail % c.B = 0
    · rw [if_pos e, hk.mid]
      show some (g.bk (ceil c.B s.tail)) = _
      rw [ceil_div c.posB e]
    · rw [if_neg e]; exact hk.sb e
  · intro _
    refine ⟨hd, hc', ?_⟩
    show s.tail + k.items.length - 1 < upd g.nf hd g.hi hd * c.B
    rw [upd_self, hN]
    have := le_ceil (x := s.tail + k.items.length) c.posB
    omega
  · exact
      { head := rfl, moved := rfl, done := rfl, hdrs := Nat.le_refl _, off := fun _ _ => rfl
        size := fun h' _ => upd_size (by rfl) h'
        nf := fun h' hl' => by
          show g.nf h' ≤ upd g.nf hd g.hi h'
          by_cases e : h' = hd
          · subst e; rw [upd_self]; exact Nat.le_trans (hm.nfTop _ hl') (hm.topHi _ hl')
          · rw [upd_ne e]; exact Nat.le_refl _
        bk := fun _ _ => rfl
        vals := ⟨[], (List.append_nil _).symm⟩ }

theorem prod_fill (h : Inv c g own fate s) {k : Bulk E} {eb b : Option Nat} {i : Nat} {x : E} {rest : List E}
    (hpp : s.pp = .fill k eb b i (x :: rest)) :
    ∃ b', b = some b' ∧ ∃ g', Inv c g' own fate
      { s with
        blk := setSlot s.blk b' (i % c.B) (some x)
        pp := .fill k eb (some (if (i + 1) % c.B = 0 ∧ eb ≠ some b' then s.next b' else b')) (i + 1) rest } := by
  obtain ⟨hmid, hN, heb, ⟨ext, hitems, hvals, hi⟩, -, hb, hpub⟩ : g.mid = g.hi ∧
      g.hi = ceil c.B (s.tail + k.items.length) ∧ eb = s.tb ∧
      (∃ ext, k.items = ext ++ x :: rest ∧ g.vals = sent s.log ++ ext ∧ i = s.tail + ext.length) ∧
      (x :: rest = [] → b = eb) ∧ (x :: rest ≠ [] → b = some (g.bk (i / c.B))) ∧
      (0 < k.items.length → Pub c g s.pc (s.tail + k.items.length - 1)) := by
    have := h.prod; rw [hpp] at this; exact this
  have hm := h.mem
  refine ⟨_, hb (by simp), ?_⟩
  have hlen : k.items.length = ext.length + (rest.length + 1) := by rw [hitems]; simp
  have htl : s.tail = (sent s.log).length := h.log.tail
  have hle := le_ceil (x := s.tail + k.items.length) c.posB
  rw [← hN] at hle
  have hlo : g.lo ≤ i / c.B := by
    rw [lt_div_iff c.posB]
    have : g.lo * c.B ≤ s.tail := hm.lo_tail
    omega
  have hil : i / c.B < g.hi := by rw [div_lt_iff c.posB]; omega
  have hnew := mem_put hm (x := x) (i := i) (by rw [hvals, List.length_append, ← htl, hi])
    (by rw [hmid]; omega)
  have htb : s.tb = some (g.bk (g.hi - 1)) := hm.last (by omega)
  refine ⟨_, inv_quiet h hnew ⟨hmid, hN, heb, ⟨ext ++ [x], ?_, ?_, ?_⟩, ?_, ?_, hpub⟩ ?_ rfl rfl rfl rfl rfl rfl rfl⟩
  · rw [hitems]; simp
  · show g.vals ++ [x] = sent s.log ++ (ext ++ [x])
    rw [hvals, List.append_assoc]
  · show i + 1 = s.tail + (ext ++ [x]).length
    rw [List.length_append, hi]; simp; omega
  · intro e
    subst e
    have h1 : g.hi = i / c.B + 1 := by
      rw [hN, ← ceil_succ c.posB]
      congr 1
      simp at hlen; omega
    have h2 : eb = some (g.bk (i / c.B)) := by rw [heb, htb, h1, Nat.add_sub_cancel]
    rw [if_neg (fun hh => hh.2 h2), h2]
  · intro e
    have hr : 0 < rest.length := List.length_pos_iff.2 e
    have h1 : i + 1 < g.hi * c.B := by omega
    have h2 : (i + 1) / c.B < g.hi := (div_lt_iff c.posB).2 h1
    show some _ = some (g.bk ((i + 1) / c.B))
    by_cases hmod : (i + 1) % c.B = 0
    · have h3 : (i + 1) / c.B = i / c.B + 1 := by
        rw [Nat.succ_div_of_dvd (Nat.dvd_of_mod_eq_zero hmod)]
      rw [h3] at h2 ⊢
      have hne : eb ≠ some (g.bk (i / c.B)) := by
        rw [heb, htb]
        intro hh
        injection hh with hh
        exact hm.inj hlo (n := g.hi - 1) (by omega) (by omega) hh.symm
      rw [if_pos ⟨hmod, hne⟩, hm.next hlo h2]
    · have h3 : (i + 1) / c.B = i / c.B :=
        Nat.succ_div_of_not_dvd (fun hd => hmod (Nat.mod_eq_zero_of_dvd hd))
      rw [if_neg (fun hh => hmod hh.1), h3]
  · exact { Ext.refl g s.core with vals := ⟨[x], rfl⟩ }

theorem prod_filled (h : Inv c g own fate s) {k : Bulk E} {eb b : Option Nat} {i : Nat}
    (hpp : s.pp = .fill k eb b i []) :
    b = eb ∧ ∃ g', Inv c g' own fate
      { s.ends (.bulk k.items true) with tail := s.tail + k.items.length, tb := eb } := by
  obtain ⟨hmid, hN, heb, ⟨ext, hitems, hvals, hi⟩, hb, -, hpub⟩ : g.mid = g.hi ∧
      g.hi = ceil c.B (s.tail + k.items.length) ∧ eb = s.tb ∧
      (∃ ext, k.items = ext ++ [] ∧ g.vals = sent s.log ++ ext ∧ i = s.tail + ext.length) ∧
      (([] : List E) = [] → b = eb) ∧ (([] : List E) ≠ [] → b = some (g.bk (i / c.B))) ∧
      (0 < k.items.length → Pub c g s.pc (s.tail + k.items.length - 1)) := by
    have := h.prod; rw [hpp] at this; exact this
  have hm := h.mem
  refine ⟨hb rfl, ?_⟩
  rw [List.append_nil] at hitems
  subst heb
  have htl : s.tail = (sent s.log).length := h.log.tail
  have hv : g.vals = sent (s.log ++ [.bulk k.items true]) := by rw [sent_bulk_true, hvals, hitems]
  have hnew := mem_tail hm (n := s.tail + k.items.length) (by omega)
    (by rw [hvals, List.length_append, ← htl, hitems]; exact Nat.le_refl _)
    (fun h' e => by
      by_cases h0 : 0 < k.items.length
      · obtain ⟨hd, hc, hlt⟩ := hpub h0
        have hc' : s.cur = some hd := hc
        rw [hc'] at e; cases e
        omega
      · have h1 := hm.cur h' e
        have h2 : s.tail ≤ g.nf h' * c.B := h1.2.2.2.2
        omega)
  refine ⟨g, inv_end h (r := .bulk k.items true) (fun k f l e => nomatch e) hnew ⟨hmid, hN, hv⟩
    { Ext.refl g s.core with } rfl rfl rfl rfl rfl rfl rfl hv⟩

theorem Rest.quiet {cs : Core E} (hm : Mem c g cs) (hr : Rest c g s.pc (sent s.log)) (hcs : cs = s.core)
    (hmod : s.tail % c.B ≠ 0) : g.hi = s.tail / c.B + 1 ∧ s.tb = some (g.bk (s.tail / c.B)) ∧
      ∃ hd, s.cur = some hd ∧ g.hi ≤ g.nf hd := by
  subst hcs
  have hhi : g.hi = s.tail / c.B + 1 := by
    rw [hr.hi]; exact ceil_nondiv c.posB hmod
  have hlo : g.lo ≤ s.tail / c.B := (lt_div_iff c.posB).2 hm.lo_tail
  have htb : s.tb = some (g.bk (g.hi - 1)) := hm.last (by omega)
  obtain ⟨hd, hc⟩ := hm.has_cur (by omega)
  refine ⟨hhi, by rw [htb, hhi, Nat.add_sub_cancel], hd, hc, ?_⟩
  rw [hr.hi]
  exact (ceil_le c.posB).2 (hm.cur hd hc).2.2.2.2

theorem prod_enq (h : Inv c g own fate s) (hpp : s.pp = .idle) (can : Bool) (x : E) :
    Inv c g own fate { s with pp := if s.tail % c.B = 0 then .chk can x else .put x } := by
  have hr : Rest c g s.pc (sent s.log) := by
    have := h.prod; rw [hpp] at this; exact this
  have hm := h.mem
  refine inv_quiet h hm ?_ (Ext.refl g s.core) rfl rfl rfl rfl rfl rfl rfl
  show PInv c g s.pc (sent s.log) (if s.tail % c.B = 0 then .chk can x else .put x)
  by_cases hmod : s.tail % c.B = 0
  · rw [if_pos hmod]; exact ⟨hr, hmod⟩
  · rw [if_neg hmod]
    obtain ⟨h1, h2, hd, hc, h3⟩ := hr.quiet hm rfl hmod
    refine ⟨⟨hr.mid, h1, hr.vals⟩, hd, hc, ?_⟩
    show s.tail < g.nf hd * c.B
    rw [← div_lt_iff c.posB]; omega

theorem prod_bulk (h : Inv c g own fate s) (hpp : s.pp = .idle) (can : Bool) (l : List E) :
    Inv c g own fate (callBulk c s can l) := by
  have hr : Rest c g s.pc (sent s.log) := by
    have := h.prod; rw [hpp] at this; exact this
  have hm := h.mem
  have hhi : g.hi = ceil c.B s.tail := hr.hi
  have hmono : ceil c.B s.tail ≤ ceil c.B (s.tail + l.length) := ceil_mono c.posB (by omega)
  have hN : ceil c.B (s.tail + l.length) - ceil c.B s.tail =
    (s.tail + l.length + c.B - 1) / c.B - (s.tail + c.B - 1) / c.B := rfl
  unfold callBulk
  simp only
  rw [← hN]
  by_cases hneed : ceil c.B (s.tail + l.length) - ceil c.B s.tail = 0
  · rw [if_pos hneed]
    have hmod : l ≠ [] → s.tail % c.B ≠ 0 := by
      intro hl e
      have h1 : 0 < l.length := List.length_pos_iff.2 hl
      have h2 : ceil c.B (s.tail + 1) ≤ ceil c.B (s.tail + l.length) := ceil_mono c.posB (by omega)
      rw [ceil_succ c.posB] at h2
      have h3 := ceil_div c.posB e
      omega
    refine inv_quiet h hm ⟨hr.mid, ?_, rfl, ⟨[], rfl, ?_, rfl⟩, fun _ => rfl, fun hl => ?_, fun hl => ?_⟩
      (Ext.refl g s.core) rfl rfl rfl rfl rfl rfl rfl
    · show g.hi = ceil c.B (s.tail + l.length)
      omega
    · show g.vals = sent s.log ++ []
      rw [List.append_nil]; exact hr.vals
    · exact (hr.quiet hm rfl (hmod hl)).2.1
    · have hl' : 0 < l.length := hl
      obtain ⟨h1, h2, hd, hc, h3⟩ := hr.quiet hm rfl (hmod (List.length_pos_iff.1 hl'))
      refine ⟨hd, hc, ?_⟩
      show s.tail + l.length - 1 < g.nf hd * c.B
      have h4 := le_ceil (x := s.tail + l.length) c.posB
      have h5 : ceil c.B (s.tail + l.length) * c.B ≤ g.nf hd * c.B := Nat.mul_le_mul_right _ (by omega)
      omega
  · rw [if_neg hneed]
    have hlen : 0 < l.length := by
      apply Nat.pos_of_ne_zero
      intro e
      rw [e] at hneed; exact hneed (Nat.sub_self _)
    refine inv_quiet h hm ⟨?_, hlen, fun e => absurd e hneed⟩ (Ext.refl g s.core) rfl rfl rfl rfl rfl rfl rfl
    have hsl : s.slots = g.ring.length := hm.slots
    exact
      { vals := hr.vals
        mid := by rw [hr.mid]; exact hhi
        base := by
          show ceil c.B s.tail * c.B = _
          rw [hhi]
        need := by
          show g.hi + (ceil c.B (s.tail + l.length) - ceil c.B s.tail) = ceil c.B (s.tail + l.length)
          omega
        first := by rw [if_neg (by have := hr.mid; omega)]
        os1 := Nat.le_refl _
        os2 := Nat.le_add_right _ _
        os0 := by
          show s.slots = 0 ↔ g.mid = 0
          rw [hsl, hr.mid, hm.zero, List.length_eq_zero_iff]
        sb := fun hmod => (hr.quiet hm rfl hmod).2.1
        cold1 := fun _ => rfl
        cold2 := by
          intro _ h' e
          show s.front = _
          rw [hr.mid]; exact (hm.cur h' e).2.2.1
        cold3 := by
          intro _ h' hl'
          rw [hr.mid]
          exact ⟨Nat.le_trans (hm.nfTop h' hl') (hm.topHi h' hl'), fun _ => hm.topHi h' hl'⟩
        cold4 := by
          intro _
          show s.tb = _
          rw [span_nil (Nat.le_of_eq hr.mid.symm), hr.mid]
          exact hm.tb }

/-- Every step of the producer, unless it spoils the queue. -/
theorem prod_step (h : Inv c g own fate s) {ok : Bool} (hs : prodStep c s ok = some s')
    (hsp : s'.spoilt = false) : ∃ g', Inv c g' own fate s' := by
  have hm := h.mem
  have hle : s.head ≤ s.tail := hm.le
  rw [prodStep.eq_def] at hs
  split at hs
  · cases hs
  · next can x hpp =>
    have hp : Rest c g s.pc (sent s.log) ∧ s.tail % c.B = 0 := by
      have := h.prod; rw [hpp] at this; exact this
    have hg : ∃ g', Inv c g' own fate { s with pp := .grow can x } :=
      ⟨g, inv_quiet h hm hp (Ext.refl g s.core) rfl rfl rfl rfl rfl rfl rfl⟩
    split at hs
    · simp only [Option.some.injEq] at hs
      subst hs; exact hg
    · next t ht =>
      simp only at hs
      split at hs
      · next he =>
        simp only [Option.some.injEq] at hs
        subst hs
        exact prod_chk h hpp ht he
      · simp only [Option.some.injEq] at hs
        subst hs; exact hg
  · next can x hpp =>
    have hp : Rest c g s.pc (sent s.log) ∧ s.tail % c.B = 0 := by
      have := h.prod; rw [hpp] at this; exact this
    rw [if_neg (by omega)] at hs
    split at hs
    · split at hs
      · simp only [Option.some.injEq] at hs
        subst hs
        exact prod_grow h hpp
      · simp only [Option.some.injEq] at hs
        subst hs
        have hv : g.vals = sent (s.log ++ [.enq x false]) := by rw [sent_enq_false]; exact hp.1.vals
        exact ⟨g, inv_end h (r := .enq x false) (fun k f l e => nomatch e) hm ⟨hp.1.mid, hp.1.hi, hv⟩
          (Ext.refl g s.core) rfl rfl rfl rfl rfl rfl rfl hv⟩
    · next hc =>
      simp only [Option.some.injEq] at hs
      subst hs
      simp only [Bool.or_eq_true, beq_iff_eq, not_or] at hc
      have hsz : s.slots ≤ s.size := hm.size
      refine ⟨g, inv_quiet h hm ⟨hp.1, hp.2, ?_, ?_⟩ (Ext.refl g s.core) rfl rfl rfl rfl rfl rfl rfl⟩
      · show s.slots < s.size
        omega
      · show ∃ hd, s.cur = some hd
        cases hcur : s.cur with
        | none => rw [hcur] at hc; exact absurd rfl hc.1
        | some hd => exact ⟨hd, rfl⟩
  · next can x hpp =>
    have hp : Rest c g s.pc (sent s.log) ∧ s.tail % c.B = 0 := by
      have := h.prod; rw [hpp] at this; exact ⟨this.1, this.2.1⟩
    split at hs
    · simp only [Option.some.injEq] at hs
      subst hs
      exact prod_take h hpp
    · simp only [Option.some.injEq] at hs
      subst hs
      have hv : g.vals = sent (s.log ++ [.enq x false]) := by rw [sent_enq_false]; exact hp.1.vals
      exact ⟨g, inv_end h (r := .enq x false) (fun k f l e => nomatch e) hm ⟨hp.1.mid, hp.1.hi, hv⟩
        (Ext.refl g s.core) rfl rfl rfl rfl rfl rfl rfl hv⟩
  · next f x hpp =>
    simp only [Option.some.injEq] at hs
    subst hs
    exact prod_fr h hpp
  · next x hpp =>
    obtain ⟨b, hb, hg⟩ := prod_put h hpp
    split at hs
    · next hn => rw [hn] at hb; cases hb
    · next b' hb' =>
      rw [hb'] at hb; cases hb
      simp only [Option.some.injEq] at hs
      subst hs
      exact hg
  · next x hpp =>
    simp only [Option.some.injEq] at hs
    subst hs
    exact prod_pub h hpp
  · next k hpp =>
    have hp : Bk c g s.pc (sent s.log) k ∧ 0 < k.items.length ∧ (k.need = 0 → g.mid < g.hi) := by
      have := h.prod; rw [hpp] at this; exact this
    have hg : ∃ g', Inv c g' own fate { s with pp := .more k } :=
      ⟨g, inv_quiet h hm hp (Ext.refl g s.core) rfl rfl rfl rfl rfl rfl rfl⟩
    split at hs
    · simp only [Option.some.injEq] at hs
      subst hs; exact hg
    · next t ht =>
      simp only at hs
      split at hs
      · next he =>
        simp only [Option.some.injEq] at hs
        subst hs
        exact prod_reuse h hpp ht he.1 he.2.1 he.2.2
      · simp only [Option.some.injEq] at hs
        subst hs; exact hg
  · next k hpp =>
    have hp : Bk c g s.pc (sent s.log) k ∧ 0 < k.items.length ∧ (k.need = 0 → g.mid < g.hi) := by
      have := h.prod; rw [hpp] at this; exact this
    by_cases hneed : k.need = 0
    · rw [if_pos hneed] at hs
      simp only [Option.some.injEq] at hs
      subst hs
      exact ⟨g, inv_quiet h hm ⟨hp.1, hp.2.1, hneed, hp.2.2 hneed⟩ (Ext.refl g s.core) rfl rfl rfl rfl rfl rfl rfl⟩
    · rw [if_neg hneed] at hs
      have hbase : ¬ k.base < s.head := by
        rw [hp.1.base]
        have h1 : s.tail ≤ g.vals.length := hm.tailLe
        have h2 := hm.valsLe
        have h3 : g.mid * c.B ≤ g.hi * c.B := Nat.mul_le_mul_right _ hm.mh
        omega
      rw [if_neg hbase] at hs
      split at hs
      · split at hs
        · simp only [Option.some.injEq] at hs
          subst hs
          exact prod_index h hpp hneed
        · simp only [Option.some.injEq] at hs
          subst hs
          refine prod_giveUp h hp.1 ?_
          have : (s.spoilt || k.hot) = false := hsp
          rw [Bool.or_eq_false_iff] at this
          exact this.2
      · next hc =>
        simp only [Option.some.injEq] at hs
        subst hs
        simp only [Bool.or_eq_true, beq_iff_eq, not_or] at hc
        have hsz : s.slots ≤ s.size := hm.size
        refine ⟨g, inv_quiet h hm ⟨hp.1, hp.2.1, Nat.pos_of_ne_zero hneed, ?_, ?_⟩ (Ext.refl g s.core)
          rfl rfl rfl rfl rfl rfl rfl⟩
        · show s.slots < s.size
          omega
        · show ∃ hd, s.cur = some hd
          cases hcur : s.cur with
          | none => rw [hcur] at hc; exact absurd rfl hc.1
          | some hd => exact ⟨hd, rfl⟩
  · next k hpp =>
    have hp : Bk c g s.pc (sent s.log) k ∧ 0 < k.items.length := by
      have := h.prod; rw [hpp] at this; exact ⟨this.1, this.2.1⟩
    split at hs
    · simp only [Option.some.injEq] at hs
      subst hs
      exact prod_draw h hpp
    · simp only [Option.some.injEq] at hs
      subst hs
      refine prod_giveUp h hp.1 ?_
      have : (s.spoilt || k.hot) = false := hsp
      rw [Bool.or_eq_false_iff] at this
      exact this.2
  · next k hpp =>
    obtain ⟨b, hb, hg⟩ := prod_opn h hpp
    split at hs
    · next hn => rw [hn] at hb; cases hb
    · next b' hb' =>
      rw [hb'] at hb; cases hb
      simp only [Option.some.injEq] at hs
      subst hs
      exact hg
  · next k eb b i rest hpp =>
    split at hs
    · obtain ⟨hb, hg⟩ := prod_filled h hpp
      simp only [if_pos hb, Option.some.injEq] at hs
      subst hs
      exact hg
    · next x rest =>
      obtain ⟨b', hb, hg⟩ := prod_fill h hpp
      subst hb
      simp only [Option.some.injEq] at hs
      subst hs
      exact hg

end Verif.TokenQueue
