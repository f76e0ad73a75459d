import Verif.LinkedQueue.Index
/-!
# The steps that touch blocks
-/
namespace Verif.LinkedQueue

variable {E : Type}

theorem countP_congr_range {f f' : Nat → Bool} : ∀ (n : Nat), (∀ j, j < n → f j = f' j) →
    (List.range n).countP f = (List.range n).countP f'
  | 0, _ => rfl
  | n + 1, h => by
    rw [List.range_succ, List.countP_append, List.countP_append,
      countP_congr_range n (fun j hj => h j (by omega))]
    simp [List.countP_cons, h n (by omega)]

theorem countP_range_one {f f' : Nat → Bool} {i : Nat} (h0 : f i = false) (h1 : f' i = true) :
    ∀ (n : Nat), i < n → (∀ j, j < n → j ≠ i → f' j = f j) →
    (List.range n).countP f' = (List.range n).countP f + 1
  | 0, h, _ => by omega
  | n + 1, h, ho => by
    rw [List.range_succ, List.countP_append, List.countP_append]
    by_cases e : i = n
    · subst e
      rw [countP_congr_range i (f := f') (f' := f) (fun j hj => ho j (by omega) (by omega))]
      simp [List.countP_cons, h0, h1]
    · rw [countP_range_one h0 h1 n (by omega) (fun j hj => ho j (by omega))]
      simp only [List.countP_cons, List.countP_nil, ho n (by omega) (fun h => e h.symm)]
      omega

theorem countP_range_all {f : Nat → Bool} {n : Nat} (h : (List.range n).countP f = n) (j : Nat)
    (hj : j < n) : f j = true := by
  have h1 : (List.range n).countP f = (List.range n).length := by simpa using h
  exact List.countP_eq_length.mp h1 j (List.mem_range.mpr hj)

/-- The hands of all threads after one has moved. -/
theorem hands_upd {s s' : Sys E} {t : Nat} {y : Pos E} (hq : s'.quiet = s.quiet)
    (hpos : s'.pos = upd s.pos t y) {t' z : Nat} {c : Option E} {r : Bool}
    (h : hand s'.quiet (s'.pos t') = some (z, c, r)) :
    t' = t ∧ hand s.quiet y = some (z, c, r) ∨
      t' ≠ t ∧ hand s.quiet (s.pos t') = some (z, c, r) := by
  rw [hq, hpos] at h
  by_cases ht : t' = t
  · subst ht; rw [upd_same] at h; exact .inl ⟨rfl, h⟩
  · rw [upd_ne _ _ ht] at h; exact .inr ⟨ht, h⟩

/-- Threads about to clear a block other than `t` stay so. -/
theorem null_upd {s s' : Sys E} {t : Nat} {y : Pos E} (hpos : s'.pos = upd s.pos t y) {p z : Nat}
    (hx : ∀ k i en e, s.pos t ≠ .deq k p (.null i en z e))
    (h : ∃ t' k i en e, s.pos t' = .deq k p (.null i en z e)) :
    ∃ t' k i en e, s'.pos t' = .deq k p (.null i en z e) := by
  obtain ⟨t', k, i, en, e, h2⟩ := h
  have ht : t' ≠ t := by intro e'; subst e'; exact hx _ _ _ _ h2
  exact ⟨t', k, i, en, e, by rw [hpos, upd_ne _ _ ht]; exact h2⟩

/-- Blocks in the hands of others stay there. -/
theorem hand_upd {s s' : Sys E} {t : Nat} {y : Pos E} (hq : s'.quiet = s.quiet) (hpos : s'.pos = upd s.pos t y) {z : Nat}
    (hx : ∀ c r, hand s.quiet (s.pos t) ≠ some (z, c, r))
    (h : ∃ t' c r, hand s.quiet (s.pos t') = some (z, c, r)) :
    ∃ t' c r, hand s'.quiet (s'.pos t') = some (z, c, r) := by
  obtain ⟨t', c, r, h2⟩ := h
  have ht : t' ≠ t := by intro e'; subst e'; exact hx _ _ h2
  exact ⟨t', c, r, by rw [hq, hpos, upd_ne _ _ ht]; exact h2⟩

theorem hand_me {s s' : Sys E} {t : Nat} {y : Pos E} (hq : s'.quiet = s.quiet) (hpos : s'.pos = upd s.pos t y)
    {z : Nat} {c : Option E} {r : Bool} (hy : hand s.quiet y = some (z, c, r)) :
    ∃ t' c r, hand s'.quiet (s'.pos t') = some (z, c, r) :=
  ⟨t, c, r, by rw [hq, hpos, upd_same]; exact hy⟩

/-- A block comes out of the free list. -/
theorem InvH.getOld {s s' : Sys E} {Γ : Nat → G E} (h : InvH s Γ) (t : Nat) (y : Pos E) {c b : Nat}
    (hc : s.free[c]? = some b)
    (hpos : s'.pos = upd s.pos t y) (hq : s'.quiet = s.quiet) (hheap : s'.heap = s.heap)
    (hmade : s'.made = s.made) (hfree : s'.free = s.free.eraseIdx c)
    (hy : hand s.quiet y = some (b, none, false)) (hx : (s.pos t).calm = true) : InvH s' Γ := by
  obtain ⟨hlt, hbc⟩ := List.getElem?_eq_some_iff.mp hc
  have hmem : b ∈ s.free := hbc ▸ List.getElem_mem hlt
  have hsub : ∀ z, z ∈ s.free.eraseIdx c → z ∈ s.free := fun z hz => List.mem_of_mem_eraseIdx hz
  have hnot : b ∉ s.free.eraseIdx c := by
    intro hm
    rw [List.mem_eraseIdx_iff_getElem] at hm
    obtain ⟨i, hi, hne, he⟩ := hm
    exact hne ((List.getElem_inj h.nodup).mp (he.trans hbc.symm))
  refine ⟨?_, h.inj, ?_, ?_, ?_, ?_, ?_, ?_, ?_⟩
  · intro p b' z hz
    rw [hmade, hfree, hheap]
    obtain ⟨h1, h2, h3⟩ := h.blk p b' z hz
    exact ⟨h1, fun hm => h2 (hsub z hm), h3⟩
  · intro t' z c' r h1
    rw [hmade, hfree, hheap]
    rcases hands_upd hq hpos h1 with ⟨_, h2⟩ | ⟨_, h2⟩
    · rw [hy] at h2
      cases h2
      obtain ⟨h3, h4⟩ := h.free b hmem
      refine ⟨h3, hnot, ?_, ?_, fun h => by cases h⟩
      · intro p b' hb'; exact (h.blk p b' b hb').2.1 hmem
      · intro j hj; rw [h4 j hj]; split <;> rfl
    · obtain ⟨h3, h4, h5⟩ := h.hands t' z c' r h2
      exact ⟨h3, fun hm => h4 (hsub z hm), h5⟩
  · intro t1 t2 z c1 r1 c2 r2 h1 h2
    rcases hands_upd hq hpos h1 with ⟨e1, h1'⟩ | ⟨e1, h1'⟩ <;>
      rcases hands_upd hq hpos h2 with ⟨e2, h2'⟩ | ⟨e2, h2'⟩
    · rw [e1, e2]
    · rw [hy] at h1'; cases h1'
      exact absurd hmem (h.hands t2 b c2 r2 h2').2.1
    · rw [hy] at h2'; cases h2'
      exact absurd hmem (h.hands t1 b c1 r1 h1').2.1
    · exact h.two t1 t2 z c1 r1 c2 r2 h1' h2'
  · intro z hz
    rw [hfree] at hz
    rw [hmade, hheap]
    exact h.free z (hsub z hz)
  · rw [hfree]; exact h.nodup.sublist (List.eraseIdx_sublist _ _)
  · rw [hmade, hheap]; exact h.fresh
  · intro z hz
    rw [hmade] at hz
    rw [hfree]
    rcases h.cover z hz with h1 | h1 | h1
    · by_cases e : z = b
      · subst e; exact .inr (.inr (hand_me hq hpos hy))
      · left
        obtain ⟨i, hi, he⟩ := List.getElem_of_mem h1
        rw [List.mem_eraseIdx_iff_getElem]
        exact ⟨i, hi, fun e' => e (by subst e'; exact he.symm.trans hbc), he⟩
    · exact .inr (.inl h1)
    · exact .inr (.inr (hand_upd hq hpos (fun c r e => by rw [calm_hand hx] at e; cases e) h1))
  · intro p b' z hz
    rw [hheap]
    rcases h.spent p b' z hz with h1 | h1
    · exact .inl h1
    · exact .inr (null_upd hpos (fun _ _ _ _ => calm_null hx) h1)

/-- A block is made. -/
theorem InvH.getNew {s s' : Sys E} {Γ : Nat → G E} (h : InvH s Γ) (t : Nat) (y : Pos E)
    (hpos : s'.pos = upd s.pos t y) (hq : s'.quiet = s.quiet) (hheap : s'.heap = s.heap)
    (hmade : s'.made = s.made + 1) (hfree : s'.free = s.free)
    (hy : hand s.quiet y = some (s.made, none, false)) (hx : (s.pos t).calm = true) : InvH s' Γ := by
  refine ⟨?_, h.inj, ?_, ?_, ?_, ?_, ?_, ?_, ?_⟩
  · intro p b' z hz
    rw [hmade, hfree, hheap]
    obtain ⟨h1, h2⟩ := h.blk p b' z hz
    exact ⟨by omega, h2⟩
  · intro t' z c' r h1
    rw [hmade, hfree, hheap]
    rcases hands_upd hq hpos h1 with ⟨_, h2⟩ | ⟨_, h2⟩
    · rw [hy] at h2
      cases h2
      refine ⟨by omega, ?_, ?_, ?_, fun h => by cases h⟩
      · intro hm; have := (h.free _ hm).1; omega
      · intro p b' hb'; have := (h.blk p b' _ hb').1; omega
      · intro j hj; rw [h.fresh _ (Nat.le_refl _) j hj]; split <;> rfl
    · obtain ⟨h3, h4⟩ := h.hands t' z c' r h2
      exact ⟨by omega, h4⟩
  · intro t1 t2 z c1 r1 c2 r2 h1 h2
    rcases hands_upd hq hpos h1 with ⟨e1, h1'⟩ | ⟨e1, h1'⟩ <;>
      rcases hands_upd hq hpos h2 with ⟨e2, h2'⟩ | ⟨e2, h2'⟩
    · rw [e1, e2]
    · rw [hy] at h1'; cases h1'
      have := (h.hands t2 _ c2 r2 h2').1; omega
    · rw [hy] at h2'; cases h2'
      have := (h.hands t1 _ c1 r1 h1').1; omega
    · exact h.two t1 t2 z c1 r1 c2 r2 h1' h2'
  · intro z hz
    rw [hfree] at hz
    rw [hmade, hheap]
    obtain ⟨h1, h2⟩ := h.free z hz
    exact ⟨by omega, h2⟩
  · rw [hfree]; exact h.nodup
  · intro z hz; rw [hmade] at hz; rw [hheap]; exact h.fresh z (by omega)
  · intro z hz
    rw [hmade] at hz
    rw [hfree]
    by_cases e : z = s.made
    · subst e; exact .inr (.inr (hand_me hq hpos hy))
    · rcases h.cover z (by omega) with h1 | h1 | h1
      · exact .inl h1
      · exact .inr (.inl h1)
      · exact .inr (.inr (hand_upd hq hpos (fun c r e => by rw [calm_hand hx] at e; cases e) h1))
  · intro p b' z hz
    rw [hheap]
    rcases h.spent p b' z hz with h1 | h1
    · exact .inl h1
    · exact .inr (null_upd hpos (fun _ _ _ _ => calm_null hx) h1)

/-- A thread changes the block it has in hand. -/
theorem InvH.inHand {s s' : Sys E} {Γ : Nat → G E} (h : InvH s Γ) (t : Nat) (y : Pos E) {b : Nat}
    {c c' : Option E} {r r' : Bool} (X : Blk E)
    (hw : hand s.quiet (s.pos t) = some (b, c, r))
    (hpos : s'.pos = upd s.pos t y) (hq : s'.quiet = s.quiet) (hheap : s'.heap = upd s.heap b X)
    (hmade : s'.made = s.made) (hfree : s'.free = s.free)
    (hy : hand s.quiet y = some (b, c', r'))
    (hX : ∀ j, j < 32 → X.slots j = if j = 0 then c' else none)
    (hg : r' = true → X.gone = 0) : InvH s' Γ := by
  obtain ⟨w1, w2, w3, w4, w5⟩ := h.hands t b c r hw
  refine ⟨?_, h.inj, ?_, ?_, ?_, ?_, ?_, ?_, ?_⟩
  · intro p b' z hz
    rw [hmade, hfree, hheap]
    have : z ≠ b := fun e => w3 p b' (e ▸ hz)
    rw [upd_ne _ _ this]
    exact h.blk p b' z hz
  · intro t' z c1 r1 h1
    rw [hmade, hfree, hheap]
    rcases hands_upd hq hpos h1 with ⟨_, h2⟩ | ⟨ht, h2⟩
    · rw [hy] at h2
      cases h2
      rw [upd_same]
      exact ⟨w1, w2, w3, hX, hg⟩
    · have : z ≠ b := by
        intro e; subst e
        exact ht (h.two t' t _ _ _ _ _ h2 hw)
      rw [upd_ne _ _ this]
      exact h.hands t' z c1 r1 h2
  · intro t1 t2 z c1 r1 c2 r2 h1 h2
    rcases hands_upd hq hpos h1 with ⟨e1, h1'⟩ | ⟨e1, h1'⟩ <;>
      rcases hands_upd hq hpos h2 with ⟨e2, h2'⟩ | ⟨e2, h2'⟩
    · rw [e1, e2]
    · rw [hy] at h1'; cases h1'
      exact absurd (h.two t2 t _ _ _ _ _ h2' hw) e2
    · rw [hy] at h2'; cases h2'
      exact absurd (h.two t1 t _ _ _ _ _ h1' hw) e1
    · exact h.two t1 t2 z c1 r1 c2 r2 h1' h2'
  · intro z hz
    rw [hfree] at hz
    rw [hmade, hheap]
    have : z ≠ b := fun e => w2 (e ▸ hz)
    rw [upd_ne _ _ this]
    exact h.free z hz
  · rw [hfree]; exact h.nodup
  · intro z hz
    rw [hmade] at hz
    rw [hheap, upd_ne _ _ (by omega)]
    exact h.fresh z hz
  · intro z hz
    rw [hmade] at hz
    rw [hfree]
    by_cases e : z = b
    · subst e; exact .inr (.inr (hand_me hq hpos hy))
    · rcases h.cover z hz with h1 | h1 | h1
      · exact .inl h1
      · exact .inr (.inl h1)
      · refine .inr (.inr (hand_upd hq hpos (fun c r e' => ?_) h1))
        rw [hw] at e'; cases e'; exact e rfl
  · intro p b' z hz
    have : z ≠ b := fun e => w3 p b' (e ▸ hz)
    rw [hheap, upd_ne _ _ this]
    rcases h.spent p b' z hz with h1 | h1
    · exact .inl h1
    · exact .inr (null_upd hpos (fun _ _ _ _ => hand_null hw) h1)

/-- An index changes state inside its block. -/
theorem InvH.inBlock {s s' : Sys E} {Γ : Nat → G E} (h : InvH s Γ) (t : Nat) (y : Pos E)
    {p b i : Nat} (g : G E) (v : St E) (X : Blk E)
    (hb : (Γ p).blk (i / 32) = some b)
    (hgb : g.blk = (Γ p).blk) (hgs : g.st = upd (Γ p).st i v)
    (hpos : s'.pos = upd s.pos t y) (hq : s'.quiet = s.quiet) (hheap : s'.heap = upd s.heap b X)
    (hmade : s'.made = s.made) (hfree : s'.free = s.free)
    (hy : hand s.quiet y = none)
    (hX : X.slots = upd (s.heap b).slots (i % 32) v.held)
    (hg : X.gone = if v.isDone then (s.heap b).gone + 1 else (s.heap b).gone)
    (hnd : ((Γ p).st i).isDone = false) (hx : (s.pos t).calm = true)
    (hl : X.gone = (s.heap b).gone ∨ X.gone < 32 ∨ ∃ k j en e, y = .deq k p (.null j en b e)) :
    InvH s' (upd Γ p g) := by
  obtain ⟨w1, w2, w3, w4⟩ := h.blk p _ b hb
  have hlt : i % 32 < 32 := Nat.mod_lt _ (by decide)
  have hblk : ∀ q, (upd Γ p g q).blk = (Γ q).blk := by
    intro q
    by_cases e : q = p
    · subst e; rw [upd_same]; exact hgb
    · rw [upd_ne _ _ e]
  -- nobody has the block in hand
  have hno : ∀ t' z c r, hand s'.quiet (s'.pos t') = some (z, c, r) →
      hand s.quiet (s.pos t') = some (z, c, r) ∧ z ≠ b := by
    intro t' z c r h1
    rcases hands_upd hq hpos h1 with ⟨_, h2⟩ | ⟨ht, h2⟩
    · rw [hy] at h2; cases h2
    · exact ⟨h2, fun e => (h.hands t' z c r h2).2.2.1 p _ (e ▸ hb)⟩
  refine ⟨?_, ?_, ?_, ?_, ?_, ?_, ?_, ?_, ?_⟩
  · intro q b' z hz
    rw [hblk] at hz
    rw [hmade, hfree, hheap]
    by_cases hzb : z = b
    · subst hzb
      obtain ⟨e1, e2⟩ := h.inj _ _ _ _ _ hz hb
      subst e1 e2
      rw [upd_same, upd_same, hgs]
      refine ⟨w1, w2, ?_, ?_⟩
      · intro j hj
        rw [hX]
        by_cases e : j = i % 32
        · subst e
          have : 32 * (i / 32) + i % 32 = i := Nat.div_add_mod i 32
          rw [this, upd_same, upd_same]
        · rw [upd_ne _ _ e, upd_ne _ _ (by omega)]
          exact w3 j hj
      · rw [hg, w4]
        have hii : 32 * (i / 32) + i % 32 = i := Nat.div_add_mod i 32
        by_cases hv : v.isDone = true
        · rw [if_pos hv]
          refine (countP_range_one (i := i % 32) ?_ ?_ 32 hlt ?_).symm
          · show ((Γ q).st _).isDone = false
            rw [hii]; exact hnd
          · show (upd (Γ q).st i v _).isDone = true
            rw [hii, upd_same]; exact hv
          · intro j hj hne
            show (upd (Γ q).st i v _).isDone = _
            rw [upd_ne _ _ (by omega)]
        · rw [if_neg hv]
          refine countP_congr_range 32 ?_
          intro j hj
          by_cases e : j = i % 32
          · subst e
            show ((Γ q).st _).isDone = (upd (Γ q).st i v _).isDone
            rw [hii, upd_same, hnd]
            simpa using hv
          · show ((Γ q).st _).isDone = (upd (Γ q).st i v _).isDone
            rw [upd_ne _ _ (by omega)]
    · rw [upd_ne _ _ hzb]
      obtain ⟨v1, v2, v3, v4⟩ := h.blk q b' z hz
      by_cases e : q = p
      · subst e
        have hb' : b' ≠ i / 32 := by
          intro e'; subst e'; rw [hb] at hz; cases hz; exact hzb rfl
        have hne : ∀ j, j < 32 → 32 * b' + j ≠ i := by intro j hj e'; omega
        rw [upd_same, hgs]
        refine ⟨v1, v2, ?_, ?_⟩
        · intro j hj; rw [upd_ne _ _ (hne j hj)]; exact v3 j hj
        · rw [v4]
          refine countP_congr_range 32 ?_
          intro j hj
          show _ = (upd (Γ q).st i v _).isDone
          rw [upd_ne _ _ (hne j hj)]
      · rw [upd_ne _ _ e]; exact ⟨v1, v2, v3, v4⟩
  · intro q1 b1 q2 b2 z h1 h2
    rw [hblk] at h1 h2
    exact h.inj q1 b1 q2 b2 z h1 h2
  · intro t' z c r h1
    obtain ⟨h2, h3⟩ := hno t' z c r h1
    rw [hmade, hfree, hheap, upd_ne _ _ h3]
    simp only [hblk]
    exact h.hands t' z c r h2
  · intro t1 t2 z c1 r1 c2 r2 h1 h2
    exact h.two t1 t2 z c1 r1 c2 r2 (hno _ _ _ _ h1).1 (hno _ _ _ _ h2).1
  · intro z hz
    rw [hfree] at hz
    have : z ≠ b := fun e => w2 (e ▸ hz)
    rw [hmade, hheap, upd_ne _ _ this]
    exact h.free z hz
  · rw [hfree]; exact h.nodup
  · intro z hz
    rw [hmade] at hz
    rw [hheap, upd_ne _ _ (by omega)]
    exact h.fresh z hz
  · intro z hz
    rw [hmade] at hz
    rw [hfree]
    simp only [hblk]
    rcases h.cover z hz with h1 | h1 | h1
    · exact .inl h1
    · exact .inr (.inl h1)
    · exact .inr (.inr (hand_upd hq hpos (fun c r e => by rw [calm_hand hx] at e; cases e) h1))
  · intro q b' z hz
    rw [hblk] at hz
    rw [hheap]
    have old := h.spent q b' z hz
    by_cases e : z = b
    · subst e
      obtain ⟨rfl, rfl⟩ := h.inj _ _ _ _ _ hz hb
      rw [upd_same]
      rcases hl with h1 | h1 | ⟨k, j, en, e, h1⟩
      · rw [h1]
        rcases old with h2 | h2
        · exact .inl h2
        · exact .inr (null_upd hpos (fun _ _ _ _ => calm_null hx) h2)
      · exact .inl h1
      · exact .inr ⟨t, k, j, en, e, by rw [hpos, upd_same]; exact h1⟩
    · rw [upd_ne _ _ e]
      rcases old with h2 | h2
      · exact .inl h2
      · exact .inr (null_upd hpos (fun _ _ _ _ => calm_null hx) h2)

/-- A block goes from a thread's hand into the index. -/
theorem InvH.place {s s' : Sys E} {Γ : Nat → G E} (h : InvH s Γ) (t : Nat) (y : Pos E)
    {p b n : Nat} {c : Option E} (g : G E)
    (hw : hand s.quiet (s.pos t) = some (b, c, true))
    (hgb : g.blk = upd (Γ p).blk n (some b)) (hn : (Γ p).blk n = none)
    (hgs : ∀ i, i / 32 ≠ n → g.st i = (Γ p).st i)
    (hg0 : (g.st (32 * n)).held = c ∧ (g.st (32 * n)).isDone = false)
    (hgj : ∀ j, 0 < j → j < 32 → g.st (32 * n + j) = .raw)
    (hpos : s'.pos = upd s.pos t y) (hq : s'.quiet = s.quiet) (hheap : s'.heap = s.heap)
    (hmade : s'.made = s.made) (hfree : s'.free = s.free)
    (hy : hand s.quiet y = none) :
    InvH s' (upd Γ p g) := by
  obtain ⟨w1, w2, w3, w4, w5⟩ := h.hands t b c true hw
  have hcase : ∀ q b' z, (upd Γ p g q).blk b' = some z →
      q = p ∧ b' = n ∧ z = b ∨ (Γ q).blk b' = some z ∧ z ≠ b ∧ (q = p → b' ≠ n) := by
    intro q b' z hz
    by_cases e : q = p
    · subst e
      rw [upd_same, hgb] at hz
      by_cases e' : b' = n
      · subst e'; rw [upd_same] at hz; cases hz; exact .inl ⟨rfl, rfl, rfl⟩
      · rw [upd_ne _ _ e'] at hz
        exact .inr ⟨hz, fun e => w3 q b' (e ▸ hz), fun _ => e'⟩
    · rw [upd_ne _ _ e] at hz
      exact .inr ⟨hz, fun e => w3 q b' (e ▸ hz), fun e' => absurd e' e⟩
  have hno : ∀ t' z c r, hand s'.quiet (s'.pos t') = some (z, c, r) →
      hand s.quiet (s.pos t') = some (z, c, r) ∧ z ≠ b := by
    intro t' z c r h1
    rcases hands_upd hq hpos h1 with ⟨_, h2⟩ | ⟨ht, h2⟩
    · rw [hy] at h2; cases h2
    · refine ⟨h2, fun e => ?_⟩
      subst e
      exact ht (h.two t' t _ _ _ _ _ h2 hw)
  refine ⟨?_, ?_, ?_, ?_, ?_, ?_, ?_, ?_, ?_⟩
  · intro q b' z hz
    rw [hmade, hfree, hheap]
    rcases hcase q b' z hz with ⟨rfl, rfl, rfl⟩ | ⟨h1, h2, h3⟩
    · rw [upd_same]
      refine ⟨w1, w2, ?_, ?_⟩
      · intro j hj
        rw [w4 j hj]
        by_cases e : j = 0
        · subst e; rw [if_pos rfl]; exact hg0.1.symm
        · rw [if_neg e, hgj j (by omega) hj]; rfl
      · rw [w5 rfl]
        symm
        rw [List.countP_eq_zero]
        intro j hj
        have hj' := List.mem_range.mp hj
        by_cases e : j = 0
        · subst e; have := hg0.2; simpa using this
        · rw [hgj j (by omega) hj']; simp [St.isDone]
    · obtain ⟨v1, v2, v3, v4⟩ := h.blk q b' z h1
      by_cases e : q = p
      · subst e
        have hne : ∀ j, j < 32 → g.st (32 * b' + j) = (Γ q).st (32 * b' + j) :=
          fun j hj => hgs _ (by have := h3 rfl; omega)
        rw [upd_same]
        refine ⟨v1, v2, ?_, ?_⟩
        · intro j hj; rw [hne j hj]; exact v3 j hj
        · rw [v4]
          refine countP_congr_range 32 ?_
          intro j hj
          rw [hne j hj]
      · rw [upd_ne _ _ e]; exact ⟨v1, v2, v3, v4⟩
  · intro q1 b1 q2 b2 z h1 h2
    rcases hcase _ _ _ h1 with ⟨e1, e2, e3⟩ | ⟨g1, g2, g3⟩ <;>
      rcases hcase _ _ _ h2 with ⟨f1, f2, f3⟩ | ⟨k1, k2, k3⟩
    · exact ⟨by rw [e1, f1], by rw [e2, f2]⟩
    · exact absurd e3 k2
    · exact absurd f3 g2
    · exact h.inj q1 b1 q2 b2 z g1 k1
  · intro t' z c' r h1
    obtain ⟨h2, h3⟩ := hno t' z c' r h1
    rw [hmade, hfree, hheap]
    obtain ⟨v1, v2, v3, v4⟩ := h.hands t' z c' r h2
    refine ⟨v1, v2, ?_, v4⟩
    intro q b' hz
    rcases hcase q b' z hz with ⟨_, _, e⟩ | ⟨e, _⟩
    · exact h3 e
    · exact v3 q b' e
  · intro t1 t2 z c1 r1 c2 r2 h1 h2
    exact h.two t1 t2 z c1 r1 c2 r2 (hno _ _ _ _ h1).1 (hno _ _ _ _ h2).1
  · rw [hfree, hmade, hheap]; exact h.free
  · rw [hfree]; exact h.nodup
  · rw [hmade, hheap]; exact h.fresh
  · intro z hz
    rw [hmade] at hz
    rw [hfree]
    by_cases e : z = b
    · subst e; exact .inr (.inl ⟨p, n, by rw [upd_same, hgb, upd_same]⟩)
    · rcases h.cover z hz with h1 | ⟨q, b', h1⟩ | h1
      · exact .inl h1
      · refine .inr (.inl ⟨q, b', ?_⟩)
        by_cases e1 : q = p
        · subst e1
          rw [upd_same, hgb]
          by_cases e2 : b' = n
          · subst e2; rw [hn] at h1; cases h1
          · rw [upd_ne _ _ e2]; exact h1
        · rw [upd_ne _ _ e1]; exact h1
      · refine .inr (.inr (hand_upd hq hpos (fun c r e' => ?_) h1))
        rw [hw] at e'; cases e'; exact e rfl
  · intro q b' z hz
    rw [hheap]
    rcases hcase q b' z hz with ⟨_, _, e⟩ | ⟨e, _⟩
    · subst e; exact .inl (by rw [w5 rfl]; decide)
    · rcases h.spent q b' z e with h1 | h1
      · exact .inl h1
      · exact .inr (null_upd hpos (fun _ _ _ _ => hand_null hw) h1)

/-- A block goes from the index into a thread's hand. -/
theorem InvH.pull {s s' : Sys E} {Γ : Nat → G E} (h : InvH s Γ) (t : Nat) (y : Pos E)
    {p b n : Nat} (hb : (Γ p).blk n = some b)
    (hd : ∀ j, j / 32 = n → ((Γ p).st j).isDone = true)
    (hpos : s'.pos = upd s.pos t y) (hq : s'.quiet = s.quiet) (hheap : s'.heap = s.heap)
    (hmade : s'.made = s.made) (hfree : s'.free = s.free)
    (hy : hand s.quiet y = some (b, none, false)) {k i en e} (hx : s.pos t = .deq k p (.null i en b e)) :
    InvH s' (upd Γ p (nullG (Γ p) n)) := by
  obtain ⟨w1, w2, w3, w4⟩ := h.blk p n b hb
  have hcase : ∀ q b' z, (upd Γ p (nullG (Γ p) n) q).blk b' = some z →
      (Γ q).blk b' = some z ∧ z ≠ b := by
    intro q b' z hz
    by_cases e : q = p
    · subst e
      rw [upd_same] at hz
      by_cases e' : b' = n
      · subst e'
        have : upd (Γ q).blk b' none b' = some z := hz
        rw [upd_same] at this; cases this
      · have h1 : upd (Γ q).blk n none b' = some z := hz
        rw [upd_ne _ _ e'] at h1
        exact ⟨h1, fun e => e' (h.inj _ _ _ _ _ (e ▸ h1) hb).2⟩
    · rw [upd_ne _ _ e] at hz
      exact ⟨hz, fun e2 => e (h.inj _ _ _ _ _ (e2 ▸ hz) hb).1⟩
  have hst : ∀ q, (upd Γ p (nullG (Γ p) n) q).st = (Γ q).st := by
    intro q
    by_cases e : q = p
    · subst e; rw [upd_same]; rfl
    · rw [upd_ne _ _ e]
  refine ⟨?_, ?_, ?_, ?_, ?_, ?_, ?_, ?_, ?_⟩
  · intro q b' z hz
    rw [hmade, hfree, hheap, hst]
    exact h.blk q b' z (hcase q b' z hz).1
  · intro q1 b1 q2 b2 z h1 h2
    exact h.inj q1 b1 q2 b2 z (hcase _ _ _ h1).1 (hcase _ _ _ h2).1
  · intro t' z c' r h1
    rw [hmade, hfree, hheap]
    rcases hands_upd hq hpos h1 with ⟨_, h2⟩ | ⟨ht, h2⟩
    · rw [hy] at h2; cases h2
      refine ⟨w1, w2, ?_, ?_, fun h => by cases h⟩
      · intro q b' hz; exact (hcase q b' b hz).2 rfl
      · intro j hj
        rw [w3 j hj]
        have := hd (32 * n + j) (by omega)
        cases hs : (Γ p).st (32 * n + j) with
        | done e => simp [St.held]
        | _ => rw [hs] at this; cases this
    · obtain ⟨v1, v2, v3, v4⟩ := h.hands t' z c' r h2
      exact ⟨v1, v2, fun q b' hz => v3 q b' (hcase q b' z hz).1, v4⟩
  · intro t1 t2 z c1 r1 c2 r2 h1 h2
    rcases hands_upd hq hpos h1 with ⟨e1, h1'⟩ | ⟨e1, h1'⟩ <;>
      rcases hands_upd hq hpos h2 with ⟨e2, h2'⟩ | ⟨e2, h2'⟩
    · rw [e1, e2]
    · rw [hy] at h1'; cases h1'
      exact absurd hb ((h.hands t2 _ c2 r2 h2').2.2.1 p n)
    · rw [hy] at h2'; cases h2'
      exact absurd hb ((h.hands t1 _ c1 r1 h1').2.2.1 p n)
    · exact h.two t1 t2 z c1 r1 c2 r2 h1' h2'
  · rw [hfree, hmade, hheap]; exact h.free
  · rw [hfree]; exact h.nodup
  · rw [hmade, hheap]; exact h.fresh
  · intro z hz
    rw [hmade] at hz
    rw [hfree]
    by_cases e : z = b
    · subst e; exact .inr (.inr (hand_me hq hpos hy))
    · rcases h.cover z hz with h1 | ⟨q, b', h1⟩ | h1
      · exact .inl h1
      · refine .inr (.inl ⟨q, b', ?_⟩)
        by_cases e1 : q = p
        · subst e1
          rw [upd_same]
          show upd (Γ q).blk n none b' = some z
          by_cases e2 : b' = n
          · subst e2; rw [hb] at h1; cases h1; exact absurd rfl e
          · rw [upd_ne _ _ e2]; exact h1
        · rw [upd_ne _ _ e1]; exact h1
      · exact .inr (.inr (hand_upd hq hpos (fun c r e => by rw [hx] at e; cases e) h1))
  · intro q b' z hz
    rw [hheap]
    obtain ⟨h1, h2⟩ := hcase q b' z hz
    rcases h.spent q b' z h1 with h3 | h3
    · exact .inl h3
    · refine .inr (null_upd hpos (fun k i en e he => ?_) h3)
      rw [hx] at he; cases he; exact h2 rfl

/-- A block goes from a thread's hand into the free list. -/
theorem InvH.give {s s' : Sys E} {Γ : Nat → G E} (h : InvH s Γ) (t : Nat) (y : Pos E) {b : Nat}
    {r : Bool} (hw : hand s.quiet (s.pos t) = some (b, none, r))
    (hpos : s'.pos = upd s.pos t y) (hq : s'.quiet = s.quiet) (hheap : s'.heap = s.heap)
    (hmade : s'.made = s.made) (hfree : s'.free = b :: s.free)
    (hy : hand s.quiet y = none) : InvH s' Γ := by
  obtain ⟨w1, w2, w3, w4, w5⟩ := h.hands t b none r hw
  have hno : ∀ t' z c r, hand s'.quiet (s'.pos t') = some (z, c, r) →
      hand s.quiet (s.pos t') = some (z, c, r) ∧ z ≠ b := by
    intro t' z c r h1
    rcases hands_upd hq hpos h1 with ⟨_, h2⟩ | ⟨ht, h2⟩
    · rw [hy] at h2; cases h2
    · refine ⟨h2, fun e => ?_⟩
      subst e
      exact ht (h.two t' t _ _ _ _ _ h2 hw)
  refine ⟨?_, h.inj, ?_, ?_, ?_, ?_, ?_, ?_, ?_⟩
  · intro p b' z hz
    rw [hmade, hfree, hheap]
    obtain ⟨h1, h2, h3⟩ := h.blk p b' z hz
    refine ⟨h1, ?_, h3⟩
    intro hm
    rcases List.mem_cons.mp hm with e | e
    · exact w3 p b' (e ▸ hz)
    · exact h2 e
  · intro t' z c' r h1
    obtain ⟨h2, h3⟩ := hno t' z c' r h1
    rw [hmade, hfree, hheap]
    obtain ⟨v1, v2, v3⟩ := h.hands t' z c' r h2
    refine ⟨v1, ?_, v3⟩
    intro hm
    rcases List.mem_cons.mp hm with e | e
    · exact h3 e
    · exact v2 e
  · intro t1 t2 z c1 r1 c2 r2 h1 h2
    exact h.two t1 t2 z c1 r1 c2 r2 (hno _ _ _ _ h1).1 (hno _ _ _ _ h2).1
  · intro z hz
    rw [hfree] at hz
    rw [hmade, hheap]
    rcases List.mem_cons.mp hz with e | e
    · subst e
      exact ⟨w1, fun j hj => by rw [w4 j hj]; split <;> rfl⟩
    · exact h.free z e
  · rw [hfree]; exact List.nodup_cons.mpr ⟨w2, h.nodup⟩
  · rw [hmade, hheap]; exact h.fresh
  · intro z hz
    rw [hmade] at hz
    rw [hfree]
    by_cases e : z = b
    · subst e; exact .inl (List.mem_cons_self ..)
    · rcases h.cover z hz with h1 | h1 | h1
      · exact .inl (List.mem_cons_of_mem _ h1)
      · exact .inr (.inl h1)
      · refine .inr (.inr (hand_upd hq hpos (fun c r e' => ?_) h1))
        rw [hw] at e'; cases e'; exact e rfl
  · intro p b' z hz
    rw [hheap]
    rcases h.spent p b' z hz with h1 | h1
    · exact .inl h1
    · exact .inr (null_upd hpos (fun _ _ _ _ => hand_null hw) h1)

end Verif.LinkedQueue
