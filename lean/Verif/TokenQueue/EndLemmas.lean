import Verif.TokenQueue.EndWin
/-!
# The destructor of a producer: proofs
-/
namespace Verif.TokenQueue

variable {E : Type} {c : Cfg} {g : G E} {s s' : Sys E} {own : Nat → Own} {fate : Nat → Fate}

/-! The flags. -/

/-- The elements a consumer has not marked yet. -/
def pend : DPos E → Nat → Prop
  | .idx _ f a, j => f ≤ j ∧ j < f + a
  | .frt _ f a _, j => f ≤ j ∧ j < f + a
  | .bas _ f a _ _, j => f ≤ j ∧ j < f + a
  | .blk _ _ e _ _ i _, j => i ≤ j ∧ j < e
  | .mv _ _ e _ _ _ i0 _ _, j => i0 ≤ j ∧ j < e
  | .mark _ _ e _ _ _ i0 _ _, j => i0 ≤ j ∧ j < e
  | _, _ => False

/-- Every element below the head is marked, or a consumer has it. -/
def Due (s : Sys E) : Prop := ∀ j, j < s.head → s.done j = true ∨ ∃ t, pend (s.pos t) j

theorem Due.go {t : Nat} {p : DPos E} (h : Due s) (h1 : s'.head = s.head) (h2 : s'.pos = upd s.pos t p)
    (h3 : ∀ j, s.done j = true → s'.done j = true)
    (h4 : ∀ j, j < s.head → pend (s.pos t) j → s'.done j = true ∨ pend p j) : Due s' := by
  intro j hj
  rw [h1] at hj
  rcases h j hj with h5 | ⟨t', h5⟩
  · exact .inl (h3 j h5)
  · by_cases e : t' = t
    · subst e
      rcases h4 j hj h5 with h6 | h6
      · exact .inl h6
      · exact .inr ⟨t', by rw [h2, upd_self]; exact h6⟩
    · exact .inr ⟨t', by rw [h2, upd_ne e]; exact h5⟩

theorem due_cons {t : Nat} (h : Due s) (hs : consStep c s t = some s') (hbad : s'.bad = false) : Due s' := by
  have key : ∀ p : DPos E, (∀ j, pend (s.pos t) j → pend p j) →
      ∀ s', s'.head = s.head → s'.done = s.done → s'.pos = upd s.pos t p → Due s' := fun p hp s' e1 e2 e3 =>
    h.go e1 e3 (fun j hj => by rw [e2]; exact hj) (fun j _ hj => .inr (hp j hj))
  rw [consStep.eq_def] at hs
  split at hs
  · cases hs
  · next hpos => injection hs with hs; subst hs; exact key _ (by rw [hpos]; exact fun j hj => hj) _ rfl rfl rfl
  · next hpos => injection hs with hs; subst hs; exact key _ (by rw [hpos]; exact fun j hj => hj) _ rfl rfl rfl
  · next hpos =>
    split at hs
    · injection hs with hs; subst hs; exact key _ (by rw [hpos]; exact fun j hj => hj) _ rfl rfl rfl
    · injection hs with hs; subst hs; exact key _ (by rw [hpos]; exact fun j hj => hj) _ rfl rfl rfl
  · next hpos => injection hs with hs; subst hs; exact key _ (by rw [hpos]; exact fun j hj => hj) _ rfl rfl rfl
  · next hpos =>
    split at hs
    · simp only at hs
      split at hs
      · injection hs with hs; subst hs; exact key _ (by rw [hpos]; exact fun j hj => hj) _ rfl rfl rfl
      · injection hs with hs; subst hs; exact key _ (by rw [hpos]; exact fun j hj => hj) _ rfl rfl rfl
    · injection hs with hs; subst hs; exact key _ (by rw [hpos]; exact fun j hj => hj) _ rfl rfl rfl
  · next hpos => injection hs with hs; subst hs; exact key _ (by rw [hpos]; exact fun j hj => hj) _ rfl rfl rfl
  · next hpos => injection hs with hs; subst hs; exact key _ (by rw [hpos]; exact fun j hj => hj) _ rfl rfl rfl
  · next k a hpos =>
    injection hs with hs; subst hs
    intro j hj
    have hj' : j < s.head + a := hj
    by_cases hlt : j < s.head
    · rcases h j hlt with h5 | ⟨t', h5⟩
      · exact .inl h5
      · refine .inr ⟨t', ?_⟩
        show pend (upd s.pos t _ t') j
        rw [upd_ne]
        · exact h5
        · intro e; subst e; rw [hpos] at h5; exact h5
    · refine .inr ⟨t, ?_⟩
      show pend (upd s.pos t _ t) j
      rw [upd_self]
      exact ⟨Nat.le_of_not_lt hlt, hj'⟩
  · next hpos =>
    split at hs
    · injection hs with hs; subst hs; cases hbad
    · injection hs with hs; subst hs; exact key _ (by rw [hpos]; exact fun j hj => hj) _ rfl rfl rfl
  · next hpos =>
    split at hs
    · injection hs with hs; subst hs; cases hbad
    · injection hs with hs; subst hs; exact key _ (by rw [hpos]; exact fun j hj => hj) _ rfl rfl rfl
  · next hpos =>
    split at hs
    · injection hs with hs; subst hs; cases hbad
    · injection hs with hs; subst hs; exact key _ (by rw [hpos]; exact fun j hj => hj) _ rfl rfl rfl
  · next hpos =>
    split at hs
    · injection hs with hs; subst hs; cases hbad
    · injection hs with hs; subst hs; exact key _ (by rw [hpos]; exact fun j hj => hj) _ rfl rfl rfl
  · next hpos =>
    split at hs
    · injection hs with hs; subst hs; cases hbad
    · simp only at hs
      split at hs
      · injection hs with hs; subst hs; exact key _ (by rw [hpos]; exact fun j hj => hj) _ rfl rfl rfl
      · injection hs with hs; subst hs; exact key _ (by rw [hpos]; exact fun j hj => hj) _ rfl rfl rfl
  · next k f e hd p b i0 i acc hpos =>
    split at hs
    · injection hs with hs; subst hs; cases hbad
    · simp only at hs
      have h3 : ∀ j, s.done j = true → (if i0 ≤ j ∧ j < i then true else s.done j) = true := by
        intro j hj; split
        · rfl
        · exact hj
      split at hs
      · next e2 =>
        injection hs with hs; subst hs
        refine h.go rfl rfl h3 (fun j _ hj => .inl ?_)
        rw [hpos] at hj
        show (if i0 ≤ j ∧ j < i then true else s.done j) = true
        rw [if_pos ⟨hj.1, by rw [e2]; exact hj.2⟩]
      · injection hs with hs; subst hs
        refine h.go rfl rfl h3 (fun j _ hj => ?_)
        rw [hpos] at hj
        by_cases hlt : j < i
        · refine .inl ?_
          show (if i0 ≤ j ∧ j < i then true else s.done j) = true
          rw [if_pos ⟨hj.1, hlt⟩]
        · exact .inr ⟨Nat.le_of_not_lt hlt, hj.2⟩

theorem put_calm (s : Sys E) (a b : Nat) : (putEntry s a b).head = s.head ∧ (putEntry s a b).done = s.done := by
  unfold putEntry; split <;> exact ⟨rfl, rfl⟩
theorem front_calm (s : Sys E) (f : Nat) : (putFront s f).head = s.head ∧ (putFront s f).done = s.done := by
  unfold putFront; split <;> exact ⟨rfl, rfl⟩
theorem reset_calm {fuel : Nat} (s : Sys E) (b : Nat) :
    (resetFrom s fuel b).head = s.head ∧ (resetFrom s fuel b).done = s.done := by
  induction fuel generalizing s b with
  | zero => exact ⟨rfl, rfl⟩
  | succ fuel ih =>
    unfold resetFrom
    simp only
    split
    · exact ⟨rfl, rfl⟩
    · exact ih _ _

theorem prod_calm {ok : Bool} (h : prodStep c s ok = some s') : s'.head = s.head ∧ s'.done = s.done := by
  rw [prodStep.eq_def] at h
  repeat' (first | split at h | (simp only at h; split at h))
  all_goals first
    | (cases h; done)
    | (simp only [Option.some.injEq] at h
       subst h
       first
         | exact ⟨rfl, rfl⟩
         | exact put_calm _ _ _
         | exact front_calm _ _
         | exact ⟨(front_calm _ _).1.trans (reset_calm _ _).1, (front_calm _ _).2.trans (reset_calm _ _).2⟩)

theorem callBulk_calm {can : Bool} {l : List E} : (callBulk c s can l).head = s.head ∧ (callBulk c s can l).done = s.done := by
  unfold callBulk; simp only; split <;> exact ⟨rfl, rfl⟩

theorem due_move {m : Move E} (h : Due s) (hs : move c s m = some s') (hbad : s'.bad = false) : Due s' := by
  have key : s'.head = s.head → s'.done = s.done → s'.pos = s.pos → Due s' := by
    intro e1 e2 e3 j hj
    rw [e1] at hj
    rw [e2, e3]
    exact h j hj
  cases m with
  | prod ok =>
    have hs' : prodStep c s ok = some s' := hs
    exact key (prod_calm hs').1 (prod_calm hs').2 (pos_prod hs')
  | enq can x =>
    unfold move at hs
    simp only at hs
    split at hs
    · injection hs with hs; subst hs; exact key rfl rfl rfl
    · cases hs
  | bulk can l =>
    unfold move at hs
    simp only at hs
    split at hs
    · injection hs with hs; subst hs
      exact key callBulk_calm.1 callBulk_calm.2 callBulk_pos
    · cases hs
  | cons t => exact due_cons h hs hbad
  | deq t max =>
    unfold move at hs
    simp only at hs
    split at hs
    · next hpos =>
      split at hs
      · cases hs
      · injection hs with hs; subst hs
        exact h.go rfl rfl (fun j hj => hj) (fun j _ hj => by rw [hpos] at hj; exact absurd hj id)
    · cases hs

theorem ends_run {ms : List (Move E)} (hs : s.spoilt = false) (hg : Good c s) (hw : WinS c s) (hd : Due s)
    (hr : run c s ms = some s') (hb : NoBulkFailed s'.log) : WinS c s' ∧ Due s' := by
  induction ms generalizing s with
  | nil => unfold run at hr; injection hr with hr; subst hr; exact ⟨hw, hd⟩
  | cons m ms ih =>
    unfold run at hr
    split at hr
    · cases hr
    · next s1 h1 =>
      obtain ⟨e, he⟩ := run_grows hr
      have hb1 : NoBulkFailed s1.log := fun l hl => hb l (by rw [he]; exact List.mem_append_left _ hl)
      have h2 : run c s [m] = some s1 := by unfold run; rw [h1]; rfl
      have h3 := unspoilt_run hs h2 hb1
      have h4 := good_move hg h1 h3
      have h5 : s1.bad = false := by obtain ⟨_, _, _, h6⟩ := h4; exact h6.bad
      exact ih h3 h4 (win_move hw h1 hb1 h5) (due_move hd h1 h5) hr

theorem ends_reach (h : Reach c s) (hb : NoBulkFailed s.log) : WinS c s ∧ Due s := by
  obtain ⟨ok, ms, hr⟩ := h
  exact ends_run (s := start c ok) rfl (good_start c ok) (win_start ok)
    (fun j hj => absurd hj (Nat.not_lt_zero _)) hr hb

/-! One block. -/

theorem kill_run {b lim : Nat} {vals : List E} {o : Nat} : ∀ (n j : Nat) (r : Ruin E), j ≤ lim → lim ≤ j + n →
    (∀ i, j ≤ i → i < lim → (r.blk b).slots i = vals[o + i]?) → o + lim ≤ vals.length →
    ∃ r', killRun lim b n j r = some r' ∧ r'.dead = r.dead ++ (vals.drop (o + j)).take (lim - j) ∧
      (∀ i, j ≤ i → i < lim → (r'.blk b).slots i = none) ∧
      ∀ b' i, ¬ (b' = b ∧ j ≤ i ∧ i < lim) → (r'.blk b').slots i = (r.blk b').slots i
  | 0, j, r, h1, h2, h3, h4 => by
    obtain rfl : j = lim := by omega
    refine ⟨r, rfl, by rw [Nat.sub_self, List.take_zero, List.append_nil], fun i a b => by omega, fun _ _ _ => rfl⟩
  | n + 1, j, r, h1, h2, h3, h4 => by
    unfold killRun
    by_cases e : j = lim
    · subst e
      rw [if_pos rfl]
      exact ⟨r, rfl, by rw [Nat.sub_self, List.take_zero, List.append_nil], fun i a b => by omega, fun _ _ _ => rfl⟩
    · rw [if_neg e]
      have hlt : o + j < vals.length := by omega
      have hx : (r.blk b).slots j = some vals[o + j] := by
        rw [h3 j (Nat.le_refl _) (by omega), List.getElem?_eq_getElem hlt]
      obtain ⟨r1, e1⟩ : ∃ r1 : Ruin E, r1 =
          ⟨upd r.blk b { r.blk b with slots := upd (r.blk b).slots j none }, r.dead ++ [vals[o + j]]⟩ := ⟨_, rfl⟩
      have hk : r.kill b j = some r1 := by unfold Ruin.kill; rw [hx, e1]
      have hsl : ∀ b' i, (r1.blk b').slots i = if b' = b ∧ i = j then none else (r.blk b').slots i := by
        intro b' i
        rw [e1]
        show (upd r.blk b _ b').slots i = _
        by_cases hb : b' = b
        · subst hb
          rw [upd_self]
          show upd (r.blk b').slots j none i = _
          by_cases hi : i = j
          · subst hi; rw [upd_self, if_pos ⟨rfl, rfl⟩]
          · rw [upd_ne hi, if_neg (fun h => hi h.2)]
        · rw [upd_ne hb, if_neg (fun h => hb h.1)]
      obtain ⟨r', g1, g2, g3, g4⟩ := kill_run n (j + 1) r1 (by omega) (by omega)
        (fun i a d => by rw [hsl, if_neg (by omega)]; exact h3 i (by omega) d) h4
      rw [hk]
      refine ⟨r', g1, ?_, fun i a d => ?_, fun b' i hn => ?_⟩
      · rw [g2, e1]
        show r.dead ++ [vals[o + j]] ++ _ = _
        rw [List.append_assoc]
        congr 1
        rw [show lim - j = (lim - (j + 1)) + 1 by omega, List.drop_eq_getElem_cons hlt, List.take_succ_cons]
        rfl
      · by_cases hi : i = j
        · subst hi
          rw [g4 b i (by omega), hsl, if_pos ⟨rfl, rfl⟩]
        · exact g3 i (by omega) d
      · rw [g4 b' i (fun h => hn ⟨h.1, by omega, h.2.2⟩), hsl, if_neg]
        rintro ⟨rfl, rfl⟩
        exact hn ⟨rfl, Nat.le_refl _, by omega⟩

/-- Where the elements of block `n` begin that are still there. -/
def beg (c : Cfg) (s : Sys E) (n : Nat) : Nat := min s.tail (max s.head (n * c.B))

/-- What is known when the destructor starts. -/
structure Ends (c : Cfg) (g : G E) (s : Sys E) : Prop where
  mem : Mem c g s.core
  mid : g.mid = g.hi
  hi : g.hi = ceil c.B s.tail
  len : g.vals.length = s.tail
  done : ∀ j, j < s.head → s.done j = true
  win : Win c g.hi s

theorem Ends.head_lo (h : Ends c g s) : g.lo ≤ s.head / c.B := h.mem.lo_le (h.mem.not_done (Nat.le_refl _))

theorem Ends.head_hi (h : Ends c g s) (hm : s.head % c.B ≠ 0) : s.head / c.B < g.hi := by
  have hB := c.posB
  rw [h.hi, div_lt_iff hB]
  have h1 := le_ceil (x := s.tail) hB
  have h2 : s.head ≤ s.tail := h.mem.le
  apply Nat.lt_of_le_of_ne (Nat.le_trans h2 h1)
  intro e
  rw [e, Nat.mul_mod_left] at hm
  exact hm rfl

theorem find_half (h : Ends c g s) (hm : s.head % c.B ≠ 0) {hd : Nat} (hc : s.cur = some hd) :
    ∀ (k j n : Nat), g.hi - s.slots + j + k = s.head / c.B → k < n →
      findHalf c s (s.hdr hd) n ((s.front + s.size - s.slots + j) % s.size) = some (g.bk (s.head / c.B)) := by
  have hB := c.posB
  have hhi := h.head_hi hm
  have hlo := h.head_lo
  obtain ⟨c1, c2, c3, c4, -⟩ := h.mem.cur hd hc
  have c2' : (s.hdr hd).size = s.size := c2
  have c3' : s.front = posOf (g.off hd) s.size g.hi := c3
  have hsl := h.win.sl
  have hz := h.win.sz
  have hp := h.win.pos
  intro k
  induction k with
  | zero =>
    intro j n hj hn
    cases n with
    | zero => omega
    | succ n =>
      have e1 : (s.front + s.size - s.slots + j) % s.size = posOf (g.off hd) s.size (s.head / c.B) := by
        rw [c3']; exact posOf_back hz (by omega) hp
      have e2 : (s.hdr hd).entry (posOf (g.off hd) (s.hdr hd).size (s.head / c.B)) =
          some (s.head / c.B * c.B, g.bk (s.head / c.B)) := h.mem.entry hd c1 _ hlo (by rw [c4]; exact hhi)
      rw [c2', ← e1] at e2
      unfold findHalf
      rw [e2]
      simp only
      rw [if_neg]
      have := Nat.div_add_mod s.head c.B
      have := Nat.mod_lt s.head hB
      rw [Nat.mul_comm]
      omega
  | succ k ih =>
    intro j n hj hn
    cases n with
    | zero => omega
    | succ n =>
      obtain ⟨b, hb⟩ := h.win.ent hd hc j (by omega)
      unfold findHalf
      rw [hb]
      simp only
      have e1 : (g.hi - s.slots + j) * c.B + c.B ≤ s.head / c.B * c.B := by
        rw [← Nat.succ_mul]
        exact Nat.mul_le_mul_right _ (by omega)
      have := Nat.div_add_mod s.head c.B
      rw [Nat.mul_comm] at this
      rw [if_pos (by omega), Nat.mod_add_mod]
      exact ih (j + 1) n (by omega) (by omega)

theorem half_eq (h : Ends c g s) : half c s =
    some (if s.head % c.B = 0 then none else some (g.bk (s.head / c.B))) := by
  unfold half
  split
  · rfl
  · next hm =>
    have hhi := h.head_hi hm
    have hlo := h.head_lo
    cases hc : s.cur with
    | none => have := h.mem.none hc; omega
    | some hd =>
      simp only
      have hsl := h.win.sl
      have hz := h.win.sz
      have hr : s.slots = g.ring.length := h.mem.slots
      unfold G.ring at hr
      rw [List.length_append, List.length_map, length_span] at hr
      have := find_half h hm hc (s.head / c.B - (g.hi - s.slots)) 0 s.size (by omega) (by omega)
      rw [Nat.add_zero] at this
      rw [this]
      rfl

theorem end_block (h : Ends c g s) {n : Nat} (hn : g.lo ≤ n) (hn2 : n < g.hi) (r : Ruin E)
    (hr : ∀ j, (r.blk (g.bk n)).slots j = (s.blk (g.bk n)).slots j) :
    ∃ r', endBlock c s (if s.head % c.B = 0 then none else some (g.bk (s.head / c.B))) (g.bk n) r = some r' ∧
      r'.dead = r.dead ++ (g.vals.drop (beg c s n)).take (beg c s (n + 1) - beg c s n) ∧
      (∀ j, j < c.B → (r'.blk (g.bk n)).slots j = none) ∧
      ∀ b' i, b' ≠ g.bk n → (r'.blk b').slots i = (r.blk b').slots i := by
  have hB := c.posB
  have hle : s.head ≤ s.tail := h.mem.le
  have hdata : ∀ j, j < c.B → (s.blk (g.bk n)).slots j = if s.moved (n * c.B + j) then none else g.vals[n * c.B + j]? :=
    h.mem.data n hn hn2
  have hmv : ∀ i, i < s.head → s.moved i = true := fun i hi => h.mem.doneMoved i (h.done i hi)
  have hnm : ∀ i, s.head ≤ i → s.moved i = false := fun i hi => h.mem.not_moved hi
  have hsucc : (n + 1) * c.B = n * c.B + c.B := Nat.succ_mul _ _
  unfold endBlock
  by_cases hem : (n + 1) * c.B ≤ s.head
  · have he : (s.blk (g.bk n)).empty c = true := by
      rw [empty_iff]
      intro j hj
      have h1 : (s.blk (g.bk n)).gone j = s.done (n * c.B + j) := h.mem.flag n hn (by rw [h.mid]; exact hn2) j hj
      rw [h1]
      exact h.done _ (by omega)
    rw [if_pos he]
    refine ⟨r, rfl, ?_, fun j hj => ?_, fun _ _ _ => rfl⟩
    · have : beg c s (n + 1) - beg c s n = 0 := by unfold beg; omega
      rw [this, List.take_zero, List.append_nil]
    · rw [hr, hdata j hj, hmv _ (by omega), if_pos rfl]
  · have he : (s.blk (g.bk n)).empty c ≠ true := by
      intro he
      rw [empty_iff] at he
      have h1 : (s.blk (g.bk n)).gone (c.B - 1) = s.done (n * c.B + (c.B - 1)) :=
        h.mem.flag n hn (by rw [h.mid]; exact hn2) _ (by omega)
      have h2 : s.done (n * c.B + (c.B - 1)) = false := h.mem.not_done (show s.head ≤ _ by omega)
      rw [he _ (by omega), h2] at h1
      cases h1
    rw [if_neg he]
    simp only
    have hnt : n * c.B < s.tail := by
      apply Nat.lt_of_not_le
      intro hl
      have := (ceil_le hB).2 hl
      rw [← h.hi] at this; omega
    have hdn : s.head / c.B ≤ n := by
      apply Nat.le_of_lt_succ
      rw [div_lt_iff hB, Nat.succ_eq_add_one]; omega
    obtain ⟨j0, hj0⟩ : ∃ j0, j0 = if (if s.head % c.B = 0 then none else some (g.bk (s.head / c.B))) = some (g.bk n) then
      s.head % c.B else 0 := ⟨_, rfl⟩
    have hdm := Nat.div_add_mod s.head c.B
    have hml := Nat.mod_lt s.head hB
    rw [Nat.mul_comm] at hdm
    have ej : n * c.B + j0 = max s.head (n * c.B) := by
      rw [hj0]
      by_cases hm : s.head % c.B = 0
      · rw [if_pos hm, if_neg (fun h => (nomatch h))]
        have : s.head / c.B * c.B ≤ n * c.B := Nat.mul_le_mul_right _ hdn
        omega
      · rw [if_neg hm]
        by_cases en : s.head / c.B = n
        · rw [if_pos (by rw [en])]
          rw [en] at hdm; omega
        · rw [if_neg]
          · have : (s.head / c.B + 1) * c.B ≤ n * c.B := Nat.mul_le_mul_right _ (by omega)
            rw [Nat.succ_mul] at this; omega
          · intro e
            injection e with e
            exact en (h.mem.inj' h.head_lo (h.head_hi hm) hn hn2 e)
    have el : n * c.B + limit c s (g.bk n) = min s.tail ((n + 1) * c.B) := by
      have htb : s.tb = some (g.bk (g.hi - 1)) := h.mem.last (by omega)
      have hdm2 := Nat.div_add_mod s.tail c.B
      have hml2 := Nat.mod_lt s.tail hB
      rw [Nat.mul_comm] at hdm2
      unfold limit
      rw [htb]
      by_cases en : g.hi - 1 = n
      · rw [if_pos (by rw [en])]
        split
        · next hm =>
          have e3 : g.hi = s.tail / c.B := by rw [h.hi, ceil_div hB hm]
          have e4 : n + 1 = s.tail / c.B := by omega
          rw [← e4] at hdm2
          omega
        · next hm =>
          have e3 : g.hi = s.tail / c.B + 1 := by rw [h.hi, ceil_nondiv hB hm]
          have e4 : n = s.tail / c.B := by omega
          rw [← e4] at hdm2
          omega
      · rw [if_neg]
        · have : ¬ s.tail ≤ (n + 1) * c.B := by
            intro hl
            have := (ceil_le hB).2 hl
            rw [← h.hi] at this; omega
          omega
        · intro e
          injection e with e
          exact en (h.mem.inj' (by omega) (by omega) hn hn2 e)
    rw [← hj0]
    have b1 : beg c s n = n * c.B + j0 := by unfold beg; omega
    have b2 : beg c s (n + 1) = n * c.B + limit c s (g.bk n) := by unfold beg; omega
    obtain ⟨r', g1, g2, g3, g4⟩ := kill_run (b := g.bk n) (lim := limit c s (g.bk n)) (vals := g.vals) (o := n * c.B)
      (c.B - j0) j0 r (by omega) (by omega)
      (fun i a d => by rw [hr, hdata i (by omega), hnm _ (by omega), if_neg (fun h => (nomatch h))])
      (by rw [h.len]; omega)
    refine ⟨r', g1, ?_, fun j hj => ?_, fun b' i hb' => g4 b' i (fun h => hb' h.1)⟩
    · rw [g2, b1, b2, Nat.add_sub_add_left]
    · by_cases hin : j0 ≤ j ∧ j < limit c s (g.bk n)
      · exact g3 j hin.1 hin.2
      · rw [g4 _ _ (fun h => hin h.2), hr, hdata j hj]
        by_cases hlt : j < j0
        · rw [hmv _ (by omega), if_pos rfl]
        · split
          · rfl
          · rw [List.getElem?_eq_none_iff, h.len]; omega

/-! The circle. -/

/-- The blocks one after the other. -/
def kills (c : Cfg) (s : Sys E) (hf : Option Nat) : List Nat → Ruin E → Option (Ruin E)
  | [], r => some r
  | b :: l, r => match endBlock c s hf b r with
    | none => none
    | some r' => kills c s hf l r'

theorem walk_eq {hf : Option Nat} {t : Nat} (ht : s.tb = some t) : ∀ (l : List Nat) (b : Nat) (r : Ruin E),
    Path s.next b l t → t ∉ l → endWalk c s hf (l.length + 1) b r = kills c s hf (l ++ [t]) r
  | [], b, r, hp, _ => by
    unfold endWalk
    rw [show s.next b = t from hp]
    show _ = kills c s hf [t] r
    unfold kills
    cases endBlock c s hf t r with
    | none => rfl
    | some r' => simp only; rw [if_pos ht]; rfl
  | x :: l, b, r, hp, hn => by
    unfold endWalk
    rw [show s.next b = x from hp.1]
    show _ = kills c s hf (x :: (l ++ [t])) r
    unfold kills
    cases endBlock c s hf x r with
    | none => rfl
    | some r' =>
      simp only
      rw [if_neg, List.length_cons]
      · exact walk_eq ht l x r' hp.2 (fun h => hn (List.mem_cons_of_mem _ h))
      · rw [ht]; intro e; injection e with e; exact hn (by rw [e]; exact List.mem_cons_self)

theorem free_eq {t : Nat} (ht : s.tb = some t) : ∀ (l : List Nat) (b : Nat),
    Path s.next b l t → t ∉ l → endFree s (l.length + 1) b = some (b :: l)
  | [], b, hp, _ => by
    unfold endFree
    rw [show s.next b = t from hp, if_pos ht]
  | x :: l, b, hp, hn => by
    unfold endFree
    rw [show s.next b = x from hp.1, if_neg, List.length_cons,
      free_eq ht l x hp.2 (fun h => hn (List.mem_cons_of_mem _ h))]
    · rfl
    · rw [ht]; intro e; injection e with e; exact hn (by rw [e]; exact List.mem_cons_self)

theorem kills_append {hf : Option Nat} : ∀ (l l' : List Nat) (r : Ruin E),
    kills c s hf (l ++ l') r = (kills c s hf l r).bind (kills c s hf l')
  | [], _, _ => rfl
  | b :: l, l', r => by
    show kills c s hf (b :: (l ++ l')) r = _
    unfold kills
    cases endBlock c s hf b r with
    | none => rfl
    | some r' => exact kills_append l l' r'

theorem kills_spare {hf : Option Nat} {l : List Nat} (hl : ∀ b ∈ l, (s.blk b).empty c = true) (r : Ruin E) :
    kills c s hf l r = some r := by
  induction l with
  | nil => rfl
  | cons b l ih =>
    unfold kills endBlock
    rw [if_pos (hl b List.mem_cons_self)]
    exact ih (fun b hb => hl b (List.mem_cons_of_mem _ hb))

theorem drop_join {vals : List E} {a b d : Nat} (h1 : a ≤ b) (h2 : b ≤ d) :
    (vals.drop a).take (b - a) ++ (vals.drop b).take (d - b) = (vals.drop a).take (d - a) := by
  rw [show d - a = (b - a) + (d - b) by omega, List.take_add, List.drop_drop, show a + (b - a) = b by omega]

theorem beg_mono {m n : Nat} (h : m ≤ n) : beg c s m ≤ beg c s n := by
  have : m * c.B ≤ n * c.B := Nat.mul_le_mul_right _ h
  unfold beg; omega

theorem kills_span (h : Ends c g s) : ∀ (k n : Nat), g.lo ≤ n → n + k = g.hi → ∀ r : Ruin E,
    (∀ m, n ≤ m → m < g.hi → ∀ j, (r.blk (g.bk m)).slots j = (s.blk (g.bk m)).slots j) →
    ∃ r', kills c s (if s.head % c.B = 0 then none else some (g.bk (s.head / c.B))) ((span n g.hi).map g.bk) r = some r' ∧
      r'.dead = r.dead ++ (g.vals.drop (beg c s n)).take (beg c s g.hi - beg c s n) ∧
      (∀ m, n ≤ m → m < g.hi → ∀ j, j < c.B → (r'.blk (g.bk m)).slots j = none) ∧
      ∀ b' i, (∀ m, n ≤ m → m < g.hi → b' ≠ g.bk m) → (r'.blk b').slots i = (r.blk b').slots i
  | 0, n, hn, hk, r, hr => by
    obtain rfl : n = g.hi := by omega
    rw [span_nil (Nat.le_refl _)]
    exact ⟨r, rfl, by rw [Nat.sub_self, List.take_zero, List.append_nil], fun m a b => by omega, fun _ _ _ => rfl⟩
  | k + 1, n, hn, hk, r, hr => by
    rw [span_cons (by omega), List.map_cons]
    unfold kills
    obtain ⟨r1, f1, f2, f3, f4⟩ := end_block h hn (by omega) r (hr n (Nat.le_refl _) (by omega))
    rw [f1]
    obtain ⟨r', g1, g2, g3, g4⟩ := kills_span h k (n + 1) (by omega) (by omega) r1 (fun m a d j => by
      rw [f4 _ _ (fun e => absurd (h.mem.inj' (by omega) d hn (by omega) e) (by omega))]
      exact hr m (by omega) d j)
    refine ⟨r', g1, ?_, fun m a d j hj => ?_, fun b' i hb' => ?_⟩
    · rw [g2, f2, List.append_assoc, drop_join (beg_mono (Nat.le_succ _)) (beg_mono (by omega))]
    · by_cases e : m = n
      · subst e
        rw [g4 _ _ (fun m' a' d' e' => absurd (h.mem.inj' (by omega) d (by omega) d' e') (by omega))]
        exact f3 j hj
      · exact g3 m (by omega) d j hj
    · rw [g4 b' i (fun m a d => hb' m (by omega) d), f4 b' i (hb' n (Nat.le_refl _) (by omega))]

theorem end_prod (h : Ends c g s) : ∃ r, endElems c s = some r ∧ r.dead = g.vals.drop s.head ∧
    ∀ b j, j < c.B → (r.blk b).slots j = none := by
  have hB := c.posB
  have hle : s.head ≤ s.tail := h.mem.le
  have hrl : s.made = g.ring.length := h.win.made.trans h.mem.slots
  have htb : s.tb = g.ring.getLast? := h.mem.tb
  have hfull : ∀ b, b < s.made → b ∈ g.ring := by
    intro b hb
    apply Classical.byContradiction
    intro hn
    have h1 := nodup_length (l := b :: g.ring) (n := s.made) (List.nodup_cons.2 ⟨hn, h.mem.nodup⟩) (fun x hx => by
      rcases List.mem_cons.1 hx with rfl | hx
      · exact hb
      · exact h.mem.made x hx)
    rw [List.length_cons, hrl] at h1
    omega
  have hslot : ∀ (r : Ruin E), (∀ m, g.lo ≤ m → m < g.hi → ∀ j, j < c.B → (r.blk (g.bk m)).slots j = none) →
      (∀ b' i, (∀ m, g.lo ≤ m → m < g.hi → b' ≠ g.bk m) → (r.blk b').slots i = (s.blk b').slots i) →
      ∀ b j, j < c.B → (r.blk b).slots j = none := by
    intro r h1 h2 b j hj
    by_cases hb : b < s.made
    · have hm := hfull b hb
      by_cases hsp : ∃ m, g.lo ≤ m ∧ m < g.hi ∧ b = g.bk m
      · obtain ⟨m, a, d, rfl⟩ := hsp
        exact h1 m a d j hj
      · rw [h2 b j (fun m a d e => hsp ⟨m, a, d, e⟩)]
        rcases List.mem_append.1 hm with hm | hm
        · exact (h.mem.spare b hm j hj).1
        · obtain ⟨m, hm1, hm2⟩ := List.mem_map.1 hm
          exact absurd ⟨m, (mem_span.1 hm1).1, (mem_span.1 hm1).2, hm2.symm⟩ hsp
    · rw [h2 b j (fun m a d e => hb (by rw [e]; exact h.mem.made _ (h.mem.mem_ring a d)))]
      exact h.mem.fresh b (Nat.le_of_not_lt hb) j
  unfold endElems
  cases hr : g.ring.getLast? with
  | none =>
    rw [htb, hr]
    simp only
    have hnil : g.ring = [] := List.getLast?_eq_none_iff.1 hr
    have hz : g.hi = 0 := h.mem.zero.2 hnil
    have ht : s.tail = 0 := by
      have := h.hi
      rw [hz] at this
      have := (ceil_le (x := s.tail) (n := 0) hB).1 (by omega)
      omega
    refine ⟨_, rfl, ?_, ?_⟩
    · show [] = _
      rw [show s.head = 0 by omega, List.drop_zero]
      exact (List.eq_nil_of_length_eq_zero (h.len.trans ht)).symm
    · exact hslot _ (fun m a d => by omega) (fun _ _ _ => rfl)
  | some t =>
    rw [htb, hr]
    simp only
    rw [half_eq h]
    simp only
    obtain ⟨d, hd⟩ := List.getLast?_eq_some_iff.1 hr
    have hring : Ring s.next (d ++ [t]) := by rw [← hd]; exact h.mem.ring
    have hpath : Path s.next t d t := Ring.rot hring
    have hnd : (d ++ [t]).Nodup := by rw [← hd]; exact h.mem.nodup
    have htd : t ∉ d := fun hm => (List.nodup_append.1 hnd).2.2 t hm t (List.mem_singleton.2 rfl) rfl
    have hlen : s.made = d.length + 1 := by rw [hrl, hd, List.length_append]; rfl
    have htb' : s.tb = some t := htb.trans hr
    rw [hlen, walk_eq htb' d t _ hpath htd, ← hd]
    unfold G.ring
    rw [kills_append, kills_spare (fun b hb => empty_iff.2 (fun j hj => (h.mem.spare b hb j hj).2))]
    have hlh : g.lo ≤ g.hi := Nat.le_trans h.mem.lm h.mem.mh
    obtain ⟨r', g1, g2, g3, g4⟩ := kills_span h (g.hi - g.lo) g.lo (Nat.le_refl _) (by omega) ⟨s.blk, []⟩
      (fun _ _ _ _ => rfl)
    rw [Option.bind_some, g1]
    refine ⟨r', rfl, ?_, hslot r' g3 g4⟩
    rw [g2]
    show [] ++ _ = _
    have h1 : g.lo * c.B ≤ s.head := (lt_div_iff hB).1 h.head_lo
    have h2 : s.tail ≤ g.hi * c.B := by rw [h.hi]; exact le_ceil hB
    have b1 : beg c s g.lo = s.head := by unfold beg; omega
    have b2 : beg c s g.hi = s.tail := by unfold beg; omega
    rw [b1, b2, List.nil_append, ← h.len, ← List.length_drop, List.take_length]

end Verif.TokenQueue
