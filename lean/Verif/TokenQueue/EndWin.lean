import Verif.TokenQueue.Lone
import Verif.TokenQueue.EndModel
/-!
# What the destructor finds in the block index, and the flags of elements that were taken
-/
namespace Verif.TokenQueue

variable {E : Type} {c : Cfg} {s s' : Sys E}

/-- The entries of the newest `slots` blocks, which are all there are, up to number `hi`. -/
structure Win (c : Cfg) (hi : Nat) (s : Sys E) : Prop where
  sl : s.slots ≤ hi
  sz : s.slots ≤ s.size
  pos : 0 < s.size
  fr : s.front < s.size
  made : s.made = s.slots
  no : s.cur = none → s.slots = 0
  ent : ∀ h, s.cur = some h → ∀ j, j < s.slots → ∃ b,
    (s.hdr h).entry ((s.front + s.size - s.slots + j) % s.size) = some ((hi - s.slots + j) * c.B, b)

theorem Win.same {hi : Nat} (h : Win c hi s) (h1 : s'.slots = s.slots) (h2 : s'.size = s.size)
    (h3 : s'.front = s.front) (h4 : s'.made = s.made) (h5 : s'.cur = s.cur)
    (h6 : ∀ n, (s'.hdr n).entry = (s.hdr n).entry) : Win c hi s' := by
  refine ⟨?_, ?_, ?_, ?_, ?_, ?_, ?_⟩
  · rw [h1]; exact h.sl
  · rw [h1, h2]; exact h.sz
  · rw [h2]; exact h.pos
  · rw [h2, h3]; exact h.fr
  · rw [h1, h4]; exact h.made
  · rw [h1, h5]; exact h.no
  · intro n hn j hj
    rw [h5] at hn
    rw [h1] at hj
    rw [h1, h2, h3, h6]
    exact h.ent n hn j hj

theorem mod_sub {a b z : Nat} (h1 : a < z) (h2 : b < z) (h : (a + b) % z = a) : b = 0 := by
  by_cases h3 : a + b < z
  · rw [Nat.mod_eq_of_lt h3] at h; omega
  · rw [Nat.mod_eq_sub_mod (by omega), Nat.mod_eq_of_lt (by omega)] at h; omega

/-- A block is used again. -/
theorem Win.put {hi : Nat} (h : Win c hi s) (b : Nat) : Win c (hi + 1) (putEntry s (hi * c.B) b) := by
  have hp := h.pos
  have hz := h.sz
  have hf := h.fr
  unfold putEntry
  split
  · next hc =>
    have := h.no hc
    refine ⟨?_, hz, hp, hf, h.made, h.no, ?_⟩
    · show s.slots ≤ _; omega
    · intro n hn; rw [show s.cur = some n from hn] at hc; cases hc
  · next n hc =>
    refine ⟨Nat.le_succ_of_le h.sl, hz, hp, Nat.mod_lt _ hp, h.made, h.no, ?_⟩
    intro m hm j hj
    have hm' : s.cur = some m := hm
    rw [hc] at hm'
    cases hm'
    show ∃ b', (upd s.hdr n _ n).entry (((s.front + 1) % s.size + s.size - s.slots + j) % s.size) =
      some ((hi + 1 - s.slots + j) * c.B, b')
    rw [upd_self]
    show ∃ b', upd (s.hdr n).entry s.front (some (hi * c.B, b))
      (((s.front + 1) % s.size + s.size - s.slots + j) % s.size) = _
    have hj' : j < s.slots := hj
    have e1 : ((s.front + 1) % s.size + s.size - s.slots + j) % s.size =
        (s.front + s.size - s.slots + (j + 1)) % s.size := by
      rw [show (s.front + 1) % s.size + s.size - s.slots + j = (s.front + 1) % s.size + (s.size - s.slots + j) by omega,
        Nat.mod_add_mod]
      congr 1; omega
    rw [e1]
    have hsl := h.sl
    by_cases hl : j + 1 = s.slots
    · rw [show s.front + s.size - s.slots + (j + 1) = s.front + s.size by omega, Nat.add_mod_right,
        Nat.mod_eq_of_lt hf, upd_self]
      exact ⟨b, by rw [show hi + 1 - s.slots + j = hi by omega]⟩
    · obtain ⟨b', hb'⟩ := h.ent n hc (j + 1) (by omega)
      refine ⟨b', ?_⟩
      rw [upd_ne, hb', show hi - s.slots + (j + 1) = hi + 1 - s.slots + j by omega]
      intro e
      rw [show s.front + s.size - s.slots + (j + 1) = s.front + (s.size - s.slots + (j + 1)) by omega] at e
      have := mod_sub hf (by omega) e
      omega

/-- A new block. -/
theorem Win.link {hi : Nat} (h : Win c hi s) (v : Bool) (hs : s.slots < s.size) (hc : s.cur ≠ none) (b : Nat) :
    Win c (hi + 1) (putEntry (link s v) (hi * c.B) b) := by
  have hp := h.pos
  have hz := h.sz
  have hf := h.fr
  have hm := h.made
  have hsl := h.sl
  unfold putEntry
  split
  · next hc' => exact absurd hc' hc
  · next n hc' =>
    have hc2 : s.cur = some n := hc'
    refine ⟨Nat.succ_le_succ hsl, hs, hp, Nat.mod_lt _ hp, ?_, ?_, ?_⟩
    · show s.made + 1 = s.slots + 1; omega
    · intro e; rw [show s.cur = none from e] at hc2; cases hc2
    intro m hm j hj
    have hm' : s.cur = some m := hm
    rw [hc2] at hm'
    cases hm'
    show ∃ b', (upd s.hdr n _ n).entry (((s.front + 1) % s.size + s.size - (s.slots + 1) + j) % s.size) =
      some ((hi + 1 - (s.slots + 1) + j) * c.B, b')
    rw [upd_self]
    show ∃ b', upd (s.hdr n).entry s.front (some (hi * c.B, b))
      (((s.front + 1) % s.size + s.size - (s.slots + 1) + j) % s.size) = _
    have hj' : j < s.slots + 1 := hj
    have e1 : ((s.front + 1) % s.size + s.size - (s.slots + 1) + j) % s.size =
        (s.front + s.size - s.slots + j) % s.size := by
      rw [show (s.front + 1) % s.size + s.size - (s.slots + 1) + j =
          (s.front + 1) % s.size + (s.size - (s.slots + 1) + j) by omega, Nat.mod_add_mod]
      congr 1; omega
    rw [e1]
    by_cases hl : j = s.slots
    · rw [show s.front + s.size - s.slots + j = s.front + s.size by omega, Nat.add_mod_right,
        Nat.mod_eq_of_lt hf, upd_self]
      exact ⟨b, by rw [show hi + 1 - (s.slots + 1) + j = hi by omega]⟩
    · obtain ⟨b', hb'⟩ := h.ent n hc2 j (by omega)
      refine ⟨b', ?_⟩
      rw [upd_ne, hb', show hi - s.slots + j = hi + 1 - (s.slots + 1) + j by omega]
      intro e
      rw [show s.front + s.size - s.slots + j = s.front + (s.size - s.slots + j) by omega] at e
      have := mod_sub hf (by omega) e
      omega

/-- A new index. -/
theorem Win.grow {hi : Nat} (h : Win c hi s) (e : Nat) : Win c hi (newIndex s e) := by
  have hp := h.pos
  have hz := h.sz
  have hf := h.fr
  have hsl := h.sl
  refine ⟨hsl, ?_, ?_, ?_, h.made, fun h => (nomatch h), ?_⟩
  · show s.slots ≤ 2 * s.size; omega
  · show 0 < 2 * s.size; omega
  · show s.slots < 2 * s.size; omega
  · intro n hn j hj
    have hj' : j < s.slots := hj
    cases hn
    show ∃ b, (upd s.hdr s.hdrs _ s.hdrs).entry ((s.slots + 2 * s.size - s.slots + j) % (2 * s.size)) =
      some ((hi - s.slots + j) * c.B, b)
    rw [upd_self]
    show ∃ b, oldEntry s ((s.slots + 2 * s.size - s.slots + j) % (2 * s.size)) = _
    rw [show s.slots + 2 * s.size - s.slots + j = j + 2 * s.size by omega, Nat.add_mod_right,
      Nat.mod_eq_of_lt (by omega)]
    unfold oldEntry
    cases hc : s.cur with
    | none => have := h.no hc; omega
    | some n =>
      simp only
      rw [if_pos hj']
      exact h.ent n hc j hj'

/-- Up to which number there are blocks. -/
def hiOf (c : Cfg) (tail : Nat) : PPos E → Nat
  | .idle | .chk _ _ | .grow _ _ | .take _ _ => ceil c.B tail
  | .fr _ _ | .put _ | .pub _ => tail / c.B + 1
  | .reuse k | .more k | .draw k | .opn k => k.base / c.B
  | .fill k _ _ _ _ => ceil c.B (tail + k.items.length)

/-- `enqueue_bulk` knows how many blocks there are to be. -/
def Plans (c : Cfg) (tail : Nat) (k : Bulk E) : Prop :=
  k.base / c.B * c.B = k.base ∧ k.base / c.B + k.need = ceil c.B (tail + k.items.length)

/-- What belongs to the place of the producer. -/
def WinP (c : Cfg) (s : Sys E) : PPos E → Prop
  | .chk _ _ | .grow _ _ => s.tail % c.B = 0
  | .take _ _ => s.tail % c.B = 0 ∧ s.slots < s.size ∧ s.cur ≠ none
  | .reuse k | .more k => Plans c s.tail k
  | .opn k => Plans c s.tail k ∧ k.need = 0
  | .draw k => Plans c s.tail k ∧ k.need ≠ 0 ∧ s.slots < s.size ∧ s.cur ≠ none
  | _ => True

/-- Both. -/
def WinS (c : Cfg) (s : Sys E) : Prop := Win c (hiOf c s.tail s.pp) s ∧ WinP c s s.pp

theorem win_start (ok : Bool) : WinS c (start c ok : Sys E) := by
  have := c.posS
  refine ⟨⟨Nat.zero_le _, Nat.zero_le _, ?_, ?_, rfl, fun _ => rfl, ?_⟩, trivial⟩
  · show 0 < if ok then 2 * c.S else c.S; split <;> omega
  · show 0 < if ok then 2 * c.S else c.S; split <;> omega
  · intro h _ j hj; exact absurd hj (Nat.not_lt_zero _)

theorem put_tail (s : Sys E) (a b : Nat) : (putEntry s a b).tail = s.tail := by unfold putEntry; split <;> rfl
theorem put_cur (s : Sys E) (a b : Nat) : (putEntry s a b).cur = s.cur := by unfold putEntry; split <;> rfl

theorem front_win {hi f : Nat} (h : Win c hi s) : Win c hi (putFront s f) := by
  unfold putFront
  split
  · exact h.same rfl rfl rfl rfl rfl (fun _ => rfl)
  · next n hc =>
    refine h.same rfl rfl rfl rfl rfl (fun m => ?_)
    show (upd s.hdr n _ m).entry = _
    by_cases e : m = n
    · subst e; rw [upd_self]
    · rw [upd_ne e]

theorem front_tail (s : Sys E) (f : Nat) : (putFront s f).tail = s.tail := by unfold putFront; split <;> rfl

theorem reset_same {fuel : Nat} (s : Sys E) (b : Nat) : (resetFrom s fuel b).slots = s.slots ∧
    (resetFrom s fuel b).size = s.size ∧ (resetFrom s fuel b).front = s.front ∧
    (resetFrom s fuel b).made = s.made ∧ (resetFrom s fuel b).cur = s.cur ∧
    (resetFrom s fuel b).hdr = s.hdr ∧ (resetFrom s fuel b).tail = s.tail := by
  induction fuel generalizing s b with
  | zero => exact ⟨rfl, rfl, rfl, rfl, rfl, rfl, rfl⟩
  | succ fuel ih =>
    unfold resetFrom
    simp only
    split
    · exact ⟨rfl, rfl, rfl, rfl, rfl, rfl, rfl⟩
    · exact ih _ _

theorem base_next {c : Cfg} {b : Nat} (h : b / c.B * c.B = b) : (b + c.B) / c.B = b / c.B + 1 :=
  Nat.add_div_right _ c.posB

/-- A step of the producer that does not give up a bulk. -/
theorem win_prod {ok : Bool} (h : WinS c s) (hs : prodStep c s ok = some s')
    (hb : NoBulkFailed s'.log) (hbad : s'.bad = false) : WinS c s' := by
  obtain ⟨hw, hp⟩ := h
  have hB := c.posB
  rw [prodStep.eq_def] at hs
  cases hpp : s.pp with
  | idle => rw [hpp] at hs; cases hs
  | chk can x =>
    rw [hpp] at hs hw hp
    simp only at hs
    have hp' : s.tail % c.B = 0 := hp
    split at hs
    · cases hs; exact ⟨hw.same rfl rfl rfl rfl rfl (fun _ => rfl), hp⟩
    · next t htb =>
      split at hs
      · cases hs
        refine ⟨?_, trivial⟩
        have h1 := hw.same (s' := { s with pp := .chk can x, tb := some (s.next t), blk := upd s.blk (s.next t) ((s.blk (s.next t)).setAll false) })
          rfl rfl rfl rfl rfl (fun _ => rfl)
        have h2 := h1.put (s.next t)
        have e : hiOf c s.tail (PPos.chk can x) = s.tail / c.B := ceil_div hB hp'
        rw [e, Nat.div_mul_cancel (Nat.dvd_of_mod_eq_zero hp')] at h2
        show Win c ((putEntry _ _ _).tail / c.B + 1) _
        rw [put_tail]
        exact h2.same rfl rfl rfl rfl rfl (fun _ => rfl)
      · cases hs; exact ⟨hw.same rfl rfl rfl rfl rfl (fun _ => rfl), hp⟩
  | grow can x =>
    rw [hpp] at hs hw hp
    simp only at hs
    split at hs
    · cases hs; cases hbad
    · split at hs
      · split at hs
        · cases hs
          refine ⟨(hw.grow _).same rfl rfl rfl rfl rfl (fun _ => rfl), hp, ?_, fun h => (nomatch h)⟩
          have := hw.sz
          have := hw.pos
          show s.slots < 2 * s.size
          omega
        · cases hs
          exact ⟨hw.same rfl rfl rfl rfl rfl (fun _ => rfl), trivial⟩
      · next hc =>
        cases hs
        have hz := hw.sz
        rw [Bool.or_eq_true, not_or] at hc
        refine ⟨hw.same rfl rfl rfl rfl rfl (fun _ => rfl), hp, ?_, ?_⟩
        · have h1 : s.slots ≠ s.size := fun e => hc.2 (by rw [e]; exact beq_self_eq_true _)
          show s.slots < s.size
          omega
        · intro e
          exact hc.1 (by rw [show s.cur = none from e]; rfl)
  | take can x =>
    rw [hpp] at hs hw hp
    simp only at hs
    obtain ⟨h0, h1, h2⟩ := hp
    split at hs
    · cases hs
      refine ⟨?_, trivial⟩
      have h3 := hw.link false h1 h2 s.made
      have e : hiOf c s.tail (PPos.take can x) = s.tail / c.B := ceil_div hB h0
      rw [e, Nat.div_mul_cancel (Nat.dvd_of_mod_eq_zero h0)] at h3
      show Win c ((putEntry _ _ _).tail / c.B + 1) _
      rw [put_tail]
      exact h3.same rfl rfl rfl rfl rfl (fun _ => rfl)
    · cases hs
      exact ⟨hw.same rfl rfl rfl rfl rfl (fun _ => rfl), trivial⟩
  | fr f x =>
    rw [hpp] at hs hw hp
    simp only at hs
    cases hs
    refine ⟨?_, trivial⟩
    show Win c ((putFront s f).tail / c.B + 1) _
    rw [front_tail]
    exact (front_win (f := f) hw).same rfl rfl rfl rfl rfl (fun _ => rfl)
  | put x =>
    rw [hpp] at hs hw hp
    simp only at hs
    split at hs
    · cases hs; cases hbad
    · cases hs
      exact ⟨hw.same rfl rfl rfl rfl rfl (fun _ => rfl), trivial⟩
  | pub x =>
    rw [hpp] at hs hw hp
    simp only at hs
    cases hs
    refine ⟨?_, trivial⟩
    show Win c (ceil c.B (s.tail + 1)) _
    rw [ceil_succ hB]
    exact hw.same rfl rfl rfl rfl rfl (fun _ => rfl)
  | reuse k =>
    rw [hpp] at hs hw hp
    simp only at hs
    obtain ⟨p1, p2⟩ := hp
    split at hs
    · cases hs; exact ⟨hw.same rfl rfl rfl rfl rfl (fun _ => rfl), p1, p2⟩
    · next t htb =>
      split at hs
      · next hc =>
        cases hs
        have h1 := hw.same (s' := { s with pp := .reuse k, tb := some (s.next t) }) rfl rfl rfl rfl rfl (fun _ => rfl)
        have h2 := h1.put (s.next t)
        have e : hiOf c s.tail (PPos.reuse k) * c.B = k.base := p1
        rw [e] at h2
        refine ⟨?_, ?_, ?_⟩
        · show Win c ((k.base + c.B) / c.B) _
          rw [base_next p1]
          exact h2.same rfl rfl rfl rfl rfl (fun _ => rfl)
        · show (k.base + c.B) / c.B * c.B = k.base + c.B
          rw [base_next p1, Nat.succ_mul, p1]
        · show (k.base + c.B) / c.B + (k.need - 1) = ceil c.B ((putEntry _ _ _).tail + k.items.length)
          rw [base_next p1, put_tail]
          show _ = ceil c.B (s.tail + k.items.length)
          have := hc.1
          omega
      · cases hs; exact ⟨hw.same rfl rfl rfl rfl rfl (fun _ => rfl), p1, p2⟩
  | more k =>
    rw [hpp] at hs hw hp
    simp only at hs
    split at hs
    · next hn => cases hs; exact ⟨hw.same rfl rfl rfl rfl rfl (fun _ => rfl), hp, hn⟩
    · next hn =>
      split at hs
      · cases hs; cases hbad
      · split at hs
        · split at hs
          · cases hs
            refine ⟨(hw.grow _).same rfl rfl rfl rfl rfl (fun _ => rfl), hp, hn, ?_, fun h => (nomatch h)⟩
            have := hw.sz
            have := hw.pos
            show s.slots < 2 * s.size
            omega
          · cases hs
            exact absurd (List.mem_append_right _ (List.mem_singleton.2 rfl)) (hb k.items)
        · next hc =>
          cases hs
          have hz := hw.sz
          rw [Bool.or_eq_true, not_or] at hc
          refine ⟨hw.same rfl rfl rfl rfl rfl (fun _ => rfl), hp, hn, ?_, ?_⟩
          · have h1 : s.slots ≠ s.size := fun e => hc.2 (by rw [e]; exact beq_self_eq_true _)
            show s.slots < s.size
            omega
          · intro e
            exact hc.1 (by rw [show s.cur = none from e]; rfl)
  | draw k =>
    rw [hpp] at hs hw hp
    simp only at hs
    obtain ⟨⟨p1, p2⟩, hn, h1, h2⟩ := hp
    split at hs
    · cases hs
      have h3 := hw.link true h1 h2 s.made
      have e : hiOf c s.tail (PPos.draw k) * c.B = k.base := p1
      rw [e] at h3
      refine ⟨?_, ?_, ?_⟩
      · show Win c ((k.base + c.B) / c.B) _
        rw [base_next p1]
        exact h3.same rfl rfl rfl rfl rfl (fun _ => rfl)
      · show (k.base + c.B) / c.B * c.B = k.base + c.B
        rw [base_next p1, Nat.succ_mul, p1]
      · show (k.base + c.B) / c.B + (k.need - 1) = ceil c.B ((putEntry _ _ _).tail + k.items.length)
        rw [base_next p1, put_tail]
        show _ = ceil c.B (s.tail + k.items.length)
        omega
    · cases hs
      exact absurd (List.mem_append_right _ (List.mem_singleton.2 rfl)) (hb k.items)
  | opn k =>
    rw [hpp] at hs hw hp
    simp only at hs
    obtain ⟨⟨p1, p2⟩, hn⟩ := hp
    split at hs
    · cases hs; cases hbad
    · next b hfirst =>
      cases hs
      obtain ⟨e1, e2, e3, e4, e5, e6, e7⟩ := reset_same (fuel := s.made) s b
      refine ⟨?_, trivial⟩
      show Win c (ceil c.B ((putFront _ _).tail + k.items.length)) _
      rw [front_tail, e7, ← p2, hn, Nat.add_zero]
      have h1 := hw.same e1 e2 e3 e4 e5 (fun _ => by rw [e6])
      exact (front_win h1).same rfl rfl rfl rfl rfl (fun _ => rfl)
  | fill k eb b i rest =>
    rw [hpp] at hs hw hp
    simp only at hs
    split at hs
    · split at hs
      · cases hs
        exact ⟨hw.same rfl rfl rfl rfl rfl (fun _ => rfl), trivial⟩
      · cases hs; cases hbad
    · split at hs
      · cases hs; cases hbad
      · cases hs
        exact ⟨hw.same rfl rfl rfl rfl rfl (fun _ => rfl), trivial⟩

theorem cons_same {t : Nat} (h : consStep c s t = some s') : s'.slots = s.slots ∧ s'.size = s.size ∧
    s'.front = s.front ∧ s'.made = s.made ∧ s'.cur = s.cur ∧ s'.hdr = s.hdr ∧ s'.tail = s.tail ∧ s'.pp = s.pp := by
  rw [consStep.eq_def] at h
  repeat' (first | split at h | (simp only at h; split at h))
  all_goals first
    | (cases h; done)
    | (simp only [Option.some.injEq] at h
       subst h
       exact ⟨rfl, rfl, rfl, rfl, rfl, rfl, rfl, rfl⟩)

theorem win_move {m : Move E} (h : WinS c s) (hs : move c s m = some s')
    (hb : NoBulkFailed s'.log) (hbad : s'.bad = false) : WinS c s' := by
  have hB := c.posB
  cases m with
  | prod ok => exact win_prod h hs hb hbad
  | enq can x =>
    unfold move at hs
    simp only at hs
    split at hs
    · next hpp =>
      cases hs
      obtain ⟨hw, -⟩ := h
      rw [hpp] at hw
      by_cases hm : s.tail % c.B = 0
      · rw [if_pos hm]
        exact ⟨hw.same rfl rfl rfl rfl rfl (fun _ => rfl), hm⟩
      · rw [if_neg hm]
        refine ⟨?_, trivial⟩
        show Win c (s.tail / c.B + 1) _
        rw [← ceil_nondiv hB hm]
        exact hw.same rfl rfl rfl rfl rfl (fun _ => rfl)
    · cases hs
  | bulk can l =>
    unfold move at hs
    simp only at hs
    split at hs
    · next hpp =>
      cases hs
      obtain ⟨hw, -⟩ := h
      rw [hpp] at hw
      have hmono : ceil c.B s.tail ≤ ceil c.B (s.tail + l.length) := ceil_mono hB (Nat.le_add_right _ _)
      unfold callBulk
      simp only
      split
      · next hn =>
        refine ⟨?_, trivial⟩
        show Win c (ceil c.B (s.tail + l.length)) _
        have : ceil c.B (s.tail + l.length) = ceil c.B s.tail := by
          unfold ceil at hmono ⊢; omega
        rw [this]
        exact hw.same rfl rfl rfl rfl rfl (fun _ => rfl)
      · have e : (s.tail + c.B - 1) / c.B * c.B / c.B = ceil c.B s.tail := Nat.mul_div_cancel _ hB
        refine ⟨?_, ?_, ?_⟩
        · show Win c ((s.tail + c.B - 1) / c.B * c.B / c.B) _
          rw [e]
          exact hw.same rfl rfl rfl rfl rfl (fun _ => rfl)
        · show (s.tail + c.B - 1) / c.B * c.B / c.B * c.B = _
          rw [e]; rfl
        · show (s.tail + c.B - 1) / c.B * c.B / c.B +
            ((s.tail + l.length + c.B - 1) / c.B - (s.tail + c.B - 1) / c.B) = ceil c.B (s.tail + l.length)
          rw [e]
          unfold ceil at hmono ⊢
          omega
    · cases hs
  | cons t =>
    obtain ⟨e1, e2, e3, e4, e5, e6, e7, e8⟩ := cons_same (s := s) (t := t) hs
    obtain ⟨hw, hp⟩ := h
    refine ⟨?_, ?_⟩
    · rw [e7, e8]
      exact hw.same e1 e2 e3 e4 e5 (fun _ => by rw [e6])
    · rw [e8]
      cases hpp : s.pp <;> rw [hpp] at hp <;> simp only [WinP, e1, e2, e5, e7] at hp ⊢ <;> exact hp
  | deq t max =>
    unfold move at hs
    simp only at hs
    split at hs
    · split at hs
      · cases hs
      · cases hs
        exact ⟨h.1.same rfl rfl rfl rfl rfl (fun _ => rfl), by
          have hp := h.2
          cases hpp : s.pp <;> rw [hpp] at hp <;> simp only [Sys.go, hpp] <;> exact hp⟩
    · cases hs

end Verif.TokenQueue
