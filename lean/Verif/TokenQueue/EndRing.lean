import Verif.TokenQueue.EndLemmas
/-!
# All blocks are in the circle, whatever fails
-/
namespace Verif.TokenQueue

variable {E : Type} {c : Cfg} {s s' : Sys E}

theorem ring_last {nx : Nat → Nat} {l : List Nat} {t : Nat} (h : Ring nx l) (hd : l.Nodup) (ht : t ∈ l) :
    ∃ d, Ring nx (d ++ [t]) ∧ (d ++ [t]).Perm l ∧ (d ++ [t]).Nodup := by
  obtain ⟨a, b, rfl⟩ := List.append_of_mem ht
  have e : a ++ t :: b = (a ++ [t]) ++ b := by rw [List.append_assoc]; rfl
  have hp : (b ++ a ++ [t]).Perm (a ++ t :: b) := by
    rw [e, List.append_assoc]; exact List.perm_append_comm
  refine ⟨b ++ a, ?_, hp, hp.nodup_iff.2 hd⟩
  rw [e] at h
  rw [List.append_assoc]
  exact Ring.rot h

theorem ring_next {nx : Nat → Nat} {l : List Nat} {t : Nat} (h : Ring nx l) (hd : l.Nodup) (ht : t ∈ l) : nx t ∈ l := by
  obtain ⟨d, h1, h2, -⟩ := ring_last h hd ht
  rw [← h2.mem_iff]
  have h3 : Path nx t d t := Ring.rot h1
  cases d with
  | nil => rw [show nx t = t from h3]; exact List.mem_singleton.2 rfl
  | cons x d => rw [show nx t = x from h3.1]; exact List.mem_cons_self

/-- What `enqueue_bulk` remembers. -/
def HasB (made : Nat) (k : Bulk E) : Prop :=
  (k.startBlock = none → k.first = none → made = 0) ∧ (∀ b, k.startBlock = some b → b < made) ∧
    ∀ b, k.first = some b → b < made

def HasP (made : Nat) (tb : Option Nat) : PPos E → Prop
  | .reuse k | .more k | .draw k | .opn k => HasB made k
  | .fill _ eb _ _ _ => eb = tb
  | _ => True

structure Circ (nx : Nat → Nat) (made : Nat) (tb : Option Nat) : Prop where
  all : ∃ l, Ring nx l ∧ l.Nodup ∧ ∀ b, b ∈ l ↔ b < made
  no : tb = none → made = 0
  yes : ∀ t, tb = some t → t < made

def CircS (s : Sys E) : Prop := Circ s.next s.made s.tb ∧ HasP s.made s.tb s.pp

theorem circ_start (ok : Bool) : CircS (start c ok : Sys E) :=
  ⟨⟨⟨[], trivial, List.nodup_nil, fun b => ⟨fun h => (nomatch h), fun h => absurd h (Nat.not_lt_zero _)⟩⟩, fun _ => rfl,
    fun _ h => (nomatch h)⟩, trivial⟩

theorem Circ.next {nx : Nat → Nat} {made t : Nat} (h : Circ nx made (some t)) : Circ nx made (some (nx t)) := by
  obtain ⟨l, h1, h2, h3⟩ := h.all
  refine ⟨h.all, fun h => (nomatch h), fun t' e => ?_⟩
  injection e with e
  rw [← e, ← h3]
  exact ring_next h1 h2 ((h3 t).2 (h.yes t rfl))

theorem circ_link {v : Bool} (h : Circ s.next s.made s.tb) :
    Circ (link s v).next (link s v).made (link s v).tb := by
  refine ⟨?_, fun h => (nomatch h), fun t e => ?_⟩
  · unfold link
    simp only
    obtain ⟨l, h1, h2, h3⟩ := h.all
    cases ht : s.tb with
    | none =>
      have h0 := h.no ht
      refine ⟨[s.made], Ring.single, List.nodup_cons.2 ⟨List.not_mem_nil, List.nodup_nil⟩, fun b => ?_⟩
      rw [List.mem_singleton]; omega
    | some t =>
      obtain ⟨d, h4, h5, h6⟩ := ring_last h1 h2 ((h3 t).2 (h.yes t ht))
      have hn : s.made ∉ d ++ [t] := fun hm => absurd ((h3 _).1 (h5.mem_iff.1 hm)) (Nat.lt_irrefl _)
      refine ⟨d ++ [t] ++ [s.made], Ring.insert h4 List.getLast?_concat hn h6, ?_, fun b => ?_⟩
      · exact List.nodup_append.2 ⟨h6, List.nodup_cons.2 ⟨List.not_mem_nil, List.nodup_nil⟩, fun a ha b hb e => hn (by
          rw [List.mem_singleton.1 hb] at e; rw [← e]; exact ha)⟩
      · rw [List.mem_append, h5.mem_iff, h3, List.mem_singleton]; omega
  · injection e with e
    rw [← e]; exact Nat.lt_succ_self _

theorem put_ring (s : Sys E) (a b : Nat) : (putEntry s a b).next = s.next ∧ (putEntry s a b).made = s.made ∧
    (putEntry s a b).tb = s.tb := by unfold putEntry; split <;> exact ⟨rfl, rfl, rfl⟩
theorem front_ring (s : Sys E) (f : Nat) : (putFront s f).next = s.next ∧ (putFront s f).made = s.made ∧
    (putFront s f).tb = s.tb := by unfold putFront; split <;> exact ⟨rfl, rfl, rfl⟩
theorem reset_ring {fuel : Nat} (s : Sys E) (b : Nat) : (resetFrom s fuel b).next = s.next ∧
    (resetFrom s fuel b).made = s.made ∧ (resetFrom s fuel b).tb = s.tb := by
  induction fuel generalizing s b with
  | zero => exact ⟨rfl, rfl, rfl⟩
  | succ fuel ih =>
    unfold resetFrom
    simp only
    split
    · exact ⟨rfl, rfl, rfl⟩
    · exact ih _ _

theorem circ_give {k : Bulk E} (hw : Circ s.next s.made s.tb) (hp : HasB s.made k) : CircS (giveUp s k) := by
  refine ⟨⟨hw.all, ?_, ?_⟩, trivial⟩
  · intro e
    have e' : (match k.startBlock with | none => k.first | some b => some b) = none := e
    cases h1 : k.startBlock with
    | none => rw [h1] at e'; exact hp.1 h1 e'
    | some b => rw [h1] at e'; cases e'
  · intro t e
    have e' : (match k.startBlock with | none => k.first | some b => some b) = some t := e
    cases h1 : k.startBlock with
    | none => rw [h1] at e'; exact hp.2.2 t e'
    | some b => rw [h1] at e'; exact hp.2.1 t (h1.trans e')

theorem circ_prod {ok : Bool} (h : CircS s) (hs : prodStep c s ok = some s') : CircS s' := by
  obtain ⟨hw, hp⟩ := h
  rw [prodStep.eq_def] at hs
  cases hpp : s.pp with
  | idle => rw [hpp] at hs; cases hs
  | chk can x =>
    rw [hpp] at hs
    simp only at hs
    split at hs
    · injection hs with hs; subst hs; exact ⟨hw, trivial⟩
    · next t htb =>
      split at hs
      · injection hs with hs; subst hs
        obtain ⟨e1, e2, e3⟩ := put_ring { s with pp := .chk can x, tb := some (s.next t), blk := upd s.blk (s.next t) ((s.blk (s.next t)).setAll false) }
          s.tail (s.next t)
        refine ⟨?_, trivial⟩
        rw [htb] at hw
        show Circ (putEntry _ _ _).next (putEntry _ _ _).made (putEntry _ _ _).tb
        rw [e1, e2, e3]
        exact hw.next
      · injection hs with hs; subst hs; exact ⟨hw, trivial⟩
  | grow can x =>
    rw [hpp] at hs
    simp only at hs
    repeat' split at hs
    all_goals (injection hs with hs; subst hs; exact ⟨hw, trivial⟩)
  | take can x =>
    rw [hpp] at hs
    simp only at hs
    split at hs
    · injection hs with hs; subst hs
      obtain ⟨e1, e2, e3⟩ := put_ring (link s false) s.tail s.made
      refine ⟨?_, trivial⟩
      show Circ (putEntry _ _ _).next (putEntry _ _ _).made (putEntry _ _ _).tb
      rw [e1, e2, e3]
      exact circ_link hw
    · injection hs with hs; subst hs; exact ⟨hw, trivial⟩
  | fr f x =>
    rw [hpp] at hs
    simp only at hs
    injection hs with hs; subst hs
    obtain ⟨e1, e2, e3⟩ := front_ring s f
    refine ⟨?_, trivial⟩
    show Circ (putFront _ _).next (putFront _ _).made (putFront _ _).tb
    rw [e1, e2, e3]
    exact hw
  | put x =>
    rw [hpp] at hs
    simp only at hs
    split at hs
    all_goals (injection hs with hs; subst hs; exact ⟨hw, trivial⟩)
  | pub x =>
    rw [hpp] at hs
    simp only at hs
    injection hs with hs; subst hs; exact ⟨hw, trivial⟩
  | reuse k =>
    rw [hpp] at hs hp
    simp only at hs
    split at hs
    · injection hs with hs; subst hs; exact ⟨hw, hp⟩
    · next t htb =>
      split at hs
      · injection hs with hs; subst hs
        obtain ⟨e1, e2, e3⟩ := put_ring { s with pp := .reuse k, tb := some (s.next t) } k.base (s.next t)
        rw [htb] at hw
        have hn := hw.next
        refine ⟨?_, ?_, ?_, ?_⟩
        · show Circ (putEntry _ _ _).next (putEntry _ _ _).made (putEntry _ _ _).tb
          rw [e1, e2, e3]
          exact hn
        · show k.startBlock = none → k.first.or (some (s.next t)) = none → _
          intro _ h2
          cases hf : k.first <;> rw [hf] at h2 <;> cases h2
        · show ∀ b, k.startBlock = some b → b < (putEntry _ _ _).made
          rw [e2]; exact hp.2.1
        · show ∀ b, k.first.or (some (s.next t)) = some b → b < (putEntry _ _ _).made
          rw [e2]
          intro b hb
          cases hf : k.first with
          | none => rw [hf] at hb; exact hn.yes b hb
          | some x => rw [hf] at hb; exact hp.2.2 b (hf.trans hb)
      · injection hs with hs; subst hs; exact ⟨hw, hp⟩
  | more k =>
    rw [hpp] at hs hp
    simp only at hs
    split at hs
    · injection hs with hs; subst hs; exact ⟨hw, hp⟩
    · split at hs
      · injection hs with hs; subst hs; exact ⟨hw, trivial⟩
      · split at hs
        · split at hs
          · injection hs with hs; subst hs; exact ⟨hw, hp⟩
          · injection hs with hs; subst hs; exact circ_give (s := { s with pp := .more k }) hw hp
        · injection hs with hs; subst hs; exact ⟨hw, hp⟩
  | draw k =>
    rw [hpp] at hs hp
    simp only at hs
    split at hs
    · injection hs with hs; subst hs
      obtain ⟨e1, e2, e3⟩ := put_ring (link s true) k.base s.made
      have hl := circ_link (v := true) hw
      refine ⟨?_, ?_, ?_, ?_⟩
      · show Circ (putEntry _ _ _).next (putEntry _ _ _).made (putEntry _ _ _).tb
        rw [e1, e2, e3]
        exact hl
      · show k.startBlock = none → k.first.or (some s.made) = none → _
        intro _ h2
        cases hf : k.first <;> rw [hf] at h2 <;> cases h2
      · show ∀ b, k.startBlock = some b → b < (putEntry _ _ _).made
        rw [e2]; exact fun b hb => Nat.lt_succ_of_lt (hp.2.1 b hb)
      · show ∀ b, k.first.or (some s.made) = some b → b < (putEntry _ _ _).made
        rw [e2]
        intro b hb
        cases hf : k.first with
        | none => rw [hf] at hb; injection hb with hb; rw [← hb]; exact Nat.lt_succ_self _
        | some x => rw [hf] at hb; exact Nat.lt_succ_of_lt (hp.2.2 b (hf.trans hb))
    · injection hs with hs; subst hs; exact circ_give (s := { s with pp := .draw k }) hw hp
  | opn k =>
    rw [hpp] at hs hp
    simp only at hs
    split at hs
    · injection hs with hs; subst hs; exact ⟨hw, trivial⟩
    · next b hfirst =>
      injection hs with hs; subst hs
      obtain ⟨e1, e2, e3⟩ := reset_ring (fuel := s.made) s b
      obtain ⟨f1, f2, f3⟩ := front_ring (resetFrom s s.made b) ((s.front + s.size - 1) % s.size)
      refine ⟨?_, ?_⟩
      · show Circ (putFront _ _).next (putFront _ _).made (putFront _ _).tb
        rw [f1, f2, f3, e1, e2, e3]
        exact hw
      · show s.tb = (putFront _ _).tb
        rw [f3, e3]
  | fill k eb b i rest =>
    rw [hpp] at hs hp
    simp only at hs
    have hp' : eb = s.tb := hp
    split at hs
    · split at hs
      · injection hs with hs; subst hs
        refine ⟨?_, trivial⟩
        show Circ s.next s.made eb
        rw [hp']; exact hw
      · injection hs with hs; subst hs; exact ⟨hw, trivial⟩
    · split at hs
      · injection hs with hs; subst hs; exact ⟨hw, trivial⟩
      · injection hs with hs; subst hs; exact ⟨hw, hp⟩

theorem cons_next {t : Nat} (h : consStep c s t = some s') : s'.next = s.next ∧ s'.made = s.made ∧ s'.tb = s.tb ∧
    s'.pp = s.pp := by
  rw [consStep.eq_def] at h
  repeat' (first | split at h | (simp only at h; split at h))
  all_goals first
    | (cases h; done)
    | (simp only [Option.some.injEq] at h
       subst h
       exact ⟨rfl, rfl, rfl, rfl⟩)

theorem circ_move {m : Move E} (h : CircS s) (hs : move c s m = some s') : CircS s' := by
  cases m with
  | prod ok => exact circ_prod (c := c) h hs
  | enq can x =>
    unfold move at hs
    simp only at hs
    split at hs
    · injection hs with hs; subst hs
      refine ⟨h.1, ?_⟩
      show HasP s.made s.tb (if _ then _ else _)
      split <;> trivial
    · cases hs
  | bulk can l =>
    unfold move at hs
    simp only at hs
    split at hs
    · injection hs with hs; subst hs
      unfold callBulk
      simp only
      split
      · exact ⟨h.1, rfl⟩
      · exact ⟨h.1, fun e _ => h.1.no e, fun b e => h.1.yes b e, fun b e => (nomatch e)⟩
    · cases hs
  | cons t =>
    obtain ⟨e1, e2, e3, e4⟩ := cons_next (c := c) (s := s) (t := t) hs
    unfold CircS
    rw [e1, e2, e3, e4]
    exact h
  | deq t max =>
    unfold move at hs
    simp only at hs
    split at hs
    · split at hs
      · cases hs
      · injection hs with hs; subst hs; exact h
    · cases hs

theorem circ_reach (h : Reach c s) : CircS s := by
  obtain ⟨ok, ms, hr⟩ := h
  have : ∀ (ms : List (Move E)) (s0 : Sys E), CircS s0 → run c s0 ms = some s → CircS s := by
    intro ms
    induction ms with
    | nil => intro s0 h hr; unfold run at hr; injection hr with hr; subst hr; exact h
    | cons m ms ih =>
      intro s0 h hr
      unfold run at hr
      split at hr
      · cases hr
      · next s1 h1 => exact ih s1 (circ_move h h1) hr
  exact this ms _ (circ_start ok) hr

theorem nodup_full {l : List Nat} {n : Nat} (h : l.Nodup) (hl : ∀ b, b ∈ l ↔ b < n) : l.length = n := by
  apply Nat.le_antisymm (nodup_length h fun x hx => (hl x).1 hx)
  have hp : (List.range n).Perm l := (List.perm_ext_iff_of_nodup List.nodup_range h).2 fun b => by
    rw [List.mem_range, hl]
  rw [← hp.length_eq, List.length_range]
  exact Nat.le_refl _

theorem end_blocks (h : Circ s.next s.made s.tb) : ∃ l, endBlocks s = some l ∧ l.Nodup ∧ ∀ b, b ∈ l ↔ b < s.made := by
  unfold endBlocks
  cases ht : s.tb with
  | none =>
    refine ⟨[], rfl, List.nodup_nil, fun b => ?_⟩
    rw [h.no ht]
    exact ⟨fun h => (nomatch h), fun h => absurd h (Nat.not_lt_zero _)⟩
  | some t =>
    simp only
    obtain ⟨l, h1, h2, h3⟩ := h.all
    obtain ⟨d, h4, h5, h6⟩ := ring_last h1 h2 ((h3 t).2 (h.yes t ht))
    have hpath : Path s.next t d t := Ring.rot h4
    have htd : t ∉ d := fun hm => (List.nodup_append.1 h6).2.2 t hm t (List.mem_singleton.2 rfl) rfl
    have hlen : s.made = d.length + 1 := by
      rw [← nodup_full h2 h3, ← h5.length_eq, List.length_append]; rfl
    have hp : (t :: d).Perm (d ++ [t]) := List.perm_append_comm (l₁ := [t]) (l₂ := d)
    refine ⟨t :: d, ?_, hp.nodup_iff.2 h6, fun b => by rw [hp.mem_iff, h5.mem_iff]; exact h3 b⟩
    rw [hlen]
    exact free_eq ht d t hpath htd

end Verif.TokenQueue
