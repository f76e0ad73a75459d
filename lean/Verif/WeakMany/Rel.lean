import Verif.WeakMany.Spec
import Verif.Weak.Lone
/-!
# One producer seen alone

To one producer, the others are part of what else goes on: their locations are other locations, their steps are steps
of threads that are outside.
-/
namespace Verif.WeakMany
open Verif.Weak (View TView Mem Msg join bot upto msgAt newest push load store fetchAdd fence write Below)

/-- The parts of the producer seen alone. -/
def mine : Part → Weak.Loc
  | .tail => .tail
  | .head => .head
  | .count => .count
  | .over => .over
  | .slot i => .slot i

/-- A name for every part. -/
def code : Part → List Nat
  | .tail => [0]
  | .head => [1]
  | .count => [2]
  | .over => [3]
  | .slot i => [4, i]

/-- What a location is to producer `p`. -/
def psi (p : Nat) : Loc → Weak.Loc
  | .of q l => if q = p then mine l else .user (q :: code l)
  | .own x => .user [x]

theorem psi_mine (p : Nat) (l : Part) : psi p (.of p l) = mine l := if_pos rfl

theorem psi_other {p q : Nat} (h : q ≠ p) (l : Part) : psi p (.of q l) = .user (q :: code l) := if_neg h

theorem mine_inj {a b : Part} (h : mine a = mine b) : a = b := by
  cases a <;> cases b <;> first | rfl | cases h
  rfl

theorem code_inj {a b : Part} (h : code a = code b) : a = b := by
  cases a <;> cases b <;> first | rfl | cases h
  rfl

theorem mine_user (a : Part) (x : List Nat) : mine a ≠ .user x := by
  cases a <;> intro h <;> cases h

theorem code_nil (a : Part) : code a ≠ [] := by
  cases a <;> intro h <;> cases h

theorem psi_inj {p : Nat} {a b : Loc} (h : psi p a = psi p b) : a = b := by
  cases a with
  | of q l =>
    cases b with
    | of q' l' =>
      by_cases hq : q = p
      · by_cases hq' : q' = p
        · subst hq; subst hq'
          rw [psi_mine, psi_mine] at h
          rw [mine_inj h]
        · subst hq
          rw [psi_mine, psi_other hq'] at h
          exact absurd h (mine_user _ _)
      · by_cases hq' : q' = p
        · subst hq'
          rw [psi_mine, psi_other hq] at h
          exact absurd h.symm (mine_user _ _)
        · rw [psi_other hq, psi_other hq'] at h
          injection h with h
          injection h with h1 h2
          rw [h1, code_inj h2]
    | own x =>
      by_cases hq : q = p
      · subst hq
        rw [psi_mine] at h
        exact absurd h (mine_user _ _)
      · rw [psi_other hq] at h
        injection h with h
        injection h with h1 h2
        exact absurd h2 (code_nil _)
  | own x =>
    cases b with
    | of q l =>
      by_cases hq : q = p
      · subst hq
        rw [psi_mine] at h
        exact absurd h.symm (mine_user _ _)
      · rw [psi_other hq] at h
        injection h with h
        injection h with h1 h2
        exact absurd h2.symm (code_nil _)
    | own y =>
      injection h with h
      injection h with h1 _
      rw [h1]

/-! ## Views and memory -/

/-- The same knowledge. -/
def VR (p : Nat) (a : View Loc) (b : View Weak.Loc) : Prop := ∀ l, b (psi p l) = a l

theorem VR.bot (p : Nat) : VR p bot bot := fun _ => rfl

theorem VR.join {p : Nat} {a a' : View Loc} {b b' : View Weak.Loc} (h : VR p a b) (h' : VR p a' b') : VR p (join a a') (join b b') := by
  intro l
  show max _ _ = max _ _
  rw [h l, h' l]

theorem VR.upto (p : Nat) (l : Loc) (n : Nat) : VR p (upto l n) (upto (psi p l) n) := by
  intro l'
  unfold Weak.upto
  by_cases e : l' = l
  · rw [if_pos e, if_pos (by rw [e])]
  · rw [if_neg e, if_neg (fun h => e (psi_inj h))]

theorem VR.ite {p : Nat} {a a' : View Loc} {b b' : View Weak.Loc} (c : Bool) (h : VR p a b) (h' : VR p a' b') :
    VR p (if c then a else a') (if c then b else b') := by
  cases c
  · exact h'
  · exact h

theorem VR.below {p : Nat} {a a' : View Loc} {b b' : View Weak.Loc} (h : VR p a b) (h' : VR p a' b') (hb : Below b b') : Below a a' := by
  intro l
  rw [← h l, ← h' l]
  exact hb _

/-- The same write. -/
def GR (p : Nat) (g : Msg Loc) (g' : Msg Weak.Loc) : Prop := g'.val = g.val ∧ VR p g.view g'.view

/-- The same writes to a location. -/
def LR (p : Nat) (h : List (Msg Loc)) (h' : List (Msg Weak.Loc)) : Prop :=
  h'.length = h.length ∧ ∀ (n : Nat) g, h[n]? = some g → ∃ g', h'[n]? = some g' ∧ GR p g g'

/-- The same memory. -/
def MR (p : Nat) (mem : Mem Loc) (mem' : Mem Weak.Loc) : Prop := ∀ l, LR p (mem l) (mem' (psi p l))

/-- The same knowledge of a thread. -/
def TR (p : Nat) (tv : TView Loc) (tv' : TView Weak.Loc) : Prop := VR p tv.cur tv'.cur ∧ VR p tv.acq tv'.acq

theorem LR.msgAt {p : Nat} {h : List (Msg Loc)} {h' : List (Msg Weak.Loc)} (hr : LR p h h') {n : Nat} {g : Msg Loc} (e : msgAt h n = some g) :
    ∃ g', msgAt h' n = some g' ∧ GR p g g' := by
  cases n with
  | zero => cases e; exact ⟨_, rfl, rfl, VR.bot p⟩
  | succ n => exact hr.2 n g e

theorem LR.newest {p : Nat} {h : List (Msg Loc)} {h' : List (Msg Weak.Loc)} (hr : LR p h h') : GR p (newest h) (newest h') := by
  unfold Weak.newest
  rw [hr.1]
  cases e : Weak.msgAt h h.length with
  | none =>
    cases hl : h.length with
    | zero => rw [hl] at e; cases e
    | succ n =>
      rw [hl] at e
      have e : h[n]? = none := e
      rw [List.getElem?_eq_none_iff] at e
      omega
  | some g =>
    obtain ⟨g', e', hg⟩ := hr.msgAt e
    rw [e']
    exact hg

theorem LR.snoc {p : Nat} {h : List (Msg Loc)} {h' : List (Msg Weak.Loc)} (hr : LR p h h') {g : Msg Loc} {g' : Msg Weak.Loc} (hg : GR p g g') :
    LR p (h ++ [g]) (h' ++ [g']) := by
  refine ⟨by rw [List.length_append, List.length_append, hr.1]; rfl, fun n x hx => ?_⟩
  by_cases hn : n < h.length
  · rw [List.getElem?_append_left hn] at hx
    rw [List.getElem?_append_left (by rw [hr.1]; exact hn)]
    exact hr.2 n x hx
  · rw [List.getElem?_append_right (by omega)] at hx
    rw [List.getElem?_append_right (by rw [hr.1]; omega), hr.1]
    cases hk : n - h.length with
    | zero =>
      rw [hk] at hx
      cases hx
      exact ⟨g', rfl, hg⟩
    | succ k =>
      rw [hk] at hx
      cases hx

theorem MR.push {p : Nat} {mem : Mem Loc} {mem' : Mem Weak.Loc} (hr : MR p mem mem') (l : Loc) {g : Msg Loc} {g' : Msg Weak.Loc} (hg : GR p g g') :
    MR p (push mem l g) (push mem' (psi p l) g') := by
  intro l'
  unfold Weak.push
  by_cases e : l' = l
  · rw [if_pos e, if_pos (by rw [e])]
    exact (hr l).snoc hg
  · rw [if_neg e, if_neg (fun h => e (psi_inj h))]
    exact hr l'

/-! ## The operations -/

variable {p : Nat} {mem : Mem Loc} {mem' : Mem Weak.Loc} {tv : TView Loc} {tv' : TView Weak.Loc}

theorem load_rel (hm : MR p mem mem') (ht : TR p tv tv') {acq : Bool} {l : Loc} {n v : Nat} {tv1 : TView Loc} (h : load acq mem tv l n = some (v, tv1)) :
    ∃ tv1', load acq mem' tv' (psi p l) n = some (v, tv1') ∧ TR p tv1 tv1' := by
  unfold Weak.load at h ⊢
  rw [ht.1 l]
  by_cases hc : tv.cur l ≤ n
  · rw [if_pos hc] at h ⊢
    cases hg : Weak.msgAt (mem l) n with
    | none => rw [hg] at h; cases h
    | some g =>
      rw [hg] at h
      obtain ⟨g', e', hv, hw⟩ := (hm l).msgAt hg
      rw [e']
      cases h
      dsimp only
      rw [hv]
      exact ⟨_, rfl, (ht.1.join (VR.upto p l n)).join (VR.ite acq hw (VR.bot p)), (ht.2.join (VR.upto p l n)).join hw⟩
  · rw [if_neg hc] at h
    cases h

theorem store_rel (hm : MR p mem mem') (ht : TR p tv tv') (rel : Bool) (l : Loc) (v : Nat) :
    MR p (store rel mem tv l v).1 (store rel mem' tv' (psi p l) v).1 ∧ TR p (store rel mem tv l v).2.1 (store rel mem' tv' (psi p l) v).2.1 ∧
      (store rel mem' tv' (psi p l) v).2.2 = (store rel mem tv l v).2.2 := by
  unfold Weak.store
  dsimp only
  rw [(hm l).1, ht.1 l]
  have hu := VR.upto p l ((mem l).length + 1)
  exact ⟨hm.push l ⟨rfl, VR.ite rel (ht.1.join hu) hu⟩, ⟨ht.1.join hu, ht.2.join hu⟩, rfl⟩

theorem write_rel (hm : MR p mem mem') (ht : TR p tv tv') (l : Loc) (v : Nat) :
    MR p (write mem tv l v).1 (write mem' tv' (psi p l) v).1 ∧ TR p (write mem tv l v).2.1 (write mem' tv' (psi p l) v).2.1 ∧
      (write mem' tv' (psi p l) v).2.2 = (write mem tv l v).2.2 := by
  unfold Weak.write
  dsimp only
  rw [(hm l).1, ht.1 l]
  have hu := VR.upto p l ((mem l).length + 1)
  exact ⟨hm.push l ⟨rfl, VR.bot p⟩, ⟨ht.1.join hu, ht.2.join hu⟩, rfl⟩

theorem fetchAdd_rel (hm : MR p mem mem') (ht : TR p tv tv') (acq rel : Bool) (l : Loc) :
    (fetchAdd acq rel mem' tv' (psi p l)).1 = (fetchAdd acq rel mem tv l).1 ∧
      MR p (fetchAdd acq rel mem tv l).2.1 (fetchAdd acq rel mem' tv' (psi p l)).2.1 ∧
      TR p (fetchAdd acq rel mem tv l).2.2 (fetchAdd acq rel mem' tv' (psi p l)).2.2 := by
  obtain ⟨hv, hw⟩ := (hm l).newest
  unfold Weak.fetchAdd
  dsimp only
  rw [(hm l).1, hv]
  have hu := VR.upto p l ((mem l).length + 1)
  have hc := (ht.1.join hu).join (VR.ite acq hw (VR.bot p))
  exact ⟨rfl, hm.push l ⟨rfl, (VR.ite rel hc hu).join hw⟩, hc, (ht.2.join hu).join hw⟩

theorem fence_rel (ht : TR p tv tv') : TR p (fence tv) (fence tv') := ⟨ht.2, ht.2⟩

/-! ## States -/

/-- The same place inside a call on the producer. -/
def AR (p : Nat) : Act → Weak.Pos → Prop
  | .addLoad v w, q => ∃ w', q = .addLoad v w' ∧ VR p w w'
  | .addWrite v w t, q => ∃ w', q = .addWrite v w' t ∧ VR p w w'
  | .addStore v w t, q => ∃ w', q = .addStore v w' t ∧ VR p w w'
  | .pTail, q => q = .pTail
  | .pOver t, q => q = .pOver t
  | .pCount t o, q => q = .pCount t o
  | .pFence o, q => q = .pFence o
  | .pTicket o, q => q = .pTicket o
  | .pAgain o m, q => q = .pAgain o m
  | .pHead m, q => q = .pHead m
  | .pSlot i, q => q = .pSlot i
  | .pFail m, q => q = .pFail m

/-- Who is inside a call on another producer is outside. -/
def PR (p : Nat) : Pos → Weak.Pos → Prop
  | .out, q => q = .out
  | .at r a, q => if r = p then AR p a q else q = .out

/-- Producer `p` of the first, seen alone, is the second. -/
structure Rel (p : Nat) (s : Sys) (w : Weak.Sys) : Prop where
  mem : MR p s.mem w.mem
  len : w.threads.length = s.threads.length
  threads : ∀ (j : Nat) (th : Th), s.threads[j]? = some th → ∃ th' : Weak.Th, w.threads[j]? = some th' ∧ TR p th.tv th'.tv ∧ PR p th.pos th'.pos
  adder : w.adder = p
  ok : w.ok = s.ok p
  addLen : w.added.length = (s.added p).length
  added : ∀ (n v : Nat) (x : View Loc), (s.added p)[n]? = some (v, x) → ∃ x', w.added[n]? = some (v, x') ∧ VR p x x'
  taken : ∀ e ∈ s.taken, e.adder = p → ∃ e' ∈ w.taken, e'.thread = e.thread ∧ e'.index = e.index ∧ e'.val = e.val ∧ VR p e.view e'.view
  indexes : w.taken.map Weak.Took.index = indexes s p

theorem rel_init (k p : Nat) : Rel p (init k) (Weak.init k p) := by
  refine ⟨fun l => ⟨rfl, fun n g h => nomatch h⟩, ?_, fun j th h => ?_, rfl, rfl, rfl, fun n v x h => (nomatch h), fun e h => (nomatch h), rfl⟩
  · show (List.replicate k _).length = (List.replicate k _).length
    rw [List.length_replicate, List.length_replicate]
  · have h : (List.replicate k _)[j]? = some th := h
    obtain ⟨hj, e⟩ := List.getElem?_eq_some_iff.mp h
    rw [List.length_replicate] at hj
    rw [List.getElem_replicate] at e
    subst e
    refine ⟨⟨⟨bot, bot⟩, .out⟩, ?_, ⟨VR.bot p, VR.bot p⟩, rfl⟩
    show (List.replicate k _)[j]? = _
    rw [List.getElem?_replicate, if_pos hj]

/-- Threads after one of them has changed. -/
theorem threads_set {s : Sys} {w : Weak.Sys} (r : Rel p s w) {i : Nat} {th : Th} (hi : s.threads[i]? = some th) {th1 : Th} {th1' : Weak.Th}
    (ht : TR p th1.tv th1'.tv) (hp : PR p th1.pos th1'.pos) (j : Nat) (x : Th) (h : (s.threads.set i th1)[j]? = some x) :
    ∃ x' : Weak.Th, (w.threads.set i th1')[j]? = some x' ∧ TR p x.tv x'.tv ∧ PR p x.pos x'.pos := by
  obtain ⟨hl, _⟩ := List.getElem?_eq_some_iff.mp hi
  by_cases e : j = i
  · subst e
    rw [List.getElem?_set_self hl] at h
    cases h
    exact ⟨th1', List.getElem?_set_self (by rw [r.len]; exact hl), ht, hp⟩
  · rw [List.getElem?_set_ne (Ne.symm e)] at h
    obtain ⟨x', h1, h2⟩ := r.threads j x h
    exact ⟨x', by rw [List.getElem?_set_ne (Ne.symm e)]; exact h1, h2⟩

/-- Memory and one thread change. -/
theorem Rel.upd {s : Sys} {w : Weak.Sys} (r : Rel p s w) {i : Nat} {th : Th} (hi : s.threads[i]? = some th) {m1 : Mem Loc} {m1' : Mem Weak.Loc}
    {tv1 : TView Loc} {tv1' : TView Weak.Loc} {q1 : Pos} {q1' : Weak.Pos} (hm : MR p m1 m1') (ht : TR p tv1 tv1') (hp : PR p q1 q1') (em : Nat) :
    Rel p { s with mem := m1, threads := s.threads.set i ⟨tv1, q1⟩ } { w with mem := m1', threads := w.threads.set i ⟨tv1', q1'⟩, empty := em } :=
  { r with
    mem := hm
    len := by dsimp only; rw [List.length_set, List.length_set]; exact r.len
    threads := threads_set r hi (th1 := ⟨tv1, q1⟩) (th1' := ⟨tv1', q1'⟩) ht hp }

end Verif.WeakMany
