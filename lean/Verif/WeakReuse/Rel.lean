import Verif.WeakReuse.Spec
import Verif.Weak.Embed
import Verif.Weak.Lemmas
/-!
# Blocks that are used for the first time

As long as no block is used again, element `n` is at place `n % 32` of block `n / 32`, and the queue is one whose
elements all have a place of their own; tables of blocks, counters and the free list are other locations.
-/
namespace Verif.WeakReuse
open Verif.Weak (View TView Mem Msg join bot upto msgAt newest push load store rmw fence write Below VR GR LR MR TR Inj)

/-- The names of locations in `Weak`. -/
def phi : Loc → Weak.Loc
  | .tail => .tail
  | .head => .head
  | .count => .count
  | .over => .over
  | .entry j => .user [0, j]
  | .done b => .user [1, b]
  | .refs b => .user [2, b]
  | .next b => .user [3, b]
  | .slot b i => if i < B then .slot (b * B + i) else .user [4, b, i]
  | .pool => .user [5]
  | .free => .user [6]

theorem phi_slot {b i : Nat} (h : i < B) : phi (.slot b i) = .slot (b * B + i) := if_pos h

theorem phi_far {b i : Nat} (h : ¬ i < B) : phi (.slot b i) = .user [4, b, i] := if_neg h

theorem phi_inj : Inj phi := by
  intro a b h
  have hB : B = 32 := rfl
  cases a with
  | slot c i =>
    cases b with
    | slot c' i' =>
      by_cases h1 : i < B
      · by_cases h2 : i' < B
        · rw [phi_slot h1, phi_slot h2] at h
          injection h with h
          rw [hB] at h h1 h2
          have : c = c' := by omega
          subst this
          have : i = i' := by omega
          rw [this]
        · rw [phi_slot h1, phi_far h2] at h
          cases h
      · by_cases h2 : i' < B
        · rw [phi_far h1, phi_slot h2] at h
          cases h
        · rw [phi_far h1, phi_far h2] at h
          cases h
          rfl
    | _ =>
      by_cases h1 : i < B
      · rw [phi_slot h1] at h
        cases h
      · rw [phi_far h1] at h
        cases h
  | _ =>
    cases b with
    | slot c' i' =>
      by_cases h1 : i' < B
      · rw [phi_slot h1] at h
        cases h
      · rw [phi_far h1] at h
        cases h
    | _ => cases h <;> rfl

/-- The same place inside a call. -/
def PR : Pos → Weak.Pos → Prop
  | .out, q => q = .out
  | .aTail v, q => ∃ w, q = .addLoad v w
  | .aPool v t, q => ∃ w, q = .addWrite v w t
  | .aPoolAdd v t, q => ∃ w, q = .addWrite v w t
  | .aFree v t, q => ∃ w, q = .addWrite v w t
  | .aNew v t, q => ∃ w, q = .addWrite v w t
  | .aReset v t _, q => ∃ w, q = .addWrite v w t
  | .aEntry v t _, q => ∃ w, q = .addWrite v w t
  | .aWrite v t, q => ∃ w, q = .addWrite v w t
  | .aStore v t, q => ∃ w, q = .addStore v w t
  | .pTail, q => q = .pTail
  | .pOver t, q => q = .pOver t
  | .pCount t o, q => q = .pCount t o
  | .pFence o, q => q = .pFence o
  | .pTicket o, q => q = .pTicket o
  | .pAgain o m, q => q = .pAgain o m
  | .pHead, q => ∃ m, q = .pHead m
  | .pEntry x, q => q = .pSlot x
  | .pSlot x _, q => q = .pSlot x
  | .pFail, q => ∃ m, q = .pFail m
  | .pDone .., q => q = .out
  | .pNull .., q => q = .out
  | .pFree _, q => q = .out
  | .kHead _ k, q => k = .done ∧ q = .out
  | .kNext _ _ k, q => k = .done ∧ q = .out
  | .kRefs _ _ k, q => k = .done ∧ q = .out
  | .kCas _ _ k, q => k = .done ∧ q = .out
  | .kBack _ _ k, q => k = .done ∧ q = .out
  | _, _ => False

/-- What is seen of an element that was taken. -/
def plain (e : Weak.Took) : Nat × Nat × Nat := (e.thread, e.index, e.val)

/-- The queue, seen without blocks, is the second. -/
structure Rel (mem : Mem Loc) (ths : List Th) (added : List Nat) (taken : List (Nat × Nat × Nat)) (w : Weak.Sys) : Prop where
  mem : MR phi mem w.mem
  len : w.threads.length = ths.length
  threads : ∀ (j : Nat) (th : Th), ths[j]? = some th → ∃ th' : Weak.Th, w.threads[j]? = some th' ∧ TR phi th.tv th'.tv ∧ PR th.pos th'.pos
  adder : w.adder = 0
  added : w.added.map Prod.fst = added
  taken : w.taken.map plain = taken

theorem rel_init (k : Nat) : Rel (init k).mem (init k).threads (init k).added (init k).taken (Weak.init k 0) := by
  refine ⟨fun l => ⟨rfl, fun n g h => nomatch h⟩, ?_, fun j th h => ?_, rfl, rfl, rfl⟩
  · show (List.replicate k _).length = (List.replicate k _).length
    rw [List.length_replicate, List.length_replicate]
  · have h : (List.replicate k _)[j]? = some th := h
    obtain ⟨hj, e⟩ := List.getElem?_eq_some_iff.mp h
    rw [List.length_replicate] at hj
    rw [List.getElem_replicate] at e
    subst e
    refine ⟨⟨⟨bot, bot⟩, .out⟩, ?_, ⟨VR.bot phi, VR.bot phi⟩, rfl⟩
    show (List.replicate k _)[j]? = _
    rw [List.getElem?_replicate, if_pos hj]

variable {mem m1 : Mem Loc} {ths : List Th} {added : List Nat} {taken : List (Nat × Nat × Nat)} {w : Weak.Sys} {i : Nat} {th : Th} {th' : Weak.Th}

theorem threads_set (r : Rel mem ths added taken w) (hi : ths[i]? = some th) {th1 : Th} {th1' : Weak.Th}
    (ht : TR phi th1.tv th1'.tv) (hp : PR th1.pos th1'.pos) (j : Nat) (x : Th) (h : (ths.set i th1)[j]? = some x) :
    ∃ x' : Weak.Th, (w.threads.set i th1')[j]? = some x' ∧ TR phi x.tv x'.tv ∧ PR x.pos x'.pos := by
  obtain ⟨hl, _⟩ := List.getElem?_eq_some_iff.mp hi
  by_cases e : j = i
  · subst e
    rw [List.getElem?_set_self hl] at h
    cases h
    exact ⟨th1', List.getElem?_set_self (by rw [r.len]; exact hl), ht, hp⟩
  · rw [List.getElem?_set_ne (Ne.symm e)] at h
    obtain ⟨x', h1, h2⟩ := r.threads j x h
    exact ⟨x', by rw [List.getElem?_set_ne (Ne.symm e)]; exact h1, h2⟩

/-- Memory and one thread change. -/
theorem Rel.upd (r : Rel mem ths added taken w) (hi : ths[i]? = some th) {m1' : Mem Weak.Loc}
    {tv1 : TView Loc} {tv1' : TView Weak.Loc} {q1 : Pos} {q1' : Weak.Pos} (hm : MR phi m1 m1') (ht : TR phi tv1 tv1') (hp : PR q1 q1') (em : Nat) (ok : Bool) :
    Rel m1 (ths.set i ⟨tv1, q1⟩) added taken { w with mem := m1', threads := w.threads.set i ⟨tv1', q1'⟩, empty := em, ok := ok } :=
  { r with
    mem := hm
    len := by dsimp only; rw [List.length_set, List.length_set]; exact r.len
    threads := threads_set r hi (th1 := ⟨tv1, q1⟩) (th1' := ⟨tv1', q1'⟩) ht hp }

/-- There is a move of the queue without blocks after which the states are related, or none is needed. -/
def Goes (w : Weak.Sys) (mem : Mem Loc) (ths : List Th) (added : List Nat) (taken : List (Nat × Nat × Nat)) : Prop :=
  ∃ w', ((∃ m, Weak.move w m = some w') ∨ w' = w) ∧ Rel mem ths added taken w'

theorem goes_read (r : Rel mem ths added taken w) (hi : ths[i]? = some th) (hi' : w.threads[i]? = some th') (ht : TR phi th.tv th'.tv) {acq : Bool} {l : Loc} {x : List Nat}
    (hx : phi l = .user x) {n v : Nat} {tv1 : TView Loc} (h : load acq mem th.tv l n = some (v, tv1)) {q1 : Pos} (hq : PR q1 th'.pos) :
    Goes w mem (ths.set i ⟨tv1, q1⟩) added taken := by
  obtain ⟨tv1', h1, h2⟩ := Weak.load_rel phi_inj r.mem ht h
  rw [hx] at h1
  refine ⟨_, Or.inl ⟨.read i x n acq, ?_⟩, r.upd hi (m1' := w.mem) r.mem h2 hq w.empty w.ok⟩
  rw [Weak.move, hi']
  dsimp only
  rw [h1]

theorem goes_store (r : Rel mem ths added taken w) (hi : ths[i]? = some th) (hi' : w.threads[i]? = some th') (ht : TR phi th.tv th'.tv) (rel : Bool) {l : Loc} {x : List Nat}
    (hx : phi l = .user x) (v : Nat) {q1 : Pos} (hq : PR q1 th'.pos) :
    Goes w (store rel mem th.tv l v).1 (ths.set i ⟨(store rel mem th.tv l v).2.1, q1⟩) added taken := by
  obtain ⟨h1, h2, _⟩ := Weak.store_rel phi_inj r.mem ht rel l v
  rw [hx] at h1 h2
  refine ⟨_, Or.inl ⟨.write i x v rel, ?_⟩, r.upd hi h1 h2 hq w.empty w.ok⟩
  rw [Weak.move, hi']

theorem goes_rmw (r : Rel mem ths added taken w) (hi : ths[i]? = some th) (hi' : w.threads[i]? = some th') (ht : TR phi th.tv th'.tv) (acq rel : Bool) (f : Nat → Nat) {l : Loc} {x : List Nat}
    (hx : phi l = .user x) {q1 : Pos} (hq : PR q1 th'.pos) :
    Goes w (rmw acq rel f mem th.tv l).2.1 (ths.set i ⟨(rmw acq rel f mem th.tv l).2.2, q1⟩) added taken := by
  obtain ⟨_, h1, h2⟩ := Weak.rmw_rel phi_inj r.mem ht acq rel f l
  rw [hx] at h1 h2
  refine ⟨_, Or.inl ⟨.update i x (f (newest (w.mem (.user x))).val) acq rel, ?_⟩, r.upd hi h1 h2 hq w.empty w.ok⟩
  rw [Weak.move, hi']
  rfl

/-- A step of the queue without blocks. -/
theorem goes_step {n : Nat} {w' : Weak.Sys} (hi' : w.threads[i]? = some th') (h : Weak.step w i th' n = some w') (r : Rel mem ths added taken w') : Goes w mem ths added taken := by
  refine ⟨w', Or.inl ⟨.go i n, ?_⟩, r⟩
  rw [Weak.move, hi']
  exact h

end Verif.WeakReuse
