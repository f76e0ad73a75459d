import Verif.Weak.Memory
/-!
# Facts about the memory
-/
namespace Verif.Weak

variable {L : Type} [DecidableEq L]

theorem Below.refl (a : View L) : Below a a := fun _ => Nat.le_refl _

theorem Below.trans {a b c : View L} (h : Below a b) (g : Below b c) : Below a c := fun l => Nat.le_trans (h l) (g l)

theorem bot_below (a : View L) : Below bot a := fun _ => Nat.zero_le _

theorem below_join_left (a b : View L) : Below a (join a b) := fun _ => Nat.le_max_left _ _

theorem below_join_right (a b : View L) : Below b (join a b) := fun _ => Nat.le_max_right _ _

theorem join_below {a b c : View L} (h : Below a c) (g : Below b c) : Below (join a b) c := fun l => Nat.max_le.mpr ⟨h l, g l⟩

theorem join_mono {a b c d : View L} (h : Below a c) (g : Below b d) : Below (join a b) (join c d) :=
  join_below (h.trans (below_join_left _ _)) (g.trans (below_join_right _ _))

theorem upto_self (l : L) (n : Nat) : upto l n l = n := if_pos rfl

theorem upto_other {l l' : L} (h : l' ≠ l) (n : Nat) : upto l n l' = 0 := if_neg h

theorem push_self (mem : Mem L) (l : L) (g : Msg L) : push mem l g l = mem l ++ [g] := if_pos rfl

theorem push_other (mem : Mem L) {l l' : L} (h : l' ≠ l) (g : Msg L) : push mem l g l' = mem l' := if_neg h

theorem push_length (mem : Mem L) (l l' : L) (g : Msg L) : (mem l').length ≤ (push mem l g l').length := by
  by_cases h : l' = l
  · subst h
    rw [push_self, List.length_append]
    exact Nat.le_add_right _ _
  · rw [push_other mem h]
    exact Nat.le_refl _

/-- Only writes that were made are known. -/
def Bounded (mem : Mem L) (v : View L) : Prop := ∀ l, v l ≤ (mem l).length

def MemOk (mem : Mem L) : Prop := ∀ l, ∀ g ∈ mem l, Bounded mem g.view

structure TvOk (mem : Mem L) (tv : TView L) : Prop where
  cur : Bounded mem tv.cur
  acq : Bounded mem tv.acq
  le : Below tv.cur tv.acq

theorem Bounded.push {mem : Mem L} {v : View L} (h : Bounded mem v) (l : L) (g : Msg L) : Bounded (push mem l g) v :=
  fun l' => Nat.le_trans (h l') (push_length mem l l' g)

theorem Bounded.join {mem : Mem L} {a b : View L} (h : Bounded mem a) (g : Bounded mem b) : Bounded mem (join a b) :=
  fun l => Nat.max_le.mpr ⟨h l, g l⟩

theorem bounded_bot (mem : Mem L) : Bounded mem (bot : View L) := fun _ => Nat.zero_le _

theorem bounded_upto {mem : Mem L} {l : L} {n : Nat} (h : n ≤ (mem l).length) : Bounded mem (upto l n) := by
  intro l'
  by_cases e : l' = l
  · subst e
    rw [upto_self]
    exact h
  · rw [upto_other e]
    exact Nat.zero_le _

theorem bounded_new {mem : Mem L} {l : L} {g : Msg L} : Bounded (push mem l g) (upto l ((mem l).length + 1)) := by
  apply bounded_upto
  rw [push_self, List.length_append]
  exact Nat.le_refl _

theorem MemOk.push {mem : Mem L} (h : MemOk mem) {l : L} {g : Msg L} (hg : Bounded (push mem l g) g.view) : MemOk (push mem l g) := by
  intro l' g' hm
  by_cases e : l' = l
  · subst e
    rw [push_self] at hm
    rcases List.mem_append.mp hm with hm | hm
    · exact (h _ _ hm).push _ _
    · rw [List.mem_singleton] at hm
      subst hm
      exact hg
  · rw [push_other mem e] at hm
    exact (h _ _ hm).push _ _

theorem TvOk.push {mem : Mem L} {tv : TView L} (h : TvOk mem tv) (l : L) (g : Msg L) : TvOk (push mem l g) tv :=
  ⟨h.cur.push _ _, h.acq.push _ _, h.le⟩

theorem msgAt_le {h : List (Msg L)} {n : Nat} {g : Msg L} (e : msgAt h n = some g) : n ≤ h.length := by
  cases n with
  | zero => exact Nat.zero_le _
  | succ n =>
    rw [msgAt] at e
    obtain ⟨hl, _⟩ := List.getElem?_eq_some_iff.mp e
    exact hl

theorem msgAt_bounded {mem : Mem L} (h : MemOk mem) {l : L} {n : Nat} {g : Msg L} (e : msgAt (mem l) n = some g) : Bounded mem g.view := by
  cases n with
  | zero => cases e; exact bounded_bot mem
  | succ n => exact h l g (List.mem_of_getElem? e)

theorem newest_append (h : List (Msg L)) (g : Msg L) : newest (h ++ [g]) = g := by
  unfold newest
  rw [List.length_append]
  show ((h ++ [g])[h.length]?).getD _ = g
  simp

theorem newest_bounded {mem : Mem L} (h : MemOk mem) (l : L) : Bounded mem (newest (mem l)).view := by
  unfold newest
  cases e : msgAt (mem l) (mem l).length with
  | none => exact bounded_bot mem
  | some g => exact msgAt_bounded h e

/-- What a `load` gives. -/
theorem load_spec {acq : Bool} {mem : Mem L} {tv : TView L} {l : L} {n v : Nat} {tv' : TView L} (hm : MemOk mem) (ht : TvOk mem tv)
    (h : load acq mem tv l n = some (v, tv')) :
    tv.cur l ≤ n ∧ (∃ g, msgAt (mem l) n = some g ∧ g.val = v ∧ (acq = true → Below g.view tv'.cur)) ∧ TvOk mem tv' ∧
      Below tv.cur tv'.cur ∧ n ≤ tv'.cur l := by
  unfold load at h
  by_cases hc : tv.cur l ≤ n
  · rw [if_pos hc] at h
    cases e : msgAt (mem l) n with
    | none => rw [e] at h; cases h
    | some g =>
      simp only [e, Option.some.injEq, Prod.mk.injEq] at h
      obtain ⟨hv, htv⟩ := h
      have hb := msgAt_bounded hm e
      have hu : Bounded mem (upto l n) := bounded_upto (msgAt_le e)
      have hif : Bounded mem (if acq then g.view else bot) := by
        cases acq
        · exact bounded_bot mem
        · exact hb
      have hle : Below (if acq then g.view else bot) g.view := by
        cases acq
        · exact bot_below _
        · exact Below.refl _
      refine ⟨hc, ⟨g, rfl, hv, fun ha => ?_⟩, ?_, ?_, ?_⟩
      · rw [← htv, if_pos ha]
        exact below_join_right _ _
      · rw [← htv]
        exact ⟨(ht.cur.join hu).join hif, (ht.acq.join hu).join hb, join_mono (join_mono ht.le (Below.refl _)) hle⟩
      · rw [← htv]
        exact (below_join_left _ _).trans (below_join_left _ _)
      · rw [← htv]
        have := (below_join_right tv.cur (upto l n)).trans (below_join_left _ (if acq then g.view else bot)) l
        rw [upto_self] at this
        exact this
  · rw [if_neg hc] at h
    cases h

theorem store_spec {rel : Bool} {mem : Mem L} {tv : TView L} {l : L} {v : Nat} (hm : MemOk mem) (ht : TvOk mem tv) :
    MemOk (store rel mem tv l v).1 ∧ TvOk (store rel mem tv l v).1 (store rel mem tv l v).2.1 ∧ Below tv.cur (store rel mem tv l v).2.1.cur := by
  unfold store
  have hu : ∀ g, Bounded (push mem l g) (upto l ((mem l).length + 1)) := fun g => bounded_new
  refine ⟨hm.push ?_, ⟨(ht.cur.push _ _).join (hu _), (ht.acq.push _ _).join (hu _), join_mono ht.le (Below.refl _)⟩, below_join_left _ _⟩
  cases rel
  · exact hu _
  · exact (ht.cur.push _ _).join (hu _)

theorem write_spec {mem : Mem L} {tv : TView L} {l : L} {v : Nat} (hm : MemOk mem) (ht : TvOk mem tv) :
    MemOk (write mem tv l v).1 ∧ TvOk (write mem tv l v).1 (write mem tv l v).2.1 ∧ Below tv.cur (write mem tv l v).2.1.cur := by
  unfold write
  have hu : ∀ g, Bounded (push mem l g) (upto l ((mem l).length + 1)) := fun g => bounded_new
  exact ⟨hm.push (bounded_bot _), ⟨(ht.cur.push _ _).join (hu _), (ht.acq.push _ _).join (hu _), join_mono ht.le (Below.refl _)⟩, below_join_left _ _⟩

theorem fetchAdd_spec {acq rel : Bool} {mem : Mem L} {tv : TView L} {l : L} (hm : MemOk mem) (ht : TvOk mem tv) :
    MemOk (fetchAdd acq rel mem tv l).2.1 ∧ TvOk (fetchAdd acq rel mem tv l).2.1 (fetchAdd acq rel mem tv l).2.2 ∧
      Below tv.cur (fetchAdd acq rel mem tv l).2.2.cur ∧
      (acq = true → Below (newest (mem l)).view (fetchAdd acq rel mem tv l).2.2.cur) ∧
      (∃ w, (fetchAdd acq rel mem tv l).2.1 = push mem l ⟨(newest (mem l)).val + 1, w⟩ ∧ Below (newest (mem l)).view w ∧
        (rel = true → Below (fetchAdd acq rel mem tv l).2.2.cur w)) ∧
      (fetchAdd acq rel mem tv l).1 = (newest (mem l)).val := by
  have hn := newest_bounded hm l
  have hu : ∀ g, Bounded (push mem l g) (upto l ((mem l).length + 1)) := fun g => bounded_new
  have hif : ∀ g, Bounded (push mem l g) (if acq then (newest (mem l)).view else bot) := by
    intro g
    cases acq
    · exact bounded_bot _
    · exact hn.push _ _
  have hle : Below (if acq then (newest (mem l)).view else bot) (newest (mem l)).view := by
    cases acq
    · exact bot_below _
    · exact Below.refl _
  unfold fetchAdd
  refine ⟨hm.push ?_, ⟨((ht.cur.push _ _).join (hu _)).join (hif _), ((ht.acq.push _ _).join (hu _)).join (hn.push _ _), join_mono (join_mono ht.le (Below.refl _)) hle⟩,
    (below_join_left _ _).trans (below_join_left _ _), ?_, ⟨_, rfl, below_join_right _ _, ?_⟩, rfl⟩
  · refine Bounded.join ?_ (hn.push _ _)
    cases rel
    · exact hu _
    · exact ((ht.cur.push _ _).join (hu _)).join (hif _)
  · intro ha
    simp only [ha]
    exact below_join_right _ _
  · intro hr
    simp only [hr]
    exact below_join_left _ _

theorem rmw_spec {acq rel : Bool} {f : Nat → Nat} {mem : Mem L} {tv : TView L} {l : L} (hm : MemOk mem) (ht : TvOk mem tv) :
    MemOk (rmw acq rel f mem tv l).2.1 ∧ TvOk (rmw acq rel f mem tv l).2.1 (rmw acq rel f mem tv l).2.2 ∧ Below tv.cur (rmw acq rel f mem tv l).2.2.cur := by
  obtain ⟨g, hg⟩ : ∃ g, newest (mem l) = g := ⟨_, rfl⟩
  have hb := newest_bounded hm l
  unfold rmw
  dsimp only
  rw [hg] at hb ⊢
  have hu : ∀ x : Msg L, Bounded (push mem l x) (upto l ((mem l).length + 1)) := fun _ => bounded_new
  have hi : Bounded mem (if acq then g.view else bot) := by
    cases acq
    · exact bounded_bot mem
    · exact hb
  have hle : Below (if acq then g.view else bot) g.view := by
    cases acq
    · exact bot_below _
    · exact Below.refl _
  have hc : ∀ x : Msg L, Bounded (push mem l x) (join (join tv.cur (upto l ((mem l).length + 1))) (if acq then g.view else bot)) :=
    fun x => ((ht.cur.push l x).join (hu x)).join (hi.push l x)
  refine ⟨hm.push ?_, ⟨hc _, ((ht.acq.push l _).join (hu _)).join (hb.push l _), join_mono (join_mono ht.le (Below.refl _)) hle⟩,
    (below_join_left _ _).trans (below_join_left _ _)⟩
  refine Bounded.join ?_ (hb.push l _)
  cases rel
  · exact hu _
  · exact hc _

theorem fence_spec {mem : Mem L} {tv : TView L} (ht : TvOk mem tv) : TvOk mem (fence tv) ∧ Below tv.cur (fence tv).cur :=
  ⟨⟨ht.acq, ht.acq, Below.refl _⟩, ht.le⟩

end Verif.Weak
