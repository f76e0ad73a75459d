import Verif.Weak.MemLemmas
/-!
# Two memories with different names for the same locations
-/
namespace Verif.Weak

variable {L L' : Type} [DecidableEq L] [DecidableEq L']

/-- Different locations have different names. -/
def Inj (f : L → L') : Prop := ∀ a b, f a = f b → a = b

/-- The same knowledge. -/
def VR (f : L → L') (a : View L) (b : View L') : Prop := ∀ l, b (f l) = a l

theorem VR.bot (f : L → L') : VR f bot bot := fun _ => rfl

theorem VR.join {f : L → L'} {a a' : View L} {b b' : View L'} (h : VR f a b) (h' : VR f a' b') : VR f (join a a') (join b b') := by
  intro l
  show max _ _ = max _ _
  rw [h l, h' l]

theorem VR.upto {f : L → L'} (hf : Inj f) (l : L) (n : Nat) : VR f (upto l n) (upto (f l) n) := by
  intro l'
  unfold Weak.upto
  by_cases e : l' = l
  · rw [if_pos e, if_pos (by rw [e])]
  · rw [if_neg e, if_neg (fun h => e (hf _ _ h))]

theorem VR.ite {f : L → L'} {a a' : View L} {b b' : View L'} (c : Bool) (h : VR f a b) (h' : VR f a' b') :
    VR f (if c then a else a') (if c then b else b') := by
  cases c
  · exact h'
  · exact h

theorem VR.below {f : L → L'} {a a' : View L} {b b' : View L'} (h : VR f a b) (h' : VR f a' b') (hb : Below b b') : Below a a' := by
  intro l
  rw [← h l, ← h' l]
  exact hb _

/-- The same write. -/
def GR (f : L → L') (g : Msg L) (g' : Msg L') : Prop := g'.val = g.val ∧ VR f g.view g'.view

/-- The same writes to a location. -/
def LR (f : L → L') (h : List (Msg L)) (h' : List (Msg L')) : Prop :=
  h'.length = h.length ∧ ∀ (n : Nat) g, h[n]? = some g → ∃ g', h'[n]? = some g' ∧ GR f g g'

/-- The same memory. -/
def MR (f : L → L') (mem : Mem L) (mem' : Mem L') : Prop := ∀ l, LR f (mem l) (mem' (f l))

/-- The same knowledge of a thread. -/
def TR (f : L → L') (tv : TView L) (tv' : TView L') : Prop := VR f tv.cur tv'.cur ∧ VR f tv.acq tv'.acq

theorem LR.msgAt {f : L → L'} {h : List (Msg L)} {h' : List (Msg L')} (hr : LR f h h') {n : Nat} {g : Msg L} (e : msgAt h n = some g) :
    ∃ g', msgAt h' n = some g' ∧ GR f g g' := by
  cases n with
  | zero => cases e; exact ⟨_, rfl, rfl, VR.bot f⟩
  | succ n => exact hr.2 n g e

theorem LR.newest {f : L → L'} {h : List (Msg L)} {h' : List (Msg L')} (hr : LR f h h') : GR f (newest h) (newest h') := by
  unfold Weak.newest
  rw [hr.1]
  cases e : Weak.msgAt h h.length with
  | none =>
    cases hl : h.length with
    | zero => rw [hl] at e; cases e
    | succ n =>
      rw [hl] at e
      have e : h[n]? = none := e
      rw [List.getElem?_eq_none_iff] at e
      omega
  | some g =>
    obtain ⟨g', e', hg⟩ := hr.msgAt e
    rw [e']
    exact hg

theorem LR.snoc {f : L → L'} {h : List (Msg L)} {h' : List (Msg L')} (hr : LR f h h') {g : Msg L} {g' : Msg L'} (hg : GR f g g') :
    LR f (h ++ [g]) (h' ++ [g']) := by
  refine ⟨by rw [List.length_append, List.length_append, hr.1]; rfl, fun n x hx => ?_⟩
  by_cases hn : n < h.length
  · rw [List.getElem?_append_left hn] at hx
    rw [List.getElem?_append_left (by rw [hr.1]; exact hn)]
    exact hr.2 n x hx
  · rw [List.getElem?_append_right (by omega)] at hx
    rw [List.getElem?_append_right (by rw [hr.1]; omega), hr.1]
    cases hk : n - h.length with
    | zero =>
      rw [hk] at hx
      cases hx
      exact ⟨g', rfl, hg⟩
    | succ k =>
      rw [hk] at hx
      cases hx

theorem MR.push {f : L → L'} (hf : Inj f) {mem : Mem L} {mem' : Mem L'} (hr : MR f mem mem') (l : L) {g : Msg L} {g' : Msg L'} (hg : GR f g g') :
    MR f (push mem l g) (push mem' (f l) g') := by
  intro l'
  unfold Weak.push
  by_cases e : l' = l
  · rw [if_pos e, if_pos (by rw [e])]
    exact (hr l).snoc hg
  · rw [if_neg e, if_neg (fun h => e (hf _ _ h))]
    exact hr l'

variable {f : L → L'} {mem : Mem L} {mem' : Mem L'} {tv : TView L} {tv' : TView L'}

theorem load_rel (hf : Inj f) (hm : MR f mem mem') (ht : TR f tv tv') {acq : Bool} {l : L} {n v : Nat} {tv1 : TView L} (h : load acq mem tv l n = some (v, tv1)) :
    ∃ tv1', load acq mem' tv' (f l) n = some (v, tv1') ∧ TR f tv1 tv1' := by
  unfold Weak.load at h ⊢
  rw [ht.1 l]
  by_cases hc : tv.cur l ≤ n
  · rw [if_pos hc] at h ⊢
    cases hg : Weak.msgAt (mem l) n with
    | none => rw [hg] at h; cases h
    | some g =>
      rw [hg] at h
      obtain ⟨g', e', hv, hw⟩ := (hm l).msgAt hg
      rw [e']
      cases h
      dsimp only
      rw [hv]
      exact ⟨_, rfl, (ht.1.join (VR.upto hf l n)).join (VR.ite acq hw (VR.bot f)), (ht.2.join (VR.upto hf l n)).join hw⟩
  · rw [if_neg hc] at h
    cases h

theorem store_rel (hf : Inj f) (hm : MR f mem mem') (ht : TR f tv tv') (rel : Bool) (l : L) (v : Nat) :
    MR f (store rel mem tv l v).1 (store rel mem' tv' (f l) v).1 ∧ TR f (store rel mem tv l v).2.1 (store rel mem' tv' (f l) v).2.1 ∧
      (store rel mem' tv' (f l) v).2.2 = (store rel mem tv l v).2.2 := by
  unfold Weak.store
  dsimp only
  rw [(hm l).1, ht.1 l]
  have hu := VR.upto hf l ((mem l).length + 1)
  exact ⟨hm.push hf l ⟨rfl, VR.ite rel (ht.1.join hu) hu⟩, ⟨ht.1.join hu, ht.2.join hu⟩, rfl⟩

theorem write_rel (hf : Inj f) (hm : MR f mem mem') (ht : TR f tv tv') (l : L) (v : Nat) :
    MR f (write mem tv l v).1 (write mem' tv' (f l) v).1 ∧ TR f (write mem tv l v).2.1 (write mem' tv' (f l) v).2.1 ∧
      (write mem' tv' (f l) v).2.2 = (write mem tv l v).2.2 := by
  unfold Weak.write
  dsimp only
  rw [(hm l).1, ht.1 l]
  have hu := VR.upto hf l ((mem l).length + 1)
  exact ⟨hm.push hf l ⟨rfl, VR.bot f⟩, ⟨ht.1.join hu, ht.2.join hu⟩, rfl⟩

theorem rmw_rel (hf : Inj f) (hm : MR f mem mem') (ht : TR f tv tv') (acq rel : Bool) (h : Nat → Nat) (l : L) :
    (rmw acq rel h mem' tv' (f l)).1 = (rmw acq rel h mem tv l).1 ∧
      MR f (rmw acq rel h mem tv l).2.1 (rmw acq rel h mem' tv' (f l)).2.1 ∧
      TR f (rmw acq rel h mem tv l).2.2 (rmw acq rel h mem' tv' (f l)).2.2 := by
  obtain ⟨hv, hw⟩ := (hm l).newest
  unfold Weak.rmw
  dsimp only
  rw [(hm l).1, hv]
  have hu := VR.upto hf l ((mem l).length + 1)
  have hc := (ht.1.join hu).join (VR.ite acq hw (VR.bot f))
  exact ⟨rfl, hm.push hf l ⟨rfl, (VR.ite rel hc hu).join hw⟩, hc, (ht.2.join hu).join hw⟩

theorem fence_rel (ht : TR f tv tv') : TR f (fence tv) (fence tv') := ⟨ht.2, ht.2⟩

/-! ## What operations do, without any condition -/

theorem load_get {acq : Bool} {l : L} {n v : Nat} {tv1 : TView L} (h : load acq mem tv l n = some (v, tv1)) :
    Below tv.cur tv1.cur ∧ tv.cur l ≤ n ∧ ∃ g, msgAt (mem l) n = some g ∧ g.val = v := by
  unfold Weak.load at h
  by_cases hc : tv.cur l ≤ n
  · rw [if_pos hc] at h
    cases hg : Weak.msgAt (mem l) n with
    | none => rw [hg] at h; cases h
    | some g =>
      rw [hg] at h
      cases h
      exact ⟨(below_join_left _ _).trans (below_join_left _ _), hc, g, rfl, rfl⟩
  · rw [if_neg hc] at h
    cases h

theorem store_grows (rel : Bool) (l : L) (v : Nat) : Below tv.cur (store rel mem tv l v).2.1.cur := below_join_left _ _

theorem write_grows (l : L) (v : Nat) : Below tv.cur (write mem tv l v).2.1.cur := below_join_left _ _

theorem rmw_grows (acq rel : Bool) (h : Nat → Nat) (l : L) : Below tv.cur (rmw acq rel h mem tv l).2.2.cur :=
  (below_join_left _ _).trans (below_join_left _ _)

end Verif.Weak
