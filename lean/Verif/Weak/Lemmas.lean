import Verif.Weak.Steps
/-!
# The invariant holds in every state
-/
namespace Verif.Weak

variable {s : Sys} {tk : Tk} {hd : Hd} {i : Nat} {th : Th}

theorem pub_old (mem : Mem Loc) (g : Msg Loc) {n : Nat} (h : n ≤ (mem .tail).length) : pub (push mem .tail g) n = pub mem n := by
  unfold pub
  cases n with
  | zero => rfl
  | succ n =>
    show ((push mem .tail g .tail)[n]?.getD _).view = ((mem .tail)[n]?.getD _).view
    rw [push_self, List.getElem?_append_left h]

theorem pub_new (mem : Mem Loc) (g : Msg Loc) : pub (push mem .tail g) ((mem .tail).length + 1) = g.view := by
  unfold pub
  show ((push mem .tail g .tail)[(mem .tail).length]?.getD _).view = g.view
  rw [push_self, List.getElem?_append_right (Nat.le_refl _)]
  simp

/-- The element is made known. -/
theorem Inv.publish (inv : Inv s tk hd) (hi : s.threads[i]? = some th) {v t : Nat} {w : View Loc} (hp : th.pos = .addStore v w t) {g : Msg Loc} {tv' : TView Loc}
    (hm : MemOk (push s.mem .tail g)) (htv : TvOk (push s.mem .tail g) tv') (hb : Below th.tv.cur tv'.cur)
    (hval : g.val = t + 1) (hvw : g.view = tv'.cur) (hown : (s.mem .tail).length + 1 ≤ tv'.cur .tail) :
    th.tv.cur .tail = (s.mem .tail).length ∧
    Inv { s with mem := push s.mem .tail g, threads := s.threads.set i ⟨tv', .out⟩, added := s.added ++ [(v, w)] } tk hd := by
  have ho := inv.posOk i th hi
  rw [hp] at ho
  obtain ⟨rfl, hbw, rfl, hslot, g0, hg0, hv0⟩ := ho
  obtain ⟨hpt, hpp⟩ := inv.prod th hi
  refine ⟨hpt, ?_⟩
  have hold : ∀ n, n ≤ (s.mem .tail).length → pub (push s.mem .tail g) n = pub s.mem n := fun n h => pub_old _ _ h
  have hnewp := pub_new s.mem g
  have hlen : (push s.mem .tail g .tail).length = (s.mem .tail).length + 1 := by rw [push_self, List.length_append]; rfl
  have hhl := inv.head_le
  have hhd := inv.hdLen
  have hal := inv.addLen
  have e : ∀ l, l ≠ Loc.tail → push s.mem .tail g l = s.mem l := fun l h => push_other _ h _
  have ehead := e .head (by intro h; cases h)
  have ecount := e .count (by intro h; cases h)
  have eover := e .over (by intro h; cases h)
  have eslot : ∀ t, push s.mem .tail g (.slot t) = s.mem (.slot t) := fun t => e _ (by intro h; cases h)
  have hget : ∀ (n : Nat) g', (push s.mem .tail g .tail)[n]? = some g' → (s.mem .tail)[n]? = some g' ∨ (n = (s.mem .tail).length ∧ g' = g) := by
    intro n g' h
    rw [push_self] at h
    by_cases hl : n < (s.mem .tail).length
    · rw [List.getElem?_append_left hl] at h
      exact Or.inl h
    · have h1 := lt_of_get h
      rw [List.length_append] at h1
      have h2 : n = (s.mem .tail).length := by
        have : [g].length = 1 := rfl
        omega
      subst h2
      rw [List.getElem?_append_right (Nat.le_refl _)] at h
      simp at h
      exact Or.inr ⟨rfl, h.symm⟩
  have hadd : ∀ (n : Nat) x, n < (s.mem .tail).length → (s.added ++ [(v, w)])[n]? = some x → s.added[n]? = some x := by
    intro n x hn h
    rw [List.getElem?_append_left (by omega)] at h
    exact h
  have hadd' : ∀ (n : Nat) x, s.added[n]? = some x → (s.added ++ [(v, w)])[n]? = some x := by
    intro n x h
    rw [List.getElem?_append_left (lt_of_get h)]
    exact h
  have haddT : (s.added ++ [(v, w)])[(s.mem .tail).length]? = some (v, w) := by
    rw [← hal, List.getElem?_append_right (Nat.le_refl _)]
    simp
  constructor
  case ok => exact inv.ok
  case tvOk => exact inv.tv_push hi htv
  case memOk => exact hm
  all_goals dsimp only
  all_goals try simp only [ehead, ecount, eover, eslot]
  case addLen => rw [hlen, List.length_append, hal]; rfl
  case tailVal =>
    intro n g' h
    rcases hget n g' h with h | ⟨rfl, rfl⟩
    · exact inv.tailVal n g' h
    · exact hval
  case tailSlot =>
    intro n g' h
    rcases hget n g' h with h | ⟨rfl, rfl⟩
    · exact inv.tailSlot n g' h
    · rw [hvw]
      exact Nat.le_trans hslot (hb _)
  case tailAdd =>
    intro n g' v' w' h ha
    rcases hget n g' h with h | ⟨rfl, rfl⟩
    · exact inv.tailAdd n g' v' w' h (hadd n _ (lt_of_get h) ha)
    · rw [haddT] at ha
      cases ha
      rw [hvw]
      exact hbw.trans hb
  case mono =>
    intro n n' h1 h2
    rw [hlen] at h2
    by_cases hn' : n' ≤ (s.mem .tail).length
    · rw [hold n (by omega), hold n' hn']
      exact inv.mono n n' h1 hn'
    · have : n' = (s.mem .tail).length + 1 := by omega
      subst this
      by_cases hn : n ≤ (s.mem .tail).length
      · rw [hold n hn, hnewp, hvw]
        exact ((inv.mono n _ hn (Nat.le_refl _)).trans hpp).trans hb
      · have : n = (s.mem .tail).length + 1 := by omega
        subst this
        exact Below.refl _
  case prod =>
    intro x h
    rcases get_set hi h with ⟨_, rfl⟩ | ⟨hne, _⟩
    · rw [hlen, hnewp, hvw]
      refine ⟨Nat.le_antisymm ?_ hown, Below.refl _⟩
      have := htv.cur .tail
      rw [hlen] at this
      exact this
    · exact absurd rfl hne
  case countVal => exact inv.countVal
  case overVal => exact inv.overVal
  case headVal => exact inv.headVal
  case tkLen => exact inv.tkLen
  case overLen => exact inv.overLen
  case headLen => exact inv.headLen
  case hdLen => exact inv.hdLen
  case passed =>
    intro m j t h
    obtain ⟨h1, h2⟩ := inv.passed m j t h
    exact ⟨h1, by rw [hlen]; omega⟩
  case gone =>
    intro m j t h
    obtain ⟨⟨h1, h2⟩, h3⟩ := inv.gone m j t h
    exact ⟨⟨h1, by rw [hlen]; omega⟩, by rw [hold t h2]; exact h3⟩
  case posOk =>
    intro j y h
    rcases get_set hi h with ⟨_, rfl⟩ | ⟨hne, h⟩
    · exact True.intro
    · have hpo := inv.posOk j y h
      cases hy : y.pos with
      | addStore v' w' t' => rw [hy] at hpo; exact absurd hpo.1 hne
      | addWrite v' w' t' => rw [hy] at hpo; exact absurd hpo.1 hne
      | addLoad v' w' => rw [hy] at hpo; exact absurd hpo.1 hne
      | pHead m =>
        rw [hy] at hpo
        obtain ⟨t', h1, h2⟩ := hpo
        exact ⟨t', h1, by rw [hold t' (inv.passed m j t' h1).2]; exact h2⟩
      | pSlot m =>
        rw [hy] at hpo
        have := lt_of_get hpo.1
        exact ⟨hpo.1, by rw [hold (m + 1) (by omega)]; exact hpo.2⟩
      | pCount t' o => rw [hy] at hpo; exact Nat.le_trans hpo (push_length _ _ _ _)
      | pFence o => rw [hy] at hpo; exact Nat.le_trans hpo (push_length _ _ _ _)
      | pTicket o => rw [hy] at hpo; exact Nat.le_trans hpo (push_length _ _ _ _)
      | pAgain o m => rw [hy] at hpo; exact hpo
      | pFail m => rw [hy] at hpo; exact hpo
      | out => exact True.intro
      | pTail => exact True.intro
      | pOver t' => exact True.intro
  case holds =>
    intro m j st h
    refine inv.holds_thread hi _ h (fun hh => ?_)
    cases st with
    | und => obtain ⟨o, e⟩ := hh; rw [hp] at e; cases e
    | fail => rw [Holds, hp] at hh; cases hh
    | failed => exact True.intro
    | pass t => rw [Holds, hp] at hh; cases hh
    | gone t => exact True.intro
  case slotNew =>
    intro k hk
    rw [hlen] at hk
    exact inv.slotNew k (by omega)
  case slotNext =>
    rw [hlen]
    exact Or.inl (inv.slotNew _ (Nat.lt_succ_self _))
  case slotFull =>
    intro k h1 h2
    rw [hlen] at h1
    by_cases hk : k < (s.mem .tail).length
    · obtain ⟨g', v', w', a, b, c⟩ := inv.slotFull k hk h2
      exact ⟨g', v', w', a, hadd' k _ b, c⟩
    · have : k = (s.mem .tail).length := by omega
      subst this
      exact ⟨g0, v, w, hg0, haddT, hv0⟩
  case hdPos => exact inv.hdPos_thread hi (by rw [hp]; intro n h; cases h) _
  case hdDone => exact inv.hdDone
  case took =>
    intro x hx
    obtain ⟨h1, w', h2, h3⟩ := inv.took x hx
    exact ⟨h1, w', hadd' _ _ h2, h3⟩
  case once => exact inv.once

theorem ok_and {s : Sys} {b : Bool} (h : s.ok = true) (hb : b = true) : (s.ok && b) = s.ok := by rw [hb, Bool.and_true]

theorem step_inv (inv : Inv s tk hd) (hi : s.threads[i]? = some th) {n : Nat} {s' : Sys} (h : step s i th n = some s') : ∃ tk' hd', Inv s' tk' hd' := by
  have htv := inv.tvOk i th hi
  have hpo := inv.posOk i th hi
  unfold step at h
  cases hp : th.pos with
  | out => rw [hp] at h; cases h
  | addLoad v w =>
    rw [hp] at hpo
    simp only [hp] at h
    cases hl : load false s.mem th.tv .tail n with
    | none => rw [hl] at h; cases h
    | some r =>
      obtain ⟨t, tv⟩ := r
      rw [hl] at h
      cases h
      obtain ⟨h1, ⟨g, hg, hv, _⟩, h3, h4, h5⟩ := load_spec inv.memOk htv hl
      obtain ⟨h0, hbw⟩ := hpo
      subst h0
      refine ⟨tk, hd, inv.thread (th' := ⟨tv, .addWrite v w t⟩) hi (by rw [hp]; rfl) h3 h4 ⟨rfl, hbw.trans h4, ?_⟩ s.empty⟩
      rw [← hv, msgAt_val inv.tailVal hg]
      have := msgAt_le hg
      have := (inv.prod th hi).1
      omega
  | addWrite v w t =>
    simp only [hp] at h
    cases h
    obtain ⟨h1, h2, h3⟩ := write_spec (l := .slot t) (v := v) inv.memOk htv
    have hown : 1 ≤ (write s.mem th.tv (.slot t) v).2.1.cur (.slot t) := by
      show 1 ≤ join _ (upto (Loc.slot t) _) (.slot t)
      have := below_join_right th.tv.cur (upto (Loc.slot t) ((s.mem (.slot t)).length + 1)) (.slot t)
      rw [upto_self] at this
      omega
    obtain ⟨h4, h5⟩ := inv.put hi hp h1 h2 h3 hown
    have hb : (write s.mem th.tv (.slot t) v).2.2 = true := decide_eq_true h4
    refine ⟨tk, hd, ?_⟩
    rw [ok_and inv.ok hb]
    exact h5
  | addStore v w t =>
    simp only [hp] at h
    cases h
    obtain ⟨h1, h2, h3⟩ := store_spec (rel := true) (l := .tail) (v := t + 1) inv.memOk htv
    have hown : (s.mem .tail).length + 1 ≤ (store true s.mem th.tv .tail (t + 1)).2.1.cur .tail := by
      have := below_join_right th.tv.cur (upto Loc.tail ((s.mem .tail).length + 1)) .tail
      rw [upto_self] at this
      exact this
    obtain ⟨h4, h5⟩ := inv.publish hi hp h1 h2 h3 rfl rfl hown
    have hb : (store true s.mem th.tv .tail (t + 1)).2.2 = true := decide_eq_true h4
    refine ⟨tk, hd, ?_⟩
    rw [ok_and inv.ok hb]
    exact h5
  | pTail =>
    simp only [hp] at h
    cases hl : load false s.mem th.tv .tail n with
    | none => rw [hl] at h; cases h
    | some r =>
      obtain ⟨t, tv⟩ := r
      rw [hl] at h
      cases h
      obtain ⟨h1, ⟨g, hg, hv, _⟩, h3, h4, h5⟩ := load_spec inv.memOk htv hl
      exact ⟨tk, hd, inv.thread (th' := ⟨tv, .pOver t⟩) hi (by rw [hp]; rfl) h3 h4 True.intro s.empty⟩
  | pOver t =>
    simp only [hp] at h
    cases hl : load false s.mem th.tv .over n with
    | none => rw [hl] at h; cases h
    | some r =>
      obtain ⟨o, tv⟩ := r
      rw [hl] at h
      cases h
      obtain ⟨h1, ⟨g, hg, hv, _⟩, h3, h4, h5⟩ := load_spec inv.memOk htv hl
      refine ⟨tk, hd, inv.thread (th' := ⟨tv, .pCount t o⟩) hi (by rw [hp]; rfl) h3 h4 ?_ s.empty⟩
      show o ≤ _
      rw [← hv, msgAt_val inv.overVal hg]
      exact msgAt_le hg
  | pCount t o =>
    rw [hp] at hpo
    simp only [hp] at h
    cases hl : load false s.mem th.tv .count n with
    | none => rw [hl] at h; cases h
    | some r =>
      obtain ⟨c, tv⟩ := r
      simp only [hl] at h
      obtain ⟨h1, ⟨g, hg, hv, _⟩, h3, h4, h5⟩ := load_spec inv.memOk htv hl
      split at h
      · cases h
        exact ⟨tk, hd, inv.thread (th' := ⟨tv, .pFence o⟩) hi (by rw [hp]; rfl) h3 h4 hpo s.empty⟩
      · cases h
        exact ⟨tk, hd, inv.thread (th' := ⟨tv, .out⟩) hi (by rw [hp]; rfl) h3 h4 True.intro (s.empty + 1)⟩
  | pFence o =>
    rw [hp] at hpo
    simp only [hp] at h
    cases h
    obtain ⟨h1, h2⟩ := fence_spec htv
    exact ⟨tk, hd, inv.thread (th' := ⟨fence th.tv, .pTicket o⟩) hi (by rw [hp]; rfl) h1 h2 hpo s.empty⟩
  | pTicket o =>
    simp only [hp] at h
    cases h
    obtain ⟨h1, h2, h3, _, ⟨w, hw, _, _⟩, h5⟩ := fetchAdd_spec (acq := false) (rel := false) (l := .count) inv.memOk htv
    rw [hw] at h1 h2 ⊢
    rw [h5]
    exact ⟨_, hd, inv.ticket hi hp h1 h2 h3⟩
  | pAgain o m =>
    rw [hp] at hpo
    simp only [hp] at h
    cases hl : load true s.mem th.tv .tail n with
    | none => rw [hl] at h; cases h
    | some r =>
      obtain ⟨t, tv⟩ := r
      simp only [hl] at h
      obtain ⟨h1, ⟨g, hg, hv, hacq⟩, h3, h4, h5⟩ := load_spec inv.memOk htv hl
      have ht : t = n := by rw [← hv]; exact msgAt_val inv.tailVal hg
      subst ht
      split at h
      · rename_i hlt
        cases h
        refine ⟨_, hd, inv.again hi hp (st := .pass t) h3 h4 (Or.inr ⟨t, rfl, rfl, by omega, msgAt_le hg, ?_⟩)⟩
        rw [pub_get hg]
        exact hacq rfl
      · cases h
        exact ⟨_, hd, inv.again hi hp (st := .fail) h3 h4 (Or.inl ⟨rfl, rfl⟩)⟩
  | pHead m =>
    simp only [hp] at h
    cases h
    obtain ⟨h1, h2, h3, h4, ⟨w, hw, _, hrel⟩, h5⟩ := fetchAdd_spec (acq := true) (rel := true) (l := .head) inv.memOk htv
    rw [hw] at h1 h2 ⊢
    rw [h5]
    obtain ⟨t, ht⟩ := inv.index hi hp h1 h2 h3 (h4 rfl) (hrel rfl)
    exact ⟨_, _, ht⟩
  | pSlot x =>
    simp only [hp] at h
    cases h
    obtain ⟨h1, h2, h3⟩ := write_spec (l := .slot x) (v := 0) inv.memOk htv
    obtain ⟨h4, h5⟩ := inv.take hi hp h1 h2 h3
    have hb : (write s.mem th.tv (.slot x) 0).2.2 = true := decide_eq_true h4
    refine ⟨tk, hd.set x (i, true), ?_⟩
    rw [ok_and inv.ok hb]
    exact h5
  | pFail m =>
    simp only [hp] at h
    cases h
    obtain ⟨h1, h2, h3, _, ⟨w, hw, _, _⟩, h5⟩ := fetchAdd_spec (acq := false) (rel := true) (l := .over) inv.memOk htv
    rw [hw] at h1 h2 ⊢
    exact ⟨_, hd, inv.count hi hp h1 h2 h3 _⟩

theorem outside_some {s : Sys} {i : Nat} {tv : TView Loc} (h : outside s i = some tv) : s.threads[i]? = some ⟨tv, .out⟩ := by
  unfold outside at h
  split at h
  · rename_i tv' e
    cases h
    exact e
  · cases h

theorem move_inv (inv : Inv s tk hd) {m : Move} {s' : Sys} (h : move s m = some s') : ∃ tk' hd', Inv s' tk' hd' := by
  cases m with
  | add v =>
    rw [move] at h
    split at h
    · rename_i tv e
      cases h
      have hi := outside_some e
      have htv : TvOk s.mem tv := inv.tvOk _ _ hi
      exact ⟨tk, hd, inv.thread (th' := ⟨tv, .addLoad v tv.cur⟩) hi rfl htv (Below.refl _) ⟨rfl, Below.refl _⟩ s.empty⟩
    · cases h
  | poll i =>
    rw [move] at h
    split at h
    · rename_i tv e
      cases h
      have hi := outside_some e
      have htv : TvOk s.mem tv := inv.tvOk _ _ hi
      exact ⟨tk, hd, inv.thread (th' := ⟨tv, .pTail⟩) hi rfl htv (Below.refl _) True.intro s.empty⟩
    · cases h
  | go i n =>
    rw [move] at h
    split at h
    · rename_i th e
      exact step_inv inv e h
    · cases h
  | look i n tl =>
    rw [move] at h
    split at h
    · rename_i tv e
      have hi := outside_some e
      split at h
      · rename_i v tv' hl
        cases h
        obtain ⟨_, _, h3, h4, _⟩ := load_spec inv.memOk (inv.tvOk _ _ hi) hl
        exact ⟨tk, hd, inv.thread (th' := ⟨tv', .out⟩) hi rfl h3 h4 True.intro s.empty⟩
      · cases h
    · cases h
  | read i x n acq =>
    rw [move] at h
    split at h
    · rename_i th hi
      split at h
      · rename_i v tv' hl
        cases h
        obtain ⟨_, _, h3, h4, _⟩ := load_spec inv.memOk (inv.tvOk _ _ hi) hl
        exact ⟨tk, hd, inv.learn hi h3 h4⟩
      · cases h
    · cases h
  | write i x v rel =>
    rw [move] at h
    split at h
    · rename_i th hi
      cases h
      obtain ⟨h1, h2, h3⟩ := store_spec (rel := rel) (l := .user x) (v := v) inv.memOk (inv.tvOk _ _ hi)
      exact ⟨tk, hd, inv.user hi h1 h2 h3⟩
    · cases h
  | update i x v acq rel =>
    rw [move] at h
    split at h
    · rename_i th hi
      cases h
      obtain ⟨h1, h2, h3⟩ := rmw_spec (acq := acq) (rel := rel) (f := fun _ => v) (l := .user x) inv.memOk (inv.tvOk _ _ hi)
      exact ⟨tk, hd, inv.user hi h1 h2 h3⟩
    · cases h
  | change i x v =>
    rw [move] at h
    split at h
    · rename_i th hi
      cases h
      obtain ⟨h1, h2, h3⟩ := write_spec (l := .user x) (v := v) inv.memOk (inv.tvOk _ _ hi)
      exact ⟨tk, hd, inv.user hi h1 h2 h3⟩
    · cases h
  | fence i =>
    rw [move] at h
    split at h
    · rename_i th hi
      cases h
      obtain ⟨h1, h2⟩ := fence_spec (inv.tvOk _ _ hi)
      exact ⟨tk, hd, inv.learn hi h1 h2⟩
    · cases h

theorem run_inv : ∀ (ms : List Move) {s s' : Sys} {tk : Tk} {hd : Hd}, Inv s tk hd → run s ms = some s' → ∃ tk' hd', Inv s' tk' hd' := by
  intro ms
  induction ms with
  | nil => intro s s' tk hd inv h; cases h; exact ⟨tk, hd, inv⟩
  | cons m ms ih =>
    intro s s' tk hd inv h
    rw [run] at h
    cases hm : move s m with
    | none => rw [hm] at h; cases h
    | some s1 =>
      rw [hm] at h
      obtain ⟨tk', hd', inv'⟩ := move_inv inv hm
      exact ih inv' h

theorem reach_inv {k : Nat} (h : Reach k s) : ∃ tk hd, Inv s tk hd := by
  obtain ⟨a, ms, h⟩ := h
  exact run_inv ms (inv_init k a) h

end Verif.Weak
