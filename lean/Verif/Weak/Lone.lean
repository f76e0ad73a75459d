import Verif.Weak.Lemmas
/-!
# A poll on its own
-/
namespace Verif.Weak

variable {i : Nat}

/-- A call that comes to its end takes an element. -/
def Takes (i : Nat) (s : Sys) : Prop :=
  ∀ (ns : List Nat) (s' : Sys) (th' : Th), run s (ns.map (.go i)) = some s' → s'.threads[i]? = some th' → th'.pos = .out →
    s'.taken.length = s.taken.length + 1

theorem takes_step {s : Sys} {th : Th} (hi : s.threads[i]? = some th) (hp : th.pos ≠ .out)
    (h : ∀ n s1, step s i th n = some s1 → s1.taken = s.taken ∧ Takes i s1) : Takes i s := by
  intro ns s' th' hr hi' hp'
  cases ns with
  | nil =>
    cases hr
    rw [hi] at hi'
    cases hi'
    exact absurd hp' hp
  | cons n ns =>
    rw [List.map_cons, run, move] at hr
    simp only [hi] at hr
    cases hs : step s i th n with
    | none => rw [hs] at hr; cases hr
    | some s1 =>
      rw [hs] at hr
      obtain ⟨h1, h2⟩ := h n s1 hs
      rw [← h1]
      exact h2 ns s' th' hr hi' hp'

theorem takes_slot {s : Sys} {th : Th} (hi : s.threads[i]? = some th) {x : Nat} (hp : th.pos = .pSlot x) : Takes i s := by
  intro ns s' th' hr hi' hp'
  cases ns with
  | nil =>
    cases hr
    rw [hi] at hi'
    cases hi'
    rw [hp] at hp'
    cases hp'
  | cons n ns =>
    rw [List.map_cons, run, move] at hr
    simp only [hi, step, hp, Option.bind_some] at hr
    cases ns with
    | nil => cases hr; rfl
    | cons n' ns =>
      rw [List.map_cons, run, move] at hr
      dsimp only at hr
      rw [set_get_self hi] at hr
      simp only [step, Option.bind_none] at hr
      cases hr

theorem takes_head {s : Sys} {th : Th} (hi : s.threads[i]? = some th) {m : Nat} (hp : th.pos = .pHead m) : Takes i s := by
  refine takes_step hi (by rw [hp]; intro h; cases h) (fun n s1 h => ?_)
  simp only [step, hp] at h
  cases h
  exact ⟨rfl, takes_slot (set_get_self hi) rfl⟩

theorem takes_again {s : Sys} {th : Th} (hi : s.threads[i]? = some th) {o m t : Nat} (hp : th.pos = .pAgain o m)
    (hm : MemOk s.mem) (htv : TvOk s.mem th.tv) (hv : ∀ (n : Nat) g, (s.mem .tail)[n]? = some g → g.val = n + 1) (ht : t ≤ th.tv.cur .tail) (hlt : m < t + o) : Takes i s := by
  refine takes_step hi (by rw [hp]; intro h; cases h) (fun n s1 h => ?_)
  simp only [step, hp] at h
  cases hl : load true s.mem th.tv .tail n with
  | none => rw [hl] at h; cases h
  | some r =>
    obtain ⟨t', tv⟩ := r
    simp only [hl] at h
    obtain ⟨h1, ⟨g, hg, hgv, _⟩, _⟩ := load_spec hm htv hl
    have := msgAt_val hv hg
    rw [if_pos (by omega)] at h
    cases h
    exact ⟨rfl, takes_head (set_get_self hi) rfl⟩

theorem takes_ticket {s : Sys} {th : Th} (hi : s.threads[i]? = some th) {o t : Nat} (hp : th.pos = .pTicket o)
    (hm : MemOk s.mem) (htv : TvOk s.mem th.tv) (hv : ∀ (n : Nat) g, (s.mem .tail)[n]? = some g → g.val = n + 1)
    (hc : ∀ (n : Nat) g, (s.mem .count)[n]? = some g → g.val = n + 1) (ht : t ≤ th.tv.cur .tail) (hlt : (s.mem .count).length < t + o) : Takes i s := by
  refine takes_step hi (by rw [hp]; intro h; cases h) (fun n s1 h => ?_)
  simp only [step, hp] at h
  cases h
  obtain ⟨h1, h2, h3, _, ⟨w, hw, _, _⟩, h5⟩ := fetchAdd_spec (acq := false) (rel := false) (l := .count) hm htv
  have htail : (fetchAdd false false s.mem th.tv .count).2.1 .tail = s.mem .tail := by
    rw [hw]
    exact push_other _ (by intro h; cases h) _
  refine ⟨rfl, takes_again (t := t) (set_get_self hi) rfl h1 h2 ?_ (Nat.le_trans ht (h3 _)) ?_⟩
  · show ∀ (n : Nat) g, ((fetchAdd false false s.mem th.tv .count).2.1 .tail)[n]? = some g → _
    rw [htail]
    exact hv
  · rw [h5, newest_val hc]
    exact hlt

/-- A poll takes an element if the thread knows of enough of them and of all tickets that were too many. -/
theorem takes_poll {s : Sys} {th : Th} (hi : s.threads[i]? = some th) (hp : th.pos = .pTail)
    (hm : MemOk s.mem) (htv : TvOk s.mem th.tv) (hv : ∀ (n : Nat) g, (s.mem .tail)[n]? = some g → g.val = n + 1)
    (hc : ∀ (n : Nat) g, (s.mem .count)[n]? = some g → g.val = n + 1) (ho : ∀ (n : Nat) g, (s.mem .over)[n]? = some g → g.val = n + 1)
    (hover : th.tv.cur .over = (s.mem .over).length) (hlt : (s.mem .count).length < th.tv.cur .tail + (s.mem .over).length) : Takes i s := by
  refine takes_step hi (by rw [hp]; intro h; cases h) (fun n s1 h => ?_)
  simp only [step, hp] at h
  cases hl : load false s.mem th.tv .tail n with
  | none => rw [hl] at h; cases h
  | some r =>
    obtain ⟨t, tv⟩ := r
    rw [hl] at h
    cases h
    obtain ⟨a1, ⟨g, hg, hgv, _⟩, a3, a4, _⟩ := load_spec hm htv hl
    have ht := msgAt_val hv hg
    refine ⟨rfl, takes_step (set_get_self hi) (by intro h; cases h) (fun n2 s2 h => ?_)⟩
    simp only [step] at h
    cases hl2 : load false s.mem tv .over n2 with
    | none => rw [hl2] at h; cases h
    | some r =>
      obtain ⟨o, tv2⟩ := r
      rw [hl2] at h
      cases h
      obtain ⟨b1, ⟨g2, hg2, hgv2, _⟩, b3, b4, _⟩ := load_spec hm a3 hl2
      have hov := msgAt_val ho hg2
      have hole := msgAt_le hg2
      have hge := a4 .over
      have hoe : o = (s.mem .over).length := by omega
      refine ⟨rfl, takes_step (set_get_self (set_get_self hi)) (by intro h; cases h) (fun n3 s3 h => ?_)⟩
      simp only [step] at h
      cases hl3 : load false s.mem tv2 .count n3 with
      | none => rw [hl3] at h; cases h
      | some r =>
        obtain ⟨c, tv3⟩ := r
        simp only [hl3] at h
        obtain ⟨c1, ⟨g3, hg3, hgv3, _⟩, c3, c4, _⟩ := load_spec hm b3 hl3
        have hcv := msgAt_val hc hg3
        have hcle := msgAt_le hg3
        rw [if_pos (by omega)] at h
        cases h
        refine ⟨rfl, takes_step (set_get_self (set_get_self (set_get_self hi))) (by intro h; cases h) (fun n4 s4 h => ?_)⟩
        simp only [step] at h
        cases h
        obtain ⟨d1, d2⟩ := fence_spec c3
        refine ⟨rfl, takes_ticket (t := th.tv.cur .tail) (set_get_self (set_get_self (set_get_self (set_get_self hi)))) rfl hm d1 hv hc ?_ ?_⟩
        · exact ((a4.trans b4).trans (c4.trans d2)) .tail
        · rw [hoe]
          exact hlt

/-- At rest every ticket has been counted as too many or has gone to the head. -/
theorem rest_count {s : Sys} {tk : Tk} {hd : Hd} (inv : Inv s tk hd) (hr : Rest s) : tk.countP isFailed + tk.countP isGone = tk.length := by
  have hall : ∀ x ∈ tk, isFailed x = true ∨ isGone x = true := by
    intro x hx
    obtain ⟨m, hm⟩ := List.mem_iff_getElem?.mp hx
    obtain ⟨j, st⟩ := x
    obtain ⟨th, hth, hh⟩ := inv.holds m j st hm
    have ho := hr th (List.mem_of_getElem? hth)
    cases st with
    | und => obtain ⟨o, e⟩ := hh; rw [ho] at e; cases e
    | fail => rw [Holds, ho] at hh; cases hh
    | failed => exact Or.inl rfl
    | pass t => rw [Holds, ho] at hh; cases hh
    | gone t => exact Or.inr rfl
  clear inv
  induction tk with
  | nil => rfl
  | cons a tk ih =>
    have h1 := ih (fun x hx => hall x (List.mem_cons_of_mem _ hx))
    have h2 := hall a List.mem_cons_self
    simp only [List.countP_cons, List.length_cons]
    obtain ⟨j, st⟩ := a
    cases st <;> simp [isFailed, isGone] at h2 ⊢ <;> omega

/-- At rest every index that was given out is that of an element that was taken. -/
theorem rest_taken {s : Sys} {tk : Tk} {hd : Hd} (inv : Inv s tk hd) (hr : Rest s) (n : Nat) : n < hd.length ↔ ∃ e ∈ s.taken, e.index = n := by
  constructor
  · intro h
    have hg : hd[n]? = some hd[n] := List.getElem?_eq_getElem h
    generalize hd[n] = x at hg
    obtain ⟨j, b⟩ := x
    cases b with
    | false =>
      obtain ⟨th, hth, hp⟩ := inv.hdPos n j hg
      rw [hr th (List.mem_of_getElem? hth)] at hp
      cases hp
    | true => exact inv.hdDone n j hg
  · rintro ⟨e, he, rfl⟩
    obtain ⟨⟨j, h⟩, _⟩ := inv.took e he
    exact lt_of_get h

theorem nodup_range {l : List Nat} {n : Nat} (hd : l.Nodup) (h : ∀ x, x < n ↔ x ∈ l) : l.length = n := by
  have hp : l.Perm (List.range n) := (List.perm_ext_iff_of_nodup hd List.nodup_range).mpr (fun a => by rw [List.mem_range]; exact (h a).symm)
  rw [hp.length_eq, List.length_range]

theorem rest_length {s : Sys} {tk : Tk} {hd : Hd} (inv : Inv s tk hd) (hr : Rest s) : s.taken.length = hd.length := by
  have := nodup_range inv.once (n := hd.length) (fun x => by
    rw [rest_taken inv hr x, List.mem_map])
  rw [List.length_map] at this
  exact this

end Verif.Weak
