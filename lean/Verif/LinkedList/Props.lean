import Verif.LinkedList.Model
/-!
# Properties of `LinkedList` (C28)
-/
namespace Verif.LinkedList

variable {α : Type}

/-! ## Specification -/

/-- The abstract deque. -/
def spec : Op α → List α → List α × Except Exc (Ans α)
  | .addFirst e, t => (e :: t, .ok .unit)
  | .addLast e, t => (t ++ [e], .ok .unit)
  | .get i, t => match (if 0 ≤ i then t[i.toNat]? else none) with
    | some x => (t, .ok (.elem x))
    | none => (t, .error .indexOutOfBounds)
  | .getFirst, t => match t.head? with
    | some x => (t, .ok (.elem x))
    | none => (t, .error .noSuchElement)
  | .getLast, t => match t.getLast? with
    | some x => (t, .ok (.elem x))
    | none => (t, .error .noSuchElement)
  | .pollFirst, t => match t.head? with
    | some x => (t.tail, .ok (.elem x))
    | none => (t, .error .noSuchElement)
  | .pollLast, t => match t.getLast? with
    | some x => (t.dropLast, .ok (.elem x))
    | none => (t, .error .noSuchElement)
  | .removeAt i, t => if 0 ≤ i ∧ i < t.length then (t.eraseIdx i.toNat, .ok (.bool true)) else (t, .error .indexOutOfBounds)
  | .clear, _ => ([], .ok .unit)
  | .size, t => (t, .ok (.int t.length))

/-- The calls the code handles: nothing is taken from an empty list, and only
existing positions are removed. -/
def Legal : Op α → List α → Prop
  | .get i, t => t ≠ [] ∨ i < 0
  | .getFirst, t => t ≠ []
  | .getLast, t => t ≠ []
  | .pollFirst, t => t ≠ []
  | .pollLast, t => t ≠ []
  | .removeAt i, t => 0 ≤ i ∧ i < t.length
  | _, _ => True

/-- The object holds the sequence `t`, each element in a live node of its own,
and the rest of the heap is `g`: nothing else was freed, overwritten or leaked. -/
structure Rep (g : Nat → Option α) (s : LL α) (t : List α) : Prop where
  elems : s.nodes.map s.heap = t.map some
  nodup : s.nodes.Nodup
  rest : ∀ a, a ∉ s.nodes → s.heap a = g a
  own : ∀ a ∈ s.nodes, g a = none
  fresh : ∀ a, s.fresh ≤ a → a ∉ s.nodes ∧ g a = none

/-- A new list on any heap with unused addresses from `n` on. -/
theorem Rep.new (g : Nat → Option α) (n : Nat) (h : ∀ a, n ≤ a → g a = none) : Rep g ⟨g, n, []⟩ [] :=
  ⟨rfl, List.nodup_nil, fun _ _ => rfl, by simp, fun a ha => ⟨by simp, h a ha⟩⟩

/-! ## Lemmas -/

theorem Rep.length {g : Nat → Option α} {s : LL α} {t : List α} (h : Rep g s t) : s.nodes.length = t.length := by
  simpa using congrArg List.length h.elems

theorem map_upd {β : Type} (f : Nat → β) (b : Nat) (v : β) (l : List Nat) (h : b ∉ l) :
    l.map (fun a => if a = b then v else f a) = l.map f := by
  apply List.map_congr_left
  intro a ha
  rw [if_neg]
  rintro rfl
  exact h ha

theorem addLast_ok {g : Nat → Option α} {s : LL α} {t : List α} (h : Rep g s t) (e : α) :
    ∃ s', Rep g s' (t ++ [e]) ∧ addLast e s = .ret s' () := by
  have hf := h.fresh s.fresh (Nat.le_refl _)
  refine ⟨⟨fun a => if a = s.fresh then some e else s.heap a, s.fresh + 1, s.nodes ++ [s.fresh]⟩, ⟨?_, ?_, ?_, ?_, ?_⟩, rfl⟩
  · simp only [List.map_append, List.map_cons, List.map_nil, if_true]
    rw [map_upd _ _ _ _ hf.1, h.elems]
  · rw [List.nodup_append]
    refine ⟨h.nodup, by simp, ?_⟩
    intro a ha b hb
    rw [List.mem_singleton] at hb
    rintro rfl
    subst hb
    exact hf.1 ha
  · intro a ha
    simp only [List.mem_append, List.mem_singleton, not_or] at ha
    simp only []
    rw [if_neg ha.2]
    exact h.rest a ha.1
  · intro a ha
    simp only [List.mem_append, List.mem_singleton] at ha
    rcases ha with ha | rfl
    · exact h.own a ha
    · exact hf.2
  · intro a ha
    have := h.fresh a (by simp only at ha; omega)
    refine ⟨?_, this.2⟩
    simp only [List.mem_append, List.mem_singleton, not_or]
    exact ⟨this.1, by simp only at ha; omega⟩

theorem addFirst_ok {g : Nat → Option α} {s : LL α} {t : List α} (h : Rep g s t) (e : α) :
    ∃ s', Rep g s' (e :: t) ∧ addFirst e s = .ret s' () := by
  have hf := h.fresh s.fresh (Nat.le_refl _)
  refine ⟨⟨fun a => if a = s.fresh then some e else s.heap a, s.fresh + 1, s.fresh :: s.nodes⟩, ⟨?_, ?_, ?_, ?_, ?_⟩, rfl⟩
  · simp only [List.map_cons, if_true]
    rw [map_upd _ _ _ _ hf.1, h.elems]
  · exact List.nodup_cons.mpr ⟨hf.1, h.nodup⟩
  · intro a ha
    simp only [List.mem_cons, not_or] at ha
    simp only []
    rw [if_neg ha.1]
    exact h.rest a ha.2
  · intro a ha
    simp only [List.mem_cons] at ha
    rcases ha with rfl | ha
    · exact hf.2
    · exact h.own a ha
  · intro a ha
    have := h.fresh a (by simp only at ha; omega)
    refine ⟨?_, this.2⟩
    simp only [List.mem_cons, not_or]
    exact ⟨by simp only at ha; omega, this.1⟩

/-- Taking one node out of the list and deleting it. -/
theorem Rep.take {g : Nat → Option α} {s : LL α} {t : List α} (h : Rep g s t) {l₁ l₂ : List Nat} {a : Nat}
    (hs : s.nodes = l₁ ++ a :: l₂) :
    ∃ t₁ x t₂, t = t₁ ++ x :: t₂ ∧ t₁.length = l₁.length ∧ t₂.length = l₂.length ∧ s.heap a = some x ∧
      Rep g { s with heap := fun b => if b = a then none else s.heap b, nodes := l₁ ++ l₂ } (t₁ ++ t₂) := by
  have he := h.elems
  have hn := h.nodup
  have hr := h.rest
  have ho := h.own
  have hf := h.fresh
  rw [hs] at he hn hr ho hf
  rw [List.map_append, List.map_cons] at he
  obtain ⟨t₁, t', ht, h1, h2⟩ := List.map_eq_append_iff.mp he.symm
  obtain ⟨x, t₂, ht', h3, h4⟩ := List.map_eq_cons_iff.mp h2
  have hna : a ∉ l₁ ∧ a ∉ l₂ := by
    rw [List.nodup_append] at hn
    exact ⟨fun h' => hn.2.2 a h' a (by simp) rfl, (List.nodup_cons.mp hn.2.1).1⟩
  refine ⟨t₁, x, t₂, by rw [ht, ht'], by simpa using congrArg List.length h1, by simpa using congrArg List.length h4, h3.symm, ?_, ?_, ?_, ?_, ?_⟩
  · simp only [List.map_append]
    rw [map_upd _ _ _ _ hna.1, map_upd _ _ _ _ hna.2, h1, h4]
  · rw [List.nodup_append] at hn ⊢
    exact ⟨hn.1, (List.nodup_cons.mp hn.2.1).2, fun b hb c hc => hn.2.2 b hb c (List.mem_cons_of_mem _ hc)⟩
  · intro b hb
    simp only [List.mem_append, not_or] at hb
    simp only []
    by_cases hba : b = a
    · rw [if_pos hba, hba, ho a (by simp)]
    · rw [if_neg hba]
      refine hr b ?_
      simp only [List.mem_append, List.mem_cons, not_or]
      exact ⟨hb.1, hba, hb.2⟩
  · intro b hb
    refine ho b ?_
    simp only [List.mem_append, List.mem_cons] at hb ⊢
    rcases hb with hb | hb
    · exact .inl hb
    · exact .inr (.inr hb)
  · intro b hb
    have := hf b hb
    simp only [List.mem_append, List.mem_cons, not_or] at this ⊢
    exact ⟨⟨this.1.1, this.1.2.2⟩, this.2⟩

theorem elementOf_ok {s : LL α} {a : Nat} {x : α} (h : s.heap a = some x) : elementOf a s = .ret s x := by
  unfold elementOf
  simp only [OM.bind_eq, OM.bind_read, h]
  rfl

theorem free_ok {s : LL α} {a : Nat} {x : α} (h : s.heap a = some x) :
    free a s = .ret { s with heap := fun b => if b = a then none else s.heap b } () := by
  unfold free
  simp only [OM.bind_eq, OM.bind_read, h]
  rfl

theorem Rep.at {g : Nat → Option α} {s : LL α} {t : List α} (h : Rep g s t) (k : Nat) (hk : k < s.nodes.length) :
    s.heap (s.nodes[k]) = some (t[k]'(by rw [← h.length]; exact hk)) := by
  have := congrArg (·[k]?) h.elems
  simp only [List.getElem?_map] at this
  rw [List.getElem?_eq_getElem hk, List.getElem?_eq_getElem (by rw [← h.length]; exact hk)] at this
  exact Option.some.inj this

theorem freeAll_ok {g : Nat → Option α} : ∀ (l : List Nat) (s : LL α) (t : List α), s.nodes = l → Rep g s t →
    ∃ s', freeAll l s = .ret s' () ∧ s'.fresh = s.fresh ∧ (∀ a, s'.heap a = g a) := by
  intro l
  induction l with
  | nil =>
    intro s t hs h
    exact ⟨s, rfl, rfl, fun a => h.rest a (by rw [hs]; simp)⟩
  | cons a r ih =>
    intro s t hs h
    obtain ⟨t₁, x, t₂, _, _, _, hx, hR⟩ := h.take (l₁ := []) (a := a) (l₂ := r) hs
    obtain ⟨s', h1, h2, h3⟩ := ih _ _ rfl hR
    have key : ∀ (l : List Nat) (s : LL α) (m m' : List Nat), ∀ s', freeAll l { s with nodes := m } = .ret s' () →
        ∃ s'', freeAll l { s with nodes := m' } = .ret s'' () ∧ s''.fresh = s'.fresh ∧ s''.heap = s'.heap := by
      intro l
      induction l with
      | nil =>
        intro s m m' s' hh
        refine ⟨{ s with nodes := m' }, rfl, ?_, ?_⟩ <;>
        · have : s' = { s with nodes := m } := by
            have : Res.ret { s with nodes := m } () = Res.ret s' () := hh
            cases this; rfl
          rw [this]
      | cons b l ih2 =>
        intro s m m' s' hh
        unfold freeAll at hh ⊢
        simp only [OM.bind_eq] at hh ⊢
        cases hb : s.heap b with
        | none =>
          exfalso
          have : free b { s with nodes := m } = Res.ub := by
            unfold free; simp only [OM.bind_eq, OM.bind_read, hb]; rfl
          rw [OM.bind_of_ub this] at hh
          cases hh
        | some y =>
          have hf : ∀ q, free b { s with nodes := q } = .ret { s with nodes := q, heap := fun c => if c = b then none else s.heap c } () := by
            intro q; unfold free; simp only [OM.bind_eq, OM.bind_read, hb]; rfl
          rw [OM.bind_of_ret (hf m)] at hh
          rw [OM.bind_of_ret (hf m')]
          exact ih2 { s with heap := fun c => if c = b then none else s.heap c } m m' s' hh
    obtain ⟨s'', k1, k2, k3⟩ := key r { s with heap := fun b => if b = a then none else s.heap b } r s.nodes s' h1
    refine ⟨s'', ?_, k2.trans h2, fun b => by rw [k3]; exact h3 b⟩
    unfold freeAll
    simp only [OM.bind_eq]
    rw [OM.bind_of_ret (free_ok hx)]
    exact k1

theorem clear_ok {g : Nat → Option α} {s : LL α} {t : List α} (h : Rep g s t) :
    ∃ s', Rep g s' [] ∧ clear s = .ret s' () ∧ s'.heap = g := by
  obtain ⟨s', h1, h2, h3⟩ := freeAll_ok s.nodes s t rfl h
  refine ⟨{ s' with nodes := [] }, ⟨rfl, List.nodup_nil, fun a _ => h3 a, by simp, ?_⟩, ?_, funext h3⟩
  · intro a ha
    exact ⟨by simp, (h.fresh a (by simp only at ha; omega)).2⟩
  · unfold clear
    simp only [OM.bind_eq, OM.bind_read]
    rw [OM.bind_of_ret h1]
    rfl

theorem removeLoop_ok {g : Nat → Option α} {s : LL α} {t : List α} (h : Rep g s t) (i : Nat) (hi : i < t.length) :
    ∀ (l₂ l₁ : List Nat), s.nodes = l₁ ++ l₂ → l₁.length ≤ i →
      ∃ s', removeLoop (i : Int) l₂ l₁.length s = .ret s' () ∧ Rep g s' (t.eraseIdx i) := by
  intro l₂
  induction l₂ with
  | nil =>
    intro l₁ hs hl
    have := h.length
    rw [hs, List.append_nil] at this
    omega
  | cons a r ih =>
    intro l₁ hs hl
    unfold removeLoop
    by_cases he : l₁.length = i
    · rw [if_pos (by omega)]
      obtain ⟨t₁, x, t₂, ht, e1, e2, hx, hR⟩ := h.take hs
      refine ⟨{ s with heap := fun b => if b = a then none else s.heap b, nodes := l₁ ++ r }, ?_, ?_⟩
      · simp only [OM.bind_eq, OM.bind_read, OM.bind_write]
        have : s.nodes.eraseIdx l₁.length = l₁ ++ r := by
          rw [hs, List.eraseIdx_append_of_length_le (Nat.le_refl _)]; simp
        rw [this]
        exact free_ok (s := { s with nodes := l₁ ++ r }) hx
      · have : t.eraseIdx i = t₁ ++ t₂ := by
          rw [ht, List.eraseIdx_append_of_length_le (by omega), show i - t₁.length = 0 by omega]; rfl
        rw [this]
        exact hR
    · rw [if_neg (by omega)]
      have := ih (l₁ ++ [a]) (by rw [hs]; simp) (by simp; omega)
      rwa [List.length_append, List.length_singleton] at this

/-! ## C28 -/

/-- **C28** (one call). -/
theorem C28_call (g : Nat → Option α) (op : Op α) (s : LL α) (t : List α) (h : Rep g s t) (hl : Legal op t) :
    ∃ s', Rep g s' (spec op t).1 ∧ (step op s).Is s' (spec op t).2 := by
  have hlen := h.length
  cases op with
  | addFirst e =>
    obtain ⟨s', h1, h2⟩ := addFirst_ok h e
    refine ⟨s', h1, ?_⟩
    simp only [Res.Is, spec, step, OM.bind_eq]
    exact (OM.bind_of_ret h2).trans rfl
  | addLast e =>
    obtain ⟨s', h1, h2⟩ := addLast_ok h e
    refine ⟨s', h1, ?_⟩
    simp only [Res.Is, spec, step, OM.bind_eq]
    exact (OM.bind_of_ret h2).trans rfl
  | get i =>
    by_cases hi : 0 ≤ i ∧ i < t.length
    · have hk : i.toNat < s.nodes.length := by omega
      have hx := h.at i.toNat hk
      have hg : get i s = .ret s (t[i.toNat]'(by omega)) := by
        unfold get
        simp only [OM.bind_eq, OM.bind_read]
        have : sizeMinusOne s.nodes.length = s.nodes.length - 1 := by unfold sizeMinusOne; rw [if_neg (by omega)]
        rw [this, if_neg (by omega), List.getElem?_eq_getElem hk]
        exact elementOf_ok hx
      have hs : spec (.get i) t = (t, .ok (.elem (t[i.toNat]'(by omega)))) := by
        simp only [spec]
        rw [if_pos hi.1, List.getElem?_eq_getElem (by omega)]
      rw [hs]
      exact ⟨s, h, (OM.bind_of_ret hg).trans rfl⟩
    · have hg : get i s = .exc s .indexOutOfBounds := by
        unfold get
        simp only [OM.bind_eq, OM.bind_read]
        rw [if_pos]
        · rfl
        · rcases hl with hl | hl
          · have : t.length ≠ 0 := fun h' => hl (List.eq_nil_of_length_eq_zero h')
            have : sizeMinusOne s.nodes.length = s.nodes.length - 1 := by unfold sizeMinusOne; rw [if_neg (by omega)]
            rw [this]
            omega
          · exact .inl hl
      have hs : spec (.get i) t = (t, .error .indexOutOfBounds) := by
        simp only [spec]
        by_cases h0 : 0 ≤ i
        · rw [if_pos h0, List.getElem?_eq_none (by omega)]
        · rw [if_neg h0]
      rw [hs]
      exact ⟨s, h, OM.bind_of_exc hg⟩
  | getFirst =>
    cases ht : t with
    | nil => exact absurd ht hl
    | cons x t' =>
      cases hn : s.nodes with
      | nil => rw [hn, ht] at hlen; simp at hlen
      | cons a r =>
        obtain ⟨t₁, y, t₂, e, e1, _, hx, _⟩ := h.take (l₁ := []) hn
        have : t₁ = [] := List.eq_nil_of_length_eq_zero e1
        rw [this, ht] at e
        cases e
        rw [← ht]
        refine ⟨s, by rw [ht]; rw [ht] at h; exact h, ?_⟩
        rw [ht]
        refine (OM.bind_of_ret (v := x) ?_).trans rfl
        unfold getFirst
        simp only [OM.bind_eq, OM.bind_read, hn]
        exact elementOf_ok hx
  | getLast =>
    obtain ⟨t', x, ht⟩ : ∃ t' x, t = t' ++ [x] := ⟨_, _, (List.dropLast_concat_getLast hl).symm⟩
    have hne : s.nodes ≠ [] := by intro h'; rw [h', ht] at hlen; simp at hlen
    obtain ⟨r, a, hn⟩ : ∃ r a, s.nodes = r ++ [a] := ⟨_, _, (List.dropLast_concat_getLast hne).symm⟩
    obtain ⟨t₁, y, t₂, e, e1, e2, hx, _⟩ := h.take (l₂ := []) hn
    have : t₂ = [] := List.eq_nil_of_length_eq_zero e2
    rw [this, ht] at e
    obtain ⟨e3, e4⟩ := List.append_inj' e rfl
    cases e4
    have hs : spec .getLast t = (t, .ok (.elem x)) := by simp [spec, ht]
    rw [hs]
    refine ⟨s, h, (OM.bind_of_ret (v := x) ?_).trans rfl⟩
    unfold getLast
    simp only [OM.bind_eq, OM.bind_read, hn, List.getLast?_concat]
    exact elementOf_ok hx
  | pollFirst =>
    cases ht : t with
    | nil => exact absurd ht hl
    | cons x t' =>
      cases hn : s.nodes with
      | nil => rw [hn, ht] at hlen; simp at hlen
      | cons a r =>
        obtain ⟨t₁, y, t₂, e, e1, _, hx, hR⟩ := h.take (l₁ := []) hn
        have : t₁ = [] := List.eq_nil_of_length_eq_zero e1
        subst this
        rw [ht] at e
        cases e
        refine ⟨_, hR, ?_⟩
        refine (OM.bind_of_ret (v := x) ?_).trans rfl
        unfold pollFirst
        simp only [OM.bind_eq, OM.bind_read, hn, OM.bind_write]
        rw [OM.bind_of_ret (elementOf_ok (s := { s with nodes := r }) hx), OM.bind_of_ret (free_ok (s := { s with nodes := r }) hx)]
        rfl
  | pollLast =>
    obtain ⟨t', x, ht⟩ : ∃ t' x, t = t' ++ [x] := ⟨_, _, (List.dropLast_concat_getLast hl).symm⟩
    have hne : s.nodes ≠ [] := by intro h'; rw [h', ht] at hlen; simp at hlen
    obtain ⟨r, a, hn⟩ : ∃ r a, s.nodes = r ++ [a] := ⟨_, _, (List.dropLast_concat_getLast hne).symm⟩
    obtain ⟨t₁, y, t₂, e, e1, e2, hx, hR⟩ := h.take (l₂ := []) hn
    have : t₂ = [] := List.eq_nil_of_length_eq_zero e2
    subst this
    rw [ht] at e
    obtain ⟨e3, e4⟩ := List.append_inj' e rfl
    cases e4
    subst e3
    have hs : spec .pollLast t = (t', .ok (.elem x)) := by simp [spec, ht]
    rw [hs]
    rw [List.append_nil, List.append_nil] at hR
    refine ⟨_, hR, (OM.bind_of_ret (v := x) ?_).trans rfl⟩
    unfold pollLast
    simp only [OM.bind_eq, OM.bind_read, hn, List.getLast?_concat, OM.bind_write, List.dropLast_concat]
    rw [OM.bind_of_ret (elementOf_ok (s := { s with nodes := r }) hx), OM.bind_of_ret (free_ok (s := { s with nodes := r }) hx)]
    rfl
  | removeAt i =>
    obtain ⟨n, rfl⟩ := Int.eq_ofNat_of_zero_le hl.1
    have hi : n < t.length := by have := hl.2; omega
    obtain ⟨s', h1, h2⟩ := removeLoop_ok h n hi s.nodes [] (by simp) (by simp)
    have hs : spec (.removeAt (n : Int)) t = (t.eraseIdx n, .ok (.bool true)) := by
      simp only [spec]
      rw [if_pos (by omega)]
      rfl
    rw [hs]
    refine ⟨s', h2, (OM.bind_of_ret (v := true) ?_).trans rfl⟩
    unfold removeAt
    simp only [OM.bind_eq, OM.bind_read]
    exact (OM.bind_of_ret h1).trans rfl
  | clear =>
    obtain ⟨s', h1, h2, _⟩ := clear_ok h
    exact ⟨s', h1, (OM.bind_of_ret h2).trans rfl⟩
  | size =>
    refine ⟨s, h, ?_⟩
    have hs : spec .size t = (t, .ok (.int (t.length : Int))) := rfl
    rw [hs, ← hlen]
    rfl

/-- **C28** (histories, partial). Every history of legal calls answers like a
double-ended sequence, touches no memory but the list's own nodes, and keeps
every element in a live node. Missing from the full statement: the calls outside
`Legal`, refuted below. -/
theorem C28_history_partial (g : Nat → Option α) (ops : List (Op α)) (s : LL α) (t : List α) (h : Rep g s t)
    (hl : Along spec Legal ops t) :
    ∃ s', Rep g s' (specHist spec ops t).1 ∧ runHist step ops s = .ok (s', (specHist spec ops t).2) :=
  runHist_refines _ _ (Rep g) Legal (fun op s t hR hl => C28_call g op s t hR hl) ops s t h hl

example : Along spec Legal [Op.addLast 1, .addFirst 2, .addLast 3, .removeAt 1, .get 5, .get (-1), .pollLast, .getFirst, .pollFirst, .size] ([] : List Nat) ∧
    (specHist spec [Op.addLast 1, .addFirst 2, .addLast 3, .removeAt 1, .get 5, .get (-1), .pollLast, .getFirst, .pollFirst, .size] ([] : List Nat)).2 =
      [.ok .unit, .ok .unit, .ok .unit, .ok (.bool true), .error .indexOutOfBounds, .error .indexOutOfBounds, .ok (.elem 3), .ok (.elem 2),
        .ok (.elem 2), .ok (.int 0)] := by
  constructor
  · simp [Along, Legal, spec]
  · rfl

/-- **C28** (no leak). A list built by any legal history on the heap `g`, once
cleared or destroyed, leaves exactly the heap `g`. -/
theorem C28_no_leak (g : Nat → Option α) (n : Nat) (hg : ∀ a, n ≤ a → g a = none) (ops : List (Op α)) (hl : Along spec Legal ops []) :
    ∃ s s', runHist step ops ⟨g, n, []⟩ = .ok (s, (specHist spec ops []).2) ∧ clear s = .ret s' () ∧ s'.heap = g := by
  obtain ⟨s, h1, h2⟩ := C28_history_partial g ops _ _ (Rep.new g n hg) hl
  obtain ⟨s', _, h3, h4⟩ := clear_ok h1
  exact ⟨s, s', h2, h3, h4⟩

/-- **C28** (removal by node). Removing a node of the list removes exactly that
element; a node of another list leaves the list alone. -/
theorem C28_removeNode (g : Nat → Option α) (s : LL α) (t : List α) (h : Rep g s t) :
    (∀ k (hk : k < s.nodes.length), ∃ s', removeNode s.nodes[k] s = .ret s' true ∧ Rep g s' (t.eraseIdx k)) ∧
    (∀ a, a ∉ s.nodes → removeNode a s = .ret s true) := by
  have loop : ∀ (a : Nat) (l₂ l₁ l₃ : List Nat), s.nodes = l₁ ++ l₂ ++ a :: l₃ → a ∉ l₂ →
      removeNodeLoop a (l₂ ++ a :: l₃) l₁.length s = removeNodeLoop a (a :: l₃) (l₁.length + l₂.length) s := by
    intro a l₂
    induction l₂ with
    | nil => intro l₁ l₃ _ _; rfl
    | cons b l₂ ih =>
      intro l₁ l₃ hs hn
      rw [List.mem_cons, not_or] at hn
      have := ih (l₁ ++ [b]) l₃ (by rw [hs]; simp) hn.2
      rw [List.length_append, List.length_singleton] at this
      rw [List.cons_append]
      have hstep : removeNodeLoop a (b :: (l₂ ++ a :: l₃)) l₁.length s = removeNodeLoop a (l₂ ++ a :: l₃) (l₁.length + 1) s := by
        rw [removeNodeLoop.eq_2, if_neg (Ne.symm hn.1)]
      rw [hstep, this, List.length_cons, show l₁.length + 1 + l₂.length = l₁.length + (l₂.length + 1) by omega]
  constructor
  · intro k hk
    have hsplit : s.nodes = s.nodes.take k ++ s.nodes[k] :: s.nodes.drop (k + 1) := by
      rw [← List.drop_eq_getElem_cons hk, List.take_append_drop]
    have hnot : s.nodes[k] ∉ s.nodes.take k := by
      have hn := h.nodup
      rw [hsplit, List.nodup_append] at hn
      intro h'
      exact hn.2.2 _ h' _ List.mem_cons_self rfl
    generalize s.nodes[k] = a at hsplit hnot ⊢
    obtain ⟨t₁, x, t₂, ht, e1, e2, hx, hR⟩ := h.take hsplit
    have hkt : (s.nodes.take k).length = k := by rw [List.length_take]; omega
    have hl := loop a (s.nodes.take k) [] (s.nodes.drop (k + 1)) (by simpa using hsplit) hnot
    rw [← hsplit, List.length_nil, Nat.zero_add, hkt] at hl
    refine ⟨{ s with heap := fun b => if b = a then none else s.heap b, nodes := s.nodes.take k ++ s.nodes.drop (k + 1) }, ?_, ?_⟩
    · unfold removeNode
      simp only [OM.bind_eq, OM.bind_read]
      refine (OM.bind_of_ret (v := ()) (hl.trans ?_)).trans rfl
      unfold removeNodeLoop
      rw [if_pos rfl]
      simp only [OM.bind_eq, OM.bind_read, OM.bind_write]
      rw [List.eraseIdx_eq_take_drop_succ]
      exact free_ok (s := { s with nodes := s.nodes.take k ++ s.nodes.drop (k + 1) }) hx
    · have : t.eraseIdx k = t₁ ++ t₂ := by
        rw [ht, List.eraseIdx_append_of_length_le (by omega), show k - t₁.length = 0 by omega]; rfl
      rw [this]
      exact hR
  · intro a ha
    have : ∀ (l : List Nat) p, a ∉ l → removeNodeLoop a l p s = .ret s () := by
      intro l
      induction l with
      | nil => intros; rfl
      | cons b l ih =>
        intro p hn
        rw [List.mem_cons, not_or] at hn
        unfold removeNodeLoop
        rw [if_neg (Ne.symm hn.1)]
        exact ih _ hn.2
    unfold removeNode
    simp only [OM.bind_eq, OM.bind_read]
    rw [OM.bind_of_ret (this s.nodes 0 ha)]
    rfl

/-- **C28** (negation). On an empty list every accessor that should report the
missing element is undefined, `get` at any non-negative index included. -/
theorem C28_empty_wrong (s : LL α) (h : s.nodes = []) :
    getFirst s = .ub ∧ getLast s = .ub ∧ pollFirst s = .ub ∧ pollLast s = .ub ∧
    (∀ i : Int, 0 ≤ i → i ≤ INT_MAX → get i s = .ub) := by
  refine ⟨?_, ?_, ?_, ?_, ?_⟩
  · unfold getFirst; simp only [OM.bind_eq, OM.bind_read, h]; rfl
  · unfold getLast; simp only [OM.bind_eq, OM.bind_read, h]; rfl
  · unfold pollFirst; simp only [OM.bind_eq, OM.bind_read, h]; rfl
  · unfold pollLast; simp only [OM.bind_eq, OM.bind_read, h]; rfl
  · intro i h0 h1
    unfold get
    simp only [OM.bind_eq, OM.bind_read, h]
    rw [if_neg (by simp only [INT_MAX, sizeMinusOne, List.length_nil, if_true] at *; omega)]
    rfl

/-- **C28** (negation). `remove(index)` of a position the list does not have
reports success and changes nothing. -/
theorem C28_removeAt_wrong (s : LL α) (i : Int) (h : ¬ (0 ≤ i ∧ i < s.nodes.length)) : removeAt i s = .ret s true := by
  have : ∀ (l : List Nat) p, p + l.length = s.nodes.length → removeLoop i l p s = .ret s () := by
    intro l
    induction l with
    | nil => intros; rfl
    | cons b l ih =>
      intro p hp
      rw [List.length_cons] at hp
      unfold removeLoop
      rw [if_neg (by omega)]
      exact ih _ (by omega)
  unfold removeAt
  simp only [OM.bind_eq, OM.bind_read]
  rw [OM.bind_of_ret (this s.nodes 0 (by omega))]
  rfl

/-- **C28** (negation). `element()` is undefined on every list. -/
theorem C28_element_wrong (s : LL α) : element s = .ub := rfl

/-- **C28** (negation). A copy shares its nodes with the original: once the copy
of any non-empty list is gone, the first element, the first removal and the
destruction of the original are all undefined. -/
theorem C28_copy_wrong (g : Nat → Option α) (s : LL α) (t : List α) (h : Rep g s t) (ht : t ≠ []) :
    ∃ s', copyAndDrop s = .ret s' () ∧ getFirst s' = .ub ∧ pollFirst s' = .ub ∧ clear s' = .ub := by
  obtain ⟨s', h1, h2, h3⟩ := freeAll_ok s.nodes s t rfl h
  have hfa : ∀ (l : List Nat) (s s' : LL α), freeAll l s = .ret s' () → s'.nodes = s.nodes := by
    intro l
    induction l with
    | nil => intro s s' hh; have : Res.ret s () = Res.ret s' () := hh; cases this; rfl
    | cons b l ih =>
      intro s s' hh
      unfold freeAll at hh
      simp only [OM.bind_eq] at hh
      cases hb : s.heap b with
      | none =>
        have : free b s = Res.ub := by unfold free; simp only [OM.bind_eq, OM.bind_read, hb]; rfl
        rw [OM.bind_of_ub this] at hh
        cases hh
      | some y =>
        rw [OM.bind_of_ret (free_ok hb)] at hh
        exact (ih { s with heap := fun c => if c = b then none else s.heap c } s' hh)
  have hn := hfa _ _ _ h1
  cases hs : s.nodes with
  | nil => have := h.length; rw [hs] at this; exact absurd (List.eq_nil_of_length_eq_zero this.symm) ht
  | cons a r =>
    have ha : s'.heap a = none := by rw [h3]; exact h.own a (by rw [hs]; simp)
    refine ⟨s', ?_, ?_, ?_, ?_⟩
    · unfold copyAndDrop
      simp only [OM.bind_eq, OM.bind_read]
      exact h1
    · unfold getFirst elementOf
      simp only [OM.bind_eq, OM.bind_read, hn, hs, ha]
      rfl
    · unfold pollFirst elementOf
      simp only [OM.bind_eq, OM.bind_read, hn, hs, OM.bind_write]
      refine OM.bind_of_ub ?_
      simp only [OM.bind_read, ha]
      rfl
    · unfold clear
      simp only [OM.bind_eq, OM.bind_read, hn, hs]
      refine OM.bind_of_ub ?_
      unfold freeAll free
      simp only [OM.bind_eq]
      refine OM.bind_of_ub ?_
      simp only [OM.bind_read, ha]
      rfl

example : ∃ s : LL Nat, Rep (fun _ => none) s [7, 8] :=
  let ⟨s, h, _⟩ := C28_history_partial (fun _ => none) [Op.addLast 7, .addLast 8] _ [] (Rep.new _ 0 (fun _ _ => rfl))
    (by simp [Along, Legal, spec])
  ⟨s, h⟩

end Verif.LinkedList
