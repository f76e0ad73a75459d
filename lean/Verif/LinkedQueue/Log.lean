import Verif.LinkedQueue.Safe
/-!
# Finished calls and what they did
-/
namespace Verif.LinkedQueue

variable {E : Type}

/-- The index of a producer in a thread's hands. -/
def posIx : Pos E → Option (Nat × Nat)
  | .deq _ p d => d.ix.map fun i => (p, i)
  | _ => none

theorem posIx_plain {y : Pos E} (h : Plain y) : posIx y = none := by
  cases y with
  | deq k p d => cases d <;> first | rfl | exact absurd h id
  | _ => rfl

/-- Entry `n` of the log is a `poll` that got `e`. -/
def Hit (l : List (Rec E)) (n : Nat) (e : E) : Prop :=
  ∃ r, l[n]? = some r ∧ r.res = .polled (some e)

/-- Where finished calls sit in the producers: `src p i` is the log entry of the `add` that
filled index `i`, `hit n` the index that the `poll` of log entry `n` took. -/
structure InvL (s : Sys E) (Γ : Nat → G E) (src : Nat → Nat → Nat) (hit : Nat → Nat × Nat) :
    Prop where
  srcs : ∀ p i, i < (s.prods p).tail → ∃ r e, s.log[src p i]? = some r ∧ s.own r.thr = some p ∧
    r.res = .added e ∧ ((Γ p).st i).val = some e
  all : ∀ (n : Nat) r e, s.log[n]? = some r → r.res = .added e →
    ∃ p i, s.own r.thr = some p ∧ i < (s.prods p).tail ∧ src p i = n
  mono : ∀ p i j, i < j → j < (s.prods p).tail → src p i < src p j
  hits : ∀ (n : Nat) e, Hit s.log n e → (hit n).2 < (s.prods (hit n).1).head ∧
    (Γ (hit n).1).st (hit n).2 = .done e ∧ src (hit n).1 (hit n).2 < n
  inj : ∀ n m e e', Hit s.log n e → Hit s.log m e' → hit n = hit m → n = m
  held : ∀ n e t, Hit s.log n e → posIx (s.pos t) ≠ some (hit n)
  cover : ∀ p i, i < (s.prods p).head → (∃ n e, Hit s.log n e ∧ hit n = (p, i)) ∨
    ∃ t, posIx (s.pos t) = some (p, i)
  order : ∀ (n m : Nat) r r' e e', s.log[n]? = some r → s.log[m]? = some r' →
    r.res = .polled (some e) → r'.res = .polled (some e') → (hit n).1 = (hit m).1 →
    r.ended < r'.began → (hit n).2 < (hit m).2
  orderT : ∀ (n : Nat) r e t p i, s.log[n]? = some r → r.res = .polled (some e) →
    posIx (s.pos t) = some (p, i) → (hit n).1 = p → r.ended < s.began t → (hit n).2 < i
  time : ∀ (n : Nat) r, s.log[n]? = some r → r.began < r.ended ∧ r.ended < s.clock
  busy : ∀ t, s.pos t ≠ .idle → s.began t < s.clock
  noRef : ∀ (n : Nat) r e, s.log[n]? = some r → r.res ≠ .refused e

theorem posIx_deq {y : Pos E} {p i : Nat} (h : posIx y = some (p, i)) :
    ∃ k d, y = .deq k p d ∧ d.ix = some i := by
  cases y with
  | deq k q d =>
    simp only [posIx, Option.map_eq_some_iff] at h
    obtain ⟨j, h1, h2⟩ := h
    cases h2
    exact ⟨k, d, rfl, h1⟩
  | _ => cases h

/-- A step that ends no call and takes no index. -/
theorem InvL.quiet {s s' : Sys E} {Γ Γ' : Nat → G E} {src hit} {t : Nat} (h : InvL s Γ src hit)
    (hr : Rel s t Γ Γ') (y : Pos E) (hpos : s'.pos = upd s.pos t y) (hlog : s'.log = s.log)
    (hown : ∀ t' p, s.own t' = some p → s'.own t' = some p)
    (hb : s'.began = s.began) (hc : s'.clock = s.clock)
    (htail : ∀ p, (s'.prods p).tail = (s.prods p).tail)
    (hhead : ∀ p, (s'.prods p).head = (s.prods p).head)
    (hi : s.pos t ≠ .idle) (hy : posIx y = posIx (s.pos t)) : InvL s' Γ' src hit := by
  have hix : ∀ t', posIx (s'.pos t') = posIx (s.pos t') := by
    intro t'
    rw [hpos]
    by_cases e : t' = t
    · subst e; rw [upd_same]; exact hy
    · rw [upd_ne _ _ e]
  refine ⟨?_, ?_, ?_, ?_, ?_, ?_, ?_, ?_, ?_, ?_, ?_, ?_⟩
  · intro p i h1
    rw [htail] at h1
    obtain ⟨r, e, h2, h3, h4, h5⟩ := h.srcs p i h1
    rw [hlog]
    exact ⟨r, e, h2, hown _ _ h3, h4, hr.val p i e h5⟩
  · intro n r e h1 h2
    rw [hlog] at h1
    obtain ⟨p, i, h3, h4, h5⟩ := h.all n r e h1 h2
    exact ⟨p, i, hown _ _ h3, by rw [htail]; exact h4, h5⟩
  · intro p i j h1 h2; rw [htail] at h2; exact h.mono p i j h1 h2
  · intro n e h1
    rw [hlog] at h1
    obtain ⟨h2, h3, h4⟩ := h.hits n e h1
    exact ⟨by rw [hhead]; exact h2, hr.done _ _ _ h3, h4⟩
  · rw [hlog]; exact h.inj
  · intro n e t' h1; rw [hlog] at h1; rw [hix]; exact h.held n e t' h1
  · intro p i h1
    rw [hhead] at h1
    rw [hlog]
    rcases h.cover p i h1 with h2 | ⟨t', h2⟩
    · exact .inl h2
    · exact .inr ⟨t', by rw [hix]; exact h2⟩
  · rw [hlog]; exact h.order
  · intro n r e t' p i h1 h2 h3
    rw [hlog] at h1; rw [hix] at h3; rw [hb]
    exact h.orderT n r e t' p i h1 h2 h3
  · rw [hlog, hc]; exact h.time
  · intro t' h1
    rw [hb, hc]
    rw [hpos] at h1
    by_cases e : t' = t
    · subst e; exact h.busy t' hi
    · rw [upd_ne _ _ e] at h1; exact h.busy t' h1
  · rw [hlog]; exact h.noRef

theorem getElem?_push {α : Type} {l : List α} {x : α} {n : Nat} {r : α}
    (h : (l ++ [x])[n]? = some r) : l[n]? = some r ∧ n < l.length ∨ n = l.length ∧ r = x := by
  rcases Nat.lt_or_ge n l.length with h1 | h1
  · rw [List.getElem?_append_left h1] at h; exact .inl ⟨h, h1⟩
  · rw [List.getElem?_append_right h1] at h
    have h2 : n - l.length = 0 := by
      rcases Nat.eq_zero_or_pos (n - l.length) with h2 | h2
      · exact h2
      · rw [List.getElem?_eq_none (by simp; omega)] at h; cases h
    rw [h2] at h
    simp at h
    exact .inr ⟨by omega, h.symm⟩

theorem getElem?_old {α : Type} {l : List α} {x : α} {n : Nat} {r : α}
    (h : l[n]? = some r) : (l ++ [x])[n]? = some r := by
  rw [List.getElem?_append_left]
  · exact h
  · exact (List.getElem?_eq_some_iff.mp h).1

theorem getElem?_last {α : Type} (l : List α) (x : α) : (l ++ [x])[l.length]? = some x := by
  rw [List.getElem?_append_right (Nat.le_refl _)]; simp

theorem Hit.old {l : List (Rec E)} {x : Rec E} {n : Nat} {e : E} (h : Hit l n e) :
    Hit (l ++ [x]) n e := by
  obtain ⟨r, h1, h2⟩ := h
  exact ⟨r, getElem?_old h1, h2⟩

theorem Hit.push {l : List (Rec E)} {x : Rec E} {n : Nat} {e : E} (h : Hit (l ++ [x]) n e) :
    Hit l n e ∧ n < l.length ∨ n = l.length ∧ x.res = .polled (some e) := by
  obtain ⟨r, h1, h2⟩ := h
  rcases getElem?_push h1 with ⟨h3, h4⟩ | ⟨h3, h4⟩
  · exact .inl ⟨⟨r, h3, h2⟩, h4⟩
  · exact .inr ⟨h3, h4 ▸ h2⟩

theorem Hit.lt {l : List (Rec E)} {n : Nat} {e : E} (h : Hit l n e) : n < l.length := by
  obtain ⟨r, h1, _⟩ := h
  exact (List.getElem?_eq_some_iff.mp h1).1

/-- The end of a call that brought nothing. -/
theorem InvL.dull {s s' : Sys E} {Γ Γ' : Nat → G E} {src hit} {t : Nat} (h : InvL s Γ src hit)
    (hr : Rel s t Γ Γ') (r : Res E) (hd : Dull r) (hpos : s'.pos = upd s.pos t .idle)
    (hlog : s'.log = s.log ++ [{ thr := t, res := r, began := s.began t, ended := s.clock }])
    (hown : s'.own = s.own)
    (hb : s'.began = s.began) (hc : s'.clock = s.clock + 1)
    (htail : ∀ p, (s'.prods p).tail = (s.prods p).tail)
    (hhead : ∀ p, (s'.prods p).head = (s.prods p).head)
    (hi : s.pos t ≠ .idle) (hy : posIx (s.pos t) = none) : InvL s' Γ' src hit := by
  have hix : ∀ t', posIx (s'.pos t') = posIx (s.pos t') := by
    intro t'
    rw [hpos]
    by_cases e : t' = t
    · subst e; rw [upd_same, hy]; rfl
    · rw [upd_ne _ _ e]
  have hnp : ∀ e, r ≠ .polled (some e) := by intro e h; subst h; exact hd
  have hna : ∀ e, r ≠ .added e := by intro e h; subst h; exact hd
  have hnr : ∀ e, r ≠ .refused e := by intro e h; subst h; exact hd
  have hH : ∀ n e, Hit s'.log n e → Hit s.log n e := by
    intro n e h1
    rw [hlog] at h1
    rcases h1.push with ⟨h2, _⟩ | ⟨_, h2⟩
    · exact h2
    · exact absurd h2 (hnp e)
  refine ⟨?_, ?_, ?_, ?_, ?_, ?_, ?_, ?_, ?_, ?_, ?_, ?_⟩
  · intro p i h1
    rw [htail] at h1
    obtain ⟨r, e, h2, h3, h4, h5⟩ := h.srcs p i h1
    rw [hlog, hown]
    exact ⟨r, e, getElem?_old h2, h3, h4, hr.val p i e h5⟩
  · intro n r' e h1 h2
    rw [hlog] at h1
    rcases getElem?_push h1 with ⟨h3, _⟩ | ⟨_, h3⟩
    · obtain ⟨p, i, h3, h4, h5⟩ := h.all n r' e h3 h2
      exact ⟨p, i, by rw [hown]; exact h3, by rw [htail]; exact h4, h5⟩
    · subst h3; exact absurd h2 (hna e)
  · intro p i j h1 h2; rw [htail] at h2; exact h.mono p i j h1 h2
  · intro n e h1
    obtain ⟨h2, h3, h4⟩ := h.hits n e (hH n e h1)
    exact ⟨by rw [hhead]; exact h2, hr.done _ _ _ h3, h4⟩
  · intro n m e e' h1 h2; exact h.inj n m e e' (hH _ _ h1) (hH _ _ h2)
  · intro n e t' h1; rw [hix]; exact h.held n e t' (hH _ _ h1)
  · intro p i h1
    rw [hhead] at h1
    rcases h.cover p i h1 with ⟨n, e, h2, h3⟩ | ⟨t', h2⟩
    · exact .inl ⟨n, e, by rw [hlog]; exact h2.old, h3⟩
    · exact .inr ⟨t', by rw [hix]; exact h2⟩
  · intro n m r1 r2 e e' h1 h2 h3 h4
    rw [hlog] at h1 h2
    rcases getElem?_push h1 with ⟨g1, _⟩ | ⟨_, g1⟩
    · rcases getElem?_push h2 with ⟨g2, _⟩ | ⟨_, g2⟩
      · exact h.order n m r1 r2 e e' g1 g2 h3 h4
      · subst g2; exact absurd h4 (hnp e')
    · subst g1; exact absurd h3 (hnp e)
  · intro n r1 e t' p i h1 h2 h3
    rw [hlog] at h1
    rw [hix] at h3; rw [hb]
    rcases getElem?_push h1 with ⟨g1, _⟩ | ⟨_, g1⟩
    · exact h.orderT n r1 e t' p i g1 h2 h3
    · subst g1; exact absurd h2 (hnp e)
  · intro n r1 h1
    rw [hlog] at h1
    rw [hc]
    rcases getElem?_push h1 with ⟨g1, _⟩ | ⟨_, g1⟩
    · have := h.time n r1 g1; omega
    · subst g1; exact ⟨h.busy t hi, Nat.lt_succ_self _⟩
  · intro t' h1
    rw [hb, hc]
    rw [hpos] at h1
    by_cases e : t' = t
    · subst e; rw [upd_same] at h1; exact absurd rfl h1
    · rw [upd_ne _ _ e] at h1; exact Nat.lt_succ_of_lt (h.busy t' h1)
  · intro n r1 e h1
    rw [hlog] at h1
    rcases getElem?_push h1 with ⟨g1, _⟩ | ⟨_, g1⟩
    · exact h.noRef n r1 e g1
    · subst g1; exact hnr e

/-- An index is taken. -/
theorem InvL.claim {s s' : Sys E} {Γ Γ' : Nat → G E} {src hit} {t p : Nat} (h : InvL s Γ src hit)
    (hr : Rel s t Γ Γ') (y : Pos E) (hpos : s'.pos = upd s.pos t y) (hlog : s'.log = s.log)
    (hown : s'.own = s.own) (hb : s'.began = s.began) (hc : s'.clock = s.clock)
    (htail : ∀ q, (s'.prods q).tail = (s.prods q).tail)
    (hhead : (s'.prods p).head = (s.prods p).head + 1)
    (hhead' : ∀ q, q ≠ p → (s'.prods q).head = (s.prods q).head)
    (hi : s.pos t ≠ .idle) (hx : posIx (s.pos t) = none)
    (hy : posIx y = some (p, (s.prods p).head)) : InvL s' Γ' src hit := by
  have hix : ∀ t', t' ≠ t → posIx (s'.pos t') = posIx (s.pos t') := by
    intro t' e; rw [hpos, upd_ne _ _ e]
  have hixt : posIx (s'.pos t) = some (p, (s.prods p).head) := by rw [hpos, upd_same]; exact hy
  have hle : ∀ q, (s.prods q).head ≤ (s'.prods q).head := by
    intro q
    by_cases e : q = p
    · subst e; omega
    · rw [hhead' q e]; exact Nat.le_refl _
  have hnew : ∀ n e, Hit s.log n e → hit n ≠ (p, (s.prods p).head) := by
    intro n e h1 h2
    have := (h.hits n e h1).1
    rw [h2] at this
    exact absurd this (Nat.lt_irrefl _)
  refine ⟨?_, ?_, ?_, ?_, ?_, ?_, ?_, ?_, ?_, ?_, ?_, ?_⟩
  · intro p i h1
    rw [htail] at h1
    obtain ⟨r, e, h2, h3, h4, h5⟩ := h.srcs p i h1
    rw [hlog, hown]
    exact ⟨r, e, h2, h3, h4, hr.val p i e h5⟩
  · intro n r e h1 h2
    rw [hlog] at h1
    obtain ⟨p, i, h3, h4, h5⟩ := h.all n r e h1 h2
    exact ⟨p, i, by rw [hown]; exact h3, by rw [htail]; exact h4, h5⟩
  · intro p i j h1 h2; rw [htail] at h2; exact h.mono p i j h1 h2
  · intro n e h1
    rw [hlog] at h1
    obtain ⟨h2, h3, h4⟩ := h.hits n e h1
    exact ⟨Nat.lt_of_lt_of_le h2 (hle _), hr.done _ _ _ h3, h4⟩
  · rw [hlog]; exact h.inj
  · intro n e t' h1
    rw [hlog] at h1
    by_cases e' : t' = t
    · subst e'
      rw [hixt]
      intro h2
      exact hnew n e h1 (Option.some.inj h2).symm
    · rw [hix t' e']; exact h.held n e t' h1
  · intro q i h1
    rw [hlog]
    have keep : i < (s.prods q).head → (∃ n e, Hit s.log n e ∧ hit n = (q, i)) ∨
        ∃ t, posIx (s'.pos t) = some (q, i) := by
      intro h1
      rcases h.cover q i h1 with h2 | ⟨t', h2⟩
      · exact .inl h2
      · have : t' ≠ t := by intro e; subst e; rw [hx] at h2; cases h2
        exact .inr ⟨t', by rw [hix t' this]; exact h2⟩
    by_cases e : q = p
    · subst e
      rw [hhead] at h1
      by_cases e' : i = (s.prods q).head
      · subst e'; exact .inr ⟨t, hixt⟩
      · exact keep (by omega)
    · rw [hhead' q e] at h1; exact keep h1
  · rw [hlog]; exact h.order
  · intro n r e t' q i h1 h2 h3 h4 h5
    rw [hlog] at h1; rw [hb] at h5
    by_cases e' : t' = t
    · subst e'
      rw [hixt] at h3
      cases h3
      have h6 := (h.hits n e ⟨r, h1, h2⟩).1
      rw [h4] at h6
      exact h6
    · rw [hix t' e'] at h3
      exact h.orderT n r e t' q i h1 h2 h3 h4 h5
  · rw [hlog, hc]; exact h.time
  · intro t' h1
    rw [hb, hc]
    rw [hpos] at h1
    by_cases e : t' = t
    · subst e; exact h.busy t' hi
    · rw [upd_ne _ _ e] at h1; exact h.busy t' h1
  · rw [hlog]; exact h.noRef

/-- An element is published. -/
theorem InvL.pub {s s' : Sys E} {Γ Γ' : Nat → G E} {src hit} {t p : Nat} {e : E}
    (h : InvL s Γ src hit)
    (hr : Rel s t Γ Γ') (hpos : s'.pos = upd s.pos t .idle)
    (hlog : s'.log = s.log ++
      [{ thr := t, res := .added e, began := s.began t, ended := s.clock }])
    (hown : s'.own = s.own) (hb : s'.began = s.began) (hc : s'.clock = s.clock + 1)
    (htail : (s'.prods p).tail = (s.prods p).tail + 1)
    (htail' : ∀ q, q ≠ p → (s'.prods q).tail = (s.prods q).tail)
    (hhead : ∀ q, (s'.prods q).head = (s.prods q).head)
    (hht : ∀ q, (s.prods q).head ≤ (s.prods q).tail)
    (hi : s.pos t ≠ .idle) (hy : posIx (s.pos t) = none) (ho : s.own t = some p)
    (hv : ((Γ p).st (s.prods p).tail).val = some e) :
    InvL s' Γ' (upd src p (upd (src p) (s.prods p).tail s.log.length)) hit := by
  have hix : ∀ t', posIx (s'.pos t') = posIx (s.pos t') := by
    intro t'
    rw [hpos]
    by_cases e : t' = t
    · subst e; rw [upd_same, hy]; rfl
    · rw [upd_ne _ _ e]
  have hH : ∀ n e, Hit s'.log n e → Hit s.log n e := by
    intro n e h1
    rw [hlog] at h1
    rcases h1.push with ⟨h2, _⟩ | ⟨_, h2⟩
    · exact h2
    · cases h2
  have hsrc : ∀ q i, i < (s.prods q).tail →
      upd src p (upd (src p) (s.prods p).tail s.log.length) q i = src q i := by
    intro q i h1
    by_cases e : q = p
    · subst e; rw [upd_same, upd_ne _ _ (by omega)]
    · rw [upd_ne _ _ e]
  have hnew : upd src p (upd (src p) (s.prods p).tail s.log.length) p (s.prods p).tail =
      s.log.length := by rw [upd_same, upd_same]
  have hlt : ∀ q i, i < (s.prods q).tail → src q i < s.log.length := by
    intro q i h1
    obtain ⟨r, e, h2, _⟩ := h.srcs q i h1
    exact (List.getElem?_eq_some_iff.mp h2).1
  have hle : ∀ q, (s.prods q).tail ≤ (s'.prods q).tail := by
    intro q
    by_cases e : q = p
    · subst e; omega
    · rw [htail' q e]; exact Nat.le_refl _
  refine ⟨?_, ?_, ?_, ?_, ?_, ?_, ?_, ?_, ?_, ?_, ?_, ?_⟩
  · intro q i h1
    rw [hown]
    by_cases e' : q = p ∧ i = (s.prods p).tail
    · obtain ⟨rfl, rfl⟩ := e'
      rw [hnew, hlog]
      exact ⟨_, e, getElem?_last _ _, ho, rfl, hr.val _ _ _ hv⟩
    · have h1' : i < (s.prods q).tail := by
        by_cases e2 : q = p
        · subst e2; rw [htail] at h1
          have : i ≠ (s.prods q).tail := fun h => e' ⟨rfl, h⟩
          omega
        · rw [htail' q e2] at h1; exact h1
      obtain ⟨r, e, h2, h3, h4, h5⟩ := h.srcs q i h1'
      rw [hsrc q i h1', hlog]
      exact ⟨r, e, getElem?_old h2, h3, h4, hr.val q i e h5⟩
  · intro n r' e1 h1 h2
    rw [hlog] at h1
    rw [hown]
    rcases getElem?_push h1 with ⟨h3, _⟩ | ⟨h3, h4⟩
    · obtain ⟨q, i, h3, h4, h5⟩ := h.all n r' e1 h3 h2
      exact ⟨q, i, h3, Nat.lt_of_lt_of_le h4 (hle q), by rw [hsrc q i h4]; exact h5⟩
    · subst h4
      exact ⟨p, (s.prods p).tail, ho, by rw [htail]; exact Nat.lt_succ_self _, by rw [hnew, h3]⟩
  · intro q i j h1 h2
    by_cases e' : q = p ∧ j = (s.prods p).tail
    · obtain ⟨rfl, rfl⟩ := e'
      rw [hnew, hsrc q i h1]
      exact hlt q i h1
    · have h2' : j < (s.prods q).tail := by
        by_cases e2 : q = p
        · subst e2; rw [htail] at h2
          have : j ≠ (s.prods q).tail := fun h => e' ⟨rfl, h⟩
          omega
        · rw [htail' q e2] at h2; exact h2
      rw [hsrc q i (by omega), hsrc q j h2']
      exact h.mono q i j h1 h2'
  · intro n e h1
    obtain ⟨h2, h3, h4⟩ := h.hits n e (hH n e h1)
    refine ⟨by rw [hhead]; exact h2, hr.done _ _ _ h3, ?_⟩
    rw [hsrc _ _ (Nat.lt_of_lt_of_le h2 (hht _))]
    exact h4
  · intro n m e e' h1 h2; exact h.inj n m e e' (hH _ _ h1) (hH _ _ h2)
  · intro n e t' h1; rw [hix]; exact h.held n e t' (hH _ _ h1)
  · intro p i h1
    rw [hhead] at h1
    rcases h.cover p i h1 with ⟨n, e, h2, h3⟩ | ⟨t', h2⟩
    · exact .inl ⟨n, e, by rw [hlog]; exact h2.old, h3⟩
    · exact .inr ⟨t', by rw [hix]; exact h2⟩
  · intro n m r1 r2 e e' h1 h2 h3 h4
    rw [hlog] at h1 h2
    rcases getElem?_push h1 with ⟨g1, _⟩ | ⟨_, g1⟩
    · rcases getElem?_push h2 with ⟨g2, _⟩ | ⟨_, g2⟩
      · exact h.order n m r1 r2 e e' g1 g2 h3 h4
      · subst g2; cases h4
    · subst g1; cases h3
  · intro n r1 e t' p i h1 h2 h3
    rw [hlog] at h1
    rw [hix] at h3; rw [hb]
    rcases getElem?_push h1 with ⟨g1, _⟩ | ⟨_, g1⟩
    · exact h.orderT n r1 e t' p i g1 h2 h3
    · subst g1; cases h2
  · intro n r1 h1
    rw [hlog] at h1
    rw [hc]
    rcases getElem?_push h1 with ⟨g1, _⟩ | ⟨_, g1⟩
    · have := h.time n r1 g1; omega
    · subst g1; exact ⟨h.busy t hi, Nat.lt_succ_self _⟩
  · intro t' h1
    rw [hb, hc]
    rw [hpos] at h1
    by_cases e : t' = t
    · subst e; rw [upd_same] at h1; exact absurd rfl h1
    · rw [upd_ne _ _ e] at h1; exact Nat.lt_succ_of_lt (h.busy t' h1)
  · intro n r1 e h1
    rw [hlog] at h1
    rcases getElem?_push h1 with ⟨g1, _⟩ | ⟨_, g1⟩
    · exact h.noRef n r1 e g1
    · subst g1; intro h; cases h

/-- A `poll` comes back with an element. -/
theorem InvL.got {s s' : Sys E} {Γ Γ' : Nat → G E} {src hit} {t p i : Nat} {e : E}
    (h : InvL s Γ src hit)
    (hr : Rel s t Γ Γ') (hpos : s'.pos = upd s.pos t .idle)
    (hlog : s'.log = s.log ++
      [{ thr := t, res := .polled (some e), began := s.began t, ended := s.clock }])
    (hown : s'.own = s.own) (hb : s'.began = s.began) (hc : s'.clock = s.clock + 1)
    (htail : ∀ q, (s'.prods q).tail = (s.prods q).tail)
    (hhead : ∀ q, (s'.prods q).head = (s.prods q).head)
    (hht : ∀ q, (s.prods q).head ≤ (s.prods q).tail)
    (hi : s.pos t ≠ .idle) (hy : posIx (s.pos t) = some (p, i))
    (huniq : ∀ t', posIx (s.pos t') = some (p, i) → t' = t)
    (hlt : i < (s.prods p).head) (hd : (Γ' p).st i = .done e) :
    InvL s' Γ' src (upd hit s.log.length (p, i)) := by
  have hix : ∀ t', t' ≠ t → posIx (s'.pos t') = posIx (s.pos t') := by
    intro t' e; rw [hpos, upd_ne _ _ e]
  have hixt : posIx (s'.pos t) = none := by rw [hpos, upd_same]; rfl
  have hnew : upd hit s.log.length (p, i) s.log.length = (p, i) := upd_same _ _ _
  have hold : ∀ n, n < s.log.length → upd hit s.log.length (p, i) n = hit n :=
    fun n h1 => upd_ne _ _ (by omega)
  have hH : ∀ n e', Hit s'.log n e' → Hit s.log n e' ∧ n < s.log.length ∨
      n = s.log.length ∧ e' = e := by
    intro n e' h1
    rw [hlog] at h1
    rcases h1.push with h2 | ⟨h2, h3⟩
    · exact .inl h2
    · cases h3; exact .inr ⟨h2, rfl⟩
  refine ⟨?_, ?_, ?_, ?_, ?_, ?_, ?_, ?_, ?_, ?_, ?_, ?_⟩
  · intro p i h1
    rw [htail] at h1
    obtain ⟨r, e, h2, h3, h4, h5⟩ := h.srcs p i h1
    rw [hlog, hown]
    exact ⟨r, e, getElem?_old h2, h3, h4, hr.val p i e h5⟩
  · intro n r' e h1 h2
    rw [hlog] at h1
    rcases getElem?_push h1 with ⟨h3, _⟩ | ⟨_, h3⟩
    · obtain ⟨p, i, h3, h4, h5⟩ := h.all n r' e h3 h2
      exact ⟨p, i, by rw [hown]; exact h3, by rw [htail]; exact h4, h5⟩
    · subst h3; cases h2
  · intro p i j h1 h2; rw [htail] at h2; exact h.mono p i j h1 h2
  · intro n e' h1
    rcases hH n e' h1 with ⟨h2, h3⟩ | ⟨h2, h3⟩
    · rw [hold n h3]
      obtain ⟨g2, g3, g4⟩ := h.hits n e' h2
      exact ⟨by rw [hhead]; exact g2, hr.done _ _ _ g3, g4⟩
    · subst h2 h3
      rw [hnew]
      refine ⟨by rw [hhead]; exact hlt, hd, ?_⟩
      obtain ⟨r, _, g2, _⟩ := h.srcs p i (Nat.lt_of_lt_of_le hlt (hht p))
      exact (List.getElem?_eq_some_iff.mp g2).1
  · intro n m e1 e2 h1 h2 h3
    rcases hH n e1 h1 with ⟨a1, a2⟩ | ⟨a1, a2⟩ <;> rcases hH m e2 h2 with ⟨b1, b2⟩ | ⟨b1, b2⟩
    · rw [hold n a2, hold m b2] at h3
      exact h.inj n m e1 e2 a1 b1 h3
    · rw [hold n a2, b1, hnew] at h3
      exact absurd (by rw [hy, h3]) (h.held n e1 t a1)
    · rw [hold m b2, a1, hnew] at h3
      exact absurd (by rw [hy, h3]) (h.held m e2 t b1)
    · rw [a1, b1]
  · intro n e' t' h1
    by_cases e'' : t' = t
    · subst e''; rw [hixt]; simp
    · rw [hix t' e'']
      rcases hH n e' h1 with ⟨a1, a2⟩ | ⟨a1, a2⟩
      · rw [hold n a2]; exact h.held n e' t' a1
      · rw [a1, hnew]; intro h2; exact e'' (huniq t' h2)
  · intro q j h1
    rw [hhead] at h1
    rw [hlog]
    rcases h.cover q j h1 with ⟨n, e', h2, h3⟩ | ⟨t', h2⟩
    · exact .inl ⟨n, e', h2.old, by rw [hold n h2.lt]; exact h3⟩
    · by_cases e'' : t' = t
      · subst e''
        rw [hy] at h2
        cases h2
        exact .inl ⟨s.log.length, e, ⟨_, getElem?_last _ _, rfl⟩, hnew⟩
      · exact .inr ⟨t', by rw [hix t' e'']; exact h2⟩
  · intro n m r1 r2 e1 e2 h1 h2 h3 h4 h5 h6
    rw [hlog] at h1 h2
    rcases getElem?_push h1 with ⟨a1, a2⟩ | ⟨a1, a2⟩
    · rw [hold n a2] at h5 ⊢
      rcases getElem?_push h2 with ⟨b1, b2⟩ | ⟨b1, b2⟩
      · rw [hold m b2] at h5 ⊢
        exact h.order n m r1 r2 e1 e2 a1 b1 h3 h4 h5 h6
      · subst b1 b2
        rw [hnew] at h5 ⊢
        exact h.orderT n r1 e1 t p i a1 h3 hy h5 h6
    · subst a2
      exfalso
      have h6' : s.clock < r2.began := h6
      rcases getElem?_push h2 with ⟨b1, b2⟩ | ⟨b1, b2⟩
      · have := h.time m r2 b1; omega
      · subst b2
        have := h.busy t hi
        have h7 : s.clock < s.began t := h6'
        omega
  · intro n r1 e1 t' q j h1 h2 h3 h4 h5
    rw [hlog] at h1
    rw [hb] at h5
    have ht : t' ≠ t := by intro e; subst e; rw [hixt] at h3; cases h3
    rw [hix t' ht] at h3
    rcases getElem?_push h1 with ⟨a1, a2⟩ | ⟨a1, a2⟩
    · rw [hold n a2] at h4 ⊢
      exact h.orderT n r1 e1 t' q j a1 h2 h3 h4 h5
    · subst a2
      exfalso
      have h5' : s.clock < s.began t' := h5
      have h6 : s.pos t' ≠ .idle := by intro h; rw [h] at h3; cases h3
      have := h.busy t' h6
      omega
  · intro n r1 h1
    rw [hlog] at h1
    rw [hc]
    rcases getElem?_push h1 with ⟨g1, _⟩ | ⟨_, g1⟩
    · have := h.time n r1 g1; omega
    · subst g1; exact ⟨h.busy t hi, Nat.lt_succ_self _⟩
  · intro t' h1
    rw [hb, hc]
    rw [hpos] at h1
    by_cases e : t' = t
    · subst e; rw [upd_same] at h1; exact absurd rfl h1
    · rw [upd_ne _ _ e] at h1; exact Nat.lt_succ_of_lt (h.busy t' h1)
  · intro n r1 e h1
    rw [hlog] at h1
    rcases getElem?_push h1 with ⟨g1, _⟩ | ⟨_, g1⟩
    · exact h.noRef n r1 e g1
    · subst g1; intro h; cases h

/-- A call begins. -/
theorem InvL.call {s : Sys E} {Γ : Nat → G E} {src hit} (h : InvL s Γ src hit) (t : Nat)
    (c : Call E) (hi : s.pos t = .idle) : InvL (begin s t c) Γ src hit := by
  have hst : posIx (start c : Pos E) = none := posIx_plain (start_plain c)
  have hix : ∀ t', posIx ((begin s t c).pos t') = posIx (s.pos t') := by
    intro t'
    show posIx (upd s.pos t (start c) t') = _
    by_cases e : t' = t
    · subst e; rw [upd_same, hst, hi]; rfl
    · rw [upd_ne _ _ e]
  refine ⟨h.srcs, h.all, h.mono, h.hits, h.inj, ?_, ?_, h.order, ?_, ?_, ?_, h.noRef⟩
  · intro n e t' h1; rw [hix]; exact h.held n e t' h1
  · intro p i h1
    rcases h.cover p i h1 with h2 | ⟨t', h2⟩
    · exact .inl h2
    · exact .inr ⟨t', by rw [hix]; exact h2⟩
  · intro n r e t' p i h1 h2 h3 h4 h5
    rw [hix] at h3
    have : t' ≠ t := by intro e; subst e; rw [hi] at h3; cases h3
    have h5' : r.ended < upd s.began t s.clock t' := h5
    rw [upd_ne _ _ this] at h5'
    exact h.orderT n r e t' p i h1 h2 h3 h4 h5'
  · intro n r h1
    have := h.time n r h1
    exact ⟨this.1, Nat.lt_succ_of_lt this.2⟩
  · intro t' h1
    show upd s.began t s.clock t' < s.clock + 1
    by_cases e : t' = t
    · subst e; rw [upd_same]; exact Nat.lt_succ_self _
    · rw [upd_ne _ _ e]
      have h1' : upd s.pos t (start c) t' ≠ .idle := h1
      rw [upd_ne _ _ e] at h1'
      exact Nat.lt_succ_of_lt (h.busy t' h1')

theorem Inv.call {s : Sys E} {Γ : Nat → G E} (h : Inv s Γ) (t : Nat) (c : Call E)
    (hi : s.pos t = .idle) : Inv (begin s t c) Γ := by
  have hne : ∀ q e a, s.pos t ≠ .add q e a := by intro q e a h; rw [hi] at h; cases h
  refine ⟨h.c.leaveGo hne (start c) (start_plain c) rfl rfl rfl, ?_, h.o.call t c, h.k.call t c hi⟩
  exact h.h.same t _ rfl rfl rfl rfl rfl (.inr (hand_plain (start_plain c))) (by rw [hi]; rfl) (fun _ => rfl)
    (fun _ => rfl)

end Verif.LinkedQueue
