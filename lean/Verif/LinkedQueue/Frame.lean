import Verif.LinkedQueue.Inv
/-!
# What a step leaves alone
-/
namespace Verif.LinkedQueue

variable {E : Type}

theorem upd_self {α : Type} (f : Nat → α) (i : Nat) : upd f i (f i) = f := by
  funext j
  simp only [upd]
  split
  · next h => rw [h]
  · rfl

/-- Only the owner is inside `enqueue` of a producer. -/
theorem OwnInv.alone {s : Sys E} (ho : OwnInv s) {t p : Nat} {e : E} {a : AStg}
    (hp : s.pos t = .add p e a) (t' : Nat) (e' : E) (a' : AStg) (hne : t' ≠ t) :
    s.pos t' ≠ .add p e' a' :=
  fun h => hne (ho.inj t' t p (ho.add _ _ _ _ h) (ho.add _ _ _ _ hp))

/-- The change of one producer and one thread. -/
theorem InvC.change {s s' : Sys E} {Γ : Nat → G E} (h : InvC s Γ) (t p : Nat) (y : Pos E)
    (x : Prod) (g : G E) (hq : s'.quiet = s.quiet) (hpos : s'.pos = upd s.pos t y)
    (hprod : s'.prods = upd s.prods p x) (hidx : HInv x g) (hstat : SInv x g)
    (hwas : ∀ q e a, s.pos t = .add q e a → q = p)
    (hyp : ∀ q e a, y = .add q e a → q = p)
    (hydp : ∀ k q d, y = .deq k q d → q = p ∨ d = .tail)
    (hrest : (∀ e a, y = .add p e a → a.busy = false) →
      (∀ t' e a, t' ≠ t → s.pos t' = .add p e a → a.busy = false) → Rest x g)
    (hya : ∀ e a, y = .add p e a → AClaim s.quiet x g e a)
    (hyd : ∀ k d, y = .deq k p d → DClaim x g d)
    (hoa : ∀ t' e a, t' ≠ t → s.pos t' = .add p e a →
      AClaim s.quiet (s.prods p) (Γ p) e a → AClaim s.quiet x g e a)
    (hod : ∀ t' k d, t' ≠ t → s.pos t' = .deq k p d → DClaim (s.prods p) (Γ p) d →
      DClaim x g d)
    (hu : ∀ t' k k' d d' i, t' ≠ t → y = .deq k p d → s.pos t' = .deq k' p d' →
      d.ix = some i → d'.ix ≠ some i)
    (hn : ∀ t' k k' d d' i, t' ≠ t → y = .deq k p d → s.pos t' = .deq k' p d' →
      d.nl = some i → d'.nl ≠ some i) : InvC s' (upd Γ p g) where
  idx := by
    intro q
    rw [hprod]
    by_cases e : q = p
    · subst e; rw [upd_same, upd_same]; exact hidx
    · rw [upd_ne _ _ e, upd_ne _ _ e]; exact h.idx q
  stat := by
    intro q
    rw [hprod]
    by_cases e : q = p
    · subst e; rw [upd_same, upd_same]; exact hstat
    · rw [upd_ne _ _ e, upd_ne _ _ e]; exact h.stat q
  rest := by
    intro q hall
    rw [hprod]
    rw [hpos] at hall
    by_cases eq : q = p
    · subst eq
      rw [upd_same, upd_same]
      refine hrest (fun e a he => hall t e a (by rw [upd_same]; exact he)) ?_
      intro t' e a hne hp
      exact hall t' e a (by rw [upd_ne _ _ hne]; exact hp)
    · rw [upd_ne _ _ eq, upd_ne _ _ eq]
      refine h.rest q ?_
      intro t' e a hp
      by_cases ht : t' = t
      · subst ht; exact absurd (hwas q e a hp) eq
      · exact hall t' e a (by rw [upd_ne _ _ ht]; exact hp)
  acl := by
    intro t' q e a hp
    rw [hpos] at hp
    rw [hprod, hq]
    by_cases ht : t' = t
    · subst ht
      rw [upd_same] at hp
      have := hyp q e a hp
      subst this
      rw [upd_same, upd_same]
      exact hya e a hp
    · rw [upd_ne _ _ ht] at hp
      by_cases eq : q = p
      · subst eq
        rw [upd_same, upd_same]
        exact hoa t' e a ht hp (h.acl t' q e a hp)
      · rw [upd_ne _ _ eq, upd_ne _ _ eq]; exact h.acl t' q e a hp
  dcl := by
    intro t' k q d hp
    rw [hpos] at hp
    rw [hprod]
    by_cases ht : t' = t
    · subst ht
      rw [upd_same] at hp
      by_cases eq : q = p
      · subst eq
        rw [upd_same, upd_same]
        exact hyd k d hp
      · rcases hydp k q d hp with h' | h'
        · exact absurd h' eq
        · subst h'; trivial
    · rw [upd_ne _ _ ht] at hp
      by_cases eq : q = p
      · subst eq
        rw [upd_same, upd_same]
        exact hod t' k d ht hp (h.dcl t' k q d hp)
      · rw [upd_ne _ _ eq, upd_ne _ _ eq]; exact h.dcl t' k q d hp
  uniq := by
    intro t1 t2 k1 k2 q d1 d2 i h1 h2 i1 i2
    rw [hpos] at h1 h2
    by_cases e1 : t1 = t
    · by_cases e2 : t2 = t
      · rw [e1, e2]
      · subst e1
        rw [upd_same] at h1
        rw [upd_ne _ _ e2] at h2
        rcases hydp k1 q d1 h1 with h' | h'
        · subst h'; exact absurd i2 (hu t2 k1 k2 d1 d2 i e2 h1 h2 i1)
        · subst h'; cases i1
    · rw [upd_ne _ _ e1] at h1
      by_cases e2 : t2 = t
      · subst e2
        rw [upd_same] at h2
        rcases hydp k2 q d2 h2 with h' | h'
        · subst h'; exact absurd i1 (hu t1 k2 k1 d2 d1 i e1 h2 h1 i2)
        · subst h'; cases i2
      · rw [upd_ne _ _ e2] at h2
        exact h.uniq t1 t2 k1 k2 q d1 d2 i h1 h2 i1 i2
  nul := by
    intro t1 t2 k1 k2 q d1 d2 i h1 h2 i1 i2
    rw [hpos] at h1 h2
    by_cases e1 : t1 = t
    · by_cases e2 : t2 = t
      · rw [e1, e2]
      · subst e1
        rw [upd_same] at h1
        rw [upd_ne _ _ e2] at h2
        rcases hydp k1 q d1 h1 with h' | h'
        · subst h'; exact absurd i2 (hn t2 k1 k2 d1 d2 i e2 h1 h2 i1)
        · subst h'; cases i1
    · rw [upd_ne _ _ e1] at h1
      by_cases e2 : t2 = t
      · subst e2
        rw [upd_same] at h2
        rcases hydp k2 q d2 h2 with h' | h'
        · subst h'; exact absurd i1 (hn t1 k2 k1 d2 d1 i e1 h2 h1 i2)
        · subst h'; cases i2
      · rw [upd_ne _ _ e2] at h2
        exact h.nul t1 t2 k1 k2 q d1 d2 i h1 h2 i1 i2

/-- A step inside `enqueue`. -/
theorem InvC.adder {s s' : Sys E} {Γ : Nat → G E} (h : InvC s Γ) (ho : OwnInv s)
    {t p : Nat} {e : E} {a : AStg} (hp : s.pos t = .add p e a) (a' : AStg)
    (x : Prod) (g : G E) (hq : s'.quiet = s.quiet) (hpos : s'.pos = upd s.pos t (.add p e a'))
    (hprod : s'.prods = upd s.prods p x) (hidx : HInv x g) (hstat : SInv x g)
    (hrest : a'.busy = false → Rest x g) (hya : AClaim s.quiet x g e a')
    (hod : ∀ d, DClaim (s.prods p) (Γ p) d → DClaim x g d) : InvC s' (upd Γ p g) := by
  refine h.change t p (.add p e a') x g hq hpos hprod hidx hstat ?_ ?_ ?_ ?_ ?_ ?_ ?_ ?_ ?_ ?_
  · intro q e1 a1 h1; rw [hp] at h1; cases h1; rfl
  · intro q e1 a1 h1; cases h1; rfl
  · intro k q d h1; cases h1
  · intro h1 _; exact hrest (h1 e a' rfl)
  · intro e1 a1 h1; cases h1; exact hya
  · intro k d h1; cases h1
  · intro t' e1 a1 hne h1; exact absurd h1 (ho.alone hp t' e1 a1 hne)
  · intro t' k d _ _; exact hod d
  · intro t' k k' d d' i _ h1; cases h1
  · intro t' k k' d d' i _ h1; cases h1

/-- The end of `enqueue`. -/
theorem InvC.adderEnd {s s' : Sys E} {Γ : Nat → G E} (h : InvC s Γ) (ho : OwnInv s)
    {t p : Nat} {e : E} {a : AStg} (hp : s.pos t = .add p e a)
    (x : Prod) (g : G E) (hq : s'.quiet = s.quiet) (hpos : s'.pos = upd s.pos t .idle)
    (hprod : s'.prods = upd s.prods p x) (hidx : HInv x g) (hstat : SInv x g)
    (hrest : Rest x g)
    (hod : ∀ d, DClaim (s.prods p) (Γ p) d → DClaim x g d) : InvC s' (upd Γ p g) := by
  refine h.change t p .idle x g hq hpos hprod hidx hstat ?_ ?_ ?_ ?_ ?_ ?_ ?_ ?_ ?_ ?_
  · intro q e1 a1 h1; rw [hp] at h1; cases h1; rfl
  · intro q e1 a1 h1; cases h1
  · intro k q d h1; cases h1
  · intro h1 _; exact hrest
  · intro e1 a1 h1; cases h1
  · intro k d h1; cases h1
  · intro t' e1 a1 hne h1; exact absurd h1 (ho.alone hp t' e1 a1 hne)
  · intro t' k d _ _; exact hod d
  · intro t' k k' d d' i _ h1; cases h1
  · intro t' k k' d d' i _ h1; cases h1

/-- A step inside `enqueue` that changes no producer. -/
theorem InvC.adderGo {s s' : Sys E} {Γ : Nat → G E} (h : InvC s Γ) (ho : OwnInv s)
    {t p : Nat} {e : E} {a : AStg} (hp : s.pos t = .add p e a) (a' : AStg)
    (hq : s'.quiet = s.quiet) (hpos : s'.pos = upd s.pos t (.add p e a'))
    (hprod : s'.prods = s.prods) (hrest : a'.busy = false → Rest (s.prods p) (Γ p))
    (hya : AClaim s.quiet (s.prods p) (Γ p) e a') : InvC s' Γ := by
  have := h.adder ho hp a' (s.prods p) (Γ p) hq hpos (by rw [hprod, upd_self]) (h.idx p)
    (h.stat p) hrest hya (fun d hd => hd)
  rwa [upd_self] at this

/-- Before its index is changed the producer is at rest. -/
theorem InvC.atRest {s : Sys E} {Γ : Nat → G E} (h : InvC s Γ) (ho : OwnInv s)
    {t p : Nat} {e : E} {a : AStg} (hp : s.pos t = .add p e a) (hb : a.busy = false) :
    Rest (s.prods p) (Γ p) := by
  refine h.rest p ?_
  intro t' e' a' h'
  by_cases ht : t' = t
  · subst ht; rw [hp] at h'; cases h'; exact hb
  · exact absurd h' (ho.alone hp t' e' a' ht)

/-- A step inside `dequeue`. -/
theorem InvC.taker {s s' : Sys E} {Γ : Nat → G E} (h : InvC s Γ)
    {t p : Nat} {k : Cont} {d : DStg E} (hp : s.pos t = .deq k p d) (d' : DStg E)
    (x : Prod) (g : G E) (hq : s'.quiet = s.quiet) (hpos : s'.pos = upd s.pos t (.deq k p d'))
    (hprod : s'.prods = upd s.prods p x) (hidx : HInv x g) (hstat : SInv x g)
    (hrest : Rest (s.prods p) (Γ p) → Rest x g) (hyd : DClaim x g d')
    (hoa : ∀ t' e a, s.pos t' = .add p e a →
      AClaim s.quiet (s.prods p) (Γ p) e a → AClaim s.quiet x g e a)
    (hod : ∀ t' k d, t' ≠ t → s.pos t' = .deq k p d → DClaim (s.prods p) (Γ p) d →
      DClaim x g d)
    (hix : ∀ i, d'.ix = some i → d.ix = some i ∨ (s.prods p).head ≤ i)
    (hnl : ∀ i, d'.nl = some i → d.nl = some i ∨ ∃ j, j / 32 = i ∧
      ((Γ p).st j).isDone = false) :
    InvC s' (upd Γ p g) := by
  refine h.change t p (.deq k p d') x g hq hpos hprod hidx hstat ?_ ?_ ?_ ?_ ?_ ?_ ?_ ?_ ?_ ?_
  · intro q e1 a1 h1; rw [hp] at h1; cases h1
  · intro q e1 a1 h1; cases h1
  · intro k q d h1; cases h1; exact .inl rfl
  · intro _ h1
    refine hrest (h.rest p ?_)
    intro t' e a h2
    by_cases ht : t' = t
    · subst ht; rw [hp] at h2; cases h2
    · exact h1 t' e a ht h2
  · intro e1 a1 h1; cases h1
  · intro k d h1; cases h1; exact hyd
  · intro t' e1 a1 _ h1; exact hoa t' e1 a1 h1
  · intro t' k d hne h1; exact hod t' k d hne h1
  · intro t' k1 k2 d1 d2 i hne h1 h2 i1 i2
    cases h1
    rcases hix i i1 with h3 | h3
    · exact hne (h.uniq t' t k2 k p d2 d i h2 hp i2 h3)
    · have := h.dcl t' k2 p d2 h2
      have : i < (s.prods p).head := by
        cases d2 <;> simp only [DStg.ix] at i2 <;> cases i2 <;> exact this.1
      omega
  · intro t' k1 k2 d1 d2 i hne h1 h2 i1 i2
    cases h1
    rcases hnl i i1 with h3 | ⟨j, hj, h3⟩
    · exact hne (h.nul t' t k2 k p d2 d i h2 hp i2 h3)
    · have := h.dcl t' k2 p d2 h2
      cases d2 <;> simp only [DStg.nl] at i2 <;> cases i2
      have h4 := this.2.2.2.2 j hj
      rw [h3] at h4
      cases h4

/-- A step inside `dequeue` that changes no producer. -/
theorem InvC.takerGo {s s' : Sys E} {Γ : Nat → G E} (h : InvC s Γ)
    {t p : Nat} {k : Cont} {d : DStg E} (hp : s.pos t = .deq k p d) (d' : DStg E)
    (hq : s'.quiet = s.quiet) (hpos : s'.pos = upd s.pos t (.deq k p d'))
    (hprod : s'.prods = s.prods) (hyd : DClaim (s.prods p) (Γ p) d')
    (hix : ∀ i, d'.ix = some i → d.ix = some i) (hnl : ∀ i, d'.nl = some i → d.nl = some i) :
    InvC s' Γ := by
  have := h.taker hp d' (s.prods p) (Γ p) hq hpos (by rw [hprod, upd_self]) (h.idx p)
    (h.stat p) (fun r => r) hyd (fun _ _ _ _ h => h) (fun _ _ _ _ _ h => h)
    (fun i hi => .inl (hix i hi)) (fun i hi => .inl (hnl i hi))
  rwa [upd_self] at this

/-- A step out of `dequeue`, or of nothing, to nothing. -/
theorem InvC.leave {s s' : Sys E} {Γ : Nat → G E} (h : InvC s Γ)
    {t p : Nat} (hp : ∀ q e a, s.pos t ≠ .add q e a) (y : Pos E) (hy : Plain y)
    (x : Prod) (g : G E) (hq : s'.quiet = s.quiet) (hpos : s'.pos = upd s.pos t y)
    (hprod : s'.prods = upd s.prods p x) (hidx : HInv x g) (hstat : SInv x g)
    (hrest : Rest (s.prods p) (Γ p) → Rest x g)
    (hoa : ∀ t' e a, s.pos t' = .add p e a →
      AClaim s.quiet (s.prods p) (Γ p) e a → AClaim s.quiet x g e a)
    (hod : ∀ t' k d, t' ≠ t → s.pos t' = .deq k p d → DClaim (s.prods p) (Γ p) d →
      DClaim x g d) :
    InvC s' (upd Γ p g) := by
  have hd : ∀ k q d, y = .deq k q d → d = .tail := by
    intro k q d h1; subst h1
    cases d <;> first | rfl | exact absurd hy id
  refine h.change t p y x g hq hpos hprod hidx hstat ?_ ?_ ?_ ?_ ?_ ?_ ?_ ?_ ?_ ?_
  · intro q e1 a1 h1; exact absurd h1 (hp q e1 a1)
  · intro q e1 a1 h1; exact absurd h1 (plain_not_add hy _ _ _)
  · intro k q d h1; exact .inr (hd k q d h1)
  · intro _ h1
    refine hrest (h.rest p ?_)
    intro t' e a h2
    by_cases ht : t' = t
    · subst ht; exact absurd h2 (hp p e a)
    · exact h1 t' e a ht h2
  · intro e1 a1 h1; exact absurd h1 (plain_not_add hy _ _ _)
  · intro k d h1; rw [hd k p d h1]; trivial
  · intro t' e1 a1 _ h1; exact hoa t' e1 a1 h1
  · intro t' k d hne h1; exact hod t' k d hne h1
  · intro t' k1 k2 d1 d2 i hne h1 h2 i1
    rw [hd k1 p d1 h1] at i1; cases i1
  · intro t' k1 k2 d1 d2 i hne h1 h2 i1
    rw [hd k1 p d1 h1] at i1; cases i1

/-- The same, when no producer changes. -/
theorem InvC.leaveGo {s s' : Sys E} {Γ : Nat → G E} (h : InvC s Γ)
    {t : Nat} (hp : ∀ q e a, s.pos t ≠ .add q e a) (y : Pos E) (hy : Plain y)
    (hq : s'.quiet = s.quiet) (hpos : s'.pos = upd s.pos t y)
    (hprod : s'.prods = s.prods) : InvC s' Γ := by
  have := h.leave (p := 0) hp y hy (s.prods 0) (Γ 0) hq hpos (by rw [hprod, upd_self])
    (h.idx 0) (h.stat 0) (fun r => r) (fun _ _ _ _ h => h) (fun _ _ _ _ _ h => h)
  rwa [upd_self] at this

/-! ### The heap -/

/-- A step that touches no block. -/
theorem InvH.same {s s' : Sys E} {Γ Γ' : Nat → G E} (h : InvH s Γ) (t : Nat) (y : Pos E)
    (hpos : s'.pos = upd s.pos t y) (hq : s'.quiet = s.quiet) (hheap : s'.heap = s.heap)
    (hmade : s'.made = s.made) (hfree : s'.free = s.free)
    (hy : hand s.quiet y = hand s.quiet (s.pos t) ∨ hand s.quiet y = none)
    (hx : (s.pos t).calm = true)
    (hb : ∀ p, (Γ' p).blk = (Γ p).blk) (hs : ∀ p, (Γ' p).st = (Γ p).st) : InvH s' Γ' where
  blk := by
    intro p b y' hb'
    rw [hb] at hb'
    rw [hmade, hfree, hheap, hs]
    exact h.blk p b y' hb'
  inj := by
    intro p b p' b' y' h1 h2
    rw [hb] at h1 h2
    exact h.inj p b p' b' y' h1 h2
  hands := by
    intro t' y' c z h1
    rw [hq, hpos] at h1
    rw [hmade, hfree, hheap]
    simp only [hb]
    by_cases ht : t' = t
    · subst ht
      rw [upd_same] at h1
      rcases hy with hy | hy
      · rw [hy] at h1; exact h.hands t' y' c z h1
      · rw [hy] at h1; cases h1
    · rw [upd_ne _ _ ht] at h1
      exact h.hands t' y' c z h1
  two := by
    have key : ∀ t' y' c z, hand s'.quiet (s'.pos t') = some (y', c, z) →
        hand s.quiet (s.pos t') = some (y', c, z) := by
      intro t' y' c z h1
      rw [hq, hpos] at h1
      by_cases ht : t' = t
      · subst ht
        rw [upd_same] at h1
        rcases hy with hy | hy
        · rwa [hy] at h1
        · rw [hy] at h1; cases h1
      · rwa [upd_ne _ _ ht] at h1
    intro t1 t2 y' c z c' z' h1 h2
    exact h.two t1 t2 y' c z c' z' (key _ _ _ _ h1) (key _ _ _ _ h2)
  free := by rw [hfree, hmade, hheap]; exact h.free
  nodup := by rw [hfree]; exact h.nodup
  fresh := by rw [hmade, hheap]; exact h.fresh
  cover := by
    intro y' h1
    rw [hmade] at h1
    rw [hfree, hq, hpos]
    simp only [hb]
    rcases h.cover y' h1 with h2 | h2 | ⟨t', c, z, h2⟩
    · exact .inl h2
    · exact .inr (.inl h2)
    · have ht : t' ≠ t := by intro e; subst e; rw [calm_hand hx] at h2; cases h2
      exact .inr (.inr ⟨t', c, z, by rw [upd_ne _ _ ht]; exact h2⟩)
  spent := by
    intro p b y' h1
    rw [hb] at h1
    rw [hheap, hpos]
    rcases h.spent p b y' h1 with h2 | ⟨t', k, i, en, e, h2⟩
    · exact .inl h2
    · have ht : t' ≠ t := by intro e'; subst e'; exact calm_null hx h2
      exact .inr ⟨t', k, i, en, e, by rw [upd_ne _ _ ht]; exact h2⟩

end Verif.LinkedQueue
