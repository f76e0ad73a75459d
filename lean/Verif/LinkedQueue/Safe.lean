import Verif.LinkedQueue.Blocks
/-!
# Index and blocks in every reachable state
-/
namespace Verif.LinkedQueue

variable {E : Type}

/-! ### The indexes, step by step -/

theorem SInv.tail_nd {x : Prod} {g : G E} (hs : SInv x g) : (g.st x.tail).isDone = false := by
  cases hc : g.con with
  | true => obtain ⟨e, he⟩ := (hs.con hc).2; rw [he]; rfl
  | false => rw [hs.raw _ (Nat.le_refl _) (fun _ => hc)]; rfl

theorem SInv.same {x x' : Prod} {g g' : G E} (hs : SInv x g) (h1 : x'.tail = x.tail)
    (h2 : x'.head = x.head) (h3 : x'.tailBlock = x.tailBlock) (h4 : g'.M = g.M)
    (h5 : g'.st = g.st) (h6 : g'.blk = g.blk) (h7 : g'.con = g.con) : SInv x' g' :=
  ⟨by rw [h1, h4]; exact hs.lo, by rw [h1, h4]; exact hs.hi, by rw [h1, h5, h7]; exact hs.raw,
    by rw [h1, h4, h5, h7]; exact hs.con, by rw [h1, h2, h5]; exact hs.full,
    by rw [h2, h5]; exact hs.low, by rw [h4, h5, h6]; exact hs.live,
    by rw [h1, h3, h6]; exact hs.tb⟩

theorem SInv.val_step {x : Prod} {g : G E} (hs : SInv x g) {en b : Nat} {quiet : Bool} {e : E}
    (hht : x.head ≤ x.tail) (ho : Opening x g en) (v : Option Nat) :
    SInv (valP x en v) (valG g b x.tail quiet e) := by
  obtain ⟨_, hT, _, hcon, _⟩ := ho
  have hraw : ∀ i, x.tail ≤ i → g.st i = .raw := fun i hi => hs.raw i hi (fun _ => hcon)
  have hst : ∀ i, i ≠ x.tail → (valG g b x.tail quiet e).st i = g.st i := by
    intro i hi
    simp only [valG]
    cases quiet
    · exact upd_ne _ _ hi
    · rfl
  have hT0 : quiet = false → (valG g b x.tail quiet e).st x.tail = .full e := by
    intro hq; subst hq; exact upd_same _ _ _
  have hT1 : quiet = true → (valG g b x.tail quiet e).st x.tail = .raw := by
    intro hq; subst hq; exact hraw _ (Nat.le_refl _)
  refine ⟨?_, ?_, ?_, ?_, ?_, ?_, ?_, ?_⟩
  · show x.tail ≤ 32 * (g.M + 1); omega
  · show 32 * (g.M + 1) ≤ x.tail + 32; omega
  · intro i hi hc
    have hi' : x.tail ≤ i := hi
    by_cases e' : i = x.tail
    · subst e'
      have : (!quiet) = false := hc rfl
      exact hT1 (by simpa using this)
    · rw [hst i e']; exact hraw i hi'
  · intro hc
    have hc' : (!quiet) = true := hc
    refine ⟨by show x.tail < 32 * (g.M + 1); omega, e, ?_⟩
    exact hT0 (by simpa using hc')
  · intro i h1 h2
    have h2' : i < x.tail := h2
    rw [hst i (by omega)]
    exact hs.full i h1 h2
  · rintro i ⟨e1, h1⟩
    by_cases e' : i = x.tail
    · subst e'
      exfalso
      cases quiet
      · rw [hT0 rfl] at h1; rcases h1 with h1 | h1 <;> cases h1
      · rw [hT1 rfl] at h1; rcases h1 with h1 | h1 <;> cases h1
    · rw [hst i e'] at h1
      exact hs.low i ⟨e1, h1⟩
  · intro i hi hd
    have hi' : i < 32 * (g.M + 1) := hi
    show upd g.blk g.M (some b) (i / 32) ≠ none
    by_cases e' : i / 32 = g.M
    · rw [e', upd_same]; simp
    · rw [upd_ne _ _ e']
      rw [hst i (by omega)] at hd
      exact hs.live i (by omega) hd
  · intro h; exact absurd h (by show ¬ x.tail % 32 ≠ 0; omega)

theorem SInv.tb_step {x : Prod} {g : G E} (hs : SInv x g) {b : Nat}
    (hb : g.blk (x.tail / 32) = some b) : SInv { x with tailBlock := some b } g :=
  ⟨hs.lo, hs.hi, hs.raw, hs.con, hs.full, hs.low, hs.live, fun _ => hb.symm⟩

/-- The account after construction in place. -/
def consG (x : Prod) (g : G E) (e : E) : G E :=
  { g with
    con := true
    st := upd g.st x.tail (.full e) }

theorem SInv.cons_step {x : Prod} {g : G E} (hs : SInv x g) {e : E} (hht : x.head ≤ x.tail)
    (ho : Open x g) : SInv x (consG x g e) := by
  obtain ⟨_, hM, _⟩ := ho
  have hlt : x.tail < 32 * g.M := by omega
  refine ⟨hs.lo, hs.hi, ?_, ?_, ?_, ?_, ?_, hs.tb⟩
  · intro i hi hc
    have : i ≠ x.tail := fun e' => by cases hc e'
    show upd g.st x.tail _ i = .raw
    rw [upd_ne _ _ this]
    exact hs.raw i hi (fun e' => absurd e' this)
  · intro _; exact ⟨hlt, e, upd_same _ _ _⟩
  · intro i h1 h2
    show ∃ e', upd g.st x.tail _ i = .full e'
    rw [upd_ne _ _ (by omega)]
    exact hs.full i h1 h2
  · rintro i ⟨e1, h1⟩
    by_cases e' : i = x.tail
    · subst e'
      have : upd g.st x.tail (.full e) x.tail = .taken e1 ∨
        upd g.st x.tail (.full e) x.tail = .done e1 := h1
      rw [upd_same] at this
      rcases this with h2 | h2 <;> cases h2
    · have : upd g.st x.tail (.full e) i = .taken e1 ∨ upd g.st x.tail (.full e) i = .done e1 := h1
      rw [upd_ne _ _ e'] at this
      exact hs.low i ⟨e1, this⟩
  · intro i hi hd
    by_cases e' : i = x.tail
    · subst e'; exact hs.live _ hi hs.tail_nd
    · have : (upd g.st x.tail (.full e) i).isDone = false := hd
      rw [upd_ne _ _ e'] at this
      exact hs.live i hi this

/-- The account after the tail has moved. -/
def pubG (g : G E) : G E := { g with con := false }

theorem SInv.pub_step {x : Prod} {g : G E} (hs : SInv x g) (hc : g.con = true)
    (ho : Open x g) (htb : x.tailBlock = g.blk (x.tail / 32)) :
    SInv { x with tail := x.tail + 1 } (pubG g) := by
  obtain ⟨_, hM, _⟩ := ho
  refine ⟨?_, ?_, ?_, ?_, ?_, hs.low, hs.live, ?_⟩
  · show x.tail + 1 ≤ 32 * g.M; omega
  · show 32 * g.M ≤ x.tail + 1 + 32; omega
  · intro i hi _
    have hi' : x.tail + 1 ≤ i := hi
    exact hs.raw i (by omega) (fun e' => by omega)
  · intro h; cases h
  · intro i h1 h2
    have h2' : i < x.tail + 1 := h2
    by_cases e' : i = x.tail
    · subst e'; exact (hs.con hc).2
    · exact hs.full i h1 (by omega)
  · intro h
    have h' : (x.tail + 1) % 32 ≠ 0 := h
    show x.tailBlock = g.blk ((x.tail + 1) / 32)
    have : (x.tail + 1) / 32 = x.tail / 32 := by omega
    rw [this]; exact htb

theorem SInv.head_step {x : Prod} {g : G E} (hs : SInv x g) (V : Nat) :
    SInv { x with head := x.head + 1, over := V } g :=
  ⟨hs.lo, hs.hi, hs.raw, hs.con,
    fun i h1 h2 => hs.full i (by have h1' : x.head + 1 ≤ i := h1; omega) h2,
    fun i h => Nat.lt_succ_of_lt (hs.low i h), hs.live, hs.tb⟩

/-- The account after an index has changed. -/
def stG (g : G E) (i : Nat) (v : St E) : G E := { g with st := upd g.st i v }

theorem SInv.st_step {x : Prod} {g : G E} (hs : SInv x g) {i : Nat} {v : St E}
    (hht : x.head ≤ x.tail) (hi : i < x.head) (hv : v.isDone = false → (g.st i).isDone = false) :
    SInv x (stG g i v) := by
  have hne : ∀ j, x.head ≤ j → (stG g i v).st j = g.st j :=
    fun j hj => upd_ne _ _ (by omega)
  refine ⟨hs.lo, hs.hi, ?_, ?_, ?_, ?_, ?_, hs.tb⟩
  · intro j h1 h2; rw [hne j (by omega)]; exact hs.raw j h1 h2
  · intro h; rw [hne _ hht]; exact hs.con h
  · intro j h1 h2; rw [hne j h1]; exact hs.full j h1 h2
  · rintro j ⟨e, h⟩
    by_cases e' : j = i
    · subst e'; exact hi
    · have : upd g.st i v j = .taken e ∨ upd g.st i v j = .done e := h
      rw [upd_ne _ _ e'] at this
      exact hs.low j ⟨e, this⟩
  · intro j h1 h2
    have h2' : (upd g.st i v j).isDone = false := h2
    by_cases e' : j = i
    · subst e'; rw [upd_same] at h2'; exact hs.live j h1 (hv h2')
    · rw [upd_ne _ _ e'] at h2'; exact hs.live j h1 h2'

theorem SInv.null_step {x : Prod} {g : G E} (hs : SInv x g) {n en : Nat}
    (hd : ∀ j, j / 32 = n → (g.st j).isDone = true) (v : Option Nat) :
    SInv (valP x en v) (nullG g n) := by
  refine ⟨hs.lo, hs.hi, hs.raw, hs.con, hs.full, hs.low, ?_, ?_⟩
  · intro j h1 h2
    show upd g.blk n none (j / 32) ≠ none
    have : j / 32 ≠ n := by
      intro e; have := hd j e; rw [show (g.st j).isDone = false from h2] at this; cases this
    rw [upd_ne _ _ this]
    exact hs.live j h1 h2
  · intro h
    show x.tailBlock = upd g.blk n none (x.tail / 32)
    have : x.tail / 32 ≠ n := by
      intro e; have := hd _ e; rw [hs.tail_nd] at this; cases this
    rw [upd_ne _ _ this]
    exact hs.tb h

/-! ### What threads know, step by step -/

theorem DClaim.lt {x : Prod} {g : G E} {d : DStg E} {i : Nat} (h : DClaim x g d)
    (hi : d.ix = some i) : i < x.head := by
  cases d <;> simp only [DStg.ix] at hi <;> cases hi <;> exact h.1

theorem DClaim.nl_done {x : Prod} {g : G E} {d : DStg E} {b : Nat} (h : DClaim x g d)
    (hb : d.nl = some b) {j : Nat} (hj : j / 32 = b) : (g.st j).isDone = true := by
  cases d <;> simp only [DStg.nl] at hb <;> cases hb
  exact h.2.2.2.2 j hj

/-- Changes that leave headers, counts and places alone. -/
theorem DClaim.keep' {x x' : Prod} {g g' : G E} {d : DStg E} (hs : SInv x g)
    (hht : x.head ≤ x.tail) (hh : x.head ≤ x'.head) (hcur : x'.cur = x.cur)
    (hhdr : x'.hdrs = x.hdrs) (hcnt : g'.cnt = g.cnt) (hoff : g'.off = g.off)
    (hst : ∀ i, d.ix = some i → g'.st i = g.st i)
    (hblk : ∀ i, d.ix = some i → (g.st i).isDone = false → g'.blk (i / 32) = g.blk (i / 32))
    (hnl : ∀ b, d.nl = some b → g'.blk b = g.blk b ∧ ∀ j, j / 32 = b → g'.st j = g.st j)
    (hd : DClaim x g d) : DClaim x' g' d := by
  have hr : ∀ h b, ring x' g' h b = ring x g h b := by
    intro h b; unfold ring; rw [hhdr, hoff]
  refine DClaim.keep hs hht hh (by rw [hcur]; exact Nat.le_refl _) ?_ ?_ ?_ hst hblk hnl hd
  · intro h _; rw [hcnt]; exact Nat.le_refl _
  · intro h b _; exact hr h b
  · intro b _; unfold ent; rw [hcur, hr, hhdr]

theorem AClaim.st_step {quiet : Bool} {x x' : Prod} {g : G E} {e : E} {a : AStg} {i : Nat}
    {v : St E} (hi : i ≠ x.tail) (hx : x'.tail = x.tail ∧ x'.ents = x.ents ∧ x'.hdrs = x.hdrs ∧
      x'.cur = x.cur ∧ x'.tailBlock = x.tailBlock) (h : AClaim quiet x g e a) :
    AClaim quiet x' (stG g i v) e a := by
  obtain ⟨h1, h2, h3, h4, h5⟩ := hx
  have h6 : (stG g i v).st x.tail = g.st x.tail := upd_ne _ _ (fun e => hi e.symm)
  have h7 : ∀ b, ent x' (stG g i v) b = ent x g b := by
    intro b; unfold ent ring; rw [h3, h4]; rfl
  have h8 : (stG g i v).N = g.N := rfl
  have h9 : (stG g i v).M = g.M := rfl
  have h10 : (stG g i v).cnt = g.cnt := rfl
  have h11 : (stG g i v).con = g.con := rfl
  have h12 : (stG g i v).blk = g.blk := rfl
  cases a <;> simp only [AClaim, Opening, Open, h7, h8, h9, h10, h11, h12, h6, h1, h2, h4, h5] <;>
    exact h

theorem AClaim.null_step {quiet : Bool} {x : Prod} {g : G E} {e : E} {a : AStg} {n en : Nat}
    (hs : SInv x g) (hd : ∀ j, j / 32 = n → (g.st j).isDone = true)
    (h : AClaim quiet x g e a) : AClaim quiet (valP x en none) (nullG g n) e a := by
  have hk : ∀ en', ((valP x en none).ents en').key = (x.ents en').key :=
    fun en' => upd_field Ent.key x.ents en { x.ents en with value := some none } rfl en'
  have hne : x.tail / 32 ≠ n := by
    intro e; have := hd _ e; rw [hs.tail_nd] at this; cases this
  have hb : (nullG g n).blk ((valP x en none).tail / 32) = g.blk (x.tail / 32) :=
    upd_ne _ _ hne
  have hO : ∀ en', Opening x g en' → Opening (valP x en none) (nullG g n) en' := by
    rintro en' ⟨h1, h2, h3, h4, h5⟩
    exact ⟨h1, h2, h3, h4, by rw [hk]; exact h5⟩
  cases a with
  | key ct en' =>
    obtain ⟨h1, h2⟩ := h
    refine ⟨h1, ?_⟩
    rw [hk]
    rcases h2 with h2 | h2
    · exact .inl h2
    · right
      show (upd x.ents en _ en').value = _
      by_cases e' : en' = en
      · subst e'; rw [upd_same]
      · rw [upd_ne _ _ e']; exact h2
  | itail ct en' => exact ⟨hO _ h.1, h.2⟩
  | get ct en' => exact ⟨hO _ h.1, h.2⟩
  | reset ct en' b => exact ⟨hO _ h.1, h.2⟩
  | cons1 ct en' b => exact ⟨hO _ h.1, h.2⟩
  | val ct en' b => exact ⟨hO _ h.1, h.2⟩
  | tb ct b => exact ⟨h.1, hb.trans h.2.1, h.2.2⟩
  | cons ct => exact ⟨h.1, h.2.1, h.2.2.trans hb.symm⟩
  | pub ct => exact ⟨h.1, h.2.1, h.2.2.1, h.2.2.2.trans hb.symm⟩
  | _ => trivial

/-! ### All of it -/

structure Inv (s : Sys E) (Γ : Nat → G E) : Prop where
  c : InvC s Γ
  h : InvH s Γ
  o : OwnInv s
  k : Tick s

/-- The element an index has or had. -/
def St.val : St E → Option E
  | .raw => none
  | .full e | .taken e | .done e => some e

/-- How a step of `t` may change the states of indexes. -/
structure Rel (s : Sys E) (t : Nat) (Γ Γ' : Nat → G E) : Prop where
  val : ∀ p i e, ((Γ p).st i).val = some e → ((Γ' p).st i).val = some e
  done : ∀ p i e, (Γ p).st i = .done e → (Γ' p).st i = .done e
  mark : ∀ k p i en b e, s.pos t = .deq k p (.mark i en b e) → (Γ' p).st i = .done e

theorem Rel.of {s : Sys E} {t p : Nat} {Γ : Nat → G E} (g : G E)
    (hm : ∀ k p i en b e, s.pos t ≠ .deq k p (.mark i en b e))
    (h : ∀ i, g.st i = (Γ p).st i ∨ (Γ p).st i = .raw ∨
      ∃ e, (Γ p).st i = .full e ∧ (g.st i).val = some e) : Rel s t Γ (upd Γ p g) where
  val := by
    intro q i e hv
    by_cases e' : q = p
    · subst e'
      rw [upd_same]
      rcases h i with h1 | h1 | ⟨e1, h1, h2⟩
      · rw [h1]; exact hv
      · rw [h1] at hv; cases hv
      · rw [h1] at hv; cases hv; exact h2
    · rw [upd_ne _ _ e']; exact hv
  done := by
    intro q i e hv
    by_cases e' : q = p
    · subst e'
      rw [upd_same]
      rcases h i with h1 | h1 | ⟨e1, h1, h2⟩
      · rw [h1]; exact hv
      · rw [h1] at hv; cases hv
      · rw [h1] at hv; cases hv
    · rw [upd_ne _ _ e']; exact hv
  mark := fun k p i en b e h => absurd h (hm k p i en b e)

theorem Rel.same {s : Sys E} {t : Nat} {Γ : Nat → G E}
    (hm : ∀ k p i en b e, s.pos t ≠ .deq k p (.mark i en b e)) : Rel s t Γ Γ :=
  ⟨fun _ _ _ h => h, fun _ _ _ h => h, fun k p i en b e h => absurd h (hm k p i en b e)⟩

theorem hand_plain {q : Bool} {y : Pos E} (h : Plain y) : hand q y = none := by
  cases y with
  | add p e a => exact absurd h id
  | deq k p d => cases d <;> first | rfl | exact absurd h id
  | _ => rfl

theorem plain_mark {s : Sys E} {t : Nat} (h : Plain (s.pos t)) :
    ∀ k p i en b e, s.pos t ≠ .deq k p (.mark i en b e) := by
  intro k p i en b e he; rw [he] at h; exact h

/-- Every step keeps the invariant. -/
theorem Inv.mv {s s' : Sys E} {Γ : Nat → G E} {t : Nat} (I : Inv s Γ) (m : Mv s t s') :
    ∃ Γ', Inv s' Γ' ∧ Rel s t Γ Γ' := by
  have o' := I.o.mv m
  have k' := I.k.mv I.o m
  have hht : ∀ p, (s.prods p).head ≤ (s.prods p).tail := fun p => (I.k p).head_le
  obtain ⟨hc, hh, ho, hk⟩ := I
  -- a step that changes neither producer nor block
  have pack : ∀ Γ', InvC s' Γ' → InvH s' Γ' → Rel s t Γ Γ' → ∃ Γ', Inv s' Γ' ∧ Rel s t Γ Γ' :=
    fun Γ' a b r => ⟨Γ', ⟨a, b, o', k'⟩, r⟩
  have adds : ∀ {p e a}, s.pos t = .add p e a →
      ∀ k p i en b e, s.pos t ≠ .deq k p (.mark i en b e) := by
    intro p e a hp k p i en b e h; rw [hp] at h; cases h
  cases m with
  | plainGo y hx hy =>
    exact pack Γ (hc.leaveGo (plain_not_add hx) y hy rfl rfl rfl)
      (hh.same t y rfl rfl rfl rfl rfl (.inr (hand_plain hy)) (calm_plain hx) (fun _ => rfl) (fun _ => rfl))
      (Rel.same (plain_mark hx))
  | plainRet r hx =>
    exact pack Γ (hc.leaveGo (plain_not_add hx) .idle trivial rfl rfl rfl)
      (hh.same t .idle rfl rfl rfl rfl rfl (.inr rfl) (calm_plain hx) (fun _ => rfl) (fun _ => rfl))
      (Rel.same (plain_mark hx))
  | found e p hp hown =>
    have hne : ∀ t' e' a', t' ≠ t → s.pos t' ≠ .add p e' a' :=
      fun t' e' a' hne h => hne (ho.inj _ _ _ (ho.add _ _ _ _ h) hown)
    refine pack (upd Γ p (Γ p)) (hc.change t p (.add p e .tail) (s.prods p) (Γ p) rfl rfl
      (by rw [upd_self]; rfl) (hc.idx p) (hc.stat p) ?_ ?_ ?_ ?_ ?_ ?_ ?_ ?_ ?_ ?_) ?_ ?_
    · intro q e1 a1 h1; rw [hp] at h1; cases h1
    · intro q e1 a1 h1; cases h1; rfl
    · intro k q d h1; cases h1
    · intro _ h1
      refine hc.rest p ?_
      intro t' e' a' h'
      by_cases ht : t' = t
      · subst ht; rw [hp] at h'; cases h'
      · exact h1 t' e' a' ht h'
    · intro e1 a1 h1; cases h1; trivial
    · intro k d h1; cases h1
    · intro t' e1 a1 hn h1; exact absurd h1 (hne t' e1 a1 hn)
    · intro t' k d _ _ h1; exact h1
    · intro t' k k' d d' i _ h1; cases h1
    · intro t' k k' d d' i _ h1; cases h1
    · rw [upd_self]
      exact hh.same t _ rfl rfl rfl rfl rfl (.inr rfl) (by rw [hp]; rfl) (fun _ => rfl) (fun _ => rfl)
    · rw [upd_self]
      exact Rel.same (by intro k p i en b e h; rw [hp] at h; cases h)
  | made e hp hown =>
    have hne : ∀ t' e' a', s.pos t' ≠ .add s.count e' a' :=
      fun t' e' a' h => absurd (ho.lt _ _ (ho.add _ _ _ _ h)) (Nat.lt_irrefl _)
    refine pack (upd Γ s.count (Γ s.count)) (hc.change t s.count (.add s.count e .tail)
      (s.prods s.count) (Γ s.count) rfl rfl
      (by rw [upd_self]; rfl) (hc.idx _) (hc.stat _) ?_ ?_ ?_ ?_ ?_ ?_ ?_ ?_ ?_ ?_) ?_ ?_
    · intro q e1 a1 h1; rw [hp] at h1; cases h1
    · intro q e1 a1 h1; cases h1; rfl
    · intro k q d h1; cases h1
    · intro _ h1
      refine hc.rest s.count ?_
      intro t' e' a' h'; exact absurd h' (hne t' e' a')
    · intro e1 a1 h1; cases h1; trivial
    · intro k d h1; cases h1
    · intro t' e1 a1 hn h1; exact absurd h1 (hne t' e1 a1)
    · intro t' k d _ _ h1; exact h1
    · intro t' k k' d d' i _ h1; cases h1
    · intro t' k k' d d' i _ h1; cases h1
    · rw [upd_self]
      exact hh.same t _ rfl rfl rfl rfl rfl (.inr rfl) (by rw [hp]; rfl) (fun _ => rfl) (fun _ => rfl)
    · rw [upd_self]
      exact Rel.same (by intro k p i en b e h; rw [hp] at h; cases h)
  | aTail0 p e hp ht =>
    have hr := hc.atRest ho hp rfl
    exact pack Γ (hc.adderGo ho hp _ rfl rfl rfl (fun _ => hr) trivial)
      (hh.same t _ rfl rfl rfl rfl rfl (.inr rfl) (by rw [hp]; rfl) (fun _ => rfl) (fun _ => rfl))
      (Rel.same (adds hp))
  | aTail1 p e hp ht =>
    have hr := hc.atRest ho hp rfl
    obtain ⟨r1, r2, r3, r4, r5⟩ := hr
    refine pack Γ (hc.adderGo ho hp _ rfl rfl rfl (fun h => by cases h) ?_)
      (hh.same t _ rfl rfl rfl rfl rfl (.inr rfl) (by rw [hp]; rfl) (fun _ => rfl) (fun _ => rfl))
      (Rel.same (adds hp))
    exact ⟨⟨r1, by omega, r3⟩, r4, (hc.stat p).tb ht⟩
  | aHead p e ct hp hlt =>
    have hr := hc.atRest ho hp rfl
    exact pack Γ (hc.adderGo ho hp _ rfl rfl rfl (fun _ => hr) trivial)
      (hh.same t _ rfl rfl rfl rfl rfl (.inr rfl) (by rw [hp]; rfl) (fun _ => rfl) (fun _ => rfl))
      (Rel.same (adds hp))
  | aRefuse p e ct hp hlt =>
    have := ho.ct t p e _ ct hp rfl
    have := hht p
    omega
  | aTestFree p e ct en hp hen hdead =>
    have hr := hc.atRest ho hp rfl
    refine pack Γ (hc.adderGo ho hp _ rfl rfl rfl (fun _ => hr) ⟨?_, hdead⟩)
      (hh.same t _ rfl rfl rfl rfl rfl (.inr rfl) (by rw [hp]; rfl) (fun _ => rfl) (fun _ => rfl))
      (Rel.same (adds hp))
    rw [hen, (hc.idx p).next_pos, hr.2.2.1]
    rfl
  | aTestFull p e ct hp =>
    have hr := hc.atRest ho hp rfl
    exact pack Γ (hc.adderGo ho hp _ rfl rfl rfl (fun _ => hr) trivial)
      (hh.same t _ rfl rfl rfl rfl rfl (.inr rfl) (by rw [hp]; rfl) (fun _ => rfl) (fun _ => rfl))
      (Rel.same (adds hp))
  | aGrow p e ct hp =>
    have hr := hc.atRest ho hp rfl
    obtain ⟨r1, r2, r3, r4, r5⟩ := hr
    have hi := hc.idx p
    have hi' := hi.grow r3 r1
    refine pack (upd Γ p (growG (s.prods p) (Γ p)))
      (hc.adder ho hp _ (newHdr (s.prods p)) (growG (s.prods p) (Γ p)) rfl rfl rfl hi'
        ((hc.stat p).same rfl rfl rfl rfl rfl rfl rfl) ?_ ?_ ?_) ?_ ?_
    · intro _
      exact ⟨r1, r2, by simp [growG, newHdr], r4, r5⟩
    · have h1 : (growG (s.prods p) (Γ p)).cnt (newHdr (s.prods p)).cur = (Γ p).N := by
        simp [growG, newHdr]
      have h2 := hi'.next_pos
      rw [h1] at h2
      rw [h2]
      refine ⟨rfl, .inl ?_⟩
      have h3 := grow_next hi
      unfold ent at h3
      rw [h3]
      show ((s.prods p).ents (s.prods p).entCount).key = none
      rw [hi.unused _ (Nat.le_refl _)]
      rfl
    · intro d hd
      refine DClaim.keep (hc.stat p) (hht p) (Nat.le_refl _) (Nat.le_succ _) ?_ ?_ ?_
        (fun _ _ => rfl) (fun _ _ _ => rfl) (fun _ _ => ⟨rfl, fun _ _ => rfl⟩) hd
      · intro h h1; simp only [growG]; rw [upd_ne _ _ (by omega)]; exact Nat.le_refl _
      · intro h b h1; exact grow_ring_old _ _ b h1
      · intro b hb
        have := hi.win b hb
        exact grow_ent hi r3 (by omega) (by omega)
    · refine hh.same t _ rfl rfl rfl rfl rfl (.inr rfl) (by rw [hp]; rfl) ?_ ?_
      · exact upd_field G.blk Γ p (growG (s.prods p) (Γ p)) rfl
      · exact upd_field G.st Γ p (growG (s.prods p) (Γ p)) rfl
    · exact Rel.of _ (adds hp) (fun _ => .inl rfl)
  | aKey p e ct en hp =>
    have hr := hc.atRest ho hp rfl
    obtain ⟨r1, r2, r3, r4, r5⟩ := hr
    have hi := hc.idx p
    obtain ⟨a1, a2⟩ := hc.acl t p e _ hp
    have hct := ho.ct t p e _ ct hp rfl
    have hop := ho.opens t p e _ hp rfl
    have hN : ct = 32 * (Γ p).N := by omega
    have hi' := hi.key r3 r1 a1 a2
    rw [← hN] at hi'
    refine pack (upd Γ p (keyG (Γ p)))
      (hc.adder ho hp _ (keyP (s.prods p) en ct) (keyG (Γ p)) rfl rfl rfl hi'
        ((hc.stat p).same rfl rfl rfl rfl rfl rfl rfl) (fun h => by cases h) ?_ ?_) ?_ ?_
    · refine ⟨⟨?_, ?_, ?_, r4, ?_⟩, ?_⟩
      · show (Γ p).N + 1 = (Γ p).M + 1; omega
      · show 32 * (Γ p).M = (s.prods p).tail; omega
      · rw [r1] at a1; exact a1
      · show (upd (s.prods p).ents en _ en).key = _
        rw [upd_same, hN, r1]; rfl
      · show (Γ p).cnt (s.prods p).cur = (Γ p).M; omega
    · intro d hd
      exact DClaim.keep' (hc.stat p) (hht p) (Nat.le_refl _) rfl rfl rfl rfl
        (fun _ _ => rfl) (fun _ _ _ => rfl) (fun _ _ => ⟨rfl, fun _ _ => rfl⟩) hd
    · refine hh.same t _ rfl rfl rfl rfl rfl (.inr rfl) (by rw [hp]; rfl) ?_ ?_
      · exact upd_field G.blk Γ p (keyG (Γ p)) rfl
      · exact upd_field G.st Γ p (keyG (Γ p)) rfl
    · exact Rel.of _ (adds hp) (fun _ => .inl rfl)
  | aItail p e ct en hp =>
    have hi := hc.idx p
    obtain ⟨⟨a1, a2, a3, a4, a5⟩, a6⟩ := hc.acl t p e _ hp
    refine pack (upd Γ p (itailG (s.prods p) (Γ p)))
      (hc.adder ho hp _ (itailP (s.prods p)) (itailG (s.prods p) (Γ p)) rfl rfl rfl
        (hi.itail a6 a1) ((hc.stat p).same rfl rfl rfl rfl rfl rfl rfl) (fun h => by cases h)
        ?_ ?_) ?_ ?_
    · refine ⟨⟨a1, a2, ?_, a4, a5⟩, upd_same _ _ _⟩
      rw [itail_ent]; exact a3
    · intro d hd
      refine DClaim.keep (hc.stat p) (hht p) (Nat.le_refl _) (Nat.le_refl _) ?_ ?_ ?_
        (fun _ _ => rfl) (fun _ _ _ => rfl) (fun _ _ => ⟨rfl, fun _ _ => rfl⟩) hd
      · intro h h1
        show (Γ p).cnt h ≤ upd (Γ p).cnt (s.prods p).cur (Γ p).N h
        by_cases e' : h = (s.prods p).cur
        · subst e'; rw [upd_same]; exact hi.cntLe _ (Nat.le_refl _)
        · rw [upd_ne _ _ e']; exact Nat.le_refl _
      · intro h b _; exact itail_ring _ _ _ _
      · intro b _; exact itail_ent _ _ _
    · refine hh.same t _ rfl rfl rfl rfl rfl (.inr rfl) (by rw [hp]; rfl) ?_ ?_
      · exact upd_field G.blk Γ p (itailG (s.prods p) (Γ p)) rfl
      · exact upd_field G.st Γ p (itailG (s.prods p) (Γ p)) rfl
    · exact Rel.of _ (adds hp) (fun _ => .inl rfl)
  | aGetOld p e ct en c b hp hfc =>
    have a := hc.acl t p e _ hp
    exact pack Γ (hc.adderGo ho hp _ rfl rfl rfl (fun h => by cases h) a)
      (hh.getOld t _ hfc rfl rfl rfl rfl rfl rfl (by rw [hp]; rfl)) (Rel.same (adds hp))
  | aGetNew p e ct en hp =>
    have a := hc.acl t p e _ hp
    exact pack Γ (hc.adderGo ho hp _ rfl rfl rfl (fun h => by cases h) a)
      (hh.getNew t _ rfl rfl rfl rfl rfl rfl (by rw [hp]; rfl)) (Rel.same (adds hp))
  | aResetQ p e ct en b hp hq =>
    have a := hc.acl t p e _ hp
    have hw : hand s.quiet (s.pos t) = some (b, none, false) := by rw [hp]; rfl
    refine pack Γ (hc.adderGo ho hp _ rfl rfl rfl (fun h => by cases h) a)
      (hh.inHand t _ _ hw rfl rfl rfl rfl rfl (c' := none) (r' := true) ?_ ?_ ?_)
      (Rel.same (adds hp))
    · simp [hand, hq]
    · exact (hh.hands t b none false hw).2.2.2.1
    · intro _; rfl
  | aResetL p e ct en b hp hq =>
    have a := hc.acl t p e _ hp
    have hw : hand s.quiet (s.pos t) = some (b, none, false) := by rw [hp]; rfl
    refine pack Γ (hc.adderGo ho hp _ rfl rfl rfl (fun h => by cases h) ⟨a.1, a.2, hq⟩)
      (hh.inHand t _ _ hw rfl rfl rfl rfl rfl (c' := none) (r' := true) rfl ?_ ?_)
      (Rel.same (adds hp))
    · exact (hh.hands t b none false hw).2.2.2.1
    · intro _; rfl
  | aCons1 p e ct en b hp hsl =>
    obtain ⟨a1, a2, a3⟩ := hc.acl t p e _ hp
    have hop := ho.opens t p e _ hp rfl
    have hct := ho.ct t p e _ ct hp rfl
    have hw : hand s.quiet (s.pos t) = some (b, none, true) := by rw [hp]; rfl
    have h0 : ct % 32 = 0 := by omega
    refine pack Γ (hc.adderGo ho hp _ rfl rfl rfl (fun h => by cases h) ⟨a1, a2⟩)
      (hh.inHand t _ _ hw rfl rfl rfl rfl rfl (c' := some e) (r' := true) ?_ ?_ ?_)
      (Rel.same (adds hp))
    · simp [hand, a3]
    · intro j hj
      show upd (s.heap b).slots (ct % 32) (some e) j = _
      rw [h0]
      by_cases e' : j = 0
      · subst e'; rw [upd_same, if_pos rfl]
      · rw [upd_ne _ _ e', if_neg e']
        have := (hh.hands t b none true hw).2.2.2.1 j hj
        rw [this]; split <;> rfl
    · intro _; exact (hh.hands t b none true hw).2.2.2.2 rfl
  | aVal p e ct en b hp =>
    have a := hc.acl t p e _ hp
    obtain ⟨a1, a2⟩ := a
    have hct := ho.ct t p e _ ct hp rfl
    have hs := hc.stat p
    have hop := a1
    obtain ⟨n1, n2, n3, n4, n5⟩ := hop
    have hstne : ∀ i, i ≠ (s.prods p).tail →
        (valG (Γ p) b (s.prods p).tail s.quiet e).st i = (Γ p).st i := by
      intro i hi
      simp only [valG]
      cases s.quiet
      · exact upd_ne _ _ hi
      · rfl
    have hraw : ∀ i, (s.prods p).tail ≤ i → (Γ p).st i = .raw :=
      fun i hi => hs.raw i hi (fun _ => n4)
    refine pack (upd Γ p (valG (Γ p) b (s.prods p).tail s.quiet e))
      (hc.adder ho hp _ (valP (s.prods p) en (some b))
        (valG (Γ p) b (s.prods p).tail s.quiet e) rfl rfl rfl
        ((hc.idx p).val_step a1 a2) (hs.val_step (hht p) a1 _) (fun h => by cases h) ?_ ?_) ?_ ?_
    · refine ⟨⟨?_, ?_, a2⟩, ?_, rfl, ?_⟩
      · show (Γ p).N = (Γ p).M + 1; exact n1
      · show (Γ p).M + 1 = (s.prods p).tail / 32 + 1; omega
      · show upd (Γ p).blk (Γ p).M (some b) ((s.prods p).tail / 32) = some b
        rw [show (s.prods p).tail / 32 = (Γ p).M by omega, upd_same]
      · intro hq
        show (if s.quiet = true then (Γ p).st else upd (Γ p).st (s.prods p).tail (.full e))
          (s.prods p).tail = _
        rw [hq]; exact upd_same _ _ _
    · intro d hd
      have hlt : ∀ i, d.ix = some i → i < (s.prods p).tail :=
        fun i hi => Nat.lt_of_lt_of_le (hd.lt hi) (hht p)
      refine DClaim.keep' hs (hht p) (Nat.le_refl _) rfl rfl rfl rfl ?_ ?_ ?_ hd
      · intro i hi; have := hlt i hi; exact hstne i (by omega)
      · intro i hi _
        have := hlt i hi
        show upd (Γ p).blk (Γ p).M (some b) (i / 32) = _
        exact upd_ne _ _ (by omega)
      · intro n hn
        have hnM : n ≠ (Γ p).M := by
          intro e'
          have := hd.nl_done hn (j := (s.prods p).tail) (by omega)
          rw [hs.tail_nd] at this; cases this
        refine ⟨upd_ne _ _ hnM, ?_⟩
        intro j hj
        exact hstne j (by omega)
    · have hw : hand s.quiet (s.pos t) = some (b, if s.quiet then none else some e, true) := by
        rw [hp]; rfl
      refine hh.place t _ (valG (Γ p) b (s.prods p).tail s.quiet e) hw rfl ?_ ?_ ?_ ?_
        rfl rfl rfl rfl rfl rfl
      · cases hb : (Γ p).blk (Γ p).M with
        | none => rfl
        | some z => exact absurd ((hc.idx p).win _ (by rw [hb]; simp)).1 (Nat.lt_irrefl _)
      · intro i hi; exact hstne i (by omega)
      · rw [n2]
        cases hq : s.quiet
        · simp [valG, St.held, St.isDone]
        · simp only [valG, hraw _ (Nat.le_refl _), St.held, St.isDone, if_true, and_self]
      · intro j h0 hj
        rw [hstne _ (by omega)]
        exact hraw _ (by omega)
    · refine Rel.of _ (adds hp) ?_
      intro i
      by_cases e' : i = (s.prods p).tail
      · right; left; exact hraw i (by omega)
      · left; exact hstne i e'
  | aTbQ p e ct b hp hq =>
    obtain ⟨a1, a2, a3, a4⟩ := hc.acl t p e _ hp
    have hs := hc.stat p
    have hi := hc.idx p
    have hi' : HInv { s.prods p with tailBlock := some b } (Γ p) :=
      ⟨hi.capPos, hi.next, hi.tailOf, hi.cntLe, hi.cntOld, hi.cntNow, hi.inj, hi.bound,
        hi.unused, hi.rings, hi.keys, hi.win, hi.val, hi.wrote, hi.mn⟩
    have := hc.adder ho hp (.cons ct) { s.prods p with tailBlock := some b } (Γ p)
      (s' := (s.prod p { s.prods p with tailBlock := some b }).go t (.add p e (.cons ct)))
      rfl rfl rfl hi' (hs.tb_step a2) (fun h => by cases h)
      ⟨a1, by rw [a3, hq]; rfl, a2.symm⟩
      (fun d hd => DClaim.keep' hs (hht p) (Nat.le_refl _) rfl rfl rfl rfl
        (fun _ _ => rfl) (fun _ _ _ => rfl) (fun _ _ => ⟨rfl, fun _ _ => rfl⟩) hd)
    rw [upd_self] at this
    exact pack Γ this
      (hh.same t _ rfl rfl rfl rfl rfl (.inr rfl) (by rw [hp]; rfl) (fun _ => rfl) (fun _ => rfl))
      (Rel.same (adds hp))
  | aTbL p e ct b hp hq =>
    obtain ⟨a1, a2, a3, a4⟩ := hc.acl t p e _ hp
    have hs := hc.stat p
    have hi := hc.idx p
    have hi' : HInv { s.prods p with tailBlock := some b } (Γ p) :=
      ⟨hi.capPos, hi.next, hi.tailOf, hi.cntLe, hi.cntOld, hi.cntNow, hi.inj, hi.bound,
        hi.unused, hi.rings, hi.keys, hi.win, hi.val, hi.wrote, hi.mn⟩
    have := hc.adder ho hp (.pub ct) { s.prods p with tailBlock := some b } (Γ p)
      (s' := (s.prod p { s.prods p with tailBlock := some b }).go t (.add p e (.pub ct)))
      rfl rfl rfl hi' (hs.tb_step a2) (fun h => by cases h)
      ⟨a1, by rw [a3, hq]; rfl, a4 hq, a2.symm⟩
      (fun d hd => DClaim.keep' hs (hht p) (Nat.le_refl _) rfl rfl rfl rfl
        (fun _ _ => rfl) (fun _ _ _ => rfl) (fun _ _ => ⟨rfl, fun _ _ => rfl⟩) hd)
    rw [upd_self] at this
    exact pack Γ this
      (hh.same t _ rfl rfl rfl rfl rfl (.inr rfl) (by rw [hp]; rfl) (fun _ => rfl) (fun _ => rfl))
      (Rel.same (adds hp))
  | aCons p e ct b hp htb hsl =>
    obtain ⟨a1, a2, a3⟩ := hc.acl t p e _ hp
    have hct := ho.ct t p e _ ct hp rfl
    have hs := hc.stat p
    have hi := hc.idx p
    subst hct
    have hi' : HInv (s.prods p) (consG (s.prods p) (Γ p) e) :=
      ⟨hi.capPos, hi.next, hi.tailOf, hi.cntLe, hi.cntOld, hi.cntNow, hi.inj, hi.bound,
        hi.unused, hi.rings, hi.keys, hi.win, hi.val, hi.wrote, hi.mn⟩
    have hraw : (Γ p).st (s.prods p).tail = .raw := hs.raw _ (Nat.le_refl _) (fun _ => a2)
    refine pack (upd Γ p (consG (s.prods p) (Γ p) e))
      (hc.adder ho hp _ (s.prods p) (consG (s.prods p) (Γ p) e) rfl rfl
        (by rw [upd_self]; rfl) hi' (hs.cons_step (hht p) a1) (fun h => by cases h)
        ⟨a1, rfl, upd_same _ _ _, a3⟩ ?_) ?_ ?_
    · intro d hd
      refine DClaim.keep' hs (hht p) (Nat.le_refl _) rfl rfl rfl rfl ?_ (fun _ _ _ => rfl) ?_ hd
      · intro i hi
        have := Nat.lt_of_lt_of_le (hd.lt hi) (hht p)
        exact upd_ne _ _ (by omega)
      · intro n hn
        refine ⟨rfl, ?_⟩
        intro j hj
        refine upd_ne _ _ ?_
        intro e'
        have := hd.nl_done hn hj
        rw [e', hs.tail_nd] at this; cases this
    · refine hh.inBlock t _ (i := (s.prods p).tail) (consG (s.prods p) (Γ p) e) (.full e) _
        (a3.symm.trans htb) rfl rfl rfl rfl rfl rfl rfl rfl rfl rfl ?_ (by rw [hp]; rfl) (.inl rfl)
      rw [hraw]; rfl
    · refine Rel.of _ (adds hp) ?_
      intro i
      by_cases e' : i = (s.prods p).tail
      · right; left; rw [e']; exact hraw
      · left; exact upd_ne _ _ e'
  | aPub p e ct hp =>
    obtain ⟨a1, a2, a3, a4⟩ := hc.acl t p e _ hp
    have hct := ho.ct t p e _ ct hp rfl
    have hs := hc.stat p
    have hi := hc.idx p
    subst hct
    have hi' : HInv { s.prods p with tail := (s.prods p).tail + 1 } (pubG (Γ p)) :=
      ⟨hi.capPos, hi.next, hi.tailOf, hi.cntLe, hi.cntOld, hi.cntNow, hi.inj, hi.bound,
        hi.unused, hi.rings, hi.keys, hi.win, hi.val, hi.wrote, hi.mn⟩
    refine pack (upd Γ p (pubG (Γ p)))
      (hc.adderEnd ho hp { s.prods p with tail := (s.prods p).tail + 1 } (pubG (Γ p)) rfl rfl rfl
        hi' (hs.pub_step a2 a1 a4) ?_ ?_) ?_ ?_
    · obtain ⟨b1, b2, b3⟩ := a1
      refine ⟨b1, ?_, b3, rfl, ?_⟩
      · show (Γ p).M = ((s.prods p).tail + 1 + 31) / 32
        omega
      · intro y _ hy
        show (s.prods p).tailBlock = some y
        rw [a4, show (s.prods p).tail / 32 = (Γ p).M - 1 by omega]
        exact hy
    · intro d hd
      exact DClaim.keep' hs (hht p) (Nat.le_refl _) rfl rfl rfl rfl
        (fun _ _ => rfl) (fun _ _ _ => rfl) (fun _ _ => ⟨rfl, fun _ _ => rfl⟩) hd
    · refine hh.same t .idle rfl rfl rfl rfl rfl (.inr rfl) (by rw [hp]; rfl) ?_ ?_
      · exact upd_field G.blk Γ p (pubG (Γ p)) rfl
      · exact upd_field G.st Γ p (pubG (Γ p)) rfl
    · exact Rel.of _ (adds hp) (fun _ => .inl rfl)
  | dTail k p hp =>
    exact pack Γ (hc.takerGo hp _ rfl rfl rfl trivial (fun i h => by cases h) (fun i h => by cases h))
      (hh.same t _ rfl rfl rfl rfl rfl (.inr rfl) (by rw [hp]; rfl) (fun _ => rfl) (fun _ => rfl))
      (Rel.same (by intro k p i en b e h; rw [hp] at h; cases h))
  | dOver k p tl hp =>
    exact pack Γ (hc.takerGo hp _ rfl rfl rfl trivial (fun i h => by cases h) (fun i h => by cases h))
      (hh.same t _ rfl rfl rfl rfl rfl (.inr rfl) (by rw [hp]; rfl) (fun _ => rfl) (fun _ => rfl))
      (Rel.same (by intro k p i en b e h; rw [hp] at h; cases h))
  | dOptYes k p tl oc hp =>
    exact pack Γ (hc.takerGo hp _ rfl rfl rfl trivial (fun i h => by cases h) (fun i h => by cases h))
      (hh.same t _ rfl rfl rfl rfl rfl (.inr rfl) (by rw [hp]; rfl) (fun _ => rfl) (fun _ => rfl))
      (Rel.same (by intro k p i en b e h; rw [hp] at h; cases h))
  | dOptGo k p tl oc y hp _ hy =>
    have hne : ∀ q e a, s.pos t ≠ .add q e a := by intro q e a h; rw [hp] at h; cases h
    exact pack Γ (hc.leaveGo hne y hy rfl rfl rfl)
      (hh.same t y rfl rfl rfl rfl rfl (.inr (hand_plain hy)) (by rw [hp]; rfl) (fun _ => rfl) (fun _ => rfl))
      (Rel.same (by intro k p i en b e h; rw [hp] at h; cases h))
  | dOptRet k p tl oc hp =>
    have hne : ∀ q e a, s.pos t ≠ .add q e a := by intro q e a h; rw [hp] at h; cases h
    exact pack Γ (hc.leaveGo hne .idle trivial rfl rfl rfl)
      (hh.same t .idle rfl rfl rfl rfl rfl (.inr rfl) (by rw [hp]; rfl) (fun _ => rfl) (fun _ => rfl))
      (Rel.same (by intro k p i en b e h; rw [hp] at h; cases h))
  | dYes k p m oc hp =>
    exact pack Γ (hc.takerGo hp _ rfl rfl rfl trivial (fun i h => by cases h) (fun i h => by cases h))
      (hh.same t _ rfl rfl rfl rfl rfl (.inr rfl) (by rw [hp]; rfl) (fun _ => rfl) (fun _ => rfl))
      (Rel.same (by intro k p i en b e h; rw [hp] at h; cases h))
  | dNo k p m oc hp =>
    exact pack Γ (hc.takerGo hp _ rfl rfl rfl trivial (fun i h => by cases h) (fun i h => by cases h))
      (hh.same t _ rfl rfl rfl rfl rfl (.inr rfl) (by rw [hp]; rfl) (fun _ => rfl) (fun _ => rfl))
      (Rel.same (by intro k p i en b e h; rw [hp] at h; cases h))
  | dInc k p oc hp =>
    have hs := hc.stat p
    have hi := hc.idx p
    have hi' : HInv { s.prods p with opt := (s.prods p).opt + 1 } (Γ p) :=
      ⟨hi.capPos, hi.next, hi.tailOf, hi.cntLe, hi.cntOld, hi.cntNow, hi.inj, hi.bound,
        hi.unused, hi.rings, hi.keys, hi.win, hi.val, hi.wrote, hi.mn⟩
    have := hc.taker hp (.again (s.prods p).opt oc)
      { s.prods p with opt := (s.prods p).opt + 1 } (Γ p)
      (s' := (s.prod p { s.prods p with opt := (s.prods p).opt + 1 }).go t
        (.deq k p (.again (s.prods p).opt oc))) rfl rfl rfl hi'
      (hs.same rfl rfl rfl rfl rfl rfl rfl) (fun r => r) trivial
      (fun _ _ a _ h => by cases a <;> exact h)
      (fun _ _ d _ _ hd => DClaim.keep' hs (hht p) (Nat.le_refl _) rfl rfl rfl rfl
        (fun _ _ => rfl) (fun _ _ _ => rfl) (fun _ _ => ⟨rfl, fun _ _ => rfl⟩) hd)
      (fun i h => by cases h) (fun i h => by cases h)
    rw [upd_self] at this
    exact pack Γ this
      (hh.same t _ rfl rfl rfl rfl rfl (.inr rfl) (by rw [hp]; rfl) (fun _ => rfl) (fun _ => rfl))
      (Rel.same (by intro k p i en b e h; rw [hp] at h; cases h))
  | dHead k p m hp =>
    have hs := hc.stat p
    have hi := hc.idx p
    have hlt : (s.prods p).head < (s.prods p).tail :=
      (hk p).head_lt (t := t) (m := m) (by show tv p (s.pos t) = _; rw [hp]; simp [tv])
    have hi' : HInv { s.prods p with head := (s.prods p).head + 1 } (Γ p) :=
      ⟨hi.capPos, hi.next, hi.tailOf, hi.cntLe, hi.cntOld, hi.cntNow, hi.inj, hi.bound,
        hi.unused, hi.rings, hi.keys, hi.win, hi.val, hi.wrote, hi.mn⟩
    have := hc.taker hp (.idx (s.prods p).head)
      { s.prods p with head := (s.prods p).head + 1 } (Γ p)
      (s' := (s.prod p { s.prods p with head := (s.prods p).head + 1 }).go t
        (.deq k p (.idx (s.prods p).head))) rfl rfl rfl hi'
      (hs.head_step _) (fun r => r)
      ⟨Nat.lt_succ_self _, hs.full _ (Nat.le_refl _) hlt⟩
      (fun _ _ a _ h => by cases a <;> exact h)
      (fun _ _ d _ _ hd => DClaim.keep' hs (hht p) (Nat.le_succ _) rfl rfl rfl rfl
        (fun _ _ => rfl) (fun _ _ _ => rfl) (fun _ _ => ⟨rfl, fun _ _ => rfl⟩) hd)
      (fun i h => by cases h; exact .inr (Nat.le_refl _)) (fun i h => by cases h)
    rw [upd_self] at this
    exact pack Γ this
      (hh.same t _ rfl rfl rfl rfl rfl (.inr rfl) (by rw [hp]; rfl) (fun _ => rfl) (fun _ => rfl))
      (Rel.same (by intro k p i en b e h; rw [hp] at h; cases h))
  | dMissGo k p m y hp hy =>
    have hs := hc.stat p
    have hi := hc.idx p
    have hne : ∀ q e a, s.pos t ≠ .add q e a := by intro q e a h; rw [hp] at h; cases h
    have hi' : HInv { s.prods p with over := (s.prods p).over + 1 } (Γ p) :=
      ⟨hi.capPos, hi.next, hi.tailOf, hi.cntLe, hi.cntOld, hi.cntNow, hi.inj, hi.bound,
        hi.unused, hi.rings, hi.keys, hi.win, hi.val, hi.wrote, hi.mn⟩
    have := hc.leave (p := p) hne y hy
      { s.prods p with over := (s.prods p).over + 1 } (Γ p)
      (s' := (s.prod p { s.prods p with over := (s.prods p).over + 1 }).go t y) rfl rfl rfl hi'
      (hs.same rfl rfl rfl rfl rfl rfl rfl) (fun r => r)
      (fun _ _ a _ h => by cases a <;> exact h)
      (fun _ _ d _ _ hd => DClaim.keep' hs (hht p) (Nat.le_refl _) rfl rfl rfl rfl
        (fun _ _ => rfl) (fun _ _ _ => rfl) (fun _ _ => ⟨rfl, fun _ _ => rfl⟩) hd)
    rw [upd_self] at this
    exact pack Γ this
      (hh.same t y rfl rfl rfl rfl rfl (.inr (hand_plain hy)) (by rw [hp]; rfl) (fun _ => rfl) (fun _ => rfl))
      (Rel.same (by intro k p i en b e h; rw [hp] at h; cases h))
  | dMissRet k p m hp =>
    have hs := hc.stat p
    have hi := hc.idx p
    have hne : ∀ q e a, s.pos t ≠ .add q e a := by intro q e a h; rw [hp] at h; cases h
    have hi' : HInv { s.prods p with over := (s.prods p).over + 1 } (Γ p) :=
      ⟨hi.capPos, hi.next, hi.tailOf, hi.cntLe, hi.cntOld, hi.cntNow, hi.inj, hi.bound,
        hi.unused, hi.rings, hi.keys, hi.win, hi.val, hi.wrote, hi.mn⟩
    have := hc.leave (p := p) hne .idle trivial
      { s.prods p with over := (s.prods p).over + 1 } (Γ p)
      (s' := (s.prod p { s.prods p with over := (s.prods p).over + 1 }).ret t (.polled none))
      rfl rfl rfl hi' (hs.same rfl rfl rfl rfl rfl rfl rfl) (fun r => r)
      (fun _ _ a _ h => by cases a <;> exact h)
      (fun _ _ d _ _ hd => DClaim.keep' hs (hht p) (Nat.le_refl _) rfl rfl rfl rfl
        (fun _ _ => rfl) (fun _ _ _ => rfl) (fun _ _ => ⟨rfl, fun _ _ => rfl⟩) hd)
    rw [upd_self] at this
    exact pack Γ this
      (hh.same t .idle rfl rfl rfl rfl rfl (.inr rfl) (by rw [hp]; rfl) (fun _ => rfl) (fun _ => rfl))
      (Rel.same (by intro k p i en b e h; rw [hp] at h; cases h))
  | dIdx k p i hp =>
    obtain ⟨d1, d2⟩ := hc.dcl t k p _ hp
    have hs := hc.stat p
    have hi := hc.idx p
    have := hs.lo
    have := hht p
    have := hi.cntNow
    exact pack Γ (hc.takerGo hp _ rfl rfl rfl ⟨d1, d2, Nat.le_refl _, by omega⟩
        (fun i h => h) (fun i h => by cases h))
      (hh.same t _ rfl rfl rfl rfl rfl (.inr rfl) (by rw [hp]; rfl) (fun _ => rfl) (fun _ => rfl))
      (Rel.same (by intro k p i en b e h; rw [hp] at h; cases h))
  | dItail k p i h hp =>
    obtain ⟨d1, d2, d3, d4⟩ := hc.dcl t k p _ hp
    have hi := hc.idx p
    have hcp := hi.capPos h d3
    refine pack Γ (hc.takerGo hp _ rfl rfl rfl ⟨d1, d2, d3, (Γ p).cnt h - 1, by omega, by omega, ?_⟩
        (fun i h => h) (fun i h => by cases h))
      (hh.same t _ rfl rfl rfl rfl rfl (.inr rfl) (by rw [hp]; rfl) (fun _ => rfl) (fun _ => rfl))
      (Rel.same (by intro k p i en b e h; rw [hp] at h; cases h))
    rw [hi.tailOf h d3]
    unfold ring
    have : (Γ p).cnt h + (Γ p).off h + ((s.prods p).hdrs h).cap - 1 =
        (Γ p).cnt h - 1 + (Γ p).off h + ((s.prods p).hdrs h).cap := by omega
    rw [this, Nat.add_mod_right]
  | dIkey k p i h q base hp hkey =>
    obtain ⟨d1, ⟨e, d2⟩, d3, b, d4, d5, d6⟩ := hc.dcl t k p _ hp
    have hi := hc.idx p
    have hs := hc.stat p
    have hl := hs.alive (hht p) d1 (by rw [d2]; rfl)
    have hcp := hi.capPos h d3
    have hlt := hi.cntLe h d3
    refine pack Γ (hc.takerGo hp _ rfl rfl rfl ⟨d1, ⟨e, d2⟩, ?_⟩
        (fun i h => h) (fun i h => by cases h))
      (hh.same t _ rfl rfl rfl rfl rfl (.inr rfl) (by rw [hp]; rfl) (fun _ => rfl) (fun _ => rfl))
      (Rel.same (by intro k p i en b e h; rw [hp] at h; cases h))
    have h1 := hi.rings h (i / 32) b d3 hl d4 d5
    have h2 := hi.keys (i / 32) b hl d4 (by omega)
    rw [d6, h1, h2] at hkey
    have hbase : base = 32 * b := by cases hkey; rfl
    rw [hbase, d6]
    unfold ring
    rw [ringPos_eq hcp rfl d4]
    exact hi.rings h (i / 32) (i / 32) d3 hl (Nat.le_refl _) (by omega)
  | dVal k p i en b hp hval =>
    obtain ⟨d1, ⟨e, d2⟩, d3⟩ := hc.dcl t k p _ hp
    have hi := hc.idx p
    have hs := hc.stat p
    have hl := hs.alive (hht p) d1 (by rw [d2]; rfl)
    refine pack Γ (hc.takerGo hp _ rfl rfl rfl ⟨d1, ⟨e, d2⟩, d3, ?_⟩
        (fun i h => h) (fun i h => by cases h))
      (hh.same t _ rfl rfl rfl rfl rfl (.inr rfl) (by rw [hp]; rfl) (fun _ => rfl) (fun _ => rfl))
      (Rel.same (by intro k p i en b e h; rw [hp] at h; cases h))
    cases hb : (Γ p).blk (i / 32) with
    | none => exact absurd hb hl
    | some y =>
      have := hi.val _ y hb
      rw [← d3, hval] at this
      cases this; rfl
  | dTake k p i en b e hp hsl =>
    obtain ⟨d1, ⟨e', d2⟩, d3, d4⟩ := hc.dcl t k p _ hp
    have hi := hc.idx p
    have hs := hc.stat p
    have he : e = e' := by
      have := (hh.blk p _ b d4).2.2.1 (i % 32) (Nat.mod_lt _ (by decide))
      rw [hsl, Nat.div_add_mod, d2] at this
      cases this; rfl
    subst he
    have hi' : HInv (s.prods p) (stG (Γ p) i (.taken e)) :=
      ⟨hi.capPos, hi.next, hi.tailOf, hi.cntLe, hi.cntOld, hi.cntNow, hi.inj, hi.bound,
        hi.unused, hi.rings, hi.keys, hi.win, hi.val, hi.wrote, hi.mn⟩
    have hti := hht p
    refine pack (upd Γ p (stG (Γ p) i (.taken e)))
      (hc.taker hp _ (s.prods p) (stG (Γ p) i (.taken e)) rfl rfl (by rw [upd_self]; rfl) hi'
        (hs.st_step hti d1 (fun _ => by rw [d2]; rfl)) (fun r => r)
        ⟨d1, upd_same _ _ _, d3, d4⟩
        (fun _ _ _ _ h => h.st_step (by omega) ⟨rfl, rfl, rfl, rfl, rfl⟩) ?_
        (fun i h => .inl h) (fun i h => by cases h)) ?_ ?_
    · intro t' kk d hne hp' hd
      refine DClaim.keep' hs hti (Nat.le_refl _) rfl rfl rfl rfl ?_ (fun _ _ _ => rfl) ?_ hd
      · intro j hj
        refine upd_ne _ _ ?_
        intro e'; subst e'
        exact hne (hc.uniq t' t kk k p d _ j hp' hp hj rfl)
      · intro n hn
        refine ⟨rfl, ?_⟩
        intro j hj
        refine upd_ne _ _ ?_
        intro e'; subst e'
        have := hd.nl_done hn hj
        rw [d2] at this; cases this
    · refine hh.inBlock t _ (i := i) (stG (Γ p) i (.taken e)) (.taken e) _
        d4 rfl rfl rfl rfl rfl rfl rfl rfl rfl rfl ?_ (by rw [hp]; rfl) (.inl rfl)
      rw [d2]; rfl
    · refine Rel.of _ (by intro k p i en b e h; rw [hp] at h; cases h) ?_
      intro j
      by_cases e' : j = i
      · subst e'; right; right; exact ⟨e, d2, by show St.val (upd _ _ _ _) = _; rw [upd_same]; rfl⟩
      · left; exact upd_ne _ _ e'
  | dMarkLast k p i en b e hp hgone =>
    obtain ⟨d1, d2, d3, d4⟩ := hc.dcl t k p _ hp
    have hi := hc.idx p
    have hs := hc.stat p
    have hi' : HInv (s.prods p) (stG (Γ p) i (.done e)) :=
      ⟨hi.capPos, hi.next, hi.tailOf, hi.cntLe, hi.cntOld, hi.cntNow, hi.inj, hi.bound,
        hi.unused, hi.rings, hi.keys, hi.win, hi.val, hi.wrote, hi.mn⟩
    have hti := hht p
    have hh' : InvH ((s.blk b { s.heap b with gone := (s.heap b).gone + 1 }).go t
        (.deq k p (.null i en b e))) (upd Γ p (stG (Γ p) i (.done e))) := by
      refine hh.inBlock t _ (i := i) (stG (Γ p) i (.done e)) (.done e) _
        d4 rfl rfl rfl rfl rfl rfl rfl rfl ?_ rfl (by rw [d2]; rfl) (by rw [hp]; rfl)
        (.inr (.inr ⟨k, i, en, e, rfl⟩))
      have h1 := (hh.blk p _ b d4).2.2.1 (i % 32) (Nat.mod_lt _ (by decide))
      rw [Nat.div_add_mod, d2] at h1
      show (s.heap b).slots = upd (s.heap b).slots (i % 32) none
      rw [show (none : Option E) = (s.heap b).slots (i % 32) from h1.symm, upd_self]
    refine pack (upd Γ p (stG (Γ p) i (.done e)))
      (hc.taker hp _ (s.prods p) (stG (Γ p) i (.done e)) rfl rfl (by rw [upd_self]; rfl) hi'
        (hs.st_step hti d1 (fun h => by cases h)) (fun r => r)
        ⟨d1, upd_same _ _ _, d3, d4, ?_⟩
        (fun _ _ _ _ h => h.st_step (by omega) ⟨rfl, rfl, rfl, rfl, rfl⟩) ?_
        (fun i h => .inl h) ?_) hh' ?_
    · have h1 := (hh'.blk p (i / 32) b (by rw [upd_same]; exact d4)).2.2.2
      simp only [go_heap, blk_heap, upd_same, hgone] at h1
      intro j hj
      have h2 := countP_range_all h1.symm (j % 32) (Nat.mod_lt _ (by decide))
      have h3 : 32 * (i / 32) + j % 32 = j := by rw [← hj]; exact Nat.div_add_mod j 32
      rw [h3] at h2
      exact h2
    · intro t' kk d hne hp' hd
      refine DClaim.keep' hs hti (Nat.le_refl _) rfl rfl rfl rfl ?_ (fun _ _ _ => rfl) ?_ hd
      · intro j hj
        refine upd_ne _ _ ?_
        intro e'; subst e'
        exact hne (hc.uniq t' t kk k p d _ j hp' hp hj rfl)
      · intro n hn
        refine ⟨rfl, ?_⟩
        intro j hj
        refine upd_ne _ _ ?_
        intro e'; subst e'
        have := hd.nl_done hn hj
        rw [d2] at this; cases this
    · intro n hn
      cases hn
      exact .inr ⟨i, rfl, by rw [d2]; rfl⟩
    · refine ⟨?_, ?_, ?_⟩
      · intro q j v hv
        by_cases e1 : q = p
        · subst e1
          rw [upd_same]
          show (upd (Γ q).st i (.done e) j).val = _
          by_cases e2 : j = i
          · subst e2; rw [upd_same]; rw [d2] at hv; exact hv
          · rw [upd_ne _ _ e2]; exact hv
        · rw [upd_ne _ _ e1]; exact hv
      · intro q j v hv
        by_cases e1 : q = p
        · subst e1
          rw [upd_same]
          show upd (Γ q).st i (.done e) j = _
          by_cases e2 : j = i
          · subst e2; rw [d2] at hv; cases hv
          · rw [upd_ne _ _ e2]; exact hv
        · rw [upd_ne _ _ e1]; exact hv
      · intro k1 p1 i1 en1 b1 e1 h1
        rw [hp] at h1; cases h1
        rw [upd_same]; exact upd_same _ _ _
  | dMark k p i en b e hp hgone =>
    obtain ⟨d1, d2, d3, d4⟩ := hc.dcl t k p _ hp
    have hi := hc.idx p
    have hs := hc.stat p
    have hne : ∀ q e a, s.pos t ≠ .add q e a := by intro q e a h; rw [hp] at h; cases h
    have hi' : HInv (s.prods p) (stG (Γ p) i (.done e)) :=
      ⟨hi.capPos, hi.next, hi.tailOf, hi.cntLe, hi.cntOld, hi.cntNow, hi.inj, hi.bound,
        hi.unused, hi.rings, hi.keys, hi.win, hi.val, hi.wrote, hi.mn⟩
    have hti := hht p
    refine pack (upd Γ p (stG (Γ p) i (.done e)))
      (hc.leave (p := p) hne .idle trivial (s.prods p) (stG (Γ p) i (.done e)) rfl rfl
        (by rw [upd_self]; rfl) hi'
        (hs.st_step hti d1 (fun h => by cases h)) (fun r => r)
        (fun _ _ _ _ h => h.st_step (by omega) ⟨rfl, rfl, rfl, rfl, rfl⟩) ?_) ?_ ?_
    · intro t' kk d hne hp' hd
      refine DClaim.keep' hs hti (Nat.le_refl _) rfl rfl rfl rfl ?_ (fun _ _ _ => rfl) ?_ hd
      · intro j hj
        refine upd_ne _ _ ?_
        intro e'; subst e'
        exact hne (hc.uniq t' t kk k p d _ j hp' hp hj rfl)
      · intro n hn
        refine ⟨rfl, ?_⟩
        intro j hj
        refine upd_ne _ _ ?_
        intro e'; subst e'
        have := hd.nl_done hn hj
        rw [d2] at this; cases this
    · refine hh.inBlock t .idle (i := i) (stG (Γ p) i (.done e)) (.done e) _
        d4 rfl rfl rfl rfl rfl rfl rfl rfl ?_ rfl (by rw [d2]; rfl) (by rw [hp]; rfl)
        (.inr (.inl ?_))
      · have h1 := (hh.blk p _ b d4).2.2.1 (i % 32) (Nat.mod_lt _ (by decide))
        rw [Nat.div_add_mod, d2] at h1
        show (s.heap b).slots = upd (s.heap b).slots (i % 32) none
        rw [show (none : Option E) = (s.heap b).slots (i % 32) from h1.symm, upd_self]
      · show (s.heap b).gone + 1 < 32
        have h1 := (hh.blk p _ b d4).2.2.2
        have h2 : (List.range 32).countP (fun j => ((Γ p).st (32 * (i / 32) + j)).isDone) ≤ 32 :=
          List.countP_le_length
        have h3 : (s.heap b).gone ≠ 32 := by
          intro h3
          have h4 := countP_range_all (h1.symm.trans h3) (i % 32) (Nat.mod_lt _ (by decide))
          rw [Nat.div_add_mod, d2] at h4; cases h4
        omega
    · refine ⟨?_, ?_, ?_⟩
      · intro q j v hv
        by_cases e1 : q = p
        · subst e1
          rw [upd_same]
          show (upd (Γ q).st i (.done e) j).val = _
          by_cases e2 : j = i
          · subst e2; rw [upd_same]; rw [d2] at hv; exact hv
          · rw [upd_ne _ _ e2]; exact hv
        · rw [upd_ne _ _ e1]; exact hv
      · intro q j v hv
        by_cases e1 : q = p
        · subst e1
          rw [upd_same]
          show upd (Γ q).st i (.done e) j = _
          by_cases e2 : j = i
          · subst e2; rw [d2] at hv; cases hv
          · rw [upd_ne _ _ e2]; exact hv
        · rw [upd_ne _ _ e1]; exact hv
      · intro k1 p1 i1 en1 b1 e1 h1
        rw [hp] at h1; cases h1
        rw [upd_same]; exact upd_same _ _ _
  | dNull k p i en b e hp =>
    obtain ⟨d1, d2, d3, d4, d5⟩ := hc.dcl t k p _ hp
    have hi := hc.idx p
    have hs := hc.stat p
    have hti := hht p
    refine pack (upd Γ p (nullG (Γ p) (i / 32)))
      (hc.taker hp (.free i b e) (valP (s.prods p) en none) (nullG (Γ p) (i / 32)) rfl rfl rfl
        (hi.null (by rw [d4]; simp) d3) (hs.null_step d5 none)
        (fun r => ⟨r.1, r.2.1, r.2.2.1, r.2.2.2.1, fun y h1 h2 => r.2.2.2.2 y h1 (by
          have h3 : upd (Γ p).blk (i / 32) none ((Γ p).M - 1) = some y := h2
          by_cases e' : (Γ p).M - 1 = i / 32
          · rw [e', upd_same] at h3; cases h3
          · rw [upd_ne _ _ e'] at h3; exact h3)⟩) ⟨d1, d2⟩
        (fun _ _ _ _ h => h.null_step hs d5) ?_ (fun i h => .inl h) (fun i h => by cases h)) ?_ ?_
    · intro t' kk d hne hp' hd
      refine DClaim.keep' hs hti (Nat.le_refl _) rfl rfl rfl rfl (fun _ _ => rfl) ?_ ?_ hd
      · intro j hj hnd
        refine upd_ne _ _ ?_
        intro e'
        have := d5 j e'
        rw [hnd] at this; cases this
      · intro n hn
        refine ⟨upd_ne _ _ ?_, fun _ _ => rfl⟩
        intro e'; subst e'
        exact hne (hc.nul t' t kk k p d _ _ hp' hp hn rfl)
    · exact hh.pull t _ d4 d5 rfl rfl rfl rfl rfl rfl hp
    · exact Rel.of _ (by intro k p i en b e h; rw [hp] at h; cases h) (fun _ => .inl rfl)
  | dFree k p i b e hp =>
    have hne : ∀ q e a, s.pos t ≠ .add q e a := by intro q e a h; rw [hp] at h; cases h
    have hw : hand s.quiet (s.pos t) = some (b, none, false) := by rw [hp]; rfl
    exact pack Γ (hc.leaveGo hne .idle trivial rfl rfl rfl)
      (hh.give t .idle hw rfl rfl rfl rfl rfl rfl)
      (Rel.same (by intro k p i en b e h; rw [hp] at h; cases h))

end Verif.LinkedQueue
