import Verif.LinkedQueue.Moves
/-!
# Who owns a producer, and the counters in every reachable state
-/
namespace Verif.LinkedQueue

variable {E : Type}

/-- `currentTailIndex`, once loaded. -/
def AStg.ct : AStg → Option Nat
  | .tail => none
  | .head ct | .test ct | .grow ct | .key ct _ | .itail ct _ | .get ct _ | .reset ct _ _
  | .cons1 ct _ _ | .val ct _ _ | .tb ct _ | .cons ct | .pub ct => some ct

/-- Stages inside the branch for a new block. -/
def AStg.opens : AStg → Bool
  | .tail | .cons _ | .pub _ => false
  | _ => true

structure OwnInv (s : Sys E) : Prop where
  lt : ∀ t p, s.own t = some p → p < s.count
  inj : ∀ t t' p, s.own t = some p → s.own t' = some p → t = t'
  add : ∀ t p e a, s.pos t = .add p e a → s.own t = some p
  ct : ∀ t p e a c, s.pos t = .add p e a → a.ct = some c → c = (s.prods p).tail
  opens : ∀ t p e a, s.pos t = .add p e a → a.opens = true → (s.prods p).tail % 32 = 0

@[simp] theorem upd_same {α : Type} (f : Nat → α) (i : Nat) (x : α) : upd f i x i = x := by
  simp [upd]

theorem upd_ne {α : Type} (f : Nat → α) {i j : Nat} (x : α) (h : j ≠ i) :
    upd f i x j = f j := by
  simp [upd, h]

section
variable (s : Sys E) (t p b : Nat) (y : Pos E) (r : Res E) (x : Prod) (z : Blk E)
@[simp] theorem go_prods : (s.go t y).prods = s.prods := rfl
@[simp] theorem go_count : (s.go t y).count = s.count := rfl
@[simp] theorem go_own : (s.go t y).own = s.own := rfl
@[simp] theorem go_heap : (s.go t y).heap = s.heap := rfl
@[simp] theorem go_made : (s.go t y).made = s.made := rfl
@[simp] theorem go_free : (s.go t y).free = s.free := rfl
@[simp] theorem go_quiet : (s.go t y).quiet = s.quiet := rfl
@[simp] theorem go_pos : (s.go t y).pos = upd s.pos t y := rfl
@[simp] theorem go_log : (s.go t y).log = s.log := rfl
@[simp] theorem go_clock : (s.go t y).clock = s.clock := rfl
@[simp] theorem go_began : (s.go t y).began = s.began := rfl
@[simp] theorem ret_prods : (s.ret t r).prods = s.prods := rfl
@[simp] theorem ret_count : (s.ret t r).count = s.count := rfl
@[simp] theorem ret_own : (s.ret t r).own = s.own := rfl
@[simp] theorem ret_heap : (s.ret t r).heap = s.heap := rfl
@[simp] theorem ret_made : (s.ret t r).made = s.made := rfl
@[simp] theorem ret_free : (s.ret t r).free = s.free := rfl
@[simp] theorem ret_quiet : (s.ret t r).quiet = s.quiet := rfl
@[simp] theorem ret_pos : (s.ret t r).pos = upd s.pos t .idle := rfl
@[simp] theorem ret_began : (s.ret t r).began = s.began := rfl
@[simp] theorem prod_prods : (s.prod p x).prods = upd s.prods p x := rfl
@[simp] theorem prod_count : (s.prod p x).count = s.count := rfl
@[simp] theorem prod_own : (s.prod p x).own = s.own := rfl
@[simp] theorem prod_heap : (s.prod p x).heap = s.heap := rfl
@[simp] theorem prod_made : (s.prod p x).made = s.made := rfl
@[simp] theorem prod_free : (s.prod p x).free = s.free := rfl
@[simp] theorem prod_quiet : (s.prod p x).quiet = s.quiet := rfl
@[simp] theorem prod_pos : (s.prod p x).pos = s.pos := rfl
@[simp] theorem prod_log : (s.prod p x).log = s.log := rfl
@[simp] theorem prod_clock : (s.prod p x).clock = s.clock := rfl
@[simp] theorem prod_began : (s.prod p x).began = s.began := rfl
@[simp] theorem blk_prods : (s.blk b z).prods = s.prods := rfl
@[simp] theorem blk_count : (s.blk b z).count = s.count := rfl
@[simp] theorem blk_own : (s.blk b z).own = s.own := rfl
@[simp] theorem blk_heap : (s.blk b z).heap = upd s.heap b z := rfl
@[simp] theorem blk_made : (s.blk b z).made = s.made := rfl
@[simp] theorem blk_free : (s.blk b z).free = s.free := rfl
@[simp] theorem blk_quiet : (s.blk b z).quiet = s.quiet := rfl
@[simp] theorem blk_pos : (s.blk b z).pos = s.pos := rfl
@[simp] theorem blk_log : (s.blk b z).log = s.log := rfl
@[simp] theorem blk_clock : (s.blk b z).clock = s.clock := rfl
@[simp] theorem blk_began : (s.blk b z).began = s.began := rfl
end

/-- A change of producer `p` that keeps a field keeps it in all. -/
theorem upd_field {α β : Type} (g : α → β) (f : Nat → α) (p : Nat) (x : α)
    (h : g x = g (f p)) (q : Nat) : g (upd f p x q) = g (f q) := by
  unfold upd
  split
  · next e => subst e; exact h
  · rfl

theorem OwnInv.move {s s' : Sys E} (h : OwnInv s) (t : Nat) (ho : s'.own = s.own)
    (hc : s'.count = s.count) (y : Pos E) (hpos : s'.pos = upd s.pos t y)
    (htail : ∀ p, (s'.prods p).tail = (s.prods p).tail ∨ s.own t = some p)
    (hme : ∀ p e a, y = .add p e a → s.own t = some p ∧
      (∀ c, a.ct = some c → c = (s'.prods p).tail) ∧
      (a.opens = true → (s'.prods p).tail % 32 = 0)) : OwnInv s' := by
  have hother : ∀ t' p e a, t' ≠ t → s.pos t' = .add p e a →
      (s'.prods p).tail = (s.prods p).tail := by
    intro t' p e a hne hp
    rcases htail p with h1 | h1
    · exact h1
    · exact absurd (h.inj t' t p (h.add t' p e a hp) h1) hne
  refine ⟨?_, ?_, ?_, ?_, ?_⟩
  · rw [ho, hc]; exact h.lt
  · rw [ho]; exact h.inj
  · intro t' p e a hp
    rw [hpos] at hp
    rw [ho]
    by_cases ht : t' = t
    · subst ht; rw [upd_same] at hp; exact (hme p e a hp).1
    · rw [upd_ne _ _ ht] at hp; exact h.add t' p e a hp
  · intro t' p e a c hp hc'
    rw [hpos] at hp
    by_cases ht : t' = t
    · subst ht; rw [upd_same] at hp; exact (hme p e a hp).2.1 c hc'
    · rw [upd_ne _ _ ht] at hp
      rw [hother t' p e a ht hp]
      exact h.ct t' p e a c hp hc'
  · intro t' p e a hp hc'
    rw [hpos] at hp
    by_cases ht : t' = t
    · subst ht; rw [upd_same] at hp; exact (hme p e a hp).2.2 hc'
    · rw [upd_ne _ _ ht] at hp
      rw [hother t' p e a ht hp]
      exact h.opens t' p e a hp hc'

theorem plain_not_add {y : Pos E} (h : Plain y) (p e a) : y ≠ .add p e a := by
  rintro rfl; exact h

theorem OwnInv.mv {s s' : Sys E} {t : Nat} (h : OwnInv s) (m : Mv s t s') : OwnInv s' := by
  have same : ∀ (y : Pos E) (s1 : Sys E), s1.own = s.own → s1.count = s.count →
      (∀ p, (s1.prods p).tail = (s.prods p).tail) → s1.pos = upd s.pos t y →
      (∀ p e a, y = .add p e a → ∃ e' a', s.pos t = .add p e' a' ∧
        (∀ c, a.ct = some c → a'.ct = some c ∨ c = (s.prods p).tail) ∧
        (a.opens = true → a'.opens = true ∨ (s.prods p).tail % 32 = 0)) → OwnInv s1 := by
    intro y s1 ho hc ht hp hy
    refine h.move t ho hc y hp (fun p => .inl (ht p)) ?_
    intro p e a hya
    obtain ⟨e', a', hs, h1, h2⟩ := hy p e a hya
    rw [ht p]
    refine ⟨h.add t p e' a' hs, ?_, ?_⟩
    · intro c hc'
      rcases h1 c hc' with h3 | h3
      · exact h.ct t p e' a' c hs h3
      · exact h3
    · intro ho'
      rcases h2 ho' with h3 | h3
      · exact h.opens t p e' a' hs h3
      · exact h3
  have dull : ∀ (y : Pos E) (s1 : Sys E), s1.own = s.own → s1.count = s.count →
      (∀ p, (s1.prods p).tail = (s.prods p).tail) → s1.pos = upd s.pos t y →
      (∀ p e a, y ≠ .add p e a) → OwnInv s1 :=
    fun y s1 ho hc ht hp hy => same y s1 ho hc ht hp (fun p e a he => absurd he (hy p e a))
  cases m with
  | plainGo y _ hy => exact dull y _ rfl rfl (fun _ => rfl) rfl (plain_not_add hy)
  | plainRet r => exact dull .idle _ rfl rfl (fun _ => rfl) rfl (by simp)
  | found e p hp ho =>
    refine h.move t rfl rfl _ rfl (fun _ => .inl rfl) ?_
    intro p' e' a he
    cases he
    exact ⟨ho, by simp [AStg.ct], by simp [AStg.opens]⟩
  | made e hp ho =>
    refine ⟨?_, ?_, ?_, ?_, ?_⟩
    · intro t' p hq
      simp only [go_own, upd] at hq
      simp only [go_count]
      split at hq
      · cases hq; exact Nat.lt_succ_self _
      · exact Nat.lt_succ_of_lt (h.lt t' p hq)
    · intro t1 t2 p h1 h2
      simp only [go_own, upd] at h1 h2
      split at h1 <;> split at h2
      · simp_all
      · cases h1; exact absurd (h.lt t2 _ h2) (Nat.lt_irrefl _)
      · cases h2; exact absurd (h.lt t1 _ h1) (Nat.lt_irrefl _)
      · exact h.inj t1 t2 p h1 h2
    · intro t' p e' a hq
      simp only [go_pos, go_own, upd] at hq ⊢
      split at hq
      · cases hq; simp_all
      · next hne => simp only [hne, if_false]; exact h.add t' p e' a hq
    · intro t' p e' a c hq hc
      simp only [go_pos, upd] at hq
      split at hq
      · cases hq; simp [AStg.ct] at hc
      · exact h.ct t' p e' a c hq hc
    · intro t' p e' a hq hc
      simp only [go_pos, upd] at hq
      split at hq
      · cases hq; simp [AStg.opens] at hc
      · exact h.opens t' p e' a hq hc
  | aTail0 p e hp ht =>
    refine same _ _ rfl rfl (fun _ => rfl) rfl ?_
    intro p' e' a he; cases he
    exact ⟨e, _, hp, fun c hc => by simp [AStg.ct] at hc ⊢; exact hc.symm, fun _ => .inr ht⟩
  | aTail1 p e hp ht =>
    refine same _ _ rfl rfl (fun _ => rfl) rfl ?_
    intro p' e' a he; cases he
    exact ⟨e, _, hp, fun c hc => by simp [AStg.ct] at hc ⊢; exact hc.symm,
      fun hc => by simp [AStg.opens] at hc⟩
  | aHead p e ct hp =>
    refine same _ _ rfl rfl (fun _ => rfl) rfl ?_
    intro p' e' a he; cases he
    exact ⟨e, _, hp, fun c hc => .inl hc, fun hc => .inl rfl⟩
  | aRefuse p e ct hp => exact dull .idle _ rfl rfl (fun _ => rfl) rfl (by simp)
  | aTestFree p e ct en hp =>
    refine same _ _ rfl rfl (fun _ => rfl) rfl ?_
    intro p' e' a he; cases he
    exact ⟨e, _, hp, fun c hc => .inl hc, fun hc => .inl rfl⟩
  | aTestFull p e ct hp =>
    refine same _ _ rfl rfl (fun _ => rfl) rfl ?_
    intro p' e' a he; cases he
    exact ⟨e, _, hp, fun c hc => .inl hc, fun hc => .inl rfl⟩
  | aGrow p e ct hp =>
    refine same _ _ rfl rfl (upd_field Prod.tail _ _ _ (by rfl)) rfl ?_
    intro p' e' a he; cases he
    exact ⟨e, _, hp, fun c hc => .inl hc, fun hc => .inl rfl⟩
  | aKey p e ct en hp =>
    refine same _ _ rfl rfl (upd_field Prod.tail _ _ _ rfl) rfl ?_
    intro p' e' a he; cases he
    exact ⟨e, _, hp, fun c hc => .inl hc, fun hc => .inl rfl⟩
  | aItail p e ct en hp =>
    refine same _ _ rfl rfl (upd_field Prod.tail _ _ _ rfl) rfl ?_
    intro p' e' a he; cases he
    exact ⟨e, _, hp, fun c hc => .inl hc, fun hc => .inl rfl⟩
  | aGetOld p e ct en c b hp =>
    refine same _ _ rfl rfl (fun _ => rfl) rfl ?_
    intro p' e' a he; cases he
    exact ⟨e, _, hp, fun c hc => .inl hc, fun hc => .inl rfl⟩
  | aGetNew p e ct en hp =>
    refine same _ _ rfl rfl (fun _ => rfl) rfl ?_
    intro p' e' a he; cases he
    exact ⟨e, _, hp, fun c hc => .inl hc, fun hc => .inl rfl⟩
  | aResetQ p e ct en b hp =>
    refine same _ _ rfl rfl (fun _ => rfl) rfl ?_
    intro p' e' a he; cases he
    exact ⟨e, _, hp, fun c hc => .inl hc, fun hc => .inl rfl⟩
  | aResetL p e ct en b hp =>
    refine same _ _ rfl rfl (fun _ => rfl) rfl ?_
    intro p' e' a he; cases he
    exact ⟨e, _, hp, fun c hc => .inl hc, fun hc => .inl rfl⟩
  | aCons1 p e ct en b hp =>
    refine same _ _ rfl rfl (fun _ => rfl) rfl ?_
    intro p' e' a he; cases he
    exact ⟨e, _, hp, fun c hc => .inl hc, fun hc => .inl rfl⟩
  | aVal p e ct en b hp =>
    refine same _ _ rfl rfl (upd_field Prod.tail _ _ _ rfl) rfl ?_
    intro p' e' a he; cases he
    exact ⟨e, _, hp, fun c hc => .inl hc, fun hc => .inl rfl⟩
  | aTbQ p e ct b hp =>
    refine same _ _ rfl rfl (upd_field Prod.tail _ _ _ rfl) rfl ?_
    intro p' e' a he; cases he
    exact ⟨e, _, hp, fun c hc => .inl hc, fun hc => by simp [AStg.opens] at hc⟩
  | aTbL p e ct b hp =>
    refine same _ _ rfl rfl (upd_field Prod.tail _ _ _ rfl) rfl ?_
    intro p' e' a he; cases he
    exact ⟨e, _, hp, fun c hc => .inl hc, fun hc => by simp [AStg.opens] at hc⟩
  | aCons p e ct b hp =>
    refine same _ _ rfl rfl (fun _ => rfl) rfl ?_
    intro p' e' a he; cases he
    exact ⟨e, _, hp, fun c hc => .inl hc, fun hc => by simp [AStg.opens] at hc⟩
  | aPub p e ct hp =>
    refine h.move t rfl rfl .idle rfl ?_ (by simp)
    intro q
    by_cases hq : q = p
    · subst hq; exact .inr (h.add t q e _ hp)
    · left; simp [upd_ne _ _ hq]
  | dTail => exact dull _ _ rfl rfl (fun _ => rfl) rfl (by simp)
  | dOver => exact dull _ _ rfl rfl (fun _ => rfl) rfl (by simp)
  | dOptYes => exact dull _ _ rfl rfl (fun _ => rfl) rfl (by simp)
  | dOptGo k p tl oc y _ _ hy => exact dull y _ rfl rfl (fun _ => rfl) rfl (plain_not_add hy)
  | dOptRet => exact dull .idle _ rfl rfl (fun _ => rfl) rfl (by simp)
  | dInc => exact dull _ _ rfl rfl (upd_field Prod.tail _ _ _ rfl) rfl (by simp)
  | dYes => exact dull _ _ rfl rfl (fun _ => rfl) rfl (by simp)
  | dNo => exact dull _ _ rfl rfl (fun _ => rfl) rfl (by simp)
  | dHead => exact dull _ _ rfl rfl (upd_field Prod.tail _ _ _ rfl) rfl (by simp)
  | dMissGo k p m y _ hy =>
    exact dull y _ rfl rfl (upd_field Prod.tail _ _ _ rfl) rfl (plain_not_add hy)
  | dMissRet => exact dull .idle _ rfl rfl (upd_field Prod.tail _ _ _ rfl) rfl (by simp)
  | dIdx => exact dull _ _ rfl rfl (fun _ => rfl) rfl (by simp)
  | dItail => exact dull _ _ rfl rfl (fun _ => rfl) rfl (by simp)
  | dIkey => exact dull _ _ rfl rfl (fun _ => rfl) rfl (by simp)
  | dVal => exact dull _ _ rfl rfl (fun _ => rfl) rfl (by simp)
  | dTake => exact dull _ _ rfl rfl (fun _ => rfl) rfl (by simp)
  | dMarkLast => exact dull _ _ rfl rfl (fun _ => rfl) rfl (by simp)
  | dMark => exact dull .idle _ rfl rfl (fun _ => rfl) rfl (by simp)
  | dNull => exact dull _ _ rfl rfl (upd_field Prod.tail _ _ _ rfl) rfl (by simp)
  | dFree => exact dull .idle _ rfl rfl (fun _ => rfl) rfl (by simp)

theorem start_plain (c : Call E) : Plain (start c) := by cases c <;> trivial

theorem OwnInv.call {s : Sys E} (h : OwnInv s) (t : Nat) (c : Call E) :
    OwnInv (begin s t c) :=
  h.move t rfl rfl (start c) rfl (fun _ => .inl rfl)
    (fun p e a he => absurd he (plain_not_add (start_plain c) p e a))

theorem OwnInv.reach {q : Bool} {s : Sys E} (h : Reach q s) : OwnInv s := by
  induction h with
  | init => exact ⟨by simp [init], by simp [init], by simp [init], by simp [init], by simp [init]⟩
  | step _ hs ih =>
    cases hs with
    | call t c => exact ih.call t c
    | tick t c h => exact ih.mv (tick_mv h)

/-! ### The counters -/

/-- The tickets of every producer. -/
def Tick (s : Sys E) : Prop :=
  ∀ p, TInv (s.prods p).tail (s.prods p).head (s.prods p).opt (s.prods p).over
    (fun t => tv p (s.pos t))

theorem tv_upd (p t : Nat) (f : Nat → Pos E) (y : Pos E) :
    (fun t' => tv p (upd f t y t')) = upd (fun t' => tv p (f t')) t (tv p y) := by
  funext t'
  simp only [upd]
  split <;> rfl

theorem plain_tv {y : Pos E} (h : Plain y) (p : Nat) : tv p y = .none := by
  cases y with
  | deq k p' d => cases d <;> first | rfl | exact absurd h id
  | _ => rfl

theorem Tick.mv {s s' : Sys E} {t : Nat} (h : Tick s) (ho : OwnInv s) (m : Mv s t s') :
    Tick s' := by
  -- a step that keeps the counters
  have same : ∀ (y : Pos E) (s1 : Sys E),
      (∀ p, (s1.prods p).tail = (s.prods p).tail ∧ (s1.prods p).head = (s.prods p).head ∧
        (s1.prods p).opt = (s.prods p).opt ∧ (s1.prods p).over = (s.prods p).over) →
      s1.pos = upd s.pos t y →
      (∀ p, (∃ oc, tv p (s.pos t) = .seen oc) ∨ tv p (s.pos t) = .none) →
      (∀ p, tv p y = .none ∨ ∃ oc, tv p y = .seen oc ∧ oc ≤ (s.prods p).over) → Tick s1 := by
    intro y s1 hc hp h0 hy p
    obtain ⟨h1, h2, h3, h4⟩ := hc p
    rw [h1, h2, h3, h4, hp, tv_upd]
    exact (h p).idle t _ (h0 p) (hy p)
  have keep : ∀ p, (s.prods p).tail = (s.prods p).tail ∧ (s.prods p).head = (s.prods p).head ∧
        (s.prods p).opt = (s.prods p).opt ∧ (s.prods p).over = (s.prods p).over :=
    fun _ => ⟨rfl, rfl, rfl, rfl⟩
  have keepP : ∀ (p : Nat) (x : Prod), x.tail = (s.prods p).tail → x.head = (s.prods p).head →
      x.opt = (s.prods p).opt → x.over = (s.prods p).over → ∀ q,
      (upd s.prods p x q).tail = (s.prods q).tail ∧ (upd s.prods p x q).head = (s.prods q).head ∧
      (upd s.prods p x q).opt = (s.prods q).opt ∧ (upd s.prods p x q).over = (s.prods q).over := by
    intro p x h1 h2 h3 h4 q
    exact ⟨upd_field Prod.tail _ _ _ h1 q, upd_field Prod.head _ _ _ h2 q,
      upd_field Prod.opt _ _ _ h3 q, upd_field Prod.over _ _ _ h4 q⟩
  have old : ∀ {x : Pos E}, s.pos t = x → (∀ p, tv p x = .none) →
      ∀ p, (∃ oc, tv p (s.pos t) = .seen oc) ∨ tv p (s.pos t) = .none :=
    fun hx h0 p => .inr (by rw [hx]; exact h0 p)
  cases m with
  | plainGo y hx hy => exact same y _ keep rfl (fun p => .inr (plain_tv hx p)) (fun p => .inl (plain_tv hy p))
  | plainRet r hx => exact same .idle _ keep rfl (fun p => .inr (plain_tv hx p)) (fun p => .inl rfl)
  | found e p hp => exact same _ _ keep rfl (old hp fun _ => rfl) (fun _ => .inl rfl)
  | made e hp => exact same _ _ keep rfl (old hp fun _ => rfl) (fun _ => .inl rfl)
  | aTail0 p e hp => exact same _ _ keep rfl (old hp fun _ => rfl) (fun _ => .inl rfl)
  | aTail1 p e hp => exact same _ _ keep rfl (old hp fun _ => rfl) (fun _ => .inl rfl)
  | aHead p e ct hp => exact same _ _ keep rfl (old hp fun _ => rfl) (fun _ => .inl rfl)
  | aRefuse p e ct hp => exact same .idle _ keep rfl (old hp fun _ => rfl) (fun _ => .inl rfl)
  | aTestFree p e ct en hp => exact same _ _ keep rfl (old hp fun _ => rfl) (fun _ => .inl rfl)
  | aTestFull p e ct hp => exact same _ _ keep rfl (old hp fun _ => rfl) (fun _ => .inl rfl)
  | aGrow p e ct hp =>
    exact same _ _ (keepP p _ rfl rfl rfl rfl) rfl (old hp fun _ => rfl) (fun _ => .inl rfl)
  | aKey p e ct en hp =>
    exact same _ _ (keepP p _ rfl rfl rfl rfl) rfl (old hp fun _ => rfl) (fun _ => .inl rfl)
  | aItail p e ct en hp =>
    exact same _ _ (keepP p _ rfl rfl rfl rfl) rfl (old hp fun _ => rfl) (fun _ => .inl rfl)
  | aGetOld p e ct en c b hp => exact same _ _ keep rfl (old hp fun _ => rfl) (fun _ => .inl rfl)
  | aGetNew p e ct en hp => exact same _ _ keep rfl (old hp fun _ => rfl) (fun _ => .inl rfl)
  | aResetQ p e ct en b hp => exact same _ _ keep rfl (old hp fun _ => rfl) (fun _ => .inl rfl)
  | aResetL p e ct en b hp => exact same _ _ keep rfl (old hp fun _ => rfl) (fun _ => .inl rfl)
  | aCons1 p e ct en b hp => exact same _ _ keep rfl (old hp fun _ => rfl) (fun _ => .inl rfl)
  | aVal p e ct en b hp =>
    exact same _ _ (keepP p _ rfl rfl rfl rfl) rfl (old hp fun _ => rfl) (fun _ => .inl rfl)
  | aTbQ p e ct b hp =>
    exact same _ _ (keepP p _ rfl rfl rfl rfl) rfl (old hp fun _ => rfl) (fun _ => .inl rfl)
  | aTbL p e ct b hp =>
    exact same _ _ (keepP p _ rfl rfl rfl rfl) rfl (old hp fun _ => rfl) (fun _ => .inl rfl)
  | aCons p e ct b hp => exact same _ _ keep rfl (old hp fun _ => rfl) (fun _ => .inl rfl)
  | aPub p e ct hp =>
    have hct := ho.ct t p e _ ct hp rfl
    intro q
    have h0 : tv q (s.pos t) = .none := by rw [hp]; rfl
    have h1 := (h q).idle t .none (.inr h0) (.inl rfl)
    simp only [ret_prods, prod_prods, ret_pos, prod_pos]
    rw [tv_upd]
    by_cases hq : q = p
    · subst hq
      rw [upd_same]
      exact h1.tail (by simp only; omega)
    · rw [upd_ne _ _ hq]
      exact h1
  | dTail k p hp =>
    exact same _ _ keep rfl (old hp fun _ => rfl) (fun _ => .inl rfl)
  | dOver k p tl hp =>
    refine same _ _ keep rfl (old hp fun _ => rfl) ?_
    intro q
    simp only [tv]
    split
    · next e => subst e; exact .inr ⟨_, rfl, Nat.le_refl _⟩
    · exact .inl rfl
  | dOptYes k p tl oc hp =>
    have hv : ∀ q, tv q (s.pos t) = if p = q then .seen oc else .none := by
      intro q; rw [hp]; rfl
    refine same _ _ keep rfl ?_ ?_
    · intro q; rw [hv q]; split
      · exact .inl ⟨_, rfl⟩
      · exact .inr rfl
    · intro q
      have hq := hv q
      simp only [tv]
      split
      · next e =>
        subst e
        rw [if_pos rfl] at hq
        obtain ⟨D, hD⟩ := h p
        exact .inr ⟨oc, rfl, hD.seen t oc hq⟩
      · exact .inl rfl
  | dOptGo k p tl oc y hp _ hy =>
    refine same y _ keep rfl ?_ (fun q => .inl (plain_tv hy q))
    intro q; rw [hp]; simp only [tv]; split
    · exact .inl ⟨_, rfl⟩
    · exact .inr rfl
  | dOptRet k p tl oc hp =>
    refine same .idle _ keep rfl ?_ (fun q => .inl rfl)
    intro q; rw [hp]; simp only [tv]; split
    · exact .inl ⟨_, rfl⟩
    · exact .inr rfl
  | dInc k p oc hp =>
    intro q
    simp only [go_prods, prod_prods, go_pos, prod_pos]
    rw [tv_upd]
    by_cases hq : q = p
    · subst hq
      rw [upd_same]
      have := (h q).inc t oc (by simp only [hp, tv, if_true])
      simpa only [tv, if_true] using this
    · rw [upd_ne _ _ hq]
      refine (h q).idle t _ (.inr ?_) (.inl ?_)
      · simp only [hp, tv, if_neg (Ne.symm hq)]
      · simp only [tv, if_neg (Ne.symm hq)]
  | dYes k p m oc hp hlt =>
    intro q
    simp only [go_prods, go_pos]
    rw [tv_upd]
    by_cases hq : q = p
    · subst hq
      have := (h q).yes t m oc (by simp only [hp, tv, if_true]) hlt
      simpa only [tv, if_true] using this
    · refine (h q).idle t _ (.inr ?_) (.inl ?_)
      · simp only [hp, tv, if_neg (Ne.symm hq)]
      · simp only [tv, if_neg (Ne.symm hq)]
  | dNo k p m oc hp hlt =>
    intro q
    simp only [go_prods, go_pos]
    rw [tv_upd]
    by_cases hq : q = p
    · subst hq
      have := (h q).no t m oc (by simp only [hp, tv, if_true])
      simpa only [tv, if_true] using this
    · refine (h q).idle t _ (.inr ?_) (.inl ?_)
      · simp only [hp, tv, if_neg (Ne.symm hq)]
      · simp only [tv, if_neg (Ne.symm hq)]
  | dHead k p m hp =>
    intro q
    simp only [go_prods, prod_prods, go_pos, prod_pos]
    rw [tv_upd]
    by_cases hq : q = p
    · subst hq
      rw [upd_same]
      exact (h q).take t m (by simp only [hp, tv, if_true])
    · rw [upd_ne _ _ hq]
      refine (h q).idle t _ (.inr ?_) (.inl rfl)
      simp only [hp, tv, if_neg (Ne.symm hq)]
  | dMissGo k p m y hp hy =>
    intro q
    simp only [go_prods, prod_prods, go_pos, prod_pos]
    rw [tv_upd, plain_tv hy]
    by_cases hq : q = p
    · subst hq
      rw [upd_same]
      exact (h q).lose t m (by simp only [hp, tv, if_true])
    · rw [upd_ne _ _ hq]
      refine (h q).idle t _ (.inr ?_) (.inl rfl)
      simp only [hp, tv, if_neg (Ne.symm hq)]
  | dMissRet k p m hp =>
    intro q
    simp only [ret_prods, prod_prods, ret_pos, prod_pos]
    rw [tv_upd]
    by_cases hq : q = p
    · subst hq
      rw [upd_same]
      exact (h q).lose t m (by simp only [hp, tv, if_true])
    · rw [upd_ne _ _ hq]
      refine (h q).idle t _ (.inr ?_) (.inl rfl)
      simp only [hp, tv, if_neg (Ne.symm hq)]
  | dIdx k p i hp => exact same _ _ keep rfl (old hp fun _ => rfl) (fun _ => .inl rfl)
  | dItail k p i h' hp => exact same _ _ keep rfl (old hp fun _ => rfl) (fun _ => .inl rfl)
  | dIkey k p i h' q base hp => exact same _ _ keep rfl (old hp fun _ => rfl) (fun _ => .inl rfl)
  | dVal k p i en b hp => exact same _ _ keep rfl (old hp fun _ => rfl) (fun _ => .inl rfl)
  | dTake k p i en b e hp => exact same _ _ keep rfl (old hp fun _ => rfl) (fun _ => .inl rfl)
  | dMarkLast k p i en b e hp => exact same _ _ keep rfl (old hp fun _ => rfl) (fun _ => .inl rfl)
  | dMark k p i en b e hp => exact same .idle _ keep rfl (old hp fun _ => rfl) (fun _ => .inl rfl)
  | dNull k p i en b e hp =>
    exact same _ _ (keepP p _ rfl rfl rfl rfl) rfl (old hp fun _ => rfl) (fun _ => .inl rfl)
  | dFree k p i b e hp => exact same .idle _ keep rfl (old hp fun _ => rfl) (fun _ => .inl rfl)

theorem Tick.call {s : Sys E} (h : Tick s) (t : Nat) (c : Call E) (hi : s.pos t = .idle) :
    Tick (begin s t c) := by
  intro p
  have : (fun t' => tv p ((begin s t c).pos t')) = upd (fun t' => tv p (s.pos t')) t .none := by
    rw [← plain_tv (start_plain c) p, ← tv_upd]
    rfl
  rw [this]
  exact (h p).idle t .none (.inr (by rw [hi]; rfl)) (.inl rfl)

theorem Tick.reach {q : Bool} {s : Sys E} (h : Reach q s) : Tick s := by
  induction h with
  | init => intro p; exact TInv.init
  | step hr hs ih =>
    cases hs with
    | call t c hi => exact ih.call t c hi
    | tick t c h => exact ih.mv (OwnInv.reach hr) (tick_mv h)

end Verif.LinkedQueue
