import Verif.LinkedQueue.Log
/-!
# Every reachable state
-/
namespace Verif.LinkedQueue

variable {E : Type}

/-- All of it, with the account hidden. -/
def Good (s : Sys E) : Prop := ∃ Γ src hit, Inv s Γ ∧ InvL s Γ src hit

theorem Mv.busy {s s' : Sys E} {t : Nat} (m : Mv s t s') : s.pos t ≠ .idle := by
  cases m <;> first
    | assumption
    | (intro h; simp_all)

theorem Inv.uniqIx {s : Sys E} {Γ : Nat → G E} (h : Inv s Γ) {t t' p i : Nat}
    (h1 : posIx (s.pos t) = some (p, i)) (h2 : posIx (s.pos t') = some (p, i)) : t = t' := by
  obtain ⟨k, d, e1, e2⟩ := posIx_deq h1
  obtain ⟨k', d', f1, f2⟩ := posIx_deq h2
  exact h.c.uniq t t' k k' p d d' i e1 f1 e2 f2

theorem Good.mv {s s' : Sys E} {t : Nat} (h : Good s) (m : Mv s t s') : Good s' := by
  obtain ⟨Γ, src, hit, I, L⟩ := h
  obtain ⟨Γ', I', R⟩ := I.mv m
  have hb := m.busy
  have hht : ∀ p, (s.prods p).head ≤ (s.prods p).tail := fun p => (I.k p).head_le
  -- a step that ends no call
  have go : ∀ (y : Pos E), s'.pos = upd s.pos t y → s'.log = s.log → s'.own = s.own →
      s'.began = s.began → s'.clock = s.clock →
      (∀ p, (s'.prods p).tail = (s.prods p).tail) →
      (∀ p, (s'.prods p).head = (s.prods p).head) →
      posIx y = posIx (s.pos t) → Good s' :=
    fun y h1 h2 h3 h4 h5 h6 h7 h8 =>
      ⟨Γ', src, hit, I', L.quiet R y h1 h2 (fun t' p h => by rw [h3]; exact h) h4 h5 h6 h7 hb h8⟩
  have ret : ∀ (r : Res E), Dull r → s'.pos = upd s.pos t .idle →
      s'.log = s.log ++ [{ thr := t, res := r, began := s.began t, ended := s.clock }] →
      s'.own = s.own → s'.began = s.began → s'.clock = s.clock + 1 →
      (∀ p, (s'.prods p).tail = (s.prods p).tail) →
      (∀ p, (s'.prods p).head = (s.prods p).head) →
      posIx (s.pos t) = none → Good s' :=
    fun r hd h1 h2 h3 h4 h5 h6 h7 h8 =>
      ⟨Γ', src, hit, I', L.dull R r hd h1 h2 h3 h4 h5 h6 h7 hb h8⟩
  cases m with
  | plainGo y hx hy =>
    exact go y rfl rfl rfl rfl rfl (fun _ => rfl) (fun _ => rfl)
      (by rw [posIx_plain hx, posIx_plain hy])
  | plainRet r hx hd =>
    exact ret r hd rfl rfl rfl rfl rfl (fun _ => rfl) (fun _ => rfl) (posIx_plain hx)
  | found e p hp => exact go _ rfl rfl rfl rfl rfl (fun _ => rfl) (fun _ => rfl) (by rw [hp]; rfl)
  | made e hp hown =>
    refine ⟨Γ', src, hit, I', L.quiet R _ rfl rfl ?_ rfl rfl (fun _ => rfl) (fun _ => rfl) hb
      (by rw [hp]; rfl)⟩
    intro t' p h1
    show upd s.own t (some s.count) t' = some p
    have : t' ≠ t := by intro e; subst e; rw [hown] at h1; cases h1
    rw [upd_ne _ _ this]; exact h1
  | aTail0 p e hp => exact go _ rfl rfl rfl rfl rfl (fun _ => rfl) (fun _ => rfl) (by rw [hp]; rfl)
  | aTail1 p e hp => exact go _ rfl rfl rfl rfl rfl (fun _ => rfl) (fun _ => rfl) (by rw [hp]; rfl)
  | aHead p e ct hp =>
    exact go _ rfl rfl rfl rfl rfl (fun _ => rfl) (fun _ => rfl) (by rw [hp]; rfl)
  | aRefuse p e ct hp hlt =>
    have := I.o.ct t p e _ ct hp rfl
    have := hht p
    omega
  | aTestFree p e ct en hp =>
    exact go _ rfl rfl rfl rfl rfl (fun _ => rfl) (fun _ => rfl) (by rw [hp]; rfl)
  | aTestFull p e ct hp =>
    exact go _ rfl rfl rfl rfl rfl (fun _ => rfl) (fun _ => rfl) (by rw [hp]; rfl)
  | aGrow p e ct hp =>
    exact go _ rfl rfl rfl rfl rfl (upd_field Prod.tail s.prods p (newHdr (s.prods p)) rfl)
      (upd_field Prod.head s.prods p (newHdr (s.prods p)) rfl) (by rw [hp]; rfl)
  | aKey p e ct en hp =>
    exact go _ rfl rfl rfl rfl rfl (upd_field Prod.tail s.prods p (keyP (s.prods p) en ct) rfl)
      (upd_field Prod.head s.prods p (keyP (s.prods p) en ct) rfl) (by rw [hp]; rfl)
  | aItail p e ct en hp =>
    exact go _ rfl rfl rfl rfl rfl (upd_field Prod.tail s.prods p (itailP (s.prods p)) rfl)
      (upd_field Prod.head s.prods p (itailP (s.prods p)) rfl) (by rw [hp]; rfl)
  | aGetOld p e ct en c b hp =>
    exact go _ rfl rfl rfl rfl rfl (fun _ => rfl) (fun _ => rfl) (by rw [hp]; rfl)
  | aGetNew p e ct en hp =>
    exact go _ rfl rfl rfl rfl rfl (fun _ => rfl) (fun _ => rfl) (by rw [hp]; rfl)
  | aResetQ p e ct en b hp =>
    exact go _ rfl rfl rfl rfl rfl (fun _ => rfl) (fun _ => rfl) (by rw [hp]; rfl)
  | aResetL p e ct en b hp =>
    exact go _ rfl rfl rfl rfl rfl (fun _ => rfl) (fun _ => rfl) (by rw [hp]; rfl)
  | aCons1 p e ct en b hp =>
    exact go _ rfl rfl rfl rfl rfl (fun _ => rfl) (fun _ => rfl) (by rw [hp]; rfl)
  | aVal p e ct en b hp =>
    exact go _ rfl rfl rfl rfl rfl
      (upd_field Prod.tail s.prods p (valP (s.prods p) en (some b)) rfl)
      (upd_field Prod.head s.prods p (valP (s.prods p) en (some b)) rfl) (by rw [hp]; rfl)
  | aTbQ p e ct b hp =>
    exact go _ rfl rfl rfl rfl rfl
      (upd_field Prod.tail s.prods p { s.prods p with tailBlock := some b } rfl)
      (upd_field Prod.head s.prods p { s.prods p with tailBlock := some b } rfl) (by rw [hp]; rfl)
  | aTbL p e ct b hp =>
    exact go _ rfl rfl rfl rfl rfl
      (upd_field Prod.tail s.prods p { s.prods p with tailBlock := some b } rfl)
      (upd_field Prod.head s.prods p { s.prods p with tailBlock := some b } rfl) (by rw [hp]; rfl)
  | aCons p e ct b hp =>
    exact go _ rfl rfl rfl rfl rfl (fun _ => rfl) (fun _ => rfl) (by rw [hp]; rfl)
  | aPub p e ct hp =>
    obtain ⟨a1, a2, a3, a4⟩ := I.c.acl t p e _ hp
    have hct := I.o.ct t p e _ ct hp rfl
    refine ⟨Γ', _, hit, I', L.pub R rfl rfl rfl rfl rfl ?_ ?_
      (upd_field Prod.head s.prods p { s.prods p with tail := ct + 1 } rfl) hht hb
      (by rw [hp]; rfl) (I.o.add t p e _ hp) (by rw [a3]; rfl)⟩
    · show (upd s.prods p { s.prods p with tail := ct + 1 } p).tail = _
      rw [upd_same, hct]
    · intro q hq
      show (upd s.prods p { s.prods p with tail := ct + 1 } q).tail = _
      rw [upd_ne _ _ hq]
  | dTail k p hp => exact go _ rfl rfl rfl rfl rfl (fun _ => rfl) (fun _ => rfl) (by rw [hp]; rfl)
  | dOver k p tl hp =>
    exact go _ rfl rfl rfl rfl rfl (fun _ => rfl) (fun _ => rfl) (by rw [hp]; rfl)
  | dOptYes k p tl oc hp =>
    exact go _ rfl rfl rfl rfl rfl (fun _ => rfl) (fun _ => rfl) (by rw [hp]; rfl)
  | dOptGo k p tl oc y hp _ hy =>
    exact go y rfl rfl rfl rfl rfl (fun _ => rfl) (fun _ => rfl)
      (by rw [hp, posIx_plain hy]; rfl)
  | dOptRet k p tl oc hp =>
    exact ret (.polled none) trivial rfl rfl rfl rfl rfl (fun _ => rfl) (fun _ => rfl)
      (by rw [hp]; rfl)
  | dInc k p oc hp =>
    exact go _ rfl rfl rfl rfl rfl
      (upd_field Prod.tail s.prods p { s.prods p with opt := (s.prods p).opt + 1 } rfl)
      (upd_field Prod.head s.prods p { s.prods p with opt := (s.prods p).opt + 1 } rfl)
      (by rw [hp]; rfl)
  | dYes k p m oc hp =>
    exact go _ rfl rfl rfl rfl rfl (fun _ => rfl) (fun _ => rfl) (by rw [hp]; rfl)
  | dNo k p m oc hp =>
    exact go _ rfl rfl rfl rfl rfl (fun _ => rfl) (fun _ => rfl) (by rw [hp]; rfl)
  | dHead k p m hp =>
    refine ⟨Γ', src, hit, I', L.claim (p := p) R _ rfl rfl rfl rfl rfl
      (upd_field Prod.tail s.prods p { s.prods p with head := (s.prods p).head + 1 } rfl)
      ?_ ?_ hb (by rw [hp]; rfl) rfl⟩
    · show (upd s.prods p { s.prods p with head := (s.prods p).head + 1 } p).head = _
      rw [upd_same]
    · intro q hq
      show (upd s.prods p { s.prods p with head := (s.prods p).head + 1 } q).head = _
      rw [upd_ne _ _ hq]
  | dMissGo k p m y hp hy =>
    exact go y rfl rfl rfl rfl rfl
      (upd_field Prod.tail s.prods p { s.prods p with over := (s.prods p).over + 1 } rfl)
      (upd_field Prod.head s.prods p { s.prods p with over := (s.prods p).over + 1 } rfl)
      (by rw [hp, posIx_plain hy]; rfl)
  | dMissRet k p m hp =>
    exact ret (.polled none) trivial rfl rfl rfl rfl rfl
      (upd_field Prod.tail s.prods p { s.prods p with over := (s.prods p).over + 1 } rfl)
      (upd_field Prod.head s.prods p { s.prods p with over := (s.prods p).over + 1 } rfl)
      (by rw [hp]; rfl)
  | dIdx k p i hp => exact go _ rfl rfl rfl rfl rfl (fun _ => rfl) (fun _ => rfl) (by rw [hp]; rfl)
  | dItail k p i h hp =>
    exact go _ rfl rfl rfl rfl rfl (fun _ => rfl) (fun _ => rfl) (by rw [hp]; rfl)
  | dIkey k p i h q base hp =>
    exact go _ rfl rfl rfl rfl rfl (fun _ => rfl) (fun _ => rfl) (by rw [hp]; rfl)
  | dVal k p i en b hp =>
    exact go _ rfl rfl rfl rfl rfl (fun _ => rfl) (fun _ => rfl) (by rw [hp]; rfl)
  | dTake k p i en b e hp =>
    exact go _ rfl rfl rfl rfl rfl (fun _ => rfl) (fun _ => rfl) (by rw [hp]; rfl)
  | dMarkLast k p i en b e hp =>
    exact go _ rfl rfl rfl rfl rfl (fun _ => rfl) (fun _ => rfl) (by rw [hp]; rfl)
  | dMark k p i en b e hp =>
    have hx : posIx (s.pos t) = some (p, i) := by rw [hp]; rfl
    exact ⟨Γ', src, _, I', L.got R rfl rfl rfl rfl rfl (fun _ => rfl) (fun _ => rfl) hht hb hx
      (fun t' h => I.uniqIx h hx) (I.c.dcl t k p _ hp).1 (R.mark k p i en b e hp)⟩
  | dNull k p i en b e hp =>
    exact go _ rfl rfl rfl rfl rfl (upd_field Prod.tail s.prods p (valP (s.prods p) en none) rfl)
      (upd_field Prod.head s.prods p (valP (s.prods p) en none) rfl) (by rw [hp]; rfl)
  | dFree k p i b e hp =>
    have hx : posIx (s.pos t) = some (p, i) := by rw [hp]; rfl
    obtain ⟨d1, d2⟩ := I.c.dcl t k p _ hp
    exact ⟨Γ', src, _, I', L.got R rfl rfl rfl rfl rfl (fun _ => rfl) (fun _ => rfl) hht hb hx
      (fun t' h => I.uniqIx h hx) d1 (R.done _ _ _ d2)⟩

theorem Good.init (q : Bool) : Good (init q : Sys E) := by
  refine ⟨fun _ => newG, fun _ _ => 0, fun _ => (0, 0), ⟨InvC.init q, InvH.init q,
    OwnInv.reach .init, Tick.reach .init⟩, ?_⟩
  have hno : ∀ (n : Nat) (e : E), ¬ Hit (LinkedQueue.init q : Sys E).log n e := by
    rintro n e ⟨r, h, _⟩; simp [LinkedQueue.init] at h
  refine ⟨?_, ?_, ?_, ?_, ?_, ?_, ?_, ?_, ?_, ?_, ?_, ?_⟩
  · intro p i h; simp [LinkedQueue.init, newProd] at h
  · intro n r e h; simp [LinkedQueue.init] at h
  · intro p i j _ h; simp [LinkedQueue.init, newProd] at h
  · intro n e h; exact absurd h (hno n e)
  · intro n m e e' h; exact absurd h (hno n e)
  · intro n e t h; exact absurd h (hno n e)
  · intro p i h; simp [LinkedQueue.init, newProd] at h
  · intro n m r r' e e' h; simp [LinkedQueue.init] at h
  · intro n r e t p i h; simp [LinkedQueue.init] at h
  · intro n r h; simp [LinkedQueue.init] at h
  · intro t h; exact absurd rfl h
  · intro n r e h; simp [LinkedQueue.init] at h

theorem Good.step {s s' : Sys E} (h : Good s) (st : Step s s') : Good s' := by
  cases st with
  | call t c hi =>
    obtain ⟨Γ, src, hit, I, L⟩ := h
    exact ⟨Γ, src, hit, I.call t c hi, L.call t c hi⟩
  | tick t c h' => exact h.mv (tick_mv h')

theorem Good.reach {q : Bool} {s : Sys E} (h : Reach q s) : Good s := by
  induction h with
  | init => exact .init q
  | step _ st ih => exact ih.step st

/-! ### Nothing undefined -/

theorem Inv.test_ok {s : Sys E} {Γ : Nat → G E} (I : Inv s Γ) {t p : Nat} {e : E} {ct en : Nat}
    (hp : s.pos t = .add p e (.test ct)) : ((s.prods p).ents en).key ≠ none →
    ((s.prods p).ents en).value ≠ none := by
  intro hk
  have hr := I.c.atRest I.o hp rfl
  rcases (I.c.idx p).wrote en hk with h | ⟨h, _⟩
  · exact h
  · have := hr.1; omega

/-- A thread inside a call can always go on. -/
theorem Inv.go {s : Sys E} {Γ : Nat → G E} (I : Inv s Γ) (t c : Nat) (hb : s.pos t ≠ .idle) :
    ∃ s', tick s t c = some s' := by
  have hht : ∀ p, (s.prods p).head ≤ (s.prods p).tail := fun p => (I.k p).head_le
  unfold tick
  cases hp : s.pos t with
  | idle => exact absurd hp hb
  | find e =>
    simp only
    split <;> exact ⟨_, rfl⟩
  | add p e a =>
    simp only
    cases a with
    | head ct =>
      simp only [addStep]
      split <;> exact ⟨_, rfl⟩
    | test ct =>
      have := I.test_ok (en := ((s.prods p).hdrs (s.prods p).cur).index
        ((((s.prods p).hdrs (s.prods p).cur).tail + 1) %
          ((s.prods p).hdrs (s.prods p).cur).cap)) hp
      simp only [addStep]
      split
      · exact ⟨_, rfl⟩
      · exact ⟨_, rfl⟩
      · exact ⟨_, rfl⟩
      · next h1 h2 => exact absurd h2 (this (by rw [h1]; simp))
    | cons1 ct en b =>
      have hop := I.o.opens t p e _ hp rfl
      have hct := I.o.ct t p e _ ct hp rfl
      have hw : hand s.quiet (s.pos t) = some (b, none, true) := by rw [hp]; rfl
      have h1 := (I.h.hands t b none true hw).2.2.2.1 (ct % 32) (Nat.mod_lt _ (by decide))
      have h2 : (s.heap b).slots (ct % 32) = none := by rw [h1]; split <;> rfl
      simp only [addStep, h2]
      exact ⟨_, rfl⟩
    | cons ct =>
      obtain ⟨⟨a1, a2, a3⟩, a4, a5⟩ := I.c.acl t p e _ hp
      have hct := I.o.ct t p e _ ct hp rfl
      have hs := I.c.stat p
      have hl := hs.live (s.prods p).tail (by omega) hs.tail_nd
      cases hbk : (Γ p).blk ((s.prods p).tail / 32) with
      | none => exact absurd hbk hl
      | some b =>
        have h1 := (I.h.blk p _ b hbk).2.2.1 ((s.prods p).tail % 32) (Nat.mod_lt _ (by decide))
        rw [Nat.div_add_mod, hs.raw _ (Nat.le_refl _) (fun _ => a4)] at h1
        have h2 : (s.heap b).slots (ct % 32) = none := by rw [hct]; exact h1
        simp only [addStep, a5, hbk, h2]
        exact ⟨_, rfl⟩
    | _ => exact ⟨_, rfl⟩
  | scanH n cnt best bsz tl =>
    simp only
    split
    · exact ⟨_, rfl⟩
    · split <;> exact ⟨_, rfl⟩
  | deq k p d =>
    simp only
    have hd := I.c.dcl t k p d hp
    have hi := I.c.idx p
    have hs := I.c.stat p
    cases d with
    | opt tl oc => simp only [deqStep]; split <;> exact ⟨_, rfl⟩
    | again m oc => simp only [deqStep]; split <;> exact ⟨_, rfl⟩
    | ikey i h q =>
      obtain ⟨d1, ⟨e, d2⟩, d3, b, d4, d5, d6⟩ := hd
      have hl := hs.alive (hht p) d1 (by rw [d2]; rfl)
      have h1 := hi.rings h (i / 32) b d3 hl d4 d5
      have h2 := hi.keys (i / 32) b hl d4 (by have := hi.cntLe h d3; omega)
      rw [← h1, ← d6] at h2
      simp only [deqStep, h2]
      exact ⟨_, rfl⟩
    | val i en =>
      obtain ⟨d1, ⟨e, d2⟩, d3⟩ := hd
      have hl := hs.alive (hht p) d1 (by rw [d2]; rfl)
      cases hbk : (Γ p).blk (i / 32) with
      | none => exact absurd hbk hl
      | some b =>
        have := hi.val _ b hbk
        rw [← d3] at this
        simp only [deqStep, this]
        exact ⟨_, rfl⟩
    | take i en b =>
      obtain ⟨d1, ⟨e, d2⟩, d3, d4⟩ := hd
      have h1 := (I.h.blk p _ b d4).2.2.1 (i % 32) (Nat.mod_lt _ (by decide))
      rw [Nat.div_add_mod, d2] at h1
      have h2 : (s.heap b).slots (i % 32) = some e := h1
      simp only [deqStep, h2]
      exact ⟨_, rfl⟩
    | mark i en b e => simp only [deqStep]; split <;> exact ⟨_, rfl⟩
    | _ => exact ⟨_, rfl⟩
  | others best =>
    simp only
    split <;> exact ⟨_, rfl⟩
  | _ => exact ⟨_, rfl⟩

end Verif.LinkedQueue
