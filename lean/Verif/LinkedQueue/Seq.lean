import Verif.LinkedQueue.Cost
/-!
# Calls made one after the other
-/
namespace Verif.LinkedQueue

variable {E : Type}

theorem SeqReach.reach {q : Bool} {s : Sys E} (h : SeqReach q s) : Reach q s := by
  induction h with
  | init => exact .init
  | call t c _ hs ih => exact .step ih (.call t c (hs t))
  | tick t c _ h ih => exact .step ih (.tick t c h)

theorem SeqReach.one {q : Bool} {s : Sys E} (h : SeqReach q s) :
    ∃ b, ∀ t, t ≠ b → s.pos t = .idle := by
  induction h with
  | init => exact ⟨0, fun _ _ => rfl⟩
  | call t c _ hs ih => exact ⟨t, fun t' e => (upd_ne _ _ e).trans (hs t')⟩
  | @tick s s' t c _ h ih =>
    obtain ⟨b, hb⟩ := ih
    have : t = b := by
      by_cases e : t = b
      · exact e
      · exact absurd (hb t e) (tick_mv h).busy
    subst this
    exact ⟨t, fun t' e => by rw [tick_pos h t' e]; exact hb t' e⟩

theorem Mv.own {s s' : Sys E} {t : Nat} (m : Mv s t s') :
    s'.own = s.own ∨ (s.own t = none ∧ s'.own = upd s.own t (some s.count)) := by
  cases m <;> first | exact .inl rfl | exact .inr ⟨‹_›, rfl⟩

/-- The kinds of answer a call can give. -/
inductive Kind (y : Pos E) (r : Res E) : Prop where
  | add (e : E) (a : AStg) (p : Nat) : y = .add p e a → (r = .added e ∨ r = .refused e) → Kind y r
  | poll (o : Option E) : InPoll y → r = .polled o → Kind y r
  | count (z : Bool) (acc : Nat) : r = answer z acc →
      (y = .count z ∨ (∃ n a, y = .countT z n a) ∨ ∃ n a tl, y = .countH z n a tl) → Kind y r

theorem tick_kind {s s' : Sys E} {t c : Nat} (h : tick s t c = some s') :
    s'.log = s.log ∨ ∃ r : Rec E, s'.log = s.log ++ [r] ∧ r.thr = t ∧ s'.pos t = .idle ∧
      Kind (s.pos t) r.res := by
  unfold tick at h
  have hscan : ∀ n cnt best bsz, InPoll (s.pos t) → scanNext s t n cnt best bsz = s' →
      s'.log = s.log ∨
        ∃ r : Rec E, s'.log = s.log ++ [r] ∧ r.thr = t ∧ s'.pos t = .idle ∧
      Kind (s.pos t) r.res := by
    intro n cnt best bsz hp h
    subst h
    unfold scanNext
    split
    · exact .inl rfl
    · split
      · exact .inr ⟨_, rfl, rfl, upd_same _ _ _, .poll none hp rfl⟩
      · exact .inl rfl
  have hmiss : ∀ (s1 : Sys E) p k, s1.log = s.log → InPoll (s.pos t) → missed s1 t p k = s' →
      s'.log = s.log ∨
        ∃ r : Rec E, s'.log = s.log ++ [r] ∧ r.thr = t ∧ s'.pos t = .idle ∧
      Kind (s.pos t) r.res := by
    intro s1 p k hl hp h
    subst h
    rcases missed_cases s1 t p k with ⟨y, _, _, he⟩ | he
    · rw [he]; exact .inl hl
    · rw [he]
      exact .inr ⟨_, by rw [← hl]; rfl, rfl, upd_same _ _ _, .poll none hp rfl⟩
  have hcount : ∀ z n acc, (s.pos t = .count z ∨ (∃ n a, s.pos t = .countT z n a) ∨
        ∃ n a tl, s.pos t = .countH z n a tl) → countNext s t z n acc = s' →
      s'.log = s.log ∨
        ∃ r : Rec E, s'.log = s.log ++ [r] ∧ r.thr = t ∧ s'.pos t = .idle ∧
      Kind (s.pos t) r.res := by
    intro z n acc hp h
    subst h
    unfold countNext
    split
    · exact .inr ⟨_, rfl, rfl, upd_same _ _ _, .count z acc rfl hp⟩
    · exact .inl rfl
  cases hp : s.pos t with
  | idle => rw [hp] at h; cases h
  | find e =>
    rw [hp] at h
    simp only at h
    split at h <;> cases h <;> exact .inl rfl
  | add p e a =>
    rw [hp] at h
    cases a <;> simp only [addStep, requisition] at h
    case head ct =>
      split at h <;> cases h
      · exact .inl rfl
      · exact .inr ⟨_, rfl, rfl, upd_same _ _ _, .add e _ p rfl (.inr rfl)⟩
    case test ct =>
      split at h <;> first | cases h | skip
      all_goals exact .inl rfl
    case get ct en => split at h <;> cases h <;> exact .inl rfl
    case cons1 ct en b => split at h <;> cases h; exact .inl rfl
    case cons ct =>
      split at h
      · cases h
      · split at h <;> cases h; exact .inl rfl
    case pub ct => cases h; exact .inr ⟨_, rfl, rfl, upd_same _ _ _, .add e _ p rfl (.inl rfl)⟩
    all_goals (cases h; exact .inl rfl)
  | poll =>
    have hx := hscan s.count 0 0 0 (by rw [hp]; trivial)
    rw [hp] at h hx; cases h
    exact hx rfl
  | scan n cnt best bsz => rw [hp] at h; cases h; exact .inl rfl
  | scanH n cnt best bsz tl =>
    have hx := fun n cnt best bsz => hscan n cnt best bsz (by rw [hp]; trivial)
    rw [hp] at h hx
    simp only at h
    split at h
    · cases h; exact hx _ _ _ _ rfl
    · split at h <;> cases h <;> exact hx _ _ _ _ rfl
  | deq k p d =>
    have hx := fun s1 h1 => hmiss s1 p k h1 (by rw [hp]; trivial)
    rw [hp] at h hx
    simp only at h
    cases d <;> simp only [deqStep] at h
    case opt tl oc =>
      split at h <;> cases h
      · exact .inl rfl
      · exact hx s rfl rfl
    case miss m => cases h; exact hx (s.prod p _) rfl rfl
    case again m oc => split at h <;> cases h <;> exact .inl rfl
    case ikey i h' q => split at h <;> cases h; exact .inl rfl
    case val i en => split at h <;> cases h; exact .inl rfl
    case take i en b => split at h <;> cases h; exact .inl rfl
    case mark i en b e =>
      split at h <;> cases h
      · exact .inl rfl
      · exact .inr ⟨_, rfl, rfl, upd_same _ _ _, .poll (some e) trivial rfl⟩
    case free i b e => cases h; exact .inr ⟨_, rfl, rfl, upd_same _ _ _, .poll (some e) trivial rfl⟩
    all_goals (cases h; exact .inl rfl)
  | others best =>
    rw [hp] at h
    simp only at h
    split at h <;> cases h
    · exact .inr ⟨_, rfl, rfl, upd_same _ _ _, .poll none trivial rfl⟩
    · exact .inl rfl
  | count z =>
    have hx := hcount z s.count 0 (.inl hp)
    rw [hp] at h hx; cases h
    exact hx rfl
  | countT z n acc => rw [hp] at h; cases h; exact .inl rfl
  | countH z n acc tl =>
    have hx := fun n acc => hcount z n acc (.inr (.inr ⟨_, _, _, hp⟩))
    rw [hp] at h hx; cases h
    exact hx _ _ rfl

/-- Which call a thread is in. -/
def phase : Pos E → Nat
  | .idle => 0
  | .find _ => 1
  | .add .. => 1
  | .poll => 2
  | .scan .. => 2
  | .scanH .. => 2
  | .deq .. => 2
  | .others _ => 2
  | .count _ => 3
  | .countT .. => 3
  | .countH .. => 3

theorem phase_poll {y : Pos E} : InPoll y ↔ phase y = 2 := by
  cases y <;> simp [InPoll, phase]

theorem nextDeq_phase {best : Nat} : ∀ (m : Nat) {y : Pos E}, nextDeq best m = some y →
    phase y = 2
  | 0, y, h => by simp [nextDeq] at h
  | m + 1, y, h => by
    rw [nextDeq] at h
    split at h
    · exact nextDeq_phase m h
    · cases h; rfl

theorem tick_phase {s s' : Sys E} {t c : Nat} (h : tick s t c = some s') :
    phase (s'.pos t) = 0 ∨ phase (s'.pos t) = phase (s.pos t) := by
  unfold tick at h
  have hscan : ∀ n cnt best bsz, phase ((scanNext s t n cnt best bsz).pos t) = 0 ∨
      phase ((scanNext s t n cnt best bsz).pos t) = 2 := by
    intro n cnt best bsz
    unfold scanNext
    split
    · rw [go_pos, upd_same]; exact .inr rfl
    · split
      · rw [ret_pos, upd_same]; exact .inl rfl
      · rw [go_pos, upd_same]; exact .inr rfl
  have hmiss : ∀ (s1 : Sys E) p k, phase ((missed s1 t p k).pos t) = 0 ∨
      phase ((missed s1 t p k).pos t) = 2 := by
    intro s1 p k
    cases k with
    | first => simp only [missed, go_pos, upd_same]; exact .inr rfl
    | rest best n =>
      simp only [missed]
      split
      · rw [ret_pos, upd_same]; exact .inl rfl
      · next y hy => rw [go_pos, upd_same]; exact .inr (nextDeq_phase _ hy)
  have hcount : ∀ z n acc, phase ((countNext s t z n acc).pos t) = 0 ∨
      phase ((countNext s t z n acc).pos t) = 3 := by
    intro z n acc
    unfold countNext
    split
    · rw [ret_pos, upd_same]; exact .inl rfl
    · rw [go_pos, upd_same]; exact .inr rfl
  cases hp : s.pos t with
  | idle => rw [hp] at h; cases h
  | find e =>
    rw [hp] at h
    simp only at h
    split at h <;> cases h <;> (rw [go_pos, upd_same]; exact .inr rfl)
  | add p e a =>
    rw [hp] at h
    cases a <;> simp only [addStep, requisition] at h
    case head ct => split at h <;> cases h <;> simp [phase]
    case test ct =>
      split at h <;> first | cases h | skip
      all_goals simp [phase]
    case get ct en => split at h <;> cases h <;> simp [phase]
    case cons1 ct en b => split at h <;> cases h; simp [phase]
    case cons ct =>
      split at h
      · cases h
      · split at h <;> cases h; simp [phase]
    all_goals (cases h; simp [phase])
  | poll => rw [hp] at h; cases h; exact hscan _ _ _ _
  | scan n cnt best bsz => rw [hp] at h; cases h; rw [go_pos, upd_same]; exact .inr rfl
  | scanH n cnt best bsz tl =>
    rw [hp] at h
    simp only at h
    split at h
    · cases h; exact hscan _ _ _ _
    · split at h <;> cases h <;> exact hscan _ _ _ _
  | deq k p d =>
    rw [hp] at h
    simp only at h
    cases d <;> simp only [deqStep] at h
    case opt tl oc =>
      split at h <;> cases h
      · rw [go_pos, upd_same]; exact .inr rfl
      · exact hmiss _ _ _
    case miss m => cases h; exact hmiss _ _ _
    case again m oc => split at h <;> cases h <;> (rw [go_pos, upd_same]; exact .inr rfl)
    case ikey i h' q => split at h <;> cases h; rw [go_pos, upd_same]; exact .inr rfl
    case val i en => split at h <;> cases h; rw [go_pos, upd_same]; exact .inr rfl
    case take i en b => split at h <;> cases h; rw [go_pos, upd_same]; exact .inr rfl
    case mark i en b e =>
      split at h <;> cases h
      · rw [go_pos, upd_same]; exact .inr rfl
      · rw [ret_pos, upd_same]; exact .inl rfl
    case free i b e => cases h; rw [ret_pos, upd_same]; exact .inl rfl
    all_goals (cases h; rw [go_pos, upd_same]; exact .inr rfl)
  | others best =>
    rw [hp] at h
    simp only at h
    split at h <;> cases h
    · rw [ret_pos, upd_same]; exact .inl rfl
    · next y hy => rw [go_pos, upd_same]; exact .inr (nextDeq_phase _ hy)
  | count z => rw [hp] at h; cases h; exact hcount _ _ _
  | countT z n acc => rw [hp] at h; cases h; rw [go_pos, upd_same]; exact .inr rfl
  | countH z n acc tl => rw [hp] at h; cases h; exact hcount _ _ _

/-- The list is what the indexes from `lo` to `hi` hold. -/
def Seg (g : G E) (lo hi : Nat) (l : List E) : Prop :=
  l.length = hi - lo ∧ ∀ (j : Nat), j < hi - lo → l[j]? = (g.st (lo + j)).val

/-- The one call in progress knows what it needs. -/
def Claim (s : Sys E) (y : Pos E) : Prop :=
  (phase y = 2 → PollOk s y ∨ adds s.log = gets s.log) ∧
  (phase y = 3 → ∃ z, CountOk s z (adds s.log - gets s.log) y)

theorem Claim.own {s s' : Sys E} {t c : Nat} (hr : Ranged s.count (s.pos t))
    (h : Claim s (s.pos t)) (ht : tick s t c = some s') : Claim s' (s'.pos t) := by
  have hlog : phase (s'.pos t) ≠ 0 → s'.log = s.log := by
    intro h0
    rcases tick_kind ht with h1 | ⟨r, _, _, h2, _⟩
    · exact h1
    · rw [h2] at h0; exact absurd rfl h0
  have hph := tick_phase ht
  constructor
  · intro h2
    rw [hlog (by omega)]
    rcases h.1 (by omega) with h3 | h3
    · exact .inl (PollOk.own hr h3 (N := s.log.length)
        (fun m r h1 h2 => absurd (List.getElem?_eq_none h2 ▸ h1) (by simp)) ht).1
    · exact .inr h3
  · intro h2
    rw [hlog (by omega)]
    obtain ⟨z, h3⟩ := h.2 (by omega)
    exact ⟨z, (h3.own (Says.start _ _) ht).1⟩

/-- The store is what the producers hold. -/
structure SeqInv (s : Sys E) (Γ : Nat → G E) (lo : Nat → Nat) (q : Store E) : Prop where
  inv : Inv s Γ
  serves : Store.Serves s.log q
  size : q.size + gets s.log = adds s.log
  free : ∀ t, s.own t = .none → q.of t = []
  seg : ∀ t p, s.own t = some p → Seg (Γ p) (lo p) (s.prods p).tail (q.of t)
  mine : ∀ t p i, posIx (s.pos t) = some (p, i) → lo p = i ∧ (s.prods p).head = i + 1
  rest : ∀ p, (∀ t i, posIx (s.pos t) ≠ some (p, i)) → lo p = (s.prods p).head
  claim : ∀ t, Claim s (s.pos t)

theorem Seg.rel {s : Sys E} {t p lo hi : Nat} {Γ Γ' : Nat → G E} {l : List E}
    (R : Rel s t Γ Γ') (h : Seg (Γ p) lo hi l) : Seg (Γ' p) lo hi l := by
  refine ⟨h.1, fun j hj => ?_⟩
  have h2 := h.2 j hj
  have : j < l.length := by rw [h.1]; exact hj
  rw [List.getElem?_eq_getElem this] at h2 ⊢
  exact (R.val p _ _ h2.symm).symm

theorem SeqInv.lo_le {s : Sys E} {Γ : Nat → G E} {lo : Nat → Nat} {q : Store E}
    (h : SeqInv s Γ lo q) (p : Nat) : lo p ≤ (s.prods p).head := by
  by_cases hx : ∃ t i, posIx (s.pos t) = some (p, i)
  · obtain ⟨t, i, hx⟩ := hx
    have := h.mine t p i hx
    omega
  · rw [h.rest p (fun t i e => hx ⟨t, i, e⟩)]
    exact Nat.le_refl _

theorem SeqInv.init (q : Bool) :
    SeqInv (init q : Sys E) (fun _ => newG) (fun _ => 0) .none where
  inv := ⟨InvC.init q, InvH.init q, OwnInv.reach .init, Tick.reach .init⟩
  serves := .nil
  size := rfl
  free := fun _ _ => rfl
  seg := fun t p h => by cases h
  mine := fun t p i h => by cases h
  rest := fun p _ => rfl
  claim := fun t => ⟨(fun h => by cases h), (fun h => by cases h)⟩

theorem Claim.idle (s : Sys E) : Claim s .idle := ⟨(fun h => by cases h), (fun h => by cases h)⟩

theorem SeqInv.call {qt : Bool} {s : Sys E} {Γ : Nat → G E} {lo : Nat → Nat} {q : Store E}
    (hr : SeqReach qt s) (h : SeqInv s Γ lo q) (hs : Still s) (t : Nat) (c : Call E) :
    SeqInv (begin s t c) Γ lo q := by
  have hx : ∀ t', posIx ((begin s t c).pos t') = none := by
    intro t'
    show posIx (upd s.pos t _ t') = none
    by_cases e : t' = t
    · subst e; rw [upd_same]; exact posIx_plain (start_plain c)
    · rw [upd_ne _ _ e, hs t']; rfl
  have hh := hs.held hr.reach
  refine ⟨h.inv.call t c (hs t), h.serves, h.size, h.free, h.seg, ?_, ?_, ?_⟩
  · intro t' p i h1
    rw [hx t'] at h1; cases h1
  · intro p _
    exact h.rest p (fun t' i e => by rw [hs t'] at e; cases e)
  · intro t'
    show Claim _ (upd s.pos t _ t')
    by_cases e : t' = t
    · subst e
      rw [upd_same]
      refine ⟨fun h2 => ?_, fun h3 => ?_⟩
      · have hc : start c = .poll := by cases c <;> first | rfl | cases h2
        rw [hc]
        by_cases e : adds s.log = gets s.log
        · exact .inr e
        · obtain ⟨p, h1, h2⟩ := total_pos (f := fill s) s.count (by omega)
          refine .inl ⟨fun p => (Tick.reach hr.reach p).quiet (fun t => .inr ?_), p, h1, ?_⟩
          · rw [hs t]; rfl
          · unfold fill at h2
            show (s.prods p).head < (s.prods p).tail
            omega
      · cases c with
        | size => exact ⟨false, rfl, hh.1⟩
        | isEmpty => exact ⟨true, rfl, hh.1⟩
        | add e => cases h3
        | poll => cases h3
    · rw [upd_ne _ _ e, hs t']; exact Claim.idle _

/-- Steps that take nothing and put nothing. -/
theorem SeqInv.dull {qt : Bool} {s s' : Sys E} {Γ Γ' : Nat → G E} {lo : Nat → Nat} {q : Store E}
    {t c : Nat} (hr : SeqReach qt s) (h : SeqInv s Γ lo q) (ht : tick s t c = some s')
    (I' : Inv s' Γ') (R : Rel s t Γ Γ')
    (hp : ∀ p, (s'.prods p).tail = (s.prods p).tail ∧ (s'.prods p).head = (s.prods p).head)
    (hx : posIx (s'.pos t) = posIx (s.pos t))
    (hl : s'.log = s.log ∨ ∃ r : Rec E, Dull r.res ∧ r.thr = t ∧ s'.log = s.log ++ [r]) :
    SeqInv s' Γ' lo q := by
  obtain ⟨b, hb⟩ := hr.one
  have hbt : ∀ t', t' ≠ t → s.pos t' = .idle := by
    have : t = b := by
      by_cases e : t = b
      · exact e
      · exact absurd (hb t e) (tick_mv ht).busy
    subst this
    exact hb
  have hix : ∀ t', posIx (s'.pos t') = posIx (s.pos t') := by
    intro t'
    by_cases e : t' = t
    · subst e; exact hx
    · rw [tick_pos ht t' e]
  have hC := Cnt.reach hr.reach
  have hsize := h.size
  have hlog : Store.Serves s'.log q ∧ q.size + gets s'.log = adds s'.log := by
    rcases hl with hl | ⟨r, hd, hthr, hl⟩
    · rw [hl]; exact ⟨h.serves, h.size⟩
    · rw [hl, adds_push, gets_push, hd.not.1, hd.not.2]
      refine ⟨.snoc h.serves ?_, h.size⟩
      have hlast : s'.log[s.log.length]? = some r := by rw [hl]; exact getElem?_last _ _
      rcases tick_kind ht with hk | ⟨r', hk, _, hi, hk'⟩
      · rw [hk] at hl; simp at hl
      · rw [hk] at hl
        have : r' = r := by simpa using hl
        subst this
        cases hk' with
        | add e a p _ h1 =>
          rcases h1 with h1 | h1 <;> (rw [h1] at hd; exact hd.elim)
        | poll o h1 h2 =>
          cases o with
          | some e => rw [h2] at hd; exact hd.elim
          | none =>
            rcases (h.claim t).1 (phase_poll.mp h1) with h3 | h3
            · have hf := (PollOk.own (hC.rng t) h3 (N := s.log.length)
                (fun m r h1 h2 => absurd (List.getElem?_eq_none h2 ▸ h1) (by simp)) ht).2
              obtain ⟨e, he⟩ := hf _ _ hlast (Nat.le_refl _) hthr
              rw [h2] at he; cases he
            · have hnone : ∀ t', posIx (s.pos t') = none := by
                intro t'
                by_cases e : t' = t
                · subst e; rw [← hx, hi]; rfl
                · rw [hbt t' e]; rfl
              have hz := (held_of hr.reach hnone).1
              rw [h3, Nat.sub_self] at hz
              refine .empty h2 (fun t' => ?_) (by omega)
              cases ho : s.own t' with
              | none => exact h.free t' ho
              | some p =>
                have hs := h.seg t' p ho
                have h4 := h.rest p (fun t'' i e => by rw [hnone t''] at e; cases e)
                have h5 := total_zero _ hz p (h.inv.o.lt t' p ho)
                unfold fill at h5
                apply List.length_eq_zero_iff.mp
                rw [hs.1, h4]
                exact h5
        | count z acc h1 h2 =>
          have hph : phase (s.pos t) = 3 := by
            rcases h2 with h2 | ⟨n, a, h2⟩ | ⟨n, a, tl, h2⟩ <;> (rw [h2]; rfl)
          obtain ⟨z', hok⟩ := (h.claim t).2 hph
          have hsay := (hok.own (Says.start _ _) ht).2.1 _ _ hlast (Nat.le_refl _)
          have he : adds s.log - gets s.log = q.size := by omega
          rw [he] at hsay
          cases z' with
          | true => exact .isEmpty hsay
          | false => exact .size hsay
  have hown := (tick_mv ht).own
  refine ⟨I', hlog.1, hlog.2, ?_, ?_, ?_, ?_, ?_⟩
  · intro t' ho
    apply h.free
    rcases hown with e | ⟨e1, e⟩
    · rw [← e]; exact ho
    · by_cases e2 : t' = t
      · subst e2; exact e1
      · rw [e, upd_ne _ _ e2] at ho; exact ho
  · intro t' p ho
    rw [(hp p).1]
    rcases hown with e | ⟨e1, e⟩
    · exact (h.seg t' p (by rw [← e]; exact ho)).rel R
    · by_cases e2 : t' = t
      · subst e2
        rw [e, upd_same] at ho
        cases ho
        have hz := (hC.zero s.count (Nat.le_refl _)).1
        rw [hz, h.free t' e1]
        exact ⟨by simp, fun j hj => by omega⟩
      · rw [e, upd_ne _ _ e2] at ho
        exact (h.seg t' p ho).rel R
  · intro t' p i hi
    rw [hix] at hi
    rw [(hp p).2]
    exact h.mine t' p i hi
  · intro p hno
    rw [(hp p).2]
    exact h.rest p (fun t' i e => hno t' i (by rw [hix]; exact e))
  · intro t'
    by_cases e : t' = t
    · subst e; exact (h.claim t').own (hC.rng t') ht
    · rw [tick_pos ht t' e, hbt t' e]; exact Claim.idle _

theorem SeqInv.tick {qt : Bool} {s s' : Sys E} {Γ : Nat → G E} {lo : Nat → Nat} {q : Store E}
    {t c : Nat} (hr : SeqReach qt s) (h : SeqInv s Γ lo q) (ht : tick s t c = some s') :
    ∃ Γ' lo' q', SeqInv s' Γ' lo' q' := by
  obtain ⟨Γ', I', R⟩ := h.inv.mv (tick_mv ht)
  obtain ⟨b, hb⟩ := hr.one
  have hbt : ∀ t', t' ≠ t → s.pos t' = .idle := by
    have : t = b := by
      by_cases e : t = b
      · exact e
      · exact absurd (hb t e) (tick_mv ht).busy
    subst this
    exact hb
  have hC := Cnt.reach hr.reach
  have hclaim : ∀ t', Claim s' (s'.pos t') := by
    intro t'
    by_cases e : t' = t
    · subst e; exact (h.claim t').own (hC.rng t') ht
    · rw [tick_pos ht t' e, hbt t' e]; exact Claim.idle _
  have hown := (tick_mv ht).own
  have hnofind : ∀ {p : Nat} {e : E} {a : AStg}, s.pos t = .add p e a → s'.own = s.own := by
    intro p e a hp
    rcases hown with e1 | ⟨e1, _⟩
    · exact e1
    · rw [h.inv.o.add t p e a hp] at e1; cases e1
  have hodeq : ∀ {k : Cont} {p : Nat} {d : DStg E}, s.pos t = .deq k p d → s'.own = s.own := by
    intro k p d hp
    have m := tick_mv ht
    clear ht hclaim hown hnofind
    cases m <;> first | rfl | (rename_i h1 _; rw [hp] at h1; cases h1)
  have hsize := h.size
  have htt := fun p => (h.inv.k p).head_le
  cases (tick_mv ht).eff h.inv with
  | same h1 h2 h3 =>
    exact ⟨Γ', lo, q, h.dull hr ht I' R (fun p => ⟨(h1 p).1, (h1 p).2.1⟩) h2 h3⟩
  | inc k p oc hp h1 h2 h3 h4 =>
    refine ⟨Γ', lo, q, h.dull hr ht I' R ?_ (by rw [h3, hp]; rfl) (.inl h4)⟩
    intro p'
    by_cases e : p' = p
    · subst e; rw [h2]; exact ⟨rfl, rfl⟩
    · rw [h1 p' e]; exact ⟨rfl, rfl⟩
  | miss k p m hp h1 h2 h3 h4 =>
    refine ⟨Γ', lo, q, h.dull hr ht I' R ?_ (by rw [h3, hp]; rfl) h4⟩
    intro p'
    by_cases e : p' = p
    · subst e; rw [h2]; exact ⟨rfl, rfl⟩
    · rw [h1 p' e]; exact ⟨rfl, rfl⟩
  | pub p e ct hp h1 h2 h3 h4 =>
    have hct : ct = (s.prods p).tail := h.inv.o.ct t p e _ ct hp rfl
    have hot : s.own t = some p := h.inv.o.add t p e _ hp
    have hv := (h.inv.c.acl t p e _ hp).2.2.1
    refine ⟨Γ', lo, _, ⟨I', by rw [h4]; exact .snoc h.serves (.add e rfl), ?_, ?_, ?_, ?_, ?_,
      hclaim⟩⟩
    · rw [h4, adds_push, gets_push]
      show q.size + 1 + (gets s.log + 0) = adds s.log + 1
      omega
    · intro t' ho
      rw [hnofind hp] at ho
      have : t' ≠ t := fun e => by subst e; rw [hot] at ho; cases ho
      simp only [this, if_false]
      exact h.free t' ho
    · intro t' p' ho
      rw [hnofind hp] at ho
      by_cases e' : t' = t
      · subst e'
        rw [hot] at ho
        cases ho
        have hs := (h.seg t' p hot).rel R
        have hlo := h.lo_le p
        have := htt p
        simp only [if_true]
        rw [h2, hct]
        have hlen := hs.1
        refine ⟨?_, ?_⟩
        · simp only [List.length_append, List.length_singleton]; omega
        · intro j hj
          simp only at hj
          by_cases hj' : j < (s.prods p).tail - lo p
          · rw [List.getElem?_append_left (by omega)]
            exact hs.2 j hj'
          · have : j = (q.of t').length := by omega
            rw [this, getElem?_last]
            have e2 : lo p + (q.of t').length = (s.prods p).tail := by omega
            rw [e2]
            exact (R.val p _ e (by rw [hv]; rfl)).symm
      · simp only [e', if_false]
        have : p' ≠ p := fun e => by subst e; exact e' (h.inv.o.inj t' t p' ho hot)
        rw [h1 p' this]
        exact (h.seg t' p' ho).rel R
    · intro t' p' i hi
      by_cases e' : t' = t
      · subst e'; rw [h3] at hi; cases hi
      · rw [tick_pos ht t' e', hbt t' e'] at hi; cases hi
    · intro p' _
      have hh : (s'.prods p').head = (s.prods p').head := by
        by_cases e' : p' = p
        · subst e'; rw [h2]
        · rw [h1 p' e']
      rw [hh]
      refine h.rest p' (fun t' i e' => ?_)
      by_cases e2 : t' = t
      · subst e2; rw [hp] at e'; cases e'
      · rw [hbt t' e2] at e'; cases e'
  | take k p m hp h1 h2 h3 h4 =>
    have hno : ∀ t' p' i, posIx (s.pos t') ≠ some (p', i) := by
      intro t' p' i e'
      by_cases e2 : t' = t
      · subst e2; rw [hp] at e'; cases e'
      · rw [hbt t' e2] at e'; cases e'
    refine ⟨Γ', lo, q, ⟨I', by rw [h4]; exact h.serves, by rw [h4]; exact h.size, ?_, ?_, ?_, ?_,
      hclaim⟩⟩
    · intro t' ho
      rw [hodeq hp] at ho
      exact h.free t' ho
    · intro t' p' ho
      rw [hodeq hp] at ho
      have : (s'.prods p').tail = (s.prods p').tail := by
        by_cases e' : p' = p
        · subst e'; rw [h2]
        · rw [h1 p' e']
      rw [this]
      exact (h.seg t' p' ho).rel R
    · intro t' p' i hi
      by_cases e' : t' = t
      · subst e'
        rw [h3] at hi
        have : p = p' ∧ (s.prods p).head = i := by simpa [posIx, DStg.ix] using hi
        obtain ⟨rfl, rfl⟩ := this
        rw [h2]
        exact ⟨h.rest p (fun t' i => hno t' p i), rfl⟩
      · rw [tick_pos ht t' e', hbt t' e'] at hi; cases hi
    · intro p' hn
      have : p' ≠ p := fun e => by subst e; exact hn t _ (by rw [h3]; rfl)
      rw [h1 p' this]
      exact h.rest p' (fun t' i => hno t' p' i)
  | got k p i e hx hpos h1 h3 h4 =>
    have ho : s'.own = s.own := by
      rcases hpos with ⟨en, b, hp⟩ | ⟨b, hp⟩ <;> exact hodeq hp
    obtain ⟨hlo, hhd⟩ := h.mine t p i hx
    have := htt p
    -- whose element it is
    obtain ⟨t0, ht0⟩ : ∃ t0, s.own t0 = some p := by
      obtain ⟨_, _, _, _, L⟩ := Good.reach hr.reach
      obtain ⟨r, _, _, h5, _⟩ := L.srcs p i (by omega)
      exact ⟨_, h5⟩
    have hval : ((Γ p).st i).val = some e := by
      rcases hpos with ⟨en, b, hp⟩ | ⟨b, hp⟩
      · rw [(h.inv.c.dcl t k p _ hp).2.1]; rfl
      · rw [(h.inv.c.dcl t k p _ hp).2]; rfl
    have hs := h.seg t0 p ht0
    have hs0 := hs.2 0 (by omega)
    rw [hlo, Nat.add_zero, hval] at hs0
    obtain ⟨l, hl⟩ : ∃ l, q.of t0 = e :: l := by
      cases hq : q.of t0 with
      | nil => rw [hq] at hs0; cases hs0
      | cons x l => rw [hq] at hs0; cases hs0; exact ⟨l, rfl⟩
    have hlen := hs.1
    rw [hl, hlo] at hlen
    simp only [List.length_cons] at hlen
    have hgl : gets s.log < adds s.log := by
      have C := hC.heads
      obtain ⟨W, w1, w2, w3⟩ := C
      have : t ∈ W := (w2 t).mpr (by rw [hx]; simp)
      have := List.length_pos_of_mem this
      have hsub := total_sub (f := fun p => (s.prods p).tail)
        (g := fun p => (s.prods p).head) s.count (fun p _ => htt p)
      rw [hC.tails, w3] at hsub
      omega
    refine ⟨Γ', upd lo p (i + 1), _, ⟨I', by rw [h4]; exact .snoc h.serves (.poll t0 e l rfl hl),
      ?_, ?_, ?_, ?_, ?_, hclaim⟩⟩
    · rw [h4, adds_push, gets_push]
      show q.size - 1 + (gets s.log + 1) = adds s.log + 0
      omega
    · intro t' hn
      rw [ho] at hn
      have : t' ≠ t0 := fun e => by subst e; rw [ht0] at hn; cases hn
      simp only [this, if_false]
      exact h.free t' hn
    · intro t' p' hn
      rw [ho] at hn
      rw [h1]
      by_cases e' : t' = t0
      · subst e'
        rw [ht0] at hn
        cases hn
        simp only [if_true, upd_same]
        refine ⟨by omega, fun j hj => ?_⟩
        have h5 := (hs.rel R).2 (j + 1) (by omega)
        rw [hl, hlo] at h5
        rw [List.getElem?_cons_succ] at h5
        rw [h5]
        congr 2
        omega
      · simp only [e', if_false]
        have : p' ≠ p := fun e => by subst e; exact e' (h.inv.o.inj t' t0 p' hn ht0)
        rw [upd_ne _ _ this]
        exact (h.seg t' p' hn).rel R
    · intro t' p' i' hi
      by_cases e' : t' = t
      · subst e'; rw [h3] at hi; cases hi
      · rw [tick_pos ht t' e', hbt t' e'] at hi; cases hi
    · intro p' _
      rw [h1]
      by_cases e' : p' = p
      · subst e'; rw [upd_same, hhd]
      · rw [upd_ne _ _ e']
        refine h.rest p' (fun t' i' e2 => ?_)
        by_cases e3 : t' = t
        · subst e3
          rw [hx] at e2
          cases e2
          exact e' rfl
        · rw [hbt t' e3] at e2; cases e2

/-- One after the other, the calls are those of a queue that keeps each thread's order. -/
theorem seq_serves {qt : Bool} {s : Sys E} (h : SeqReach qt s) :
    ∃ Γ lo q, SeqInv s Γ lo q := by
  induction h with
  | init => exact ⟨_, _, _, SeqInv.init qt⟩
  | call t c hr hs ih =>
    obtain ⟨Γ, lo, q, ih⟩ := ih
    exact ⟨Γ, lo, q, ih.call hr hs t c⟩
  | tick t c hr h ih =>
    obtain ⟨Γ, lo, q, ih⟩ := ih
    exact ih.tick hr h

/-- When one thread does all the adding, that is a plain queue. -/
theorem Store.Serves.fifo {l : List (Rec E)} {q : Store E} (h : Store.Serves l q) (a : Nat)
    (ha : ∀ r, r ∈ l → ∀ e, r.res = .added e → r.thr = a) :
    Fifo l (q.of a) ∧ (∀ t, t ≠ a → q.of t = []) ∧ q.size = (q.of a).length := by
  induction h with
  | nil => exact ⟨.nil, fun _ _ => rfl, rfl⟩
  | @snoc l q q' r hs hq ih =>
    obtain ⟨i1, i2, i3⟩ := ih (fun r' hr' => ha r' (List.mem_append_left _ hr'))
    cases hq with
    | add e he =>
      have hra := ha r (by simp) e he
      subst hra
      refine ⟨.snoc i1 ?_, fun t ht => ?_, ?_⟩
      · simp only [if_true]; exact .add e he
      · simp only [ht, if_false]; exact i2 t ht
      · simp [i3]
    | poll t e l' he hl =>
      have hta : t = a := by
        by_cases e' : t = a
        · exact e'
        · rw [i2 t e'] at hl; cases hl
      subst hta
      refine ⟨.snoc i1 ?_, fun t' ht => ?_, ?_⟩
      · simp only [if_true]; exact .poll e l' he hl
      · simp only [ht, if_false]; exact i2 t' ht
      · simp only [if_true]; rw [i3, hl]; simp
    | empty he hz hn => exact ⟨.snoc i1 (.empty he (hz a)), i2, i3⟩
    | size he => exact ⟨.snoc i1 (.size (by rw [← i3]; exact he)), i2, i3⟩
    | isEmpty he => exact ⟨.snoc i1 (.isEmpty (by rw [← i3]; exact he)), i2, i3⟩

end Verif.LinkedQueue
