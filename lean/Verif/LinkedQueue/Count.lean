import Verif.LinkedQueue.Run
import Verif.LinkedQueue.Spec
/-!
# Counting what was added and what was taken
-/
namespace Verif.LinkedQueue

variable {E : Type}

/-- A sum over the producers below `n`. -/
def total (f : Nat → Nat) : Nat → Nat
  | 0 => 0
  | n + 1 => total f n + f n

theorem total_congr {f g : Nat → Nat} : ∀ (n : Nat), (∀ i, i < n → f i = g i) →
    total f n = total g n
  | 0, _ => rfl
  | n + 1, h => by
    rw [total, total, total_congr n (fun i hi => h i (by omega)), h n (by omega)]

theorem total_one {f g : Nat → Nat} {p : Nat} : ∀ (n : Nat), p < n → g p = f p + 1 →
    (∀ i, i ≠ p → g i = f i) → total g n = total f n + 1
  | 0, h, _, _ => by omega
  | n + 1, h, h1, h2 => by
    rw [total, total]
    by_cases e : p = n
    · subst e
      rw [total_congr p (f := g) (g := f) (fun i hi => h2 i (by omega)), h1]
      omega
    · rw [total_one n (by omega) h1 h2, h2 n (fun h => e h.symm)]
      omega

theorem total_pos {f : Nat → Nat} : ∀ (n : Nat), 0 < total f n → ∃ p, p < n ∧ 0 < f p
  | 0, h => by simp [total] at h
  | n + 1, h => by
    rw [total] at h
    by_cases h1 : 0 < f n
    · exact ⟨n, by omega, h1⟩
    · obtain ⟨p, h2, h3⟩ := total_pos (f := f) n (by omega)
      exact ⟨p, by omega, h3⟩

theorem total_sub {f g : Nat → Nat} : ∀ (n : Nat), (∀ i, i < n → g i ≤ f i) →
    total (fun i => f i - g i) n + total g n = total f n
  | 0, _ => rfl
  | n + 1, h => by
    have := total_sub n (fun i hi => h i (by omega))
    have := h n (by omega)
    simp only [total]
    omega

/-- A thread only looks at producers that are in the list. -/
def Ranged (c : Nat) : Pos E → Prop
  | .scan n cnt best bsz => 0 < n ∧ n ≤ c ∧ (0 < cnt → best < c) ∧ (cnt = 0 → bsz = 0)
  | .scanH n cnt best bsz _ => 0 < n ∧ n ≤ c ∧ (0 < cnt → best < c) ∧ (cnt = 0 → bsz = 0)
  | .deq .first p _ => p < c
  | .deq (.rest _ n) p _ => p < c ∧ n ≤ c
  | .countT _ n _ => 0 < n ∧ n ≤ c
  | .countH _ n _ _ => 0 < n ∧ n ≤ c
  | _ => True

theorem Ranged.mono {c c' : Nat} (h : c ≤ c') {y : Pos E} (hy : Ranged c y) : Ranged c' y := by
  cases y with
  | scan n cnt best bsz => exact ⟨hy.1, Nat.le_trans hy.2.1 h, fun h1 => Nat.lt_of_lt_of_le (hy.2.2.1 h1) h,
      hy.2.2.2⟩
  | scanH n cnt best bsz tl =>
    exact ⟨hy.1, Nat.le_trans hy.2.1 h, fun h1 => Nat.lt_of_lt_of_le (hy.2.2.1 h1) h,
      hy.2.2.2⟩
  | deq k p d =>
    cases k with
    | first => exact Nat.lt_of_lt_of_le hy h
    | rest best n => exact ⟨Nat.lt_of_lt_of_le hy.1 h, Nat.le_trans hy.2 h⟩
  | countT z n acc => exact ⟨hy.1, Nat.le_trans hy.2 h⟩
  | countH z n acc tl => exact ⟨hy.1, Nat.le_trans hy.2 h⟩
  | _ => trivial

theorem nextDeq_ranged {c best : Nat} : ∀ (n : Nat) {y : Pos E}, n ≤ c → nextDeq best n = some y →
    Ranged c y
  | 0, y, _, h => by simp [nextDeq] at h
  | n + 1, y, hn, h => by
    rw [nextDeq] at h
    split at h
    · exact nextDeq_ranged n (by omega) h
    · cases h; exact ⟨by omega, by omega⟩

theorem tick_count {s s' : Sys E} {t c : Nat} (h : tick s t c = some s') : s.count ≤ s'.count := by
  cases tick_mv h <;> first | exact Nat.le_refl _ | exact Nat.le_succ _

/-- A step changes the position of the thread that makes it, and of no other. -/
theorem tick_pos {s s' : Sys E} {t c : Nat} (h : tick s t c = some s') (t' : Nat) (hne : t' ≠ t) :
    s'.pos t' = s.pos t' := by
  cases tick_mv h <;> exact upd_ne _ _ hne

theorem scanNext_ranged {s : Sys E} {t n cnt best bsz : Nat} (hn : n ≤ s.count)
    (hb : 0 < cnt → best < s.count) (hz : cnt = 0 → bsz = 0) :
    Ranged s.count ((scanNext s t n cnt best bsz).pos t) := by
  unfold scanNext
  split
  · next h =>
    rw [go_pos, upd_same]
    exact ⟨Nat.pos_of_ne_zero h.2, hn, hb, hz⟩
  · split
    · rw [ret_pos, upd_same]; trivial
    · next h => rw [go_pos, upd_same]; exact hb (Nat.pos_of_ne_zero h)

theorem scanNext_count {s : Sys E} {t n cnt best bsz : Nat} :
    (scanNext s t n cnt best bsz).count = s.count := by
  unfold scanNext; split
  · rfl
  · split <;> rfl

theorem countNext_ranged {s : Sys E} {t n acc : Nat} {z : Bool} (hn : n ≤ s.count) :
    Ranged s.count ((countNext s t z n acc).pos t) := by
  unfold countNext
  split
  · rw [ret_pos, upd_same]; trivial
  · next h => rw [go_pos, upd_same]; exact ⟨Nat.pos_of_ne_zero h, hn⟩

theorem countNext_count {s : Sys E} {t n acc : Nat} {z : Bool} :
    (countNext s t z n acc).count = s.count := by
  unfold countNext; split <;> rfl

theorem missed_ranged {s : Sys E} {t p : Nat} {k : Cont}
    (hk : ∀ best n, k = .rest best n → n ≤ s.count) :
    Ranged s.count ((missed s t p k).pos t) := by
  cases k with
  | first => simp only [missed, go_pos, upd_same]; trivial
  | rest best n =>
    simp only [missed]
    split
    · rw [ret_pos, upd_same]; trivial
    · next y hy => rw [go_pos, upd_same]; exact nextDeq_ranged n (hk best n rfl) hy

theorem missed_count {s : Sys E} {t p : Nat} {k : Cont} : (missed s t p k).count = s.count := by
  cases k with
  | first => rfl
  | rest best n => simp only [missed]; split <;> rfl

theorem ranged_add {c p : Nat} {e : E} {a : AStg} : Ranged c (.add p e a) := trivial

theorem Ranged.deq {c p : Nat} {k : Cont} {d : DStg E} (h : Ranged c (.deq k p d)) (d' : DStg E) :
    Ranged c (.deq k p d') := by
  cases k with
  | first => exact h
  | rest best n => exact h

theorem addStep_ranged {s s' : Sys E} {t p c : Nat} {e : E} {a : AStg}
    (h : addStep s t p e c a = some s') (n : Nat) : Ranged n (s'.pos t) := by
  cases a <;> simp only [addStep, requisition] at h
  case head ct => split at h <;> cases h <;> simp [Ranged]
  case test ct =>
    split at h <;> first | cases h | skip
    all_goals simp [Ranged]
  case get ct en => split at h <;> cases h <;> simp [Ranged]
  case cons1 ct en b => split at h <;> cases h; simp [Ranged]
  case cons ct =>
    split at h
    · cases h
    · split at h <;> cases h; simp [Ranged]
  all_goals (cases h; simp [Ranged])

theorem deqStep_ranged {s s' : Sys E} {t p : Nat} {k : Cont} {d : DStg E}
    (hr : Ranged s.count (.deq k p d)) (h : deqStep s t k p d = some s') :
    Ranged s'.count (s'.pos t) := by
  have hk : ∀ best n, k = .rest best n → n ≤ s.count := by
    intro best n hk; subst hk; exact hr.2
  cases d with
  | opt tl oc =>
    simp only [deqStep] at h
    split at h <;> cases h
    · rw [go_pos, upd_same]; exact hr.deq _
    · rw [missed_count]; exact missed_ranged hk
  | miss m =>
    simp only [deqStep] at h
    cases h
    rw [missed_count]
    exact missed_ranged hk
  | again m oc =>
    simp only [deqStep] at h
    split at h <;> cases h <;> (rw [go_pos, upd_same]; exact hr.deq _)
  | ikey i h' q =>
    simp only [deqStep] at h
    split at h <;> cases h
    rw [go_pos, upd_same]; exact hr.deq _
  | val i en =>
    simp only [deqStep] at h
    split at h <;> cases h
    rw [go_pos, upd_same]; exact hr.deq _
  | take i en b =>
    simp only [deqStep] at h
    split at h <;> cases h
    rw [go_pos, upd_same]; exact hr.deq _
  | mark i en b e =>
    simp only [deqStep] at h
    split at h <;> cases h
    · rw [go_pos, upd_same]; exact hr.deq _
    · rw [ret_pos, upd_same]; trivial
  | free i b e => cases h; rw [ret_pos, upd_same]; trivial
  | _ => cases h; rw [go_pos, upd_same]; exact hr.deq _

theorem tick_ranged {s s' : Sys E} {t c : Nat} (hr : Ranged s.count (s.pos t))
    (h : tick s t c = some s') : Ranged s'.count (s'.pos t) := by
  unfold tick at h
  cases hp : s.pos t with
  | idle => rw [hp] at h; cases h
  | find e =>
    rw [hp] at h
    simp only at h
    split at h <;> cases h <;> (rw [go_pos, upd_same]; trivial)
  | add p e a => rw [hp] at h; exact addStep_ranged h _
  | poll =>
    rw [hp] at h; cases h
    rw [scanNext_count]
    exact scanNext_ranged (Nat.le_refl _) (fun h => by omega) (fun _ => rfl)
  | scan n cnt best bsz =>
    rw [hp] at h hr; cases h
    rw [go_pos, upd_same]; exact hr
  | scanH n cnt best bsz tl =>
    rw [hp] at h hr
    obtain ⟨h1, h2, h3, h4⟩ := hr
    simp only at h
    split at h
    · cases h; rw [scanNext_count]; exact scanNext_ranged (by omega) h3 h4
    · split at h <;> cases h <;> rw [scanNext_count]
      · exact scanNext_ranged (by omega) (fun _ => by omega) (fun h => by omega)
      · next hne hlt =>
        refine scanNext_ranged (by omega) (fun _ => ?_) (fun h => by omega)
        rcases Nat.eq_zero_or_pos cnt with h0 | h0
        · have := h4 h0; omega
        · exact h3 h0
  | deq k p d => rw [hp] at h hr; exact deqStep_ranged hr h
  | others best =>
    rw [hp] at h
    simp only at h
    split at h <;> cases h
    · rw [ret_pos, upd_same]; trivial
    · next y hy => rw [go_pos, upd_same]; exact nextDeq_ranged _ (Nat.le_refl _) hy
  | count z =>
    rw [hp] at h; cases h
    rw [countNext_count]; exact countNext_ranged (Nat.le_refl _)
  | countT z n acc => rw [hp] at h hr; cases h; rw [go_pos, upd_same]; exact hr
  | countH z n acc tl =>
    rw [hp] at h hr; cases h
    obtain ⟨h1, h2⟩ := hr
    rw [countNext_count]; exact countNext_ranged (by omega)

theorem Ranged.reach {q : Bool} {s : Sys E} (h : Reach q s) (t : Nat) :
    Ranged s.count (s.pos t) := by
  induction h with
  | init => trivial
  | step hr hs ih =>
    cases hs with
    | call t' c hi =>
      show Ranged _ (upd _ t' (start c) t)
      by_cases e : t = t'
      · subst e; rw [upd_same]; cases c <;> trivial
      · rw [upd_ne _ _ e]; exact ih
    | tick t' c h =>
      by_cases e : t = t'
      · subst e; exact tick_ranged ih h
      · rw [tick_pos h t e]; exact ih.mono (tick_count h)

/-- What a step does to the counters, the log and the index in hand. -/
inductive Eff (s : Sys E) (t : Nat) (s' : Sys E) : Prop where
  | same : (∀ p, (s'.prods p).tail = (s.prods p).tail ∧ (s'.prods p).head = (s.prods p).head ∧
        (s'.prods p).opt = (s.prods p).opt ∧ (s'.prods p).over = (s.prods p).over) →
      posIx (s'.pos t) = posIx (s.pos t) →
      (s'.log = s.log ∨ ∃ r : Rec E, Dull r.res ∧ r.thr = t ∧ s'.log = s.log ++ [r]) →
      Eff s t s'
  | pub (p : Nat) (e : E) (ct : Nat) : s.pos t = .add p e (.pub ct) →
      (∀ q, q ≠ p → s'.prods q = s.prods q) →
      s'.prods p = { s.prods p with tail := ct + 1 } → s'.pos t = .idle →
      s'.log = s.log ++ [{ thr := t, res := .added e, began := s.began t, ended := s.clock }] →
      Eff s t s'
  | inc (k : Cont) (p oc : Nat) : s.pos t = .deq k p (.inc oc) →
      (∀ q, q ≠ p → s'.prods q = s.prods q) →
      s'.prods p = { s.prods p with opt := (s.prods p).opt + 1 } →
      s'.pos t = .deq k p (.again (s.prods p).opt oc) → s'.log = s.log → Eff s t s'
  | take (k : Cont) (p m : Nat) : s.pos t = .deq k p (.head m) →
      (∀ q, q ≠ p → s'.prods q = s.prods q) →
      s'.prods p = { s.prods p with head := (s.prods p).head + 1 } →
      s'.pos t = .deq k p (.idx (s.prods p).head) → s'.log = s.log → Eff s t s'
  | miss (k : Cont) (p m : Nat) : s.pos t = .deq k p (.miss m) →
      (∀ q, q ≠ p → s'.prods q = s.prods q) →
      s'.prods p = { s.prods p with over := (s.prods p).over + 1 } →
      posIx (s'.pos t) = none →
      (s'.log = s.log ∨ ∃ r : Rec E, Dull r.res ∧ r.thr = t ∧ s'.log = s.log ++ [r]) →
      Eff s t s'
  | got (k : Cont) (p i : Nat) (e : E) : posIx (s.pos t) = some (p, i) →
      (∃ en b, s.pos t = .deq k p (.mark i en b e)) ∨ (∃ b, s.pos t = .deq k p (.free i b e)) →
      s'.prods = s.prods →
      s'.pos t = .idle →
      s'.log = s.log ++
        [{ thr := t, res := .polled (some e), began := s.began t, ended := s.clock }] →
      Eff s t s'

theorem Mv.eff {s s' : Sys E} {t : Nat} {Γ : Nat → G E} (I : Inv s Γ) (m : Mv s t s') : Eff s t s' := by
  have same : (∀ p, (s'.prods p).tail = (s.prods p).tail ∧
        (s'.prods p).head = (s.prods p).head ∧
        (s'.prods p).opt = (s.prods p).opt ∧ (s'.prods p).over = (s.prods p).over) →
      (y : Pos E) → s'.pos = upd s.pos t y → posIx y = posIx (s.pos t) → s'.log = s.log →
      Eff s t s' :=
    fun h1 y h2 h3 h4 => .same h1 (by rw [h2, upd_same]; exact h3) (.inl h4)
  have keep : ∀ p, (s.prods p).tail = (s.prods p).tail ∧ (s.prods p).head = (s.prods p).head ∧
        (s.prods p).opt = (s.prods p).opt ∧ (s.prods p).over = (s.prods p).over :=
    fun _ => ⟨rfl, rfl, rfl, rfl⟩
  have one : ∀ (p : Nat) (x : Prod), x.tail = (s.prods p).tail → x.head = (s.prods p).head →
      x.opt = (s.prods p).opt → x.over = (s.prods p).over →
      ∀ q, (upd s.prods p x q).tail = (s.prods q).tail ∧
        (upd s.prods p x q).head = (s.prods q).head ∧
        (upd s.prods p x q).opt = (s.prods q).opt ∧
        (upd s.prods p x q).over = (s.prods q).over := by
    intro p x h1 h2 h3 h4 q
    exact ⟨upd_field Prod.tail s.prods p x h1 q, upd_field Prod.head s.prods p x h2 q,
      upd_field Prod.opt s.prods p x h3 q, upd_field Prod.over s.prods p x h4 q⟩
  cases m with
  | plainGo y hx hy => exact same keep y rfl (by rw [posIx_plain hx, posIx_plain hy]) rfl
  | plainRet r hx hd =>
    exact .same keep (by rw [ret_pos, upd_same, posIx_plain hx]; rfl) (.inr ⟨_, hd, rfl, rfl⟩)
  | found e p hp => exact same keep _ rfl (by rw [hp]; rfl) rfl
  | made e hp => exact same keep _ rfl (by rw [hp]; rfl) rfl
  | aTail0 p e hp => exact same keep _ rfl (by rw [hp]; rfl) rfl
  | aTail1 p e hp => exact same keep _ rfl (by rw [hp]; rfl) rfl
  | aHead p e ct hp => exact same keep _ rfl (by rw [hp]; rfl) rfl
  | aRefuse p e ct hp hlt =>
    have := I.o.ct t p e _ ct hp rfl
    have := (I.k p).head_le
    omega
  | aTestFree p e ct en hp => exact same keep _ rfl (by rw [hp]; rfl) rfl
  | aTestFull p e ct hp => exact same keep _ rfl (by rw [hp]; rfl) rfl
  | aGrow p e ct hp => exact same (one p _ rfl rfl rfl rfl) _ rfl (by rw [hp]; rfl) rfl
  | aKey p e ct en hp => exact same (one p _ rfl rfl rfl rfl) _ rfl (by rw [hp]; rfl) rfl
  | aItail p e ct en hp => exact same (one p _ rfl rfl rfl rfl) _ rfl (by rw [hp]; rfl) rfl
  | aGetOld p e ct en c b hp => exact same keep _ rfl (by rw [hp]; rfl) rfl
  | aGetNew p e ct en hp => exact same keep _ rfl (by rw [hp]; rfl) rfl
  | aResetQ p e ct en b hp => exact same keep _ rfl (by rw [hp]; rfl) rfl
  | aResetL p e ct en b hp => exact same keep _ rfl (by rw [hp]; rfl) rfl
  | aCons1 p e ct en b hp => exact same keep _ rfl (by rw [hp]; rfl) rfl
  | aVal p e ct en b hp => exact same (one p _ rfl rfl rfl rfl) _ rfl (by rw [hp]; rfl) rfl
  | aTbQ p e ct b hp => exact same (one p _ rfl rfl rfl rfl) _ rfl (by rw [hp]; rfl) rfl
  | aTbL p e ct b hp => exact same (one p _ rfl rfl rfl rfl) _ rfl (by rw [hp]; rfl) rfl
  | aCons p e ct b hp => exact same keep _ rfl (by rw [hp]; rfl) rfl
  | aPub p e ct hp =>
    exact .pub p e ct hp (fun q hq => upd_ne _ _ hq) (upd_same _ _ _) (upd_same _ _ _) rfl
  | dTail k p hp => exact same keep _ rfl (by rw [hp]; rfl) rfl
  | dOver k p tl hp => exact same keep _ rfl (by rw [hp]; rfl) rfl
  | dOptYes k p tl oc hp => exact same keep _ rfl (by rw [hp]; rfl) rfl
  | dOptGo k p tl oc y hp _ hy => exact same keep y rfl (by rw [hp, posIx_plain hy]; rfl) rfl
  | dOptRet k p tl oc hp =>
    exact .same keep (by rw [ret_pos, upd_same, hp]; rfl) (.inr
      ⟨{ thr := t, res := .polled none, began := s.began t, ended := s.clock }, trivial, rfl,
        rfl⟩)
  | dInc k p oc hp =>
    exact .inc k p oc hp (fun q hq => upd_ne _ _ hq) (upd_same _ _ _) (upd_same _ _ _) rfl
  | dYes k p m oc hp => exact same keep _ rfl (by rw [hp]; rfl) rfl
  | dNo k p m oc hp => exact same keep _ rfl (by rw [hp]; rfl) rfl
  | dHead k p m hp =>
    exact .take k p m hp (fun q hq => upd_ne _ _ hq) (upd_same _ _ _) (upd_same _ _ _) rfl
  | dMissGo k p m y hp hy =>
    exact .miss k p m hp (fun q hq => upd_ne _ _ hq) (upd_same _ _ _)
      (by rw [go_pos, upd_same, posIx_plain hy]) (.inl rfl)
  | dMissRet k p m hp =>
    exact .miss k p m hp (fun q hq => upd_ne _ _ hq) (upd_same _ _ _)
      (by rw [ret_pos, upd_same]; rfl) (.inr
      ⟨{ thr := t, res := .polled none, began := s.began t, ended := s.clock }, trivial, rfl,
        rfl⟩)
  | dIdx k p i hp => exact same keep _ rfl (by rw [hp]; rfl) rfl
  | dItail k p i h hp => exact same keep _ rfl (by rw [hp]; rfl) rfl
  | dIkey k p i h q base hp => exact same keep _ rfl (by rw [hp]; rfl) rfl
  | dVal k p i en b hp => exact same keep _ rfl (by rw [hp]; rfl) rfl
  | dTake k p i en b e hp => exact same keep _ rfl (by rw [hp]; rfl) rfl
  | dMarkLast k p i en b e hp => exact same keep _ rfl (by rw [hp]; rfl) rfl
  | dMark k p i en b e hp => exact .got k p i e (by rw [hp]; rfl) (.inl ⟨en, b, hp⟩) rfl (upd_same _ _ _) rfl
  | dNull k p i en b e hp => exact same (one p _ rfl rfl rfl rfl) _ rfl (by rw [hp]; rfl) rfl
  | dFree k p i b e hp => exact .got k p i e (by rw [hp]; rfl) (.inr ⟨b, hp⟩) rfl (upd_same _ _ _) rfl

/-- The counters add up to the log. -/
structure Cnt (s : Sys E) : Prop where
  rng : ∀ t, Ranged s.count (s.pos t)
  zero : ∀ p, s.count ≤ p → (s.prods p).tail = 0 ∧ (s.prods p).head = 0
  tails : total (fun p => (s.prods p).tail) s.count = adds s.log
  heads : ∃ W : List Nat, W.Nodup ∧ (∀ t, t ∈ W ↔ posIx (s.pos t) ≠ none) ∧
    total (fun p => (s.prods p).head) s.count = gets s.log + W.length

theorem adds_push (l : List (Rec E)) (r : Rec E) :
    adds (l ++ [r]) = adds l + if r.isAdd then 1 else 0 := by
  simp [adds, List.countP_append]

theorem gets_push (l : List (Rec E)) (r : Rec E) :
    gets (l ++ [r]) = gets l + if r.isGet then 1 else 0 := by
  simp [gets, List.countP_append]

theorem Dull.not {r : Rec E} (h : Dull r.res) : r.isAdd = false ∧ r.isGet = false := by
  unfold Rec.isAdd Rec.isGet
  cases h1 : r.res with
  | added e => rw [h1] at h; exact h.elim
  | polled o =>
    cases o with
    | none => exact ⟨rfl, rfl⟩
    | some e => rw [h1] at h; exact h.elim
  | _ => exact ⟨rfl, rfl⟩

theorem deq_lt {c p : Nat} {k : Cont} {d : DStg E} (h : Ranged c (.deq k p d)) : p < c := by
  cases k with
  | first => exact h
  | rest best n => exact h.1

theorem Cnt.keep {s s' : Sys E} {t : Nat} (h : Cnt s) (hr : ∀ t, Ranged s'.count (s'.pos t))
    (hc : s.count ≤ s'.count)
    (hn : s'.count = s.count ∨ s'.count = s.count + 1)
    (hp : ∀ p, (s'.prods p).tail = (s.prods p).tail ∧ (s'.prods p).head = (s.prods p).head)
    (ho : ∀ t', t' ≠ t → s'.pos t' = s.pos t') (hx : posIx (s'.pos t) = posIx (s.pos t))
    (hl : s'.log = s.log ∨ ∃ r : Rec E, Dull r.res ∧ r.thr = t ∧ s'.log = s.log ++ [r]) :
    Cnt s' := by
  have h0 := h.zero s.count (Nat.le_refl _)
  have htot : ∀ (f g : Nat → Nat), (∀ p, g p = f p) → f s.count = 0 →
      total g s'.count = total f s.count := by
    intro f g h1 h2
    have e : g = f := funext h1
    rcases hn with hn | hn <;> rw [hn, e]
    rw [total, h2]; rfl
  have hl' : adds s'.log = adds s.log ∧ gets s'.log = gets s.log := by
    rcases hl with hl | ⟨r, hd, _, hl⟩
    · rw [hl]; exact ⟨rfl, rfl⟩
    · rw [hl, adds_push, gets_push, hd.not.1, hd.not.2]; exact ⟨rfl, rfl⟩
  obtain ⟨W, w1, w2, w3⟩ := h.heads
  refine ⟨hr, ?_, ?_, W, w1, ?_, ?_⟩
  · intro p hp'
    rw [(hp p).1, (hp p).2]
    exact h.zero p (by omega)
  · rw [hl'.1, ← h.tails]
    exact htot _ _ (fun p => (hp p).1) h0.1
  · intro t'
    rw [w2]
    by_cases e : t' = t
    · subst e; rw [hx]
    · rw [ho t' e]
  · rw [hl'.2, ← w3]
    exact htot _ _ (fun p => (hp p).2) h0.2

theorem tick_count' {s s' : Sys E} {t c : Nat} (h : tick s t c = some s') :
    s'.count = s.count ∨ s'.count = s.count + 1 := by
  cases tick_mv h <;> first | exact .inl rfl | exact .inr rfl

theorem Eff.count {s s' : Sys E} {t : Nat} (m : Mv s t s') (h : s'.prods ≠ s.prods) :
    s'.count = s.count := by
  cases m <;> first | rfl | exact absurd rfl h

theorem Cnt.reach {q : Bool} {s : Sys E} (h : Reach q s) : Cnt s := by
  induction h with
  | init =>
    exact ⟨fun _ => trivial, fun _ _ => ⟨rfl, rfl⟩, rfl, [], List.nodup_nil,
      fun t => ⟨fun h => (by cases h), fun h => absurd rfl h⟩, rfl⟩
  | @step s s' hr hs ih =>
    have hrr : ∀ t, Ranged s'.count (s'.pos t) := Ranged.reach (.step hr hs)
    cases hs with
    | call t c hi =>
      refine Cnt.keep (t := t) ih hrr (Nat.le_refl _) (.inl rfl) (fun p => ⟨rfl, rfl⟩)
        (fun t' e => upd_ne _ _ e) ?_ (.inl rfl)
      show posIx (upd s.pos t (start c) t) = _
      rw [upd_same, posIx_plain (start_plain c), hi]
      rfl
    | tick t c h =>
      obtain ⟨Γ, src, hit, I, L⟩ := Good.reach hr
      have ho : ∀ t', t' ≠ t → s'.pos t' = s.pos t' := tick_pos h
      have m := tick_mv h
      obtain ⟨W, w1, w2, w3⟩ := ih.heads
      have one : ∀ p, (∀ q, q ≠ p → s'.prods q = s.prods q) → s'.prods p ≠ s.prods p →
          s'.count = s.count :=
        fun p h1 h2 => Eff.count m (fun e => h2 (by rw [e]))
      cases m.eff I with
      | same h1 h2 h3 =>
        exact ih.keep hrr (tick_count h) (tick_count' h) (fun p => ⟨(h1 p).1, (h1 p).2.1⟩) ho h2 h3
      | pub p e ct hp h1 h2 h3 h4 =>
        have hct : ct = (s.prods p).tail := I.o.ct t p e _ ct hp rfl
        have hlt : p < s.count := I.o.lt t p (I.o.add t p e _ hp)
        have hc : s'.count = s.count := one p h1 (fun e => by
          have := congrArg Prod.tail e
          rw [h2] at this
          simp only at this
          omega)
        have hh : ∀ q, (s'.prods q).head = (s.prods q).head := by
          intro q
          by_cases e : q = p
          · subst e; rw [h2]
          · rw [h1 q e]
        refine ⟨hrr, ?_, ?_, W, w1, ?_, ?_⟩
        · intro q hq
          rw [hc] at hq
          rw [h1 q (by omega)]
          exact ih.zero q hq
        · rw [h4, adds_push, hc, total_one (f := fun p => (s.prods p).tail) s.count hlt
            (by simp only [h2, hct]) (fun q hq => by rw [h1 q hq]), ih.tails]
          rfl
        · intro t'
          rw [w2]
          by_cases e : t' = t
          · subst e; rw [h3, hp]; exact Iff.rfl
          · rw [ho t' e]
        · rw [h4, gets_push, hc, funext hh, w3]
          rfl
      | inc k p oc hp h1 h2 h3 h4 =>
        refine ih.keep (t := t) hrr (tick_count h) (tick_count' h) ?_ ho (by rw [h3, hp]; rfl) (.inl h4)
        intro q
        by_cases e : q = p
        · subst e; rw [h2]; exact ⟨rfl, rfl⟩
        · rw [h1 q e]; exact ⟨rfl, rfl⟩
      | take k p m' hp h1 h2 h3 h4 =>
        have hlt : p < s.count := by have := ih.rng t; rw [hp] at this; exact deq_lt this
        have hc : s'.count = s.count := one p h1 (fun e => by
          have := congrArg Prod.head e
          rw [h2] at this
          simp only at this
          omega)
        have hh : ∀ q, (s'.prods q).tail = (s.prods q).tail := by
          intro q
          by_cases e : q = p
          · subst e; rw [h2]
          · rw [h1 q e]
        have htW : t ∉ W := by
          intro hm
          have := (w2 t).mp hm
          rw [hp] at this
          exact this rfl
        refine ⟨hrr, ?_, ?_, t :: W, List.nodup_cons.mpr ⟨htW, w1⟩, ?_, ?_⟩
        · intro q hq
          rw [hc] at hq
          rw [h1 q (by omega)]
          exact ih.zero q hq
        · rw [h4, hc, funext hh, ih.tails]
        · intro t'
          rw [List.mem_cons]
          by_cases e : t' = t
          · subst e; rw [h3]; exact ⟨fun _ => by simp [posIx, DStg.ix], fun _ => .inl rfl⟩
          · rw [ho t' e, w2]; exact ⟨fun h => h.resolve_left e, .inr⟩
        · rw [h4, hc, total_one (f := fun p => (s.prods p).head) s.count hlt
            (by simp only [h2]) (fun q hq => by rw [h1 q hq]), w3]
          rfl
      | miss k p m' hp h1 h2 h3 h4 =>
        refine ih.keep (t := t) hrr (tick_count h) (tick_count' h) ?_ ho (by rw [h3, hp]; rfl) h4
        intro q
        by_cases e : q = p
        · subst e; rw [h2]; exact ⟨rfl, rfl⟩
        · rw [h1 q e]; exact ⟨rfl, rfl⟩
      | got k p i e hx _ h1 h3 h4 =>
        have hc : s'.count = s.count := by
          cases m <;> first | rfl | (rename_i hp _; rw [hp] at hx; cases hx)
        have htW : t ∈ W := (w2 t).mpr (by rw [hx]; simp)
        refine ⟨hrr, ?_, ?_, W.erase t, w1.erase t, ?_, ?_⟩
        · intro q hq
          rw [hc] at hq
          rw [h1]
          exact ih.zero q hq
        · rw [h4, adds_push, hc, h1, ih.tails]
          rfl
        · intro t'
          rw [w1.mem_erase_iff, w2]
          by_cases e : t' = t
          · subst e; rw [h3]; exact ⟨fun h => absurd rfl h.1, fun h => absurd rfl h⟩
          · rw [ho t' e]; exact ⟨fun h => h.2, fun h => ⟨e, h⟩⟩
        · rw [h4, gets_push, hc, h1, w3, List.length_erase_of_mem htW]
          have := List.length_pos_of_mem htW
          show _ = gets s.log + 1 + _
          omega

end Verif.LinkedQueue
