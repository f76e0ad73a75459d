import Verif.Thread.Count
/-!
# One thread joins: every join that returns uses up one run
-/
namespace Verif.Thread

/-- A sum over the agents, of their positions in the thread object and in the semaphore. -/
def pairs (g : Pos → Semaphore.Pos → Nat) : List Pos → List Semaphore.Pos → Nat
  | p :: l, q :: m => g p q + pairs g l m
  | _, _ => 0

theorem pairs_set (g : Pos → Semaphore.Pos → Nat) (l : List Pos) : ∀ (m : List Semaphore.Pos) (t : Nat) (p p' : Pos) (q q' : Semaphore.Pos),
    l[t]? = some p → m[t]? = some q → pairs g (l.set t p') (m.set t q') + g p q = pairs g l m + g p' q' := by
  induction l with
  | nil => intro m t p p' q q' h _; cases h
  | cons x l ih =>
    intro m t p p' q q' h h'
    cases m with
    | nil => cases h'
    | cons y m =>
      cases t with
      | zero => cases h; cases h'; simp only [List.set_cons_zero, pairs]; omega
      | succ t =>
        have := ih m t p p' q q' h h'
        simp only [List.set_cons_succ, pairs]; omega

theorem set_same {α : Type} (l : List α) (t : Nat) (p : α) (h : l[t]? = some p) : l.set t p = l := by
  induction l generalizing t with
  | nil => rfl
  | cons x l ih =>
    cases t with
    | zero => cases h; rfl
    | succ t => rw [List.set_cons_succ, ih t h]

theorem pairs_left (g : Pos → Semaphore.Pos → Nat) (l : List Pos) (m : List Semaphore.Pos) (t : Nat) (p p' : Pos) (q : Semaphore.Pos)
    (h : l[t]? = some p) (h' : m[t]? = some q) : pairs g (l.set t p') m + g p q = pairs g l m + g p' q := by
  have := pairs_set g l m t p p' q q h h'
  rwa [set_same m t q h'] at this

theorem pairs_right (g : Pos → Semaphore.Pos → Nat) (l : List Pos) (m : List Semaphore.Pos) (t : Nat) (p : Pos) (q q' : Semaphore.Pos)
    (h : l[t]? = some p) (h' : m[t]? = some q) : pairs g l (m.set t q') + g p q = pairs g l m + g p q' := by
  have := pairs_set g l m t p p q q' h h'
  rwa [set_same l t p h] at this

theorem pairs_snoc (g : Pos → Semaphore.Pos → Nat) (l : List Pos) : ∀ (m : List Semaphore.Pos) (p : Pos) (q : Semaphore.Pos), m.length = l.length →
    pairs g (l ++ [p]) (m ++ [q]) = pairs g l m + g p q := by
  induction l with
  | nil => intro m p q h; cases m <;> simp_all [pairs]
  | cons x l ih =>
    intro m p q h
    cases m with
    | nil => simp at h
    | cons y m => simp only [List.cons_append, pairs, ih m p q (by simpa using h)]; omega

/-- The permit is still to be put in, or a join has taken one and has not returned. -/
def due : Pos → Semaphore.Pos → Nat
  | .rRelease _, _ => 1
  | .rIn _, .rLockC _ => 1
  | .rIn _, .rLockP _ => 1
  | .rIn _, .rAdd _ => 1
  | .jIn, .idle => 1
  | .jIn, .aTop _ 0 => 1
  | .jIn, .aUnlockP _ _ => 1
  | _, _ => 0

/-- What the position in the semaphore may be, when `c` permits are there. -/
def Fits (c : Int) : Pos → Semaphore.Pos → Prop
  | .jIn, .aTop n k => n = 1 ∧ k ≤ 1
  | .jIn, .aRead n k => n = 1 ∧ k = 0
  | .jIn, .aUnlock n k d => n = 1 ∧ k = 0 ∧ 0 ≤ d ∧ d ≤ c
  | .jIn, .aLockC n k => n = 1 ∧ k = 0
  | .jIn, .aWait n k => n = 1 ∧ k = 0
  | .jIn, .aAsleep n k => n = 1 ∧ k = 0
  | .jIn, .aWoken n k => n = 1 ∧ k = 0 ∧ 1 ≤ c
  | .jIn, .aUnlockC n k => n = 1 ∧ k = 0 ∧ 1 ≤ c
  | .jIn, .aLockP n k => n = 1 ∧ k = 0 ∧ 1 ≤ c
  | .jIn, .aDec n k => n = 1 ∧ k = 0 ∧ 1 ≤ c
  | .jIn, .aUnlockP n k => n = 1 ∧ k = 0
  | .jForIn, .tLockP n => n = 1
  | .jForIn, .tTest n => n = 1
  | .jForIn, .tGot n => n = 1
  | .jForIn, .tMiss n => n = 1
  | .jForIn, .wLockC n => n = 1
  | .jForIn, .wWait n => n = 1
  | .jForIn, .wAsleep n => n = 1
  | .jForIn, .wWoken n => n = 1
  | .jForIn, .wTimedOut n => n = 1
  | .jForIn, .wFail n => n = 1
  | .jForIn, .wLockP n => n = 1
  | .jForIn, .wTest n => n = 1
  | .jForIn, .wGot n => n = 1
  | .jForIn, .wGot2 n => n = 1
  | .jForIn, .wMiss n => n = 1
  | .jForIn, .wMiss2 n => n = 1
  | .jForIn, .tRet n _ => n = 1
  | .rIn _, .rLockC n => n = 1
  | .rIn _, .rLockP n => n = 1
  | .rIn _, .rAdd n => n = 1
  | .rIn _, .rUnlockP n => n = 1
  | .rIn _, .rNotify n => n = 1
  | .rIn _, .rUnlockC n => n = 1
  | .rIn _, .rRet n => n = 1
  | _, .idle => True
  | _, _ => False

theorem fits_more {c c' : Int} (h : c ≤ c') {p : Pos} {q : Semaphore.Pos} (hf : Fits c p q) : Fits c' p q := by
  cases p <;> cases q <;> first | exact hf | (simp only [Fits] at hf ⊢; omega)

/-- One agent's tick in the semaphore. -/
theorem fits_tick {s s' : Semaphore.Sys} {t : Nat} {p : Pos} {q : Semaphore.Pos} (hf : Fits s.count p q) (hc : 0 ≤ s.count)
    (h : Semaphore.tick s t (Semaphore.act q) = some s') :
    ∃ q', s'.threads = s.threads.set t q' ∧ Fits s'.count p q' ∧ 0 ≤ s'.count ∧ s'.count + due p q' ≤ s.count + due p q ∧
      (s'.count < s.count → (p = .jIn ∨ p = .jForIn) ∧ q' ≠ .aAsleep 1 0) ∧ (q' = .aAsleep 1 0 → q = .aWait 1 0) ∧
      (q' = .rUnlockP 1 → 1 ≤ s'.count) ∧ (q' = .rNotify 1 → q = .rUnlockP 1) := by
  cases p
  case jIn =>
    cases q <;> simp only [Fits] at hf
    case idle => simp only [Semaphore.act, Semaphore.tick, reduceCtorEq] at h
    case aTop n k =>
      obtain ⟨rfl, hk⟩ := hf
      match k, hk with
      | 0, _ =>
        simp only [Semaphore.act, Semaphore.tick, Option.some.injEq] at h
        subst h
        exact ⟨_, rfl, trivial, hc, Int.le_refl _, fun h => absurd h (Int.lt_irrefl _), (fun h => by cases h), (fun h => by cases h), (fun h => by cases h)⟩
      | 1, _ =>
        simp only [Semaphore.act, Semaphore.tick, Option.ite_none_right_eq_some, Option.some.injEq] at h
        obtain ⟨_, rfl⟩ := h
        exact ⟨_, rfl, ⟨rfl, rfl⟩, hc, Int.le_refl _, fun h => absurd h (Int.lt_irrefl _), (fun h => by cases h), (fun h => by cases h), (fun h => by cases h)⟩
    case aRead n k =>
      obtain ⟨rfl, rfl⟩ := hf
      simp only [Semaphore.act, Semaphore.tick, Option.some.injEq] at h
      subst h
      exact ⟨_, rfl, ⟨rfl, rfl, hc, Int.le_refl _⟩, hc, Int.le_refl _, fun h => absurd h (Int.lt_irrefl _), (fun h => by cases h), (fun h => by cases h), (fun h => by cases h)⟩
    case aUnlock n k d =>
      obtain ⟨rfl, rfl, h1, h2⟩ := hf
      simp only [Semaphore.act, Semaphore.tick, Option.some.injEq] at h
      subst h
      by_cases hd : d = 0
      · exact ⟨.aLockC 1 0, by rw [if_pos hd]; rfl, ⟨rfl, rfl⟩, hc, Int.le_refl _, fun h => absurd h (Int.lt_irrefl _), (fun h => by cases h), (fun h => by cases h), (fun h => by cases h)⟩
      · exact ⟨.aLockP 1 0, by rw [if_neg hd]; rfl, ⟨rfl, rfl, by show (1 : Int) ≤ s.count; omega⟩, hc, Int.le_refl _, fun h => absurd h (Int.lt_irrefl _), (fun h => by cases h), (fun h => by cases h), (fun h => by cases h)⟩
    case aDec n k =>
      obtain ⟨rfl, rfl, h1⟩ := hf
      simp only [Semaphore.act, Semaphore.tick, Option.some.injEq] at h
      subst h
      exact ⟨.aUnlockP 1 0, rfl, ⟨rfl, rfl⟩, by show (0 : Int) ≤ s.count - 1; omega, by show s.count - 1 + (1 : Nat) ≤ s.count + (0 : Nat); omega,
        fun _ => ⟨Or.inl rfl, (fun h => by cases h)⟩, (fun h => by cases h), (fun h => by cases h), (fun h => by cases h)⟩
    case aWait n k =>
      obtain ⟨rfl, rfl⟩ := hf
      simp only [Semaphore.act, Semaphore.tick, Option.some.injEq] at h
      subst h
      exact ⟨_, rfl, ⟨rfl, rfl⟩, hc, Int.le_refl _, fun h => absurd h (Int.lt_irrefl _), fun _ => rfl, (fun h => by cases h), (fun h => by cases h)⟩
    case aAsleep n k => simp only [Semaphore.act, Semaphore.tick, reduceCtorEq] at h
    all_goals
      simp only [Semaphore.act, Semaphore.tick, Option.ite_none_right_eq_some, Option.some.injEq] at h
      obtain ⟨rfl, rfl, _⟩ := hf
      first
        | (obtain ⟨_, rfl⟩ := h
           refine ⟨_, rfl, ?_, hc, Int.le_refl _, fun h => absurd h (Int.lt_irrefl _), (fun h => by cases h), (fun h => by cases h), (fun h => by cases h)⟩
           first | exact ⟨rfl, rfl⟩ | exact ⟨rfl, rfl, by assumption⟩)
        | (subst h
           refine ⟨_, rfl, ?_, hc, Int.le_refl _, fun h => absurd h (Int.lt_irrefl _), (fun h => by cases h), (fun h => by cases h), (fun h => by cases h)⟩
           first | exact ⟨rfl, rfl⟩ | exact ⟨rfl, rfl, by assumption⟩ | exact ⟨rfl, by omega⟩)
  case jForIn =>
    cases q <;> simp only [Fits] at hf
    case idle => simp only [Semaphore.act, Semaphore.tick, reduceCtorEq] at h
    case wAsleep => simp only [Semaphore.act, Semaphore.tick, reduceCtorEq] at h
    case tTest n =>
      subst hf
      simp only [Semaphore.act, Semaphore.tick, Option.some.injEq] at h
      by_cases hn : (1 : Int) ≤ s.count
      · simp only [if_pos hn] at h
        subst h
        exact ⟨.tGot 1, rfl, rfl, by show (0 : Int) ≤ s.count - 1; omega, by show s.count - 1 + (0 : Nat) ≤ s.count + (0 : Nat); omega,
          fun _ => ⟨Or.inr rfl, (fun h => by cases h)⟩, (fun h => by cases h), (fun h => by cases h), (fun h => by cases h)⟩
      · simp only [if_neg hn] at h
        subst h
        exact ⟨_, rfl, rfl, hc, Int.le_refl _, fun h => absurd h (Int.lt_irrefl _), (fun h => by cases h), (fun h => by cases h), (fun h => by cases h)⟩
    case wTest n =>
      subst hf
      simp only [Semaphore.act, Semaphore.tick, Option.some.injEq] at h
      by_cases hn : (1 : Int) ≤ s.count
      · simp only [if_pos hn] at h
        subst h
        exact ⟨.wGot 1, rfl, rfl, by show (0 : Int) ≤ s.count - 1; omega, by show s.count - 1 + (0 : Nat) ≤ s.count + (0 : Nat); omega,
          fun _ => ⟨Or.inr rfl, (fun h => by cases h)⟩, (fun h => by cases h), (fun h => by cases h), (fun h => by cases h)⟩
      · simp only [if_neg hn] at h
        subst h
        exact ⟨_, rfl, rfl, hc, Int.le_refl _, fun h => absurd h (Int.lt_irrefl _), (fun h => by cases h), (fun h => by cases h), (fun h => by cases h)⟩
    all_goals
      simp only [Semaphore.act, Semaphore.tick, Option.ite_none_right_eq_some, Option.some.injEq] at h
      subst hf
      first
        | (obtain ⟨_, rfl⟩ := h
           exact ⟨_, rfl, rfl, hc, Int.le_refl _, fun h => absurd h (Int.lt_irrefl _), (fun h => by cases h), (fun h => by cases h), (fun h => by cases h)⟩)
        | (subst h
           exact ⟨_, rfl, rfl, hc, Int.le_refl _, fun h => absurd h (Int.lt_irrefl _), (fun h => by cases h), (fun h => by cases h), (fun h => by cases h)⟩)
        | (subst h
           exact ⟨_, rfl, trivial, hc, Int.le_refl _, fun h => absurd h (Int.lt_irrefl _), (fun h => by cases h), (fun h => by cases h), (fun h => by cases h)⟩)
  case rIn w =>
    cases q <;> simp only [Fits] at hf
    case idle => simp only [Semaphore.act, Semaphore.tick, reduceCtorEq] at h
    case rAdd n =>
      subst hf
      simp only [Semaphore.act, Semaphore.tick, Option.some.injEq] at h
      subst h
      exact ⟨.rUnlockP 1, rfl, rfl, by show (0 : Int) ≤ s.count + 1; omega, by show s.count + 1 + (0 : Nat) ≤ s.count + (1 : Nat); omega,
        fun h => by change s.count + 1 < s.count at h; omega, (fun h => by cases h), fun _ => by show (1 : Int) ≤ s.count + 1; omega, (fun h => by cases h)⟩
    case rUnlockP n =>
      subst hf
      simp only [Semaphore.act, Semaphore.tick, Option.some.injEq] at h
      subst h
      exact ⟨_, rfl, rfl, hc, Int.le_refl _, fun h => absurd h (Int.lt_irrefl _), (fun h => by cases h), (fun h => by cases h), fun _ => rfl⟩
    case rNotify n =>
      subst hf
      simp only [Semaphore.act, Semaphore.tick] at h
      by_cases ha : s.threads.any Semaphore.asleep = true
      · rw [if_pos ha] at h; cases h
      · rw [if_neg ha] at h; cases h
        exact ⟨_, rfl, rfl, hc, Int.le_refl _, fun h => absurd h (Int.lt_irrefl _), (fun h => by cases h), (fun h => by cases h), (fun h => by cases h)⟩
    all_goals
      simp only [Semaphore.act, Semaphore.tick, Option.ite_none_right_eq_some, Option.some.injEq] at h
      subst hf
      first
        | (obtain ⟨_, rfl⟩ := h
           exact ⟨_, rfl, rfl, hc, Int.le_refl _, fun h => absurd h (Int.lt_irrefl _), (fun h => by cases h), (fun h => by cases h), (fun h => by cases h)⟩)
        | (subst h
           exact ⟨_, rfl, rfl, hc, Int.le_refl _, fun h => absurd h (Int.lt_irrefl _), (fun h => by cases h), (fun h => by cases h), (fun h => by cases h)⟩)
        | (subst h
           exact ⟨_, rfl, trivial, hc, Int.le_refl _, fun h => absurd h (Int.lt_irrefl _), (fun h => by cases h), (fun h => by cases h), (fun h => by cases h)⟩)
  all_goals
    cases q <;> simp only [Fits] at hf
    simp only [Semaphore.act, Semaphore.tick, reduceCtorEq] at h

/-- Not in the destructor. -/
def kept : Pos → Bool
  | .xTest => false
  | .xWait _ => false
  | .xPermits => false
  | .xAgain => false
  | .xIn => false
  | .xGone => false
  | _ => true

/-- One caller, and no destructor. -/
structure One (s : Sys) : Prop where
  len : s.sem.threads.length = s.pos.length
  fits : ∀ (t : Nat) (p : Pos) (q : Semaphore.Pos), s.pos[t]? = some p → s.sem.threads[t]? = some q → Fits s.sem.count p q
  agents : ∀ (t : Nat) (p : Pos), s.pos[t]? = some p → (worker p = decide (t ≠ 0)) ∧ kept p = true
  nonneg : 0 ≤ s.sem.count
  note : ∀ (t : Nat) (q : Semaphore.Pos), s.sem.threads[t]? = some q → q = .rUnlockP 1 ∨ q = .rNotify 1 → s.sem.threads[0]? = some (.aAsleep 1 0) → 1 ≤ s.sem.count
  locked : Semaphore.Locked s.sem
  balance : s.sem.count + pairs due s.pos s.sem.threads + s.log.count .joined ≤ s.finished

theorem get_other {s : Sys} (h : s.sem.threads.length = s.pos.length) {t : Nat} {p : Pos} (ht : s.pos[t]? = some p) : ∃ q, s.sem.threads[t]? = some q := by
  have := (List.getElem?_eq_some_iff.mp ht).1
  exact ⟨_, List.getElem?_eq_getElem (by omega)⟩

/-- An agent moves in the thread object only. -/
theorem one_set {s s' : Sys} (h : One s) {t : Nat} {p p' : Pos} (ht : s.pos[t]? = some p) (hp : s'.pos = s.pos.set t p') (hsem : s'.sem = s.sem)
    (hq : ∀ q, s.sem.threads[t]? = some q → Fits s.sem.count p q → Fits s.sem.count p' q ∧ due p' q + s'.log.count .joined + s.finished ≤ due p q + s.log.count .joined + s'.finished)
    (hw : worker p' = worker p) (hk : kept p' = true) : One s' := by
  obtain ⟨q, hq0⟩ := get_other h.len ht
  obtain ⟨h1, h2⟩ := hq q hq0 (h.fits t p q ht hq0)
  have a1 := pairs_left due s.pos s.sem.threads t p p' q ht hq0
  refine ⟨by rw [hsem, hp, List.length_set]; exact h.len, ?_, ?_, by rw [hsem]; exact h.nonneg, by rw [hsem]; exact h.note, by rw [hsem]; exact h.locked, ?_⟩
  · intro u p1 q1 hu hu'
    rw [hsem] at hu' ⊢
    rw [hp] at hu
    rcases get_set _ _ _ _ _ hu with ⟨rfl, rfl⟩ | ⟨_, hu⟩
    · rw [hq0] at hu'; cases hu'; exact h1
    · exact h.fits u p1 q1 hu hu'
  · intro u p1 hu
    rw [hp] at hu
    rcases get_set _ _ _ _ _ hu with ⟨rfl, rfl⟩ | ⟨_, hu⟩
    · exact ⟨by rw [hw]; exact (h.agents _ _ ht).1, hk⟩
    · exact h.agents u p1 hu
  · have := h.balance
    rw [hsem, hp]
    omega

/-- An agent enters the semaphore. -/
theorem one_enter {s s' : Sys} (h : One s) {t : Nat} {p p' : Pos} (op : Semaphore.Op) (ht : s.pos[t]? = some p) (hi : s.sem.threads[t]? = some .idle)
    (hp : s'.pos = s.pos.set t p') (hsem : s'.sem = s.sem.goto t (Semaphore.enter op))
    (hf : Fits s.sem.count p' (Semaphore.enter op)) (hd : due p' (Semaphore.enter op) ≤ due p .idle) (hl : s'.log = s.log) (hfin : s'.finished = s.finished)
    (hne : Semaphore.enter op ≠ .aAsleep 1 0 ∧ Semaphore.enter op ≠ .rUnlockP 1 ∧ Semaphore.enter op ≠ .rNotify 1)
    (hw : worker p' = worker p) (hk : kept p' = true) : One s' := by
  have a1 := pairs_set due s.pos s.sem.threads t p p' .idle (Semaphore.enter op) ht hi
  have hth : s'.sem.threads = s.sem.threads.set t (Semaphore.enter op) := by rw [hsem]; rfl
  have hcn : s'.sem.count = s.sem.count := by rw [hsem]; rfl
  refine ⟨by rw [hth, hp, List.length_set, List.length_set]; exact h.len, ?_, ?_, by rw [hcn]; exact h.nonneg, ?_,
    by rw [hsem]; exact Semaphore.locked_step (.call t op hi) h.locked, ?_⟩
  · intro u p1 q1 hu hu'
    rw [hth] at hu'
    rw [hp] at hu
    rw [hcn]
    rcases get_set _ _ _ _ _ hu with ⟨rfl, rfl⟩ | ⟨hne, hu⟩
    · rcases get_set _ _ _ _ _ hu' with ⟨_, rfl⟩ | ⟨hne, _⟩
      · exact hf
      · exact absurd rfl hne
    · rcases get_set _ _ _ _ _ hu' with ⟨he, _⟩ | ⟨_, hu'⟩
      · exact absurd he hne
      · exact h.fits u p1 q1 hu hu'
  · intro u p1 hu
    rw [hp] at hu
    rcases get_set _ _ _ _ _ hu with ⟨rfl, rfl⟩ | ⟨_, hu⟩
    · exact ⟨by rw [hw]; exact (h.agents _ _ ht).1, hk⟩
    · exact h.agents u p1 hu
  · intro u q hu hor h0
    rw [hth] at hu h0
    rw [hcn]
    rcases get_set _ _ _ _ _ hu with ⟨rfl, rfl⟩ | ⟨_, hu⟩
    · rcases hor with he | he
      · exact absurd he hne.2.1
      · exact absurd he hne.2.2
    · rcases get_set _ _ _ _ _ h0 with ⟨_, he⟩ | ⟨_, h0⟩
      · exact absurd he.symm hne.1
      · exact h.note u q hu hor h0
  · have := h.balance
    rw [hcn, hth, hp, hl, hfin]
    omega

theorem one_spawn {s : Sys} (h : One s) (body : Body) (s' : Sys) (hp : s'.pos = s.pos ++ [entry body true])
    (hsem : s'.sem = { s.sem with threads := s.sem.threads ++ [.idle] }) (hl : s'.log = s.log) (hfin : s'.finished = s.finished) (hpos : s.pos ≠ []) : One s' := by
  have hth : s'.sem.threads = s.sem.threads ++ [.idle] := by rw [hsem]
  have hcn : s'.sem.count = s.sem.count := by rw [hsem]
  have hpl : s.pos.length ≠ 0 := by simpa using hpos
  have he : due (entry body true) .idle = 0 ∧ kept (entry body true) = true := by cases body <;> exact ⟨rfl, rfl⟩
  have hidx : ∀ u : Nat, s'.sem.threads[u]? = some .idle ∨ s'.sem.threads[u]? = s.sem.threads[u]? := by
    intro u
    rw [hth]
    rcases Nat.lt_trichotomy u s.sem.threads.length with hu | hu | hu
    · exact Or.inr (List.getElem?_append_left hu)
    · left; rw [hu]; simp
    · right
      rw [List.getElem?_eq_none (by simp; omega), List.getElem?_eq_none (by omega)]
  refine ⟨by rw [hth, hp]; simp [h.len], ?_, ?_, by rw [hcn]; exact h.nonneg, ?_, ?_, ?_⟩
  · intro u p1 q1 hu hu'
    rw [hp] at hu
    rw [hth] at hu'
    rw [hcn]
    rcases get_snoc _ _ _ _ hu with ⟨rfl, rfl⟩ | hu
    · rw [← h.len] at hu'
      simp at hu'
      subst hu'
      cases body <;> trivial
    · have := (List.getElem?_eq_some_iff.mp hu).1
      rw [List.getElem?_append_left (by rw [h.len]; exact this)] at hu'
      exact h.fits u p1 q1 hu hu'
  · intro u p1 hu
    rw [hp] at hu
    rcases get_snoc _ _ _ _ hu with ⟨rfl, rfl⟩ | hu
    · exact ⟨by rw [worker_entry, eq_comm, decide_eq_true_iff]; exact hpl, he.2⟩
    · exact h.agents u p1 hu
  · intro u q hu hor h0
    rw [hcn]
    rcases hidx u with h1 | h1
    · rw [h1] at hu; cases hu
      rcases hor with he | he <;> cases he
    · rcases hidx 0 with h2 | h2
      · rw [h2] at h0; cases h0
      · rw [h1] at hu; rw [h2] at h0
        exact h.note u q hu hor h0
  · rw [hsem]
    have hg : ∀ (g : Semaphore.Pos → Bool) (o : Option Nat), g .idle = false → (∀ u, o = some u ↔ ∃ p, s.sem.threads[u]? = some p ∧ g p = true) →
        ∀ u, o = some u ↔ ∃ p, (s.sem.threads ++ [.idle])[u]? = some p ∧ g p = true := by
      intro g o hg h u
      rw [h u]
      constructor
      · intro ⟨p, h1, h2⟩
        exact ⟨p, by rw [List.getElem?_append_left (List.getElem?_eq_some_iff.mp h1).1]; exact h1, h2⟩
      · intro ⟨p, h1, h2⟩
        rcases get_snoc _ _ _ _ h1 with ⟨_, rfl⟩ | h1
        · rw [hg] at h2; cases h2
        · exact ⟨p, h1, h2⟩
    exact ⟨hg _ _ rfl h.locked.1, hg _ _ rfl h.locked.2⟩
  · have := h.balance
    rw [hcn, hth, hp, hl, hfin, pairs_snoc _ _ _ _ _ h.len]
    omega

/-- At most one agent holds the condition mutex. -/
theorem one_holder {s : Semaphore.Sys} (h : Semaphore.Locked s) {t u : Nat} {q r : Semaphore.Pos} (ht : s.threads[t]? = some q) (hu : s.threads[u]? = some r)
    (hq : Semaphore.holdsC q = true) (hr : Semaphore.holdsC r = true) : t = u := by
  have h1 := (h.1 t).mpr ⟨q, ht, hq⟩
  have h2 := (h.1 u).mpr ⟨r, hu, hr⟩
  rw [h1] at h2
  exact Option.some.inj h2

theorem jIn_zero {s : Sys} (h : One s) {t : Nat} {p : Pos} (ht : s.pos[t]? = some p) (hp : worker p = false) : t = 0 := by
  have := (h.agents t p ht).1
  rw [hp] at this
  simpa using this.symm

theorem one_sem {s : Sys} (h : One s) {e : Semaphore.Ev} {sem : Semaphore.Sys} (hi : inner e = true) (hw : ∀ u, e ≠ .wake u)
    (hs : Semaphore.step s.sem e = some sem) : One { s with sem := sem } := by
  have hlock : Semaphore.Locked sem := Semaphore.locked_step (Semaphore.step_shape hs) h.locked
  have hget : ∀ (t : Nat) (q : Semaphore.Pos), s.sem.threads[t]? = some q → ∃ p, s.pos[t]? = some p := by
    intro t q hq
    have := (List.getElem?_eq_some_iff.mp hq).1
    exact ⟨_, List.getElem?_eq_getElem (by rw [← h.len]; exact this)⟩
  cases inner_of_step hs hi hw with
  | tick t q sem ht ht' =>
    obtain ⟨p, hp⟩ := hget t q ht
    obtain ⟨q', h1, h2, h3, h4, h5, h6, h7, h8⟩ := fits_tick (h.fits t p q hp ht) h.nonneg ht'
    have a1 := pairs_right due s.pos s.sem.threads t p q q' hp ht
    have hothers : ∀ (u : Nat) (p1 : Pos) (q1 : Semaphore.Pos), u ≠ t → s.pos[u]? = some p1 → s.sem.threads[u]? = some q1 → Fits sem.count p1 q1 := by
      intro u p1 q1 hut hu hu'
      have hf := h.fits u p1 q1 hu hu'
      rcases Int.lt_or_le sem.count s.sem.count with hlt | hle
      · have hj := (h5 hlt).1
        have ht0 : t = 0 := jIn_zero h hp (by rcases hj with rfl | rfl <;> rfl)
        have hwk := (h.agents u p1 hu).1
        have hu0 : u ≠ 0 := by omega
        simp only [hu0, ne_eq, not_false_eq_true, decide_true] at hwk
        cases p1 <;> simp only [worker, Bool.false_eq_true] at hwk <;> cases q1 <;> exact hf
      · exact fits_more hle hf
    refine ⟨by rw [h1, List.length_set]; exact h.len, ?_, h.agents, h3, ?_, hlock, ?_⟩
    · intro u p1 q1 hu hu'
      rw [h1] at hu'
      rcases get_set _ _ _ _ _ hu' with ⟨rfl, rfl⟩ | ⟨hne, hu'⟩
      · change s.pos[u]? = some p1 at hu
        rw [hp] at hu; cases hu; exact h2
      · exact hothers u p1 q1 hne hu hu'
    · intro u r hu hor h0
      show 1 ≤ sem.count
      rw [h1] at hu h0
      rcases get_set _ _ _ _ _ hu with ⟨rfl, rfl⟩ | ⟨hne, hu⟩
      · rcases hor with he | he
        · exact h7 he
        · have hq := h8 he
          rcases get_set _ _ _ _ _ h0 with ⟨_, he'⟩ | ⟨_, h0⟩
          · rw [he] at he'; cases he'
          · have := h.note u q ht (Or.inl hq) h0
            rcases Int.lt_or_le sem.count s.sem.count with hlt | hle
            · have hj := (h5 hlt).1
              have hf := h.fits u p q hp ht
              rw [hq] at hf
              rcases hj with rfl | rfl <;> exact hf.elim
            · omega
      · rcases get_set _ _ _ _ _ h0 with ⟨hz, he⟩ | ⟨hz, h0⟩
        · have hq := h6 he.symm
          rw [hq] at ht
          have hr : Semaphore.holdsC r = true := by rcases hor with rfl | rfl <;> rfl
          exact absurd (one_holder h.locked ht hu rfl hr).symm hne
        · have := h.note u r hu hor h0
          rcases Int.lt_or_le sem.count s.sem.count with hlt | hle
          · have hj := (h5 hlt).1
            have ht0 : t = 0 := jIn_zero h hp (by rcases hj with rfl | rfl <;> rfl)
            exact absurd ht0.symm hz
          · omega
    · have := h.balance
      show sem.count + pairs due s.pos sem.threads + s.log.count .joined ≤ s.finished
      rw [h1]
      omega
  | notify t u n q q' ht hu hq =>
    obtain ⟨pt, hpt⟩ := hget t _ ht
    have hft := h.fits t pt _ hpt ht
    obtain ⟨w, rfl, rfl⟩ : ∃ w, pt = .rIn w ∧ n = 1 := by
      cases pt <;> first | exact hft.elim | exact ⟨_, rfl, hft⟩
    have hut : u ≠ t ∧ s.sem.threads[u]? = some q := by
      rcases get_set _ _ _ _ _ hu with ⟨_, rfl⟩ | h1
      · cases hq
      · exact h1
    obtain ⟨pu, hpu⟩ := hget u _ hut.2
    have hfu := h.fits u pu q hpu hut.2
    have hpair : q = .aAsleep 1 0 ∧ q' = .aWoken 1 0 ∧ pu = .jIn ∨ q = .wAsleep 1 ∧ q' = .wWoken 1 ∧ pu = .jForIn := by
      cases q <;> simp only [woken, reduceCtorEq, Option.some.injEq] at hq
      case aAsleep n k =>
        cases pu <;> first | exact hfu.elim | skip
        obtain ⟨rfl, rfl⟩ := hfu
        exact Or.inl ⟨rfl, hq.symm, rfl⟩
      case wAsleep n =>
        cases pu <;> first | exact hfu.elim | skip
        have : n = 1 := hfu
        subst this
        exact Or.inr ⟨rfl, hq.symm, rfl⟩
    have hu0 : u = 0 := jIn_zero h hpu (by rcases hpair with ⟨_, _, rfl⟩ | ⟨_, _, rfl⟩ <;> rfl)
    subst hu0
    have a1 := pairs_right due s.pos s.sem.threads t _ _ (.rUnlockC 1) hpt ht
    have a2 := pairs_right due s.pos (s.sem.threads.set t (.rUnlockC 1)) 0 _ _ q' hpu hu
    have hd : due pu q = due pu q' := by rcases hpair with ⟨rfl, rfl, rfl⟩ | ⟨rfl, rfl, rfl⟩ <;> rfl
    have hd2 : due (.rIn w) (.rNotify 1) = 0 ∧ due (.rIn w) (.rUnlockC 1) = 0 := ⟨rfl, rfl⟩
    refine ⟨?_, ?_, h.agents, h.nonneg, ?_, hlock, ?_⟩
    · show ((s.sem.threads.set t _).set 0 _).length = _
      rw [List.length_set, List.length_set]; exact h.len
    · intro v p1 q1 hv hv'
      change s.pos[v]? = some p1 at hv
      change ((s.sem.threads.set t _).set 0 _)[v]? = some q1 at hv'
      show Fits s.sem.count p1 q1
      rcases get_set _ _ _ _ _ hv' with ⟨rfl, rfl⟩ | ⟨hne, hv'⟩
      · rw [hpu] at hv; cases hv
        rcases hpair with ⟨rfl, rfl, rfl⟩ | ⟨rfl, rfl, rfl⟩
        · exact ⟨rfl, rfl, h.note t _ ht (Or.inr rfl) hut.2⟩
        · exact (rfl : (1 : Int) = 1)
      · rcases get_set _ _ _ _ _ hv' with ⟨rfl, rfl⟩ | ⟨_, hv'⟩
        · rw [hpt] at hv; cases hv; exact (rfl : (1 : Int) = 1)
        · exact h.fits v p1 q1 hv hv'
    · intro v r hv hor h0
      exfalso
      change ((s.sem.threads.set t _).set 0 _)[0]? = _ at h0
      rcases get_set _ _ _ _ _ h0 with ⟨_, he⟩ | ⟨hne, _⟩
      · rcases hpair with ⟨_, rfl, _⟩ | ⟨_, rfl, _⟩ <;> cases he
      · exact hne rfl
    · have := h.balance
      show s.sem.count + pairs due s.pos ((s.sem.threads.set t (.rUnlockC 1)).set 0 q') + s.log.count .joined ≤ s.finished
      omega
  | late u n hu =>
    obtain ⟨p, hp⟩ := hget u _ hu
    have hf := h.fits u p _ hp hu
    obtain ⟨rfl, rfl⟩ : p = .jForIn ∧ n = 1 := by
      cases p <;> first | exact hf.elim | exact ⟨rfl, hf⟩
    have a1 := pairs_right due s.pos s.sem.threads u _ _ (.wTimedOut 1) hp hu
    have hd : due .jForIn (.wTimedOut 1) = 0 ∧ due .jForIn (.wAsleep 1) = 0 := ⟨rfl, rfl⟩
    refine ⟨?_, ?_, h.agents, h.nonneg, ?_, hlock, ?_⟩
    · show (s.sem.threads.set u _).length = _
      rw [List.length_set]; exact h.len
    · intro v p1 q1 hv hv'
      change s.pos[v]? = some p1 at hv
      rcases get_set _ _ _ _ _ hv' with ⟨rfl, rfl⟩ | ⟨hne, hv'⟩
      · rw [hp] at hv; cases hv; exact (rfl : (1 : Int) = 1)
      · exact h.fits v p1 q1 hv hv'
    · intro v r hv hor h0
      rcases get_set _ _ _ _ _ hv with ⟨rfl, rfl⟩ | ⟨hne, hv⟩
      · rcases hor with he | he <;> cases he
      · rcases get_set _ _ _ _ _ h0 with ⟨_, he⟩ | ⟨_, h0⟩
        · cases he
        · exact h.note v r hv hor h0
    · have := h.balance
      show s.sem.count + pairs due s.pos (s.sem.threads.set u (.wTimedOut 1)) + s.log.count .joined ≤ s.finished
      omega

theorem one_step {body : Body} (hb : body ≠ .empty) {s s' : Sys} {e : Ev} (hw : ∀ u, e ≠ .sem (.wake u)) (hd : ∀ t, e ≠ .call t .destroy)
    (h : Shape body s e s') (hs : One s) : One s' := by
  cases h with
  | gone _ _ => exact ⟨hs.len, hs.fits, hs.agents, hs.nonneg, hs.note, hs.locked, hs.balance⟩
  | sem e sem hi h => exact one_sem hs hi (fun u he => hw u (by rw [he])) h
  | call t op h =>
    refine one_set hs h rfl rfl ?_ ?_ ?_
    · intro q _ hf
      have hq : q = .idle := by cases q <;> first | rfl | exact hf.elim
      subst hq
      have he : ∀ w, due (entry body w) .idle = 0 ∧ Fits s.sem.count (entry body w) .idle := by intro w; cases body <;> exact ⟨rfl, trivial⟩
      cases op
      case run => exact ⟨(he false).2, by show due (entry body false) .idle + s.log.count .joined + s.finished ≤ 0 + s.log.count .joined + s.finished; rw [(he false).1]; exact Nat.le_refl _⟩
      all_goals exact ⟨trivial, Nat.le_refl _⟩
    · cases op <;> first | rfl | exact worker_entry body false
    · cases op <;> first | rfl | exact absurd rfl (hd t) | (cases body <;> rfl)
  | tick t p s' ht h' =>
    have hm := tick_moves h'
    have hk := (hs.agents t p ht).2
    cases hm
    case spawn h =>
      have hl : t < s.pos.length := (List.getElem?_eq_some_iff.mp ht).1
      have ht' : (s.pos ++ [entry body true])[t]? = some .sSpawn := by rw [List.getElem?_append_left hl]; exact ht
      have h1 := one_spawn hs body { s with pos := s.pos ++ [entry body true], sem := { s.sem with threads := s.sem.threads ++ [.idle] } } rfl rfl rfl rfl
        (by intro e; rw [e] at hl; cases hl)
      refine one_set h1 ht' rfl rfl ?_ rfl rfl
      intro q _ hf
      have hq : q = .idle := by cases q <;> first | rfl | exact hf.elim
      subst hq
      exact ⟨trivial, by simp [due]⟩
    case crash w h =>
      have hl : t < s.pos.length := (List.getElem?_eq_some_iff.mp ht).1
      exact one_spawn hs body _ rfl rfl rfl rfl (by intro e; rw [e] at hl; cases hl)
    case jEnter h => exact one_enter hs (.acquire 1) ht h rfl rfl ⟨rfl, Nat.le_refl _⟩ (Nat.le_refl _) rfl rfl ⟨(by intro h; cases h), (by intro h; cases h), (by intro h; cases h)⟩ rfl rfl
    case jForEnter h => exact one_enter hs (.tryAcquire 1) ht h rfl rfl rfl (Nat.le_refl _) rfl rfl ⟨(by intro h; cases h), (by intro h; cases h), (by intro h; cases h)⟩ rfl rfl
    case rRelease w h => exact one_enter hs (.release 1) ht h rfl rfl rfl (Nat.le_refl _) rfl rfl ⟨(by intro h; cases h), (by intro h; cases h), (by intro h; cases h)⟩ rfl rfl
    case rSetEmpty w h => exact absurd h hb
    case rNull => exact ⟨hs.len, hs.fits, hs.agents, hs.nonneg, hs.note, hs.locked, hs.balance⟩
    case jIn h =>
      refine one_set hs ht rfl rfl ?_ rfl rfl
      intro q hq hf
      rw [h] at hq; cases hq
      exact ⟨trivial, by simp [due, Sys.ret, Sys.goto]; omega⟩
    case jForIn h =>
      refine one_set hs ht rfl rfl ?_ rfl rfl
      intro q hq hf
      rw [h] at hq; cases hq
      exact ⟨trivial, by simp [due, Sys.ret, Sys.goto]⟩
    case rIn w h =>
      refine one_set hs ht rfl rfl ?_ rfl rfl
      intro q hq hf
      rw [h] at hq; cases hq
      exact ⟨trivial, by simp [due, Sys.goto]⟩
    case xNone => cases hk
    case xSome => cases hk
    case xWait => cases hk
    case xPos => cases hk
    case xZero => cases hk
    case xAgain => cases hk
    case xIn => cases hk
    case xGone => cases hk
    all_goals
      refine one_set hs ht rfl rfl ?_ rfl rfl
      intro q hq hf
      have hq : q = .idle := by cases q <;> first | rfl | exact hf.elim
      subst hq
      exact ⟨trivial, by simp [due, Sys.ret, Sys.goto] <;> omega⟩

theorem one_init : One (init 1) := by
  refine ⟨rfl, ?_, ?_, Int.le_refl _, ?_, Semaphore.init_locked 0 1, Int.le_refl _⟩
  · intro t p q h h'
    rw [init_pos 1 t p h, Semaphore.init_get 0 1 t q h']; trivial
  · intro t p h
    have := (List.getElem?_eq_some_iff.mp h).1
    have ht : t = 0 := by simp [init] at this; exact this
    rw [init_pos 1 t p h, ht]; exact ⟨rfl, rfl⟩
  · intro t q h hor
    rw [Semaphore.init_get 0 1 t q h] at hor
    rcases hor with he | he <;> cases he

end Verif.Thread
