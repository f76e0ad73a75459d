import Verif.Thread.Lemmas
/-!
# How often the function runs
-/
namespace Verif.Thread

/-- The sum of a weight over all agents. -/
def total (g : Pos → Nat) (l : List Pos) : Nat := (l.map g).sum

theorem total_set (g : Pos → Nat) (l : List Pos) (t : Nat) (p p' : Pos) (h : l[t]? = some p) :
    total g (l.set t p') + g p = total g l + g p' := by
  unfold total
  induction l generalizing t with
  | nil => cases h
  | cons x l ih =>
    cases t with
    | zero => cases h; simp only [List.set_cons_zero, List.map_cons, List.sum_cons]; omega
    | succ t =>
      have := ih t h
      simp only [List.set_cons_succ, List.map_cons, List.sum_cons]; omega

theorem total_snoc (g : Pos → Nat) (l : List Pos) (p : Pos) : total g (l ++ [p]) = total g l + g p := by
  unfold total; simp

theorem total_get (g : Pos → Nat) (l : List Pos) (t : Nat) (p : Pos) (h : l[t]? = some p) : g p ≤ total g l := by
  unfold total
  induction l generalizing t with
  | nil => cases h
  | cons x l ih =>
    cases t with
    | zero => cases h; simp only [List.map_cons, List.sum_cons]; omega
    | succ t =>
      have := ih t h
      simp only [List.map_cons, List.sum_cons]; omega

theorem total_get2 (g : Pos → Nat) (hg : g .idle = 0) (l : List Pos) (t u : Nat) (p q : Pos) (h : l[t]? = some p) (h' : l[u]? = some q)
    (hne : t ≠ u) : g p + g q ≤ total g l := by
  have h1 := total_set g l t p .idle h
  have h2 : (l.set t .idle)[u]? = some q := by rw [List.getElem?_set_ne hne]; exact h'
  have h3 := total_get g _ u q h2
  omega

theorem total_replicate (g : Pos → Nat) (hg : g .idle = 0) (k : Nat) : total g (List.replicate k .idle) = 0 := by
  unfold total
  induction k with
  | zero => rfl
  | succ k ih => rw [List.replicate_succ, List.map_cons, List.sum_cons, hg, ih]

theorem total_le (g g' : Pos → Nat) (h : ∀ p, g p ≤ g' p) (l : List Pos) : total g l ≤ total g' l := by
  unfold total
  induction l with
  | nil => exact Nat.le_refl _
  | cons x l ih => simp only [List.map_cons, List.sum_cons]; have := h x; omega

/-- Agents in a run, before the function has returned. -/
def pre : Pos → Nat
  | .rTid _ => 1
  | .rTls _ => 1
  | .rSet _ => 1
  | .rFunc _ => 1
  | .oFunc _ => 1
  | _ => 0

/-- Agents that may still start a run. -/
def toCome : Pos → Nat
  | .sFunc => 1
  | .sAlive => 1
  | .sSpawn => 1
  | _ => 0

/-- Agents in a run that has set `alive`. -/
def window : Pos → Nat
  | .rFunc _ => 1
  | .rRelease _ => 1
  | .rIn _ => 1
  | .rClear _ => 1
  | _ => 0

/-- Agents in a run, workers that have ended, and agents in `start`. -/
def weight : Pos → Nat
  | .sFunc => 1
  | .sAlive => 1
  | .sSpawn => 1
  | .rTid _ => 1
  | .rTls _ => 1
  | .rSet _ => 1
  | .rFunc _ => 1
  | .oFunc _ => 1
  | .rRelease _ => 1
  | .rIn _ => 1
  | .rClear _ => 1
  | .ended => 1
  | _ => 0

theorem parts_le (l : List Pos) : total window l + total toCome l ≤ total weight l := by
  unfold total
  induction l with
  | nil => exact Nat.le_refl _
  | cons x l ih =>
    simp only [List.map_cons, List.sum_cons]
    have : window x + toCome x ≤ weight x := by
      cases x <;> first | exact Nat.le_refl _ | exact Nat.zero_le _
    omega

theorem entry_weights (body : Body) (w : Bool) :
    pre (entry body w) = 1 ∧ toCome (entry body w) = 0 ∧ window (entry body w) = 0 ∧ weight (entry body w) = 1 := by
  cases body <;> exact ⟨rfl, rfl, rfl, rfl⟩

theorem worker_entry (body : Body) (w : Bool) : worker (entry body w) = w := by cases body <;> rfl

/-- After `n` calls of `start` and `run`. -/
structure Counted (n : Nat) (s : Sys) : Prop where
  runs : s.finished + total pre s.pos + total toCome s.pos ≤ n
  weight : total weight s.pos ≤ n
  handle : ∀ w, s.handle = some w → ∃ p, s.pos[w]? = some p ∧ worker p = true

theorem counted_set {n : Nat} {s : Sys} (h : Counted n s) {t : Nat} {p p' : Pos} (ht : s.pos[t]? = some p) {fin : Nat}
    (s' : Sys) (hp : s'.pos = s.pos.set t p') (hf : s'.finished = fin) (hh : ∀ w, s'.handle = some w → s.handle = some w)
    (h1 : fin + pre p' + toCome p' ≤ s.finished + pre p + toCome p) (h2 : weight p' ≤ weight p) (hw : worker p = true → worker p' = true) :
    Counted n s' := by
  have a1 := total_set pre s.pos t p p' ht
  have a2 := total_set toCome s.pos t p p' ht
  have a3 := total_set Thread.weight s.pos t p p' ht
  have b1 := total_get pre s.pos t p ht
  have b2 := total_get toCome s.pos t p ht
  have b3 := total_get Thread.weight s.pos t p ht
  refine ⟨?_, ?_, ?_⟩
  · rw [hp, hf]; have := h.runs; omega
  · rw [hp]; have := h.weight; omega
  · intro w hs
    obtain ⟨q, h3, h4⟩ := h.handle w (hh w hs)
    rw [hp, List.getElem?_set]
    by_cases htw : t = w
    · subst htw
      rw [ht] at h3; cases h3
      rw [if_pos rfl, if_pos (List.getElem?_eq_some_iff.mp ht).1]
      exact ⟨p', rfl, hw h4⟩
    · rw [if_neg htw]; exact ⟨q, h3, h4⟩

theorem counted_step {body : Body} {n : Nat} {s s' : Sys} {e : Ev} (h : Shape body s e s') (hs : Counted n s) :
    s'.fate = .terminated ∨ Counted (n + asks e) s' := by
  cases h with
  | gone _ _ => exact Or.inr ⟨by have := hs.runs; exact Nat.le_trans this (Nat.le_add_right _ _), Nat.le_trans hs.weight (Nat.le_add_right _ _), hs.handle⟩
  | sem e sem hi h => exact Or.inr ⟨hs.runs, hs.weight, hs.handle⟩
  | call t op h =>
    right
    have he := entry_weights body false
    have hd : ∀ p', (pre p' + toCome p' ≤ asks (.call t op)) → weight p' ≤ asks (.call t op) → Counted (n + asks (.call t op)) (s.goto t p') := by
      intro p' h1 h2
      have a1 : total pre (s.pos.set t p') + 0 = total pre s.pos + pre p' := total_set pre s.pos t _ p' h
      have a2 : total toCome (s.pos.set t p') + 0 = total toCome s.pos + toCome p' := total_set toCome s.pos t _ p' h
      have a3 : total weight (s.pos.set t p') + 0 = total weight s.pos + weight p' := total_set weight s.pos t _ p' h
      refine ⟨?_, ?_, ?_⟩
      · have := hs.runs; show s.finished + total pre (s.pos.set t p') + total toCome (s.pos.set t p') ≤ _; omega
      · have := hs.weight; show total weight (s.pos.set t p') ≤ _; omega
      · intro w hw
        obtain ⟨q, h3, h4⟩ := hs.handle w hw
        refine ⟨q, ?_, h4⟩
        show (s.pos.set t p')[w]? = _
        rw [List.getElem?_set]
        by_cases htw : t = w
        · subst htw; rw [h] at h3; cases h3; cases h4
        · rw [if_neg htw]; exact h3
    cases op
    case run =>
      refine hd _ ?_ ?_
      · show pre (entry body false) + toCome (entry body false) ≤ 1; omega
      · show weight (entry body false) ≤ 1; omega
    all_goals exact hd _ (by simp [enter, asks, pre, toCome]) (by simp [enter, asks, weight])
  | tick t p s' ht h' =>
    have hm := tick_moves h'
    show _ ∨ Counted n s'
    cases hm
    case crash => left; rfl
    case spawn h =>
      right
      have he := entry_weights body true
      have hl : t < s.pos.length := (List.getElem?_eq_some_iff.mp ht).1
      have ht' : (s.pos ++ [entry body true])[t]? = some .sSpawn := by rw [List.getElem?_append_left hl]; exact ht
      have a1 := total_set pre _ t _ .idle ht'
      have a2 := total_set toCome _ t _ .idle ht'
      have a3 := total_set weight _ t _ .idle ht'
      have z1 : pre .sSpawn = 0 ∧ pre .idle = 0 := ⟨rfl, rfl⟩
      have z2 : toCome .sSpawn = 1 ∧ toCome .idle = 0 := ⟨rfl, rfl⟩
      have z3 : weight .sSpawn = 1 ∧ weight .idle = 0 := ⟨rfl, rfl⟩
      rw [total_snoc] at a1 a2 a3
      refine ⟨?_, ?_, ?_⟩
      · have := hs.runs; show s.finished + total pre ((s.pos ++ [entry body true]).set t .idle) + total toCome ((s.pos ++ [entry body true]).set t .idle) ≤ n; omega
      · have := hs.weight; show total weight ((s.pos ++ [entry body true]).set t .idle) ≤ n; omega
      · intro w hw
        cases hw
        refine ⟨entry body true, ?_, worker_entry _ _⟩
        show ((s.pos ++ [entry body true]).set t .idle)[s.pos.length]? = _
        rw [List.getElem?_set_ne (by omega)]
        simp
    case dDone w h => right; exact counted_set hs ht _ rfl rfl (by intro w hw; cases hw) (Nat.le_refl _) (Nat.le_refl _) (fun h => h)
    case xWait w h => right; exact counted_set hs ht _ rfl rfl (by intro w hw; cases hw) (Nat.le_refl _) (Nat.le_refl _) (fun h => h)
    case rNull => right; exact ⟨hs.runs, hs.weight, hs.handle⟩
    all_goals
      right
      refine counted_set hs ht _ rfl rfl (fun w hw => hw) ?_ ?_ ?_
      all_goals simp [pre, toCome, weight, worker, Sys.goto, Sys.ret] <;> try omega

theorem counted_init (k : Nat) : Counted 0 (init k) := by
  refine ⟨?_, ?_, ?_⟩
  · show 0 + total pre _ + total toCome _ ≤ 0
    rw [init, total_replicate pre rfl, total_replicate toCome rfl]; exact Nat.le_refl _
  · show total weight _ ≤ 0
    rw [init, total_replicate weight rfl]; exact Nat.le_refl _
  · intro w h; cases h

theorem run_counted {body : Body} (es : List Ev) : ∀ n s s', run body s es = some s' → Counted n s →
    s'.fate = .terminated ∨ Counted (n + asked es) s' := by
  induction es with
  | nil => intro n s s' h hs; cases h; exact Or.inr hs
  | cons e es ih =>
    intro n s s' h hs
    unfold run at h
    cases h1 : step body s e with
    | none => rw [h1] at h; cases h
    | some s1 =>
      rw [h1] at h
      rcases counted_step (step_shape h1).2 hs with h2 | h2
      · cases es with
        | nil => cases h; exact Or.inl h2
        | cons e' es =>
          exfalso
          unfold run step at h
          simp [h2] at h
      · have := ih _ s1 s' h h2
        rw [Nat.add_assoc] at this
        simpa [asked] using this

/-! ## One call of `start` or `run` -/

/-- What holds after at most one call that makes the function run. -/
structure Solo (body : Body) (s : Sys) : Prop where
  alive : s.alive = decide (0 < total window s.pos)
  started : Done.started ∈ s.log → body ≠ .empty → 1 ≤ s.finished + total pre s.pos
  fate : s.fate ≠ .terminated

theorem window_le (l : List Pos) : total window l ≤ total weight l := by have := parts_le l; omega

theorem alone {s : Sys} (hc : Counted 1 s) {t : Nat} {p : Pos} (ht : s.pos[t]? = some p) (hw : weight p = 1) : total window s.pos = window p := by
  have a1 := total_set window s.pos t p .idle ht
  have a2 := total_set weight s.pos t p .idle ht
  have z : window .idle = 0 ∧ weight .idle = 0 := ⟨rfl, rfl⟩
  have h1 := window_le (s.pos.set t .idle)
  have h2 := hc.weight
  omega

theorem solo_set {body : Body} {s s' : Sys} (h : Solo body s) {t : Nat} {p p' : Pos} (ht : s.pos[t]? = some p)
    (hc : Counted 1 s) (hp : s'.pos = s.pos.set t p')
    (ha : s'.alive = s.alive ∧ window p' = window p ∨ s'.alive = decide (0 < window p') ∧ weight p = 1)
    (hl : Done.started ∈ s'.log → Done.started ∈ s.log) (hpre : s.finished + pre p ≤ s'.finished + pre p') (hf : s'.fate ≠ .terminated) : Solo body s' := by
  have a1 := total_set pre s.pos t p p' ht
  have a2 := total_set window s.pos t p p' ht
  have b1 := total_get pre s.pos t p ht
  refine ⟨?_, ?_, hf⟩
  · rcases ha with ⟨h1, h2⟩ | ⟨h1, h2⟩
    · rw [h1, h.alive, hp, show total window (s.pos.set t p') = total window s.pos by omega]
    · rw [h1, hp, show total window (s.pos.set t p') = window p' by have := alone hc ht h2; omega]
  · intro h1 h2
    have := h.started (hl h1) h2
    rw [hp]; omega

theorem solo_step {body : Body} {s s' : Sys} {e : Ev} (h : Shape body s e s') (hc : Counted 1 s) (hs : Solo body s) : Solo body s' := by
  cases h with
  | gone _ _ => exact ⟨hs.alive, hs.started, by intro h; cases h⟩
  | sem e sem hi h => exact ⟨hs.alive, hs.started, hs.fate⟩
  | call t op h =>
    refine solo_set hs h hc rfl (Or.inl ⟨rfl, ?_⟩) (fun h => h) (Nat.add_le_add_left (Nat.zero_le _) _) hs.fate
    cases op <;> first | rfl | exact (entry_weights body false).2.2.1
  | tick t p s' ht h' =>
    have hm := tick_moves h'
    cases hm
    case crash w h =>
      obtain ⟨q, h1, h2⟩ := hc.handle w h
      have hne : t ≠ w := by
        intro e; subst e
        rw [ht] at h1; cases h1; cases h2
      have h3 := total_get2 weight rfl s.pos t w _ q ht h1 hne
      have h4 : weight q = 1 := by cases q <;> first | rfl | cases h2
      have h5 : weight .sSpawn = 1 := rfl
      have := hc.weight
      omega
    case spawn h =>
      have he := entry_weights body true
      have hl : t < s.pos.length := (List.getElem?_eq_some_iff.mp ht).1
      have ht' : (s.pos ++ [entry body true])[t]? = some .sSpawn := by rw [List.getElem?_append_left hl]; exact ht
      have a1 := total_set pre _ t _ .idle ht'
      have a2 := total_set window _ t _ .idle ht'
      have z1 : pre .sSpawn = 0 ∧ pre .idle = 0 := ⟨rfl, rfl⟩
      have z2 : window .sSpawn = 0 ∧ window .idle = 0 := ⟨rfl, rfl⟩
      rw [total_snoc] at a1 a2
      refine ⟨?_, ?_, hs.fate⟩
      · show s.alive = decide (0 < total window ((s.pos ++ [entry body true]).set t .idle))
        rw [hs.alive, show total window ((s.pos ++ [entry body true]).set t .idle) = total window s.pos by omega]
      · intro _ _
        show 1 ≤ s.finished + total pre ((s.pos ++ [entry body true]).set t .idle)
        omega
    case sEmpty h =>
      refine ⟨(solo_set (s' := s.goto t .idle) hs ht hc rfl (Or.inl ⟨rfl, rfl⟩) (fun h => h) (Nat.le_refl _) hs.fate).alive, fun _ h2 => absurd h h2, hs.fate⟩
    case sAlive h =>
      rw [hs.alive, alone hc ht rfl] at h
      cases h
    case rNull => exact ⟨hs.alive, hs.started, by intro h; cases h⟩
    case rSetEmpty w h =>
      refine ⟨?_, fun _ h2 => absurd h h2, hs.fate⟩
      have a2 := total_set window s.pos t _ (.rRelease w) ht
      show true = decide (0 < total window (s.pos.set t (.rRelease w)))
      have z : window (.rRelease w) = 1 ∧ window (.rSet w) = 0 := ⟨rfl, rfl⟩
      rw [eq_comm, decide_eq_true_iff]; omega
    case rSet w h => exact solo_set hs ht hc rfl (Or.inr ⟨rfl, rfl⟩) (fun h => h) (Nat.le_refl _) hs.fate
    case rFunc w h => exact solo_set hs ht hc rfl (Or.inl ⟨rfl, rfl⟩) (fun h => h) (Nat.le_refl _) hs.fate
    case oEnd => exact solo_set hs ht hc rfl (Or.inl ⟨rfl, rfl⟩) (fun h => h) (Nat.le_refl _) hs.fate
    case rEnd => exact solo_set hs ht hc rfl (Or.inr ⟨rfl, rfl⟩) (fun h => h) (Nat.le_refl _) hs.fate
    case rRet => exact solo_set hs ht hc rfl (Or.inr ⟨rfl, rfl⟩) (fun h => by simpa [Sys.ret, Sys.goto] using h) (Nat.le_refl _) hs.fate
    all_goals exact solo_set hs ht hc rfl (Or.inl ⟨rfl, rfl⟩) (fun h => by simpa [Sys.ret, Sys.goto] using h) (Nat.le_refl _) hs.fate

theorem solo_init (body : Body) (k : Nat) : Solo body (init k) := by
  refine ⟨?_, (fun h => by cases h), by intro h; cases h⟩
  show false = decide (0 < total window (List.replicate k .idle))
  rw [total_replicate window rfl]; rfl

theorem counted_mono {n m : Nat} (h : n ≤ m) {s : Sys} (hs : Counted n s) : Counted m s :=
  ⟨Nat.le_trans hs.runs h, Nat.le_trans hs.weight h, hs.handle⟩

theorem run_solo {body : Body} (es : List Ev) : ∀ n s s', run body s es = some s' → n + asked es ≤ 1 → Counted n s → Solo body s →
    Counted (n + asked es) s' ∧ Solo body s' := by
  induction es with
  | nil => intro n s s' h _ hs h2; cases h; exact ⟨hs, h2⟩
  | cons e es ih =>
    intro n s s' h hn hs h2
    unfold run at h
    have hn' : n + asks e + asked es ≤ 1 := by
      have : asked (e :: es) = asks e + asked es := by simp [asked]
      omega
    cases h1 : step body s e with
    | none => rw [h1] at h; cases h
    | some s1 =>
      rw [h1] at h
      have hsh := (step_shape h1).2
      have h3 := solo_step hsh (counted_mono (by omega) hs) h2
      rcases counted_step hsh hs with h4 | h4
      · exact absurd h4 h3.fate
      · have := ih _ s1 s' h hn' h4 h3
        rw [Nat.add_assoc] at this
        simpa [asked] using this

end Verif.Thread
