import Verif.TokenQueue.Model
/-!
# Counting the claims

A call that tries to dequeue `d` elements takes the next `d` units of `dequeueOptimisticCount`. `fate`
says of every unit what became of it. From this follows that the head index never passes the tail index.
-/
namespace Verif.TokenQueue

variable {E : Type}

/-- A unit is undecided, goes to an element or to the overcommit, and has got there or not yet. -/
inductive Fate
  | und (t : Nat)
  | yes (t : Nat)
  | got
  | no (t : Nat)
  | lost
  deriving DecidableEq

def cnt (p : Nat → Bool) : Nat → Nat
  | 0 => 0
  | n + 1 => cnt p n + if p n then 1 else 0

theorem cnt_mono {p : Nat → Bool} {m n : Nat} (h : m ≤ n) : cnt p m ≤ cnt p n := by
  induction h with
  | refl => exact Nat.le_refl _
  | step _ ih => simp only [cnt]; split <;> omega

theorem cnt_le {p q : Nat → Bool} {n : Nat} (h : ∀ u, u < n → p u = true → q u = true) :
    cnt p n ≤ cnt q n := by
  induction n with
  | zero => exact Nat.le_refl _
  | succ n ih =>
    have := ih fun u hu => h u (by omega)
    simp only [cnt]
    by_cases hp : p n = true
    · rw [if_pos hp, if_pos (h n (by omega) hp)]; omega
    · rw [if_neg hp]; omega

theorem cnt_congr {p q : Nat → Bool} {n : Nat} (h : ∀ u, u < n → p u = q u) : cnt p n = cnt q n :=
  Nat.le_antisymm (cnt_le fun u hu hp => h u hu ▸ hp) (cnt_le fun u hu hp => (h u hu).symm ▸ hp)

theorem cnt_zero {p : Nat → Bool} {n : Nat} (h : ∀ u, u < n → p u = false) : cnt p n = 0 := by
  induction n with
  | zero => rfl
  | succ n ih => simp only [cnt]; rw [ih fun u hu => h u (by omega), h n (by omega)]; rfl

theorem cnt_none {p : Nat → Bool} {n : Nat} (h : cnt p n = 0) : ∀ u, u < n → p u = false := by
  induction n with
  | zero => intro u hu; omega
  | succ n ih =>
    intro u hu
    simp only [cnt] at h
    by_cases he : u = n
    · subst he
      cases hp : p u
      · rfl
      · rw [hp] at h; simp at h
    · exact ih (by omega) u (by omega)

/-- Counting two kinds that exclude each other. -/
theorem cnt_or {p q r : Nat → Bool} {n : Nat}
    (h : ∀ u, u < n → (r u = (p u || q u)) ∧ ¬(p u = true ∧ q u = true)) :
    cnt r n = cnt p n + cnt q n := by
  induction n with
  | zero => rfl
  | succ n ih =>
    have h1 := ih fun u hu => h u (by omega)
    have h2 := h n (by omega)
    simp only [cnt]
    rw [h2.1]
    cases hp : p n <;> cases hq : q n <;> simp_all <;> omega

theorem cnt_two {p q r : Nat → Bool} {n : Nat}
    (h : ∀ u, u < n → (p u = true → r u = true) ∧ (q u = true → r u = true) ∧ ¬(p u = true ∧ q u = true)) :
    cnt p n + cnt q n ≤ cnt r n := by
  rw [← cnt_or (r := fun u => p u || q u) (fun u hu => ⟨rfl, (h u hu).2.2⟩)]
  refine cnt_le fun u hu hp => ?_
  have := h u hu
  cases h1 : p u <;> cases h2 : q u <;> simp_all

/-- The size of an interval. -/
theorem cnt_range {p : Nat → Bool} {m d n : Nat} (hn : m + d ≤ n)
    (h : ∀ u, u < n → (p u = true ↔ m ≤ u ∧ u < m + d)) : cnt p n = d := by
  have aux : ∀ k, k ≤ n → cnt p k = min k (m + d) - min k m := by
    intro k
    induction k with
    | zero => intro _; simp [cnt]
    | succ k ih =>
      intro hk
      have h1 := ih (by omega)
      have h2 := h k (by omega)
      simp only [cnt]
      rw [h1]
      by_cases hp : p k = true
      · rw [if_pos hp]; have := h2.1 hp; omega
      · rw [if_neg hp]
        have : ¬ (m ≤ k ∧ k < m + d) := fun hc => hp (h2.2 hc)
        omega
  rw [aux n (Nat.le_refl _)]; omega

theorem cnt_true (n : Nat) : cnt (fun _ => true) n = n := by
  induction n with
  | zero => rfl
  | succ n ih => simp [cnt, ih]

/-- Those that are in are no more than the bound. -/
theorem cnt_bound {p q : Nat → Bool} {n T : Nat}
    (hd : ∀ u, u < n → ¬(p u = true ∧ q u = true))
    (h : ∀ u, u < n → p u = true → u + 1 ≤ T + cnt q u) : cnt p n ≤ T := by
  induction n with
  | zero => simp [cnt]
  | succ n ih =>
    have h1 := ih (fun u hu => hd u (by omega)) (fun u hu => h u (by omega))
    simp only [cnt]
    by_cases hp : p n = true
    · rw [if_pos hp]
      have h2 := h n (by omega) hp
      have h3 : cnt p n + cnt q n ≤ n := by
        have := cnt_two (p := p) (q := q) (r := fun _ => true) (n := n)
          (fun u hu => ⟨fun _ => rfl, fun _ => rfl, hd u (by omega)⟩)
        rw [cnt_true] at this
        exact this
      omega
    · rw [if_neg hp]; exact h1

def Fate.isIn : Fate → Bool
  | .yes _ => true
  | .got => true
  | _ => false

def Fate.isOut : Fate → Bool
  | .no _ => true
  | .lost => true
  | _ => false

/-- The units a call has yet to take elements for, and those it has yet to give back. -/
def wants : DPos E → Nat
  | .short _ a _ => a
  | .head _ a => a
  | _ => 0

def owes : DPos E → Nat
  | .short _ _ r => r
  | .miss _ d => d
  | _ => 0

/-- What a call knows. -/
def Early (fate : Nat → Fate) (opt t : Nat) : DPos E → Prop
  | .op k _ o => 0 < k.max ∧ o ≤ cnt (fun u => (fate u).isOut) opt
  | .inc _ d o => 0 < d ∧ o ≤ cnt (fun u => (fate u).isOut) opt
  | .again _ m d o => 0 < d ∧ m + d ≤ opt ∧ o ≤ cnt (fun u => (fate u).isOut) m ∧
      ∀ u, m ≤ u → u < m + d → fate u = .und t
  | .tl k => 0 < k.max
  | .ov k _ => 0 < k.max
  | .short _ a _ => 0 < a
  | .head _ a => 0 < a
  | _ => True

structure Tk (tail head opt over : Nat) (pos : Nat → DPos E) (fate : Nat → Fate) : Prop where
  got : cnt (fun u => fate u == .got) opt = head
  lost : cnt (fun u => fate u == .lost) opt = over
  yes : ∀ t, cnt (fun u => fate u == .yes t) opt = wants (pos t)
  no : ∀ t, cnt (fun u => fate u == .no t) opt = owes (pos t)
  und : ∀ t u, u < opt → fate u = .und t →
    ∃ bf m d o, pos t = .again bf m d o ∧ m ≤ u ∧ u < m + d
  room : ∀ u, u < opt → (fate u).isIn = true → u + 1 ≤ tail + cnt (fun u => (fate u).isOut) u
  early : ∀ t, Early fate opt t (pos t)

variable {tail head opt over : Nat} {pos : Nat → DPos E} {fate : Nat → Fate}

theorem Tk.start : Tk (E := E) 0 0 0 0 (fun _ => .idle) (fun _ => .got) where
  got := rfl
  lost := rfl
  yes _ := rfl
  no _ := rfl
  und _ _ h := absurd h (Nat.not_lt_zero _)
  room _ h := absurd h (Nat.not_lt_zero _)
  early _ := trivial

theorem Tk.tail_le (h : Tk tail head opt over pos fate) {tail' : Nat} (ht : tail ≤ tail') :
    Tk tail' head opt over pos fate :=
  { h with room := fun u hu hi => Nat.le_trans (h.room u hu hi) (by omega) }

/-- Elements taken and elements about to be taken are in the queue. -/
theorem Tk.bound (h : Tk tail head opt over pos fate) (t : Nat) : head + wants (pos t) ≤ tail := by
  rw [← h.got, ← h.yes t]
  refine Nat.le_trans (cnt_two (r := fun u => (fate u).isIn) fun u _ => ⟨?_, ?_, ?_⟩)
    (cnt_bound (q := fun u => (fate u).isOut) (fun u _ => ?_) h.room)
  · intro hp; simp only [beq_iff_eq] at hp; rw [hp]; rfl
  · intro hp; simp only [beq_iff_eq] at hp; rw [hp]; rfl
  · rintro ⟨hp, hq⟩; simp only [beq_iff_eq] at hp hq; rw [hp] at hq; cases hq
  · rintro ⟨hp, hq⟩; cases hf : fate u <;> simp_all [Fate.isIn, Fate.isOut]

theorem Tk.le (h : Tk tail head opt over pos fate) : head ≤ tail :=
  Nat.le_trans (Nat.le_add_right _ _) (h.bound 0)

theorem Tk.lost_le (h : Tk tail head opt over pos fate) :
    over ≤ cnt (fun u => (fate u).isOut) opt := by
  rw [← h.lost]
  refine cnt_le fun u _ hp => ?_
  simp only [beq_iff_eq] at hp; rw [hp]; rfl

theorem upd_self {α : Type u} (f : Nat → α) (i : Nat) (v : α) : upd f i v i = v := by
  unfold upd; rw [if_pos rfl]

theorem upd_ne {α : Type u} {f : Nat → α} {i j : Nat} {v : α} (h : j ≠ i) : upd f i v j = f j := by
  unfold upd; rw [if_neg h]

/-- A call goes on without touching the counts. -/
theorem Tk.go (h : Tk tail head opt over pos fate) {t : Nat} {p : DPos E}
    (hw : wants p = wants (pos t)) (ho : owes p = owes (pos t)) (hn : ∀ bf m d o, pos t ≠ .again bf m d o)
    (he : Early fate opt t p) : Tk tail head opt over (upd pos t p) fate where
  got := h.got
  lost := h.lost
  yes t' := by
    by_cases e : t' = t
    · subst e; rw [upd_self, hw]; exact h.yes _
    · rw [upd_ne e]; exact h.yes _
  no t' := by
    by_cases e : t' = t
    · subst e; rw [upd_self, ho]; exact h.no _
    · rw [upd_ne e]; exact h.no _
  und t' u hu hf := by
    have h1 := h.und t' u hu hf
    by_cases e : t' = t
    · subst e; obtain ⟨bf, m, d, o, hp, _⟩ := h1; exact absurd hp (hn _ _ _ _)
    · rw [upd_ne e]; exact h1
  room := h.room
  early t' := by
    by_cases e : t' = t
    · subst e; rw [upd_self]; exact he
    · rw [upd_ne e]; exact h.early _

/-- What others know stays true. -/
theorem Early.keep {fate' : Nat → Fate} {opt' t : Nat} {p : DPos E} (h : Early fate opt t p)
    (ho : opt ≤ opt')
    (hout : ∀ u, u < opt → (fate u).isOut = true → (fate' u).isOut = true)
    (hund : ∀ u, u < opt → fate u = .und t → fate' u = .und t) : Early fate' opt' t p := by
  have key : ∀ k, k ≤ opt → cnt (fun u => (fate u).isOut) k ≤ cnt (fun u => (fate' u).isOut) k :=
    fun k hk => cnt_le fun u hu => hout u (by omega)
  cases p <;> try exact h
  case op bf T o =>
    exact ⟨h.1, Nat.le_trans h.2 (Nat.le_trans (key _ (Nat.le_refl _)) (cnt_mono ho))⟩
  case inc bf d o =>
    exact ⟨h.1, Nat.le_trans h.2 (Nat.le_trans (key _ (Nat.le_refl _)) (cnt_mono ho))⟩
  case again bf m d o =>
    obtain ⟨h1, h2, h3, h4⟩ := h
    exact ⟨h1, by omega, Nat.le_trans h3 (key _ (by omega)), fun u hu hv => hund u (by omega) (h4 u hu hv)⟩

/-- Units are taken. -/
theorem Tk.inc (h : Tk tail head opt over pos fate) {t d o : Nat} {bf : Call} (hp : pos t = .inc bf d o) :
    ∃ fate', Tk tail head (opt + d) over (upd pos t (.again bf opt d o)) fate' := by
  have he := h.early t
  rw [hp] at he
  let fate' : Nat → Fate := fun u => if opt ≤ u then .und t else fate u
  have hlt : ∀ u, u < opt → fate' u = fate u := fun u hu => if_neg (by omega)
  have hge : ∀ u, opt ≤ u → fate' u = .und t := fun u hu => if_pos hu
  have hcnt : ∀ (q : Fate → Bool), q (.und t) = false →
      cnt (fun u => q (fate' u)) (opt + d) = cnt (fun u => q (fate u)) opt := by
    intro q hq
    have : ∀ k, cnt (fun u => q (fate' u)) (opt + k) = cnt (fun u => q (fate u)) opt := by
      intro k
      induction k with
      | zero => exact cnt_congr fun u hu => by rw [hlt u hu]
      | succ k ih =>
        show cnt (fun u => q (fate' u)) (opt + k) + (if q (fate' (opt + k)) then 1 else 0) = _
        rw [ih, hge _ (by omega), hq]; rfl
    exact this d
  refine ⟨fate', ?_, ?_, ?_, ?_, ?_, ?_, ?_⟩
  · rw [hcnt (fun f => f == .got) rfl]; exact h.got
  · rw [hcnt (fun f => f == .lost) rfl]; exact h.lost
  · intro t'
    rw [hcnt (fun f => f == .yes t') (by simp), h.yes t']
    by_cases e : t' = t
    · subst e; rw [upd_self, hp]; rfl
    · rw [upd_ne e]
  · intro t'
    rw [hcnt (fun f => f == .no t') (by simp), h.no t']
    by_cases e : t' = t
    · subst e; rw [upd_self, hp]; rfl
    · rw [upd_ne e]
  · intro t' u hu hf
    by_cases hv : u < opt
    · rw [hlt u hv] at hf
      have h1 := h.und t' u hv hf
      by_cases e : t' = t
      · subst e; obtain ⟨_, _, _, _, hq, _⟩ := h1; rw [hp] at hq; cases hq
      · rw [upd_ne e]; exact h1
    · rw [hge u (by omega)] at hf
      cases hf
      rw [upd_self]
      exact ⟨bf, opt, d, o, rfl, by omega, hu⟩
  · intro u hu hi
    by_cases hv : u < opt
    · rw [hlt u hv] at hi
      have := h.room u hv hi
      rw [cnt_congr (q := fun u => (fate u).isOut) fun w hw => by rw [hlt w (by omega)]]
      exact this
    · rw [hge u (by omega)] at hi; cases hi
  · intro t'
    by_cases e : t' = t
    · subst e; rw [upd_self]
      refine ⟨he.1, Nat.le_refl _, ?_, fun u hu _ => hge u hu⟩
      rw [cnt_congr (q := fun u => (fate u).isOut) fun w hw => by rw [hlt w (by omega)]]
      exact he.2
    · rw [upd_ne e]
      exact (h.early t').keep (by omega) (fun u hu hx => by rw [hlt u hu]; exact hx)
        (fun u hu hx => by rw [hlt u hu]; exact hx)

/-- A call decides on its units: the first `a` get elements, the others do not. -/
theorem Tk.decide (h : Tk tail head opt over pos fate) {t m d o a : Nat} {bf : Call} {p : DPos E}
    (hp : pos t = .again bf m d o) (ha : a ≤ d) (hr : a ≠ 0 → m + a ≤ tail + o)
    (hw : wants p = a) (ho : owes p = d - a) (he : ∀ f, Early f opt t p) :
    ∃ fate', Tk tail head opt over (upd pos t p) fate' := by
  obtain ⟨hd, hm, hoc, hund⟩ : 0 < d ∧ m + d ≤ opt ∧ o ≤ cnt (fun u => (fate u).isOut) m ∧
      ∀ u, m ≤ u → u < m + d → fate u = .und t := by
    have he := h.early t
    rw [hp] at he
    exact he
  let fate' : Nat → Fate := fun u =>
    if m ≤ u ∧ u < m + a then .yes t else if m ≤ u ∧ u < m + d then .no t else fate u
  have hin : ∀ u, m ≤ u → u < m + a → fate' u = .yes t := fun u h1 h2 => if_pos ⟨h1, h2⟩
  have hno : ∀ u, m + a ≤ u → u < m + d → fate' u = .no t := fun u h1 h2 => by
    show (if _ then _ else _) = _
    rw [if_neg (by omega), if_pos (by omega)]
  have hel : ∀ u, ¬(m ≤ u ∧ u < m + d) → fate' u = fate u := fun u h1 => by
    show (if _ then _ else _) = _
    rw [if_neg (by omega), if_neg h1]
  have hkeep : ∀ (q : Fate → Bool), q (.und t) = false → q (.yes t) = false → q (.no t) = false →
      cnt (fun u => q (fate' u)) opt = cnt (fun u => q (fate u)) opt := by
    intro q q1 q2 q3
    refine cnt_congr fun u _ => ?_
    by_cases h1 : m ≤ u ∧ u < m + d
    · by_cases h2 : u < m + a
      · rw [hin u h1.1 h2, hund u h1.1 h1.2, q1, q2]
      · rw [hno u (by omega) h1.2, hund u h1.1 h1.2, q1, q3]
    · rw [hel u h1]
  have hout : ∀ u, (fate u).isOut = true → (fate' u).isOut = true := by
    intro u hu
    by_cases h1 : m ≤ u ∧ u < m + d
    · rw [hund u h1.1 h1.2] at hu; cases hu
    · rw [hel u h1]; exact hu
  have hle : ∀ k, cnt (fun u => (fate u).isOut) k ≤ cnt (fun u => (fate' u).isOut) k :=
    fun k => cnt_le fun u _ => hout u
  refine ⟨fate', ?_, ?_, ?_, ?_, ?_, ?_, ?_⟩
  · rw [hkeep (fun f => f == .got) (by simp) (by simp) (by simp)]; exact h.got
  · rw [hkeep (fun f => f == .lost) (by simp) (by simp) (by simp)]; exact h.lost
  · intro t'
    by_cases e : t' = t
    · subst e
      rw [upd_self, hw]
      have h0 := cnt_none (by rw [h.yes t', hp]; rfl)
      refine cnt_range (m := m) (d := a) (by omega) fun u hu => ?_
      by_cases h1 : m ≤ u ∧ u < m + d
      · by_cases h2 : u < m + a
        · simp [hin u h1.1 h2, h1.1, h2]
        · simp [hno u (by omega) h1.2, h2]
      · rw [hel u h1]
        have := h0 u hu
        rw [this]
        constructor
        · intro hc; cases hc
        · intro hc; omega
    · rw [upd_ne e, hkeep (fun f => f == .yes t') (by simp) (by simp [Ne.symm e]) (by simp)]; exact h.yes t'
  · intro t'
    by_cases e : t' = t
    · subst e
      rw [upd_self, ho]
      have h0 := cnt_none (by rw [h.no t', hp]; rfl)
      refine cnt_range (m := m + a) (d := d - a) (by omega) fun u hu => ?_
      by_cases h1 : m ≤ u ∧ u < m + d
      · by_cases h2 : u < m + a
        · simp [hin u h1.1 h2]; omega
        · simp [hno u (by omega) h1.2]; omega
      · rw [hel u h1]
        have := h0 u hu
        rw [this]
        constructor
        · intro hc; cases hc
        · intro hc; omega
    · rw [upd_ne e, hkeep (fun f => f == .no t') (by simp) (by simp) (by simp [Ne.symm e])]; exact h.no t'
  · intro t' u hu hf
    by_cases h1 : m ≤ u ∧ u < m + d
    · by_cases h2 : u < m + a
      · rw [hin u h1.1 h2] at hf; cases hf
      · rw [hno u (by omega) h1.2] at hf; cases hf
    · rw [hel u h1] at hf
      have h3 := h.und t' u hu hf
      by_cases e : t' = t
      · subst e
        obtain ⟨_, _, _, _, hq, h4, h5⟩ := h3
        rw [hp] at hq; cases hq
        exact absurd ⟨h4, h5⟩ h1
      · rw [upd_ne e]; exact h3
  · intro u hu hi
    by_cases h1 : m ≤ u ∧ u < m + d
    · by_cases h2 : u < m + a
      · have h3 := hr (by omega)
        have h4 := hle m
        have h5 : cnt (fun u => (fate' u).isOut) m ≤ cnt (fun u => (fate' u).isOut) u := cnt_mono h1.1
        omega
      · rw [hno u (by omega) h1.2] at hi; cases hi
    · rw [hel u h1] at hi
      exact Nat.le_trans (h.room u hu hi) (Nat.add_le_add_left (hle u) _)
  · intro t'
    by_cases e : t' = t
    · subst e; rw [upd_self]; exact he _
    · rw [upd_ne e]
      refine (h.early t').keep (Nat.le_refl _) (fun u _ => hout u) (fun u _ hx => ?_)
      by_cases h1 : m ≤ u ∧ u < m + d
      · rw [hund u h1.1 h1.2] at hx; cases hx; exact absurd rfl e
      · rw [hel u h1]; exact hx

/-- The units that a call owes are given back. -/
theorem Tk.give (h : Tk tail head opt over pos fate) {t r : Nat} {p : DPos E}
    (hn : ∀ bf m d o, pos t ≠ .again bf m d o)
    (hp : owes (pos t) = r) (hw : wants p = wants (pos t)) (ho : owes p = 0) (he : ∀ f, Early f opt t p) :
    ∃ fate', Tk tail head opt (over + r) (upd pos t p) fate' := by
  let fate' : Nat → Fate := fun u => if fate u = .no t then .lost else fate u
  have hy : ∀ u, fate u = .no t → fate' u = .lost := fun u h1 => if_pos h1
  have hel : ∀ u, fate u ≠ .no t → fate' u = fate u := fun u h1 => if_neg h1
  have hkeep : ∀ (q : Fate → Bool), q (.no t) = q .lost →
      ∀ k, cnt (fun u => q (fate' u)) k = cnt (fun u => q (fate u)) k := by
    intro q hq k
    refine cnt_congr fun u _ => ?_
    by_cases h1 : fate u = .no t
    · rw [hy u h1, h1, hq]
    · rw [hel u h1]
  refine ⟨fate', ?_, ?_, ?_, ?_, ?_, ?_, ?_⟩
  · rw [hkeep (fun f => f == .got) rfl]; exact h.got
  · rw [← h.lost, ← hp, ← h.no t]
    refine cnt_or fun u _ => ?_
    by_cases h1 : fate u = .no t
    · simp [hy u h1, h1]
    · rw [hel u h1]; simp [h1]
  · intro t'
    rw [hkeep (fun f => f == .yes t') rfl, h.yes t']
    by_cases e : t' = t
    · subst e; rw [upd_self, hw]
    · rw [upd_ne e]
  · intro t'
    by_cases e : t' = t
    · subst e
      rw [upd_self, ho]
      refine cnt_zero fun u _ => ?_
      by_cases h1 : fate u = .no t'
      · simp [hy u h1]
      · rw [hel u h1]; simp [h1]
    · rw [upd_ne e, hkeep (fun f => f == .no t') (by show (Fate.no t == Fate.no t') = false; simp [Ne.symm e]), h.no t']
  · intro t' u hu hf
    by_cases h1 : fate u = .no t
    · rw [hy u h1] at hf; cases hf
    · rw [hel u h1] at hf
      have h3 := h.und t' u hu hf
      by_cases e : t' = t
      · subst e
        obtain ⟨_, _, _, _, hq, _⟩ := h3
        exact absurd hq (hn _ _ _ _)
      · rw [upd_ne e]; exact h3
  · intro u hu hi
    rw [hkeep Fate.isOut (by rfl) u]
    by_cases h1 : fate u = .no t
    · rw [hy u h1] at hi; cases hi
    · rw [hel u h1] at hi; exact h.room u hu hi
  · intro t'
    by_cases e : t' = t
    · subst e; rw [upd_self]; exact he _
    · rw [upd_ne e]
      refine (h.early t').keep (Nat.le_refl _) (fun u _ hx => ?_) (fun u _ hx => ?_)
      · by_cases h1 : fate u = .no t
        · rw [hy u h1]; rfl
        · rw [hel u h1]; exact hx
      · rw [hel u (by rw [hx]; simp)]; exact hx

/-- A call takes its elements. -/
theorem Tk.claim (h : Tk tail head opt over pos fate) {t a : Nat} {p : DPos E}
    (hn : ∀ bf m d o, pos t ≠ .again bf m d o)
    (hp : wants (pos t) = a) (hw : wants p = 0) (ho : owes p = owes (pos t)) (he : ∀ f, Early f opt t p) :
    ∃ fate', Tk tail (head + a) opt over (upd pos t p) fate' := by
  let fate' : Nat → Fate := fun u => if fate u = .yes t then .got else fate u
  have hy : ∀ u, fate u = .yes t → fate' u = .got := fun u h1 => if_pos h1
  have hel : ∀ u, fate u ≠ .yes t → fate' u = fate u := fun u h1 => if_neg h1
  have hkeep : ∀ (q : Fate → Bool), q (.yes t) = q .got →
      ∀ k, cnt (fun u => q (fate' u)) k = cnt (fun u => q (fate u)) k := by
    intro q hq k
    refine cnt_congr fun u _ => ?_
    by_cases h1 : fate u = .yes t
    · rw [hy u h1, h1, hq]
    · rw [hel u h1]
  refine ⟨fate', ?_, ?_, ?_, ?_, ?_, ?_, ?_⟩
  · rw [← h.got, ← hp, ← h.yes t]
    refine cnt_or fun u _ => ?_
    by_cases h1 : fate u = .yes t
    · simp [hy u h1, h1]
    · rw [hel u h1]; simp [h1]
  · rw [hkeep (fun f => f == .lost) rfl]; exact h.lost
  · intro t'
    by_cases e : t' = t
    · subst e
      rw [upd_self, hw]
      refine cnt_zero fun u _ => ?_
      by_cases h1 : fate u = .yes t'
      · simp [hy u h1]
      · rw [hel u h1]; simp [h1]
    · rw [upd_ne e, hkeep (fun f => f == .yes t') (by show (Fate.yes t == Fate.yes t') = false; simp [Ne.symm e]), h.yes t']
  · intro t'
    rw [hkeep (fun f => f == .no t') rfl, h.no t']
    by_cases e : t' = t
    · subst e; rw [upd_self, ho]
    · rw [upd_ne e]
  · intro t' u hu hf
    by_cases h1 : fate u = .yes t
    · rw [hy u h1] at hf; cases hf
    · rw [hel u h1] at hf
      have h3 := h.und t' u hu hf
      by_cases e : t' = t
      · subst e
        obtain ⟨_, _, _, _, hq, _⟩ := h3
        exact absurd hq (hn _ _ _ _)
      · rw [upd_ne e]; exact h3
  · intro u hu hi
    rw [hkeep Fate.isOut (by rfl) u]
    by_cases h1 : fate u = .yes t
    · exact h.room u hu (by rw [h1]; rfl)
    · rw [hel u h1] at hi; exact h.room u hu hi
  · intro t'
    by_cases e : t' = t
    · subst e; rw [upd_self]; exact he _
    · rw [upd_ne e]
      refine (h.early t').keep (Nat.le_refl _) (fun u _ hx => ?_) (fun u _ hx => ?_)
      · rw [hel u (by intro hc; rw [hc] at hx; cases hx)]; exact hx
      · rw [hel u (by rw [hx]; simp)]; exact hx

/-- When nobody is in the middle of a claim, the counts agree. -/
theorem Tk.quiet (h : Tk tail head opt over pos fate) (hw : ∀ t, wants (pos t) = 0)
    (ho : ∀ t, owes (pos t) = 0) (hn : ∀ t bf m d o, pos t ≠ .again bf m d o) : opt = head + over := by
  have h1 : cnt (fun _ => true) opt = cnt (fun u => fate u == .got) opt + cnt (fun u => fate u == .lost) opt := by
    refine cnt_or fun u hu => ?_
    cases hf : fate u with
    | got => decide
    | lost => decide
    | und t => obtain ⟨_, _, _, _, hp, _⟩ := h.und t u hu hf; exact absurd hp (hn _ _ _ _ _)
    | yes t =>
      have := cnt_none ((h.yes t).trans (hw t)) u hu
      simp [hf] at this
    | no t =>
      have := cnt_none ((h.no t).trans (ho t)) u hu
      simp [hf] at this
  rw [cnt_true, h.got, h.lost] at h1
  exact h1

end Verif.TokenQueue
