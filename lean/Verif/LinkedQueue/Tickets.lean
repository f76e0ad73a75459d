import Verif.LinkedQueue.Model
/-!
# The counters of one producer

`dequeue` takes a ticket from `dequeueOptimisticCount`, and then either an index from
`headIndex` or a place in `dequeueOvercommit`.  Here: whoever goes for an index finds one
below the tail, whatever the others do.
-/
namespace Verif.LinkedQueue

variable {E : Type}

/-- The fate of a ticket. -/
inductive TS where
  | und (t : Nat)
  | yes (t : Nat)
  | got
  | no (t : Nat)
  | lost
deriving DecidableEq

def TS.isGot : TS → Bool
  | .got => true
  | _ => false

def TS.isLost : TS → Bool
  | .lost => true
  | _ => false

/-- Decided to take an index. -/
def TS.isIn : TS → Bool
  | .yes _ | .got => true
  | _ => false

/-- Decided not to. -/
def TS.isOut : TS → Bool
  | .no _ | .lost => true
  | _ => false

/-- What a thread's position says about the tickets of a producer. -/
inductive TV where
  | none
  | seen (oc : Nat)
  | und (m oc : Nat)
  | yes (m : Nat)
  | no (m : Nat)

def tv (p : Nat) : Pos E → TV
  | .deq _ p' (.opt _ oc) => if p' = p then .seen oc else .none
  | .deq _ p' (.inc oc) => if p' = p then .seen oc else .none
  | .deq _ p' (.again m oc) => if p' = p then .und m oc else .none
  | .deq _ p' (.head m) => if p' = p then .yes m else .none
  | .deq _ p' (.miss m) => if p' = p then .no m else .none
  | _ => .none

/-- The accounts of tickets `D` fit the counters and the threads. -/
structure Acc (T H O V : Nat) (view : Nat → TV) (D : List TS) : Prop where
  len : D.length = O
  got : D.countP TS.isGot = H
  lost : D.countP TS.isLost = V
  room : ∀ (m : Nat) x, D[m]? = some x → x.isIn = true →
    m + 1 ≤ T + (D.take m).countP TS.isOut
  und : ∀ (t m : Nat), D[m]? = some (.und t) ↔ ∃ oc, view t = .und m oc
  yes : ∀ (t m : Nat), D[m]? = some (.yes t) ↔ view t = .yes m
  no : ∀ (t m : Nat), D[m]? = some (.no t) ↔ view t = .no m
  seen : ∀ t oc, view t = .seen oc → oc ≤ V
  early : ∀ t m oc, view t = .und m oc → oc ≤ (D.take m).countP TS.isOut

def TInv (T H O V : Nat) (view : Nat → TV) : Prop := ∃ D, Acc T H O V view D

theorem count_in_out (D : List TS) :
    D.countP TS.isIn + D.countP TS.isOut ≤ D.length := by
  induction D with
  | nil => simp
  | cons x D ih =>
    cases x <;> simp [List.countP_cons, TS.isIn, TS.isOut] <;> omega

theorem count_got_in (D : List TS) : D.countP TS.isGot ≤ D.countP TS.isIn := by
  apply List.countP_mono_left
  intro x _ h
  cases x <;> simp_all [TS.isGot, TS.isIn]

theorem count_lost_out (D : List TS) : D.countP TS.isLost ≤ D.countP TS.isOut := by
  apply List.countP_mono_left
  intro x _ h
  cases x <;> simp_all [TS.isLost, TS.isOut]

theorem count_got_lt (D : List TS) {t : Nat} (h : TS.yes t ∈ D) :
    D.countP TS.isGot < D.countP TS.isIn := by
  induction D with
  | nil => simp at h
  | cons x D ih =>
    rw [List.mem_cons] at h
    rw [List.countP_cons, List.countP_cons]
    rcases h with h | h
    · subst h
      have := count_got_in D
      simp [TS.isGot, TS.isIn]
      omega
    · have := ih h
      cases x <;> simp [TS.isGot, TS.isIn] <;> omega

/-- Those who may take an index are no more than there are elements. -/
theorem room_count (T : Nat) (D : List TS)
    (h : ∀ (m : Nat) x, D[m]? = some x → x.isIn = true →
      m + 1 ≤ T + (D.take m).countP TS.isOut) : D.countP TS.isIn ≤ T := by
  suffices ∀ R : List TS, (∀ (m : Nat) x, R.reverse[m]? = some x → x.isIn = true →
      m + 1 ≤ T + (R.reverse.take m).countP TS.isOut) → R.reverse.countP TS.isIn ≤ T by
    have := this D.reverse (by simpa using h)
    simpa using this
  intro R
  induction R with
  | nil => intro _; simp
  | cons x R ih =>
    intro h
    rw [List.reverse_cons] at h ⊢
    rw [List.countP_append]
    have hih := ih (fun m y hy hi => by
      have hlt : m < R.reverse.length := by
        rcases Nat.lt_or_ge m R.reverse.length with h' | h'
        · exact h'
        · rw [List.getElem?_eq_none h'] at hy; cases hy
      have := h m y (by rw [List.getElem?_append_left hlt]; exact hy) hi
      rw [List.take_append_of_le_length (Nat.le_of_lt hlt)] at this
      exact this)
    cases hx : x.isIn with
    | false => simp [hx]; simpa using hih
    | true =>
      have h1 := h R.reverse.length x (by simp) hx
      rw [List.take_left'] at h1
      · have h2 := count_in_out R.reverse
        simp [hx] at h1 h2 ⊢
        omega
      · rfl

theorem Acc.head_le {T H O V view D} (h : Acc T H O V view D) : H ≤ T := by
  have h1 := room_count T D h.room
  have h2 := count_got_in D
  have h3 := h.got
  omega

theorem Acc.head_lt {T H O V view D} (h : Acc T H O V view D) {t m : Nat}
    (hv : view t = .yes m) : H < T := by
  have h1 := room_count T D h.room
  have hm : TS.yes t ∈ D := List.mem_of_getElem? ((h.yes t m).mpr hv)
  have h2 := count_got_lt D hm
  have h3 := h.got
  omega

theorem TInv.head_le {T H O V view} (h : TInv T H O V view) : H ≤ T :=
  h.elim fun _ h => h.head_le

theorem TInv.head_lt {T H O V view} (h : TInv T H O V view) {t m : Nat}
    (hv : view t = .yes m) : H < T := h.elim fun _ h => h.head_lt hv

theorem TInv.over_le {T H O V view} (h : TInv T H O V view) : V ≤ O := by
  obtain ⟨D, h⟩ := h
  have h1 := count_lost_out D
  have h2 := count_in_out D
  have h3 := h.lost
  have h4 := h.len
  omega

/-- With nobody between taking a ticket and using it, the tickets are the indexes taken
and the overcommits. -/
theorem TInv.quiet {T H O V view} (h : TInv T H O V view)
    (hq : ∀ t, (∃ oc, view t = .seen oc) ∨ view t = .none) : O = H + V := by
  obtain ⟨D, h⟩ := h
  rw [← h.len, ← h.got, ← h.lost]
  have hall : ∀ x, x ∈ D → x = .got ∨ x = .lost := by
    intro x hx
    obtain ⟨m, hm, hx⟩ := List.mem_iff_getElem.mp hx
    have hx : D[m]? = some x := by rw [List.getElem?_eq_getElem hm, hx]
    cases x with
    | got => exact .inl rfl
    | lost => exact .inr rfl
    | und t =>
      obtain ⟨oc, h'⟩ := (h.und t m).mp hx
      rcases hq t with ⟨_, h2⟩ | h2 <;> rw [h2] at h' <;> cases h'
    | yes t =>
      have h' := (h.yes t m).mp hx
      rcases hq t with ⟨_, h2⟩ | h2 <;> rw [h2] at h' <;> cases h'
    | no t =>
      have h' := (h.no t m).mp hx
      rcases hq t with ⟨_, h2⟩ | h2 <;> rw [h2] at h' <;> cases h'
  clear h hq
  induction D with
  | nil => rfl
  | cons x D ih =>
    have := ih (fun y hy => hall y (List.mem_cons_of_mem _ hy))
    rcases hall x List.mem_cons_self with rfl | rfl <;>
      simp [List.countP_cons, TS.isGot, TS.isLost] <;> omega

theorem TInv.init : TInv 0 0 0 0 (fun _ => .none) :=
  ⟨[], rfl, rfl, rfl, by simp, by simp, by simp, by simp, by simp, by simp⟩

theorem TInv.tail {T T' H O V view} (h : TInv T H O V view) (hT : T ≤ T') :
    TInv T' H O V view := by
  obtain ⟨D, h⟩ := h
  refine ⟨D, h.len, h.got, h.lost, ?_, h.und, h.yes, h.no, h.seen, h.early⟩
  intro m x hx hi
  have := h.room m x hx hi
  omega

/-- A thread that has no ticket may think what it likes. -/
theorem TInv.idle {T H O V view} (h : TInv T H O V view) (t : Nat) (v : TV)
    (h0 : (∃ oc, view t = .seen oc) ∨ view t = .none)
    (hv : v = .none ∨ ∃ oc, v = .seen oc ∧ oc ≤ V) : TInv T H O V (upd view t v) := by
  obtain ⟨D, h⟩ := h
  refine ⟨D, h.len, h.got, h.lost, h.room, ?_, ?_, ?_, ?_, ?_⟩
  · intro t' m
    rw [h.und, upd]
    split
    · next he =>
      subst he
      constructor
      · rintro ⟨oc, h1⟩
        rcases h0 with ⟨_, h0⟩ | h0 <;> rw [h0] at h1 <;> cases h1
      · rintro ⟨oc, h1⟩
        rcases hv with hv | ⟨_, hv, _⟩ <;> rw [hv] at h1 <;> cases h1
    · exact Iff.rfl
  · intro t' m
    rw [h.yes, upd]
    split
    · next he =>
      subst he
      constructor
      · intro h1
        rcases h0 with ⟨_, h0⟩ | h0 <;> rw [h0] at h1 <;> cases h1
      · intro h1
        rcases hv with hv | ⟨_, hv, _⟩ <;> rw [hv] at h1 <;> cases h1
    · exact Iff.rfl
  · intro t' m
    rw [h.no, upd]
    split
    · next he =>
      subst he
      constructor
      · intro h1
        rcases h0 with ⟨_, h0⟩ | h0 <;> rw [h0] at h1 <;> cases h1
      · intro h1
        rcases hv with hv | ⟨_, hv, _⟩ <;> rw [hv] at h1 <;> cases h1
    · exact Iff.rfl
  · intro t' oc
    rw [upd]
    split
    · intro h1
      rcases hv with hv | ⟨_, hv, hle⟩ <;> rw [hv] at h1 <;> cases h1
      exact hle
    · exact h.seen t' oc
  · intro t' m oc
    rw [upd]
    split
    · intro h1
      rcases hv with hv | ⟨_, hv, _⟩ <;> rw [hv] at h1 <;> cases h1
    · exact h.early t' m oc

/-- Taking a ticket. -/
theorem TInv.inc {T H O V view} (h : TInv T H O V view) (t oc : Nat)
    (h0 : view t = .seen oc) : TInv T H (O + 1) V (upd view t (.und O oc)) := by
  obtain ⟨D, h⟩ := h
  have hO := h.len
  subst hO
  have hnew : ∀ (m : Nat) x, (D ++ [TS.und t])[m]? = some x ↔
      D[m]? = some x ∨ (m = D.length ∧ x = .und t) := by
    intro m x
    rcases Nat.lt_trichotomy m D.length with hm | hm | hm
    · rw [List.getElem?_append_left hm]
      constructor
      · exact .inl
      · rintro (h' | ⟨h', _⟩)
        · exact h'
        · omega
    · subst hm
      simp
      exact ⟨fun h => h.symm, fun h => h.symm⟩
    · rw [List.getElem?_eq_none (by simp; omega), List.getElem?_eq_none (by omega)]
      simp
      omega
  have hlt : ∀ {m : Nat} {x}, D[m]? = some x → m < D.length := by
    intro m x hx
    rcases Nat.lt_or_ge m D.length with h' | h'
    · exact h'
    · rw [List.getElem?_eq_none h'] at hx; cases hx
  refine ⟨D ++ [.und t], by simp, by simpa [TS.isGot] using h.got,
    by simpa [TS.isLost] using h.lost, ?_, ?_, ?_, ?_, ?_, ?_⟩
  · intro m x hx hi
    rcases (hnew m x).mp hx with hx | ⟨_, rfl⟩
    · rw [List.take_append_of_le_length (Nat.le_of_lt (hlt hx))]
      exact h.room m x hx hi
    · cases hi
  · intro t' m
    rw [hnew, h.und, upd]
    split
    · next he =>
      subst he
      constructor
      · rintro (⟨oc', h1⟩ | ⟨rfl, _⟩)
        · rw [h0] at h1; cases h1
        · exact ⟨oc, rfl⟩
      · rintro ⟨oc', h1⟩
        cases h1
        exact .inr ⟨rfl, rfl⟩
    · next he =>
      constructor
      · rintro (h1 | ⟨_, h1⟩)
        · exact h1
        · cases h1; exact absurd rfl he
      · exact .inl
  · intro t' m
    rw [hnew, h.yes, upd]
    split
    · next he =>
      subst he
      constructor
      · rintro (h1 | ⟨_, h1⟩)
        · rw [h0] at h1; cases h1
        · cases h1
      · intro h1; cases h1
    · constructor
      · rintro (h1 | ⟨_, h1⟩)
        · exact h1
        · cases h1
      · exact .inl
  · intro t' m
    rw [hnew, h.no, upd]
    split
    · next he =>
      subst he
      constructor
      · rintro (h1 | ⟨_, h1⟩)
        · rw [h0] at h1; cases h1
        · cases h1
      · intro h1; cases h1
    · constructor
      · rintro (h1 | ⟨_, h1⟩)
        · exact h1
        · cases h1
      · exact .inl
  · intro t' oc'
    rw [upd]
    split
    · intro h1; cases h1
    · exact h.seen t' oc'
  · intro t' m oc'
    rw [upd]
    split
    · intro h1
      cases h1
      rw [List.take_left']
      · have h1 := h.seen t oc h0
        have h2 := count_lost_out D
        have h3 := h.lost
        omega
      · rfl
    · intro h1
      have h2 := hlt ((h.und t' m).mpr ⟨_, h1⟩)
      rw [List.take_append_of_le_length (Nat.le_of_lt h2)]
      exact h.early t' m oc' h1

/-- Changing the fate of the ticket a thread holds. -/
theorem get_set {D : List TS} {m : Nat} {x : TS} (hm : m < D.length) (n : Nat) (y : TS) :
    (D.set m x)[n]? = some y ↔ (n = m ∧ y = x) ∨ (n ≠ m ∧ D[n]? = some y) := by
  rw [List.getElem?_set]
  split
  · next h =>
    subst h
    simp [hm]
    exact ⟨fun h => h.symm, fun h => h.symm⟩
  · next h =>
    constructor
    · intro h'; exact .inr ⟨fun e => h e.symm, h'⟩
    · rintro (⟨e, _⟩ | ⟨_, h'⟩)
      · exact absurd e.symm h
      · exact h'

theorem countP_set' {f : TS → Bool} : ∀ {D : List TS} {m : Nat} {x y : TS},
    D[m]? = some y → (D.set m x).countP f + (if f y then 1 else 0) =
      D.countP f + (if f x then 1 else 0)
  | [], _, _, _, h => by simp at h
  | a :: D, 0, x, y, h => by
    simp at h
    subst h
    simp [List.countP_cons]
    omega
  | a :: D, m + 1, x, y, h => by
    have := countP_set' (f := f) (D := D) (m := m) (x := x) (y := y) (by simpa using h)
    simp only [List.set_cons_succ, List.countP_cons]
    omega

theorem take_out_set {D : List TS} {m n : Nat} {x y : TS} (h : D[m]? = some y)
    (hy : y.isOut = true → x.isOut = true) :
    (D.take n).countP TS.isOut ≤ ((D.set m x).take n).countP TS.isOut := by
  rw [List.take_set]
  rcases Nat.lt_or_ge m n with hmn | hmn
  · have h' : (D.take n)[m]? = some y := by rw [List.getElem?_take_of_lt hmn]; exact h
    have h1 := countP_set' (f := TS.isOut) (x := x) h'
    cases hb : y.isOut with
    | false => simp [hb] at h1; omega
    | true => simp [hb, hy hb] at h1; omega
  · rw [List.set_eq_of_length_le]
    · exact Nat.le_refl _
    · rw [List.length_take]; omega

/-- The ticket's place is below everything it counts. -/
theorem out_le (D : List TS) (m : Nat) : (D.take m).countP TS.isOut ≤ m := by
  have h1 := count_in_out (D.take m)
  have h2 := List.length_take_le m D
  omega

theorem lt_of_get {D : List TS} {m : Nat} {x} (hx : D[m]? = some x) : m < D.length := by
  rcases Nat.lt_or_ge m D.length with h' | h'
  · exact h'
  · rw [List.getElem?_eq_none h'] at hx; cases hx

/-- The decision to take an index. -/
theorem TInv.yes {T H O V view} (h : TInv T H O V view) (t m oc : Nat)
    (h0 : view t = .und m oc) (hlt : m - oc < T) : TInv T H O V (upd view t (.yes m)) := by
  obtain ⟨D, h⟩ := h
  have hD := (h.und t m).mpr ⟨oc, h0⟩
  have hm := lt_of_get hD
  have hs := fun n y => get_set (x := .yes t) hm n y
  have he := h.early t m oc h0
  have ho := out_le D m
  have hout := fun n => take_out_set (n := n) (x := .yes t) hD (by simp [TS.isOut])
  refine ⟨D.set m (.yes t), by simpa using h.len, ?_, ?_, ?_, ?_, ?_, ?_, ?_, ?_⟩
  · have := countP_set' (f := TS.isGot) (x := .yes t) hD
    simp [TS.isGot] at this
    rw [← h.got]
    simpa [TS.isGot] using this
  · have := countP_set' (f := TS.isLost) (x := .yes t) hD
    simp [TS.isLost] at this
    rw [← h.lost]
    simpa [TS.isLost] using this
  · intro n x hx hi
    rcases (hs n x).mp hx with ⟨rfl, rfl⟩ | ⟨_, hx⟩
    · have := hout n
      omega
    · have h1 := h.room n x hx hi
      have h2 := hout n
      omega
  · intro t' n
    rw [hs, h.und, upd]
    split
    · next ht =>
      subst ht
      constructor
      · rintro (⟨_, h1⟩ | ⟨hn, oc', h1⟩)
        · cases h1
        · rw [h0] at h1; cases h1; exact absurd rfl hn
      · rintro ⟨_, h1⟩; cases h1
    · next ht =>
      constructor
      · rintro (⟨_, h1⟩ | ⟨_, h1⟩)
        · cases h1
        · exact h1
      · intro h1
        refine .inr ⟨?_, h1⟩
        rintro rfl
        rw [(h.und t' n).mpr h1] at hD
        cases hD
        exact ht rfl
  · intro t' n
    rw [hs, h.yes, upd]
    split
    · next ht =>
      subst ht
      constructor
      · rintro (⟨rfl, _⟩ | ⟨_, h1⟩)
        · rfl
        · rw [h0] at h1; cases h1
      · intro h1; cases h1; exact .inl ⟨rfl, rfl⟩
    · next ht =>
      constructor
      · rintro (⟨_, h1⟩ | ⟨_, h1⟩)
        · cases h1; exact absurd rfl ht
        · exact h1
      · intro h1
        refine .inr ⟨?_, h1⟩
        rintro rfl
        rw [(h.yes t' n).mpr h1] at hD
        cases hD
  · intro t' n
    rw [hs, h.no, upd]
    split
    · next ht =>
      subst ht
      constructor
      · rintro (⟨_, h1⟩ | ⟨_, h1⟩)
        · cases h1
        · rw [h0] at h1; cases h1
      · intro h1; cases h1
    · next ht =>
      constructor
      · rintro (⟨_, h1⟩ | ⟨_, h1⟩)
        · cases h1
        · exact h1
      · intro h1
        refine .inr ⟨?_, h1⟩
        rintro rfl
        rw [(h.no t' n).mpr h1] at hD
        cases hD
  · intro t' oc'
    rw [upd]
    split
    · intro h1; cases h1
    · exact h.seen t' oc'
  · intro t' n oc'
    rw [upd]
    split
    · intro h1; cases h1
    · intro h1
      exact Nat.le_trans (h.early t' n oc' h1) (hout n)

/-- The decision not to. -/
theorem TInv.no {T H O V view} (h : TInv T H O V view) (t m oc : Nat)
    (h0 : view t = .und m oc) : TInv T H O V (upd view t (.no m)) := by
  obtain ⟨D, h⟩ := h
  have hD := (h.und t m).mpr ⟨oc, h0⟩
  have hm := lt_of_get hD
  have hs := fun n y => get_set (x := .no t) hm n y
  have hout := fun n => take_out_set (n := n) (x := .no t) hD (by simp [TS.isOut])
  refine ⟨D.set m (.no t), by simpa using h.len, ?_, ?_, ?_, ?_, ?_, ?_, ?_, ?_⟩
  · have := countP_set' (f := TS.isGot) (x := .no t) hD
    simp [TS.isGot] at this
    rw [← h.got]
    simpa [TS.isGot] using this
  · have := countP_set' (f := TS.isLost) (x := .no t) hD
    simp [TS.isLost] at this
    rw [← h.lost]
    simpa [TS.isLost] using this
  · intro n x hx hi
    rcases (hs n x).mp hx with ⟨rfl, rfl⟩ | ⟨_, hx⟩
    · cases hi
    · have h1 := h.room n x hx hi
      have h2 := hout n
      omega
  · intro t' n
    rw [hs, h.und, upd]
    split
    · next ht =>
      subst ht
      constructor
      · rintro (⟨_, h1⟩ | ⟨hn, oc', h1⟩)
        · cases h1
        · rw [h0] at h1; cases h1; exact absurd rfl hn
      · rintro ⟨_, h1⟩; cases h1
    · next ht =>
      constructor
      · rintro (⟨_, h1⟩ | ⟨_, h1⟩)
        · cases h1
        · exact h1
      · intro h1
        refine .inr ⟨?_, h1⟩
        rintro rfl
        rw [(h.und t' n).mpr h1] at hD
        cases hD
        exact ht rfl
  · intro t' n
    rw [hs, h.yes, upd]
    split
    · next ht =>
      subst ht
      constructor
      · rintro (⟨_, h1⟩ | ⟨_, h1⟩)
        · cases h1
        · rw [h0] at h1; cases h1
      · intro h1; cases h1
    · next ht =>
      constructor
      · rintro (⟨_, h1⟩ | ⟨_, h1⟩)
        · cases h1
        · exact h1
      · intro h1
        refine .inr ⟨?_, h1⟩
        rintro rfl
        rw [(h.yes t' n).mpr h1] at hD
        cases hD
  · intro t' n
    rw [hs, h.no, upd]
    split
    · next ht =>
      subst ht
      constructor
      · rintro (⟨rfl, _⟩ | ⟨_, h1⟩)
        · rfl
        · rw [h0] at h1; cases h1
      · intro h1; cases h1; exact .inl ⟨rfl, rfl⟩
    · next ht =>
      constructor
      · rintro (⟨_, h1⟩ | ⟨_, h1⟩)
        · cases h1; exact absurd rfl ht
        · exact h1
      · intro h1
        refine .inr ⟨?_, h1⟩
        rintro rfl
        rw [(h.no t' n).mpr h1] at hD
        cases hD
  · intro t' oc'
    rw [upd]
    split
    · intro h1; cases h1
    · exact h.seen t' oc'
  · intro t' n oc'
    rw [upd]
    split
    · intro h1; cases h1
    · intro h1
      exact Nat.le_trans (h.early t' n oc' h1) (hout n)

/-- Settling a ticket: `yes` becomes an index, `no` an overcommit. -/
theorem settle {T H O V H' V' view D} (h : Acc T H O V view D) (t m : Nat) (x y : TS)
    (hD : D[m]? = some y) (hy : (y = .yes t ∧ x = .got) ∨ (y = .no t ∧ x = .lost))
    (h0 : view t = .yes m ∨ view t = .no m)
    (hH : (D.set m x).countP TS.isGot = H') (hV : (D.set m x).countP TS.isLost = V')
    (hle : V ≤ V') : Acc T H' O V' (upd view t .none) (D.set m x) := by
  have hm := lt_of_get hD
  have hs := fun n z => get_set (x := x) hm n z
  have hout := fun n => take_out_set (n := n) (x := x) hD (by
    rcases hy with ⟨rfl, rfl⟩ | ⟨rfl, rfl⟩ <;> simp [TS.isOut])
  have hx : x = .got ∨ x = .lost := by
    rcases hy with ⟨_, h⟩ | ⟨_, h⟩
    · exact .inl h
    · exact .inr h
  refine ⟨by simpa using h.len, hH, hV, ?_, ?_, ?_, ?_, ?_, ?_⟩
  · intro n z hz hi
    have h2 := hout n
    rcases (hs n z).mp hz with ⟨rfl, rfl⟩ | ⟨_, hz⟩
    · have h1 := h.room n y hD (by
        rcases hy with ⟨rfl, rfl⟩ | ⟨rfl, rfl⟩ <;> simp_all [TS.isIn])
      omega
    · have h1 := h.room n z hz hi
      omega
  · intro t' n
    rw [hs, h.und, upd]
    split
    · next ht =>
      subst ht
      constructor
      · rintro (⟨_, h1⟩ | ⟨hn, oc', h1⟩)
        · rcases hx with rfl | rfl <;> cases h1
        · rcases h0 with h0 | h0 <;> rw [h0] at h1 <;> cases h1
      · rintro ⟨_, h1⟩; cases h1
    · next ht =>
      constructor
      · rintro (⟨_, h1⟩ | ⟨_, h1⟩)
        · rcases hx with rfl | rfl <;> cases h1
        · exact h1
      · intro h1
        refine .inr ⟨?_, h1⟩
        rintro rfl
        rw [(h.und t' n).mpr h1] at hD
        cases hD
        rcases hy with ⟨h, _⟩ | ⟨h, _⟩ <;> cases h
  · intro t' n
    rw [hs, h.yes, upd]
    split
    · next ht =>
      subst ht
      constructor
      · rintro (⟨_, h1⟩ | ⟨hn, h1⟩)
        · rcases hx with rfl | rfl <;> cases h1
        · rcases h0 with h0 | h0 <;> rw [h0] at h1 <;> cases h1
          exact absurd rfl hn
      · intro h1; cases h1
    · next ht =>
      constructor
      · rintro (⟨_, h1⟩ | ⟨_, h1⟩)
        · rcases hx with rfl | rfl <;> cases h1
        · exact h1
      · intro h1
        refine .inr ⟨?_, h1⟩
        rintro rfl
        rw [(h.yes t' n).mpr h1] at hD
        cases hD
        rcases hy with ⟨h, _⟩ | ⟨h, _⟩ <;> cases h
        exact ht rfl
  · intro t' n
    rw [hs, h.no, upd]
    split
    · next ht =>
      subst ht
      constructor
      · rintro (⟨_, h1⟩ | ⟨hn, h1⟩)
        · rcases hx with rfl | rfl <;> cases h1
        · rcases h0 with h0 | h0 <;> rw [h0] at h1 <;> cases h1
          exact absurd rfl hn
      · intro h1; cases h1
    · next ht =>
      constructor
      · rintro (⟨_, h1⟩ | ⟨_, h1⟩)
        · rcases hx with rfl | rfl <;> cases h1
        · exact h1
      · intro h1
        refine .inr ⟨?_, h1⟩
        rintro rfl
        rw [(h.no t' n).mpr h1] at hD
        cases hD
        rcases hy with ⟨h, _⟩ | ⟨h, _⟩ <;> cases h
        exact ht rfl
  · intro t' oc'
    rw [upd]
    split
    · intro h1; cases h1
    · intro h1
      exact Nat.le_trans (h.seen t' oc' h1) hle
  · intro t' n oc'
    rw [upd]
    split
    · intro h1; cases h1
    · intro h1
      exact Nat.le_trans (h.early t' n oc' h1) (hout n)

theorem TInv.take {T H O V view} (h : TInv T H O V view) (t m : Nat)
    (h0 : view t = .yes m) : TInv T (H + 1) O V (upd view t .none) := by
  obtain ⟨D, h⟩ := h
  have hD := (h.yes t m).mpr h0
  have h1 := countP_set' (f := TS.isGot) (x := .got) hD
  have h2 := countP_set' (f := TS.isLost) (x := .got) hD
  simp [TS.isGot] at h1
  simp [TS.isLost] at h2
  refine ⟨_, settle h t m .got (.yes t) hD (.inl ⟨rfl, rfl⟩) (.inl h0) ?_ ?_ (Nat.le_refl _)⟩
  · rw [← h.got]; simpa [TS.isGot] using h1
  · rw [← h.lost]; simpa [TS.isLost] using h2

theorem TInv.lose {T H O V view} (h : TInv T H O V view) (t m : Nat)
    (h0 : view t = .no m) : TInv T H O (V + 1) (upd view t .none) := by
  obtain ⟨D, h⟩ := h
  have hD := (h.no t m).mpr h0
  have h1 := countP_set' (f := TS.isGot) (x := .lost) hD
  have h2 := countP_set' (f := TS.isLost) (x := .lost) hD
  simp [TS.isGot] at h1
  simp [TS.isLost] at h2
  refine ⟨_, settle h t m .lost (.no t) hD (.inr ⟨rfl, rfl⟩) (.inr h0) ?_ ?_ (Nat.le_succ _)⟩
  · rw [← h.got]; simpa [TS.isGot] using h1
  · rw [← h.lost]; simpa [TS.isLost] using h2

end Verif.LinkedQueue
