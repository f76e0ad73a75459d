import Verif.LightSema.Spec
/-!
# The accounts of the semaphore
-/
namespace Verif.LightSema

theorem sum_set {α : Type} (f : α → Int) {l : List α} {i : Nat} {a b : α} (h : l[i]? = some a) :
    sum f (l.set i b) = sum f l - f a + f b := by
  induction l generalizing i with
  | nil => simp at h
  | cons x l ih =>
    cases i with
    | zero =>
      simp only [List.getElem?_cons_zero, Option.some.injEq] at h
      subst h
      simp only [List.set_cons_zero, sum]
      omega
    | succ i =>
      simp only [List.getElem?_cons_succ] at h
      simp only [List.set_cons_succ, sum]
      rw [ih h]
      omega

theorem sum_zero {α : Type} (f : α → Int) {l : List α} (h : ∀ a ∈ l, f a = 0) : sum f l = 0 := by
  induction l with
  | nil => rfl
  | cons a l ih =>
    simp only [sum]
    rw [h a (by simp), ih (fun b hb => h b (by simp [hb]))]
    rfl

theorem sum_nonneg {α : Type} (f : α → Int) {l : List α} (h : ∀ a ∈ l, 0 ≤ f a) : 0 ≤ sum f l := by
  induction l with
  | nil => exact Int.le_refl _
  | cons a l ih =>
    simp only [sum]
    have := h a (by simp)
    have := ih (fun b hb => h b (by simp [hb]))
    omega

theorem sum_ge {α : Type} (f : α → Int) {l : List α} (h : ∀ a ∈ l, 0 ≤ f a) {a : α} (ha : a ∈ l) :
    f a ≤ sum f l := by
  induction l with
  | nil => cases ha
  | cons b l ih =>
    simp only [sum]
    rcases List.mem_cons.1 ha with rfl | ha
    · have := sum_nonneg f (l := l) (fun b hb => h b (by simp [hb]))
      omega
    · have := ih (fun b hb => h b (by simp [hb])) ha
      have := h b (by simp)
      omega

theorem sum_mono {α : Type} {f g : α → Int} {l : List α} (h : ∀ a ∈ l, f a ≤ g a) :
    sum f l ≤ sum g l := by
  induction l with
  | nil => exact Int.le_refl _
  | cons a l ih =>
    simp only [sum]
    have := h a (by simp)
    have := ih (fun b hb => h b (by simp [hb]))
    omega

/-- 1 for a waiter. -/
def waits : Pos → Int
  | .sleep => 1
  | .adjLoad => 1
  | .adjTest _ => 1
  | _ => 0

/-- Posts still to come. -/
def toPost : Pos → Int
  | .post k => k
  | _ => 0

/-- Permits of `signal` that are in the count. -/
def added : Op → Pos → Int
  | op, .post _ => amount op
  | _, _ => 0

/-- What holds at the positions of a call. -/
def Fine : Op → Pos → Prop
  | .tryWait, .load h => h = 0
  | .tryWait, .test h _ => h = 0
  | .tryWaitMany m, .load h => h = 0 ∧ 0 ≤ m
  | .tryWaitMany m, .test h _ => h = 0 ∧ 0 ≤ m
  | .wait _, .load h => h = 0
  | .wait _, .test h _ => h = 0
  | .wait _, .spinLoad _ | .wait _, .spinTest _ _ | .wait _, .sub | .wait _, .sleep => True
  | .wait t, .adjLoad | .wait t, .adjTest _ => t = true
  | .waitMany m _, .load h => (h = 0 ∧ 0 ≤ m) ∨ (h = 1 ∧ 1 < m)
  | .waitMany m _, .test h _ => (h = 0 ∧ 0 ≤ m) ∨ (h = 1 ∧ 1 < m)
  | .waitMany m _, .spinLoad _ | .waitMany m _, .spinTest _ _ | .waitMany m _, .sub
  | .waitMany m _, .sleep => 0 < m
  | .waitMany m t, .adjLoad | .waitMany m t, .adjTest _ => 0 < m ∧ t = true
  | .signal n, .add => 0 ≤ n
  | .signal n, .post k => 0 ≤ n ∧ 0 < k
  | .available, .read => True
  | _, _ => False

/-- The accounts of one thread before and after a step. -/
def Next.waits : Next → Int
  | .at p => LightSema.waits p
  | .ret _ => 0
def Next.toPost : Next → Int
  | .at p => LightSema.toPost p
  | .ret _ => 0
def Next.held (op : Op) : Next → Int
  | .at p => LightSema.held p
  | .ret r => granted (op, r)
def Next.added (op : Op) : Next → Int
  | .at p => LightSema.added op p
  | .ret r => putIn (op, r)
def Next.Fine (op : Op) : Next → Prop
  | .at p => LightSema.Fine op p
  | .ret r => Result op r

/-- The part of the count above and below zero. -/
def pos (x : Int) : Int := if 0 ≤ x then x else 0
def neg (x : Int) : Int := if 0 ≤ x then 0 else -x

theorem begin_ok (op : Op) : (begin op).Fine op ∧ (begin op).waits = 0 ∧ (begin op).toPost = 0 ∧
    (begin op).held op = 0 ∧ (begin op).added op = 0 := by
  cases op with
  | tryWait => exact ⟨rfl, rfl, rfl, rfl, rfl⟩
  | wait t => exact ⟨rfl, rfl, rfl, rfl, rfl⟩
  | tryWaitMany m =>
    simp only [begin]
    split
    · rename_i h; exact ⟨⟨rfl, h⟩, rfl, rfl, rfl, rfl⟩
    · rename_i h; exact ⟨.inl ⟨by omega, rfl⟩, rfl, rfl, rfl, rfl⟩
  | waitMany m t =>
    simp only [begin]
    split
    · rename_i h; exact ⟨.inl ⟨rfl, h⟩, rfl, rfl, rfl, rfl⟩
    · rename_i h; exact ⟨.inl ⟨by omega, rfl⟩, rfl, rfl, rfl, rfl⟩
  | signal n =>
    simp only [begin]
    split
    · rename_i h; exact ⟨h, rfl, rfl, rfl, rfl⟩
    · rename_i h; exact ⟨.inl ⟨by omega, rfl⟩, rfl, rfl, rfl, rfl⟩
  | available => exact ⟨trivial, rfl, rfl, rfl, rfl⟩

/-- A step keeps the accounts: `m_sema`, the posts to come and the count below zero make up the
waiters; what is held, free and under way makes up what was put in. -/
structure Keeps (op : Op) (sh : Shared) (p : Pos) (sh' : Shared) (n : Next) : Prop where
  fine : n.Fine op
  waiters : sh'.sema + n.toPost + neg sh'.count - n.waits = sh.sema + toPost p + neg sh.count - waits p
  permits : n.held op + pos sh'.count + sh'.sema + n.toPost - n.added op
    = held p + pos sh.count + sh.sema + toPost p - added op p

theorem taken_ok {op : Op} {p : Pos} {h : Nat} {old : Int}
    (hp : p = .load h ∨ (∃ x, p = .test h x) ∨ (h = 0 ∧ ∃ x y, p = .spinTest x y))
    (hf : Fine op p) (ho : 0 < old) :
    0 ≤ taken op h old ∧ (hit op h (old - taken op h old).toNat).Fine op ∧
      (hit op h (old - taken op h old).toNat).waits = 0 ∧
      (hit op h (old - taken op h old).toNat).toPost = 0 ∧
      (hit op h (old - taken op h old).toNat).added op = 0 ∧
      (hit op h (old - taken op h old).toNat).held op = h + (old - taken op h old) := by
  have key : ∀ m : Int, 0 ≤ m - h → 0 ≤ (if m - h < old then old - (m - h) else 0) ∧
      (old - (if m - h < old then old - (m - h) else 0)).toNat ≤ m - h ∧
      ((old - (if m - h < old then old - (m - h) else 0)).toNat : Int) =
        old - (if m - h < old then old - (m - h) else 0) ∧
      (0 < m - h → 0 < (old - (if m - h < old then old - (m - h) else 0)).toNat) := by
    intro m hm
    split <;> omega
  cases op with
  | tryWait =>
    have hh : h = 0 := by
      rcases hp with rfl | ⟨x, rfl⟩ | ⟨h1, _, _, rfl⟩
      · exact hf
      · exact hf
      · exact h1
    subst hh
    have e : (old - (old - 1)).toNat = 1 := by omega
    simp only [taken, hit, e, checked]
    exact ⟨by omega, .inr rfl, rfl, rfl, rfl, by simp only [Next.held, granted]; omega⟩
  | wait t =>
    have hh : h = 0 := by
      rcases hp with rfl | ⟨x, rfl⟩ | ⟨h1, _, _, rfl⟩
      · exact hf
      · exact hf
      · exact h1
    subst hh
    have e : (old - (old - 1)).toNat = 1 := by omega
    simp only [taken, hit, e, checked]
    exact ⟨by omega, .inl rfl, rfl, rfl, rfl, by simp only [Next.held, granted]; omega⟩
  | tryWaitMany m =>
    have hh : h = 0 ∧ 0 ≤ m := by
      rcases hp with rfl | ⟨x, rfl⟩ | ⟨h1, _, _, rfl⟩
      · exact hf
      · exact hf
      · exact absurd hf id
    obtain ⟨k1, k2, k3, k4⟩ := key m (by omega)
    simp only [taken, hit, checked]
    exact ⟨k1, .inr ⟨_, rfl, by omega⟩, rfl, rfl, rfl, by simp only [Next.held, granted]; omega⟩
  | waitMany m t =>
    have hh : (h = 0 ∧ 0 ≤ m) ∨ (h = 1 ∧ 1 < m) := by
      rcases hp with rfl | ⟨x, rfl⟩ | ⟨h1, _, _, rfl⟩
      · exact hf
      · exact hf
      · exact .inl ⟨h1, Int.le_of_lt hf⟩
    obtain ⟨k1, k2, k3, k4⟩ := key m (by omega)
    simp only [taken, hit]
    generalize (if m - (h : Int) < old then old - (m - h) else 0) = nw at *
    generalize hk : (old - nw).toNat = k at *
    by_cases h0 : h + k = 0
    · have hm : m = 0 := by omega
      rw [h0]
      cases t with
      | false => exact ⟨k1, .inr (.inl ⟨hm, rfl, rfl⟩), rfl, rfl, rfl, by simp only [checked, Next.held, granted]; omega⟩
      | true => exact ⟨k1, .inr (.inr (.inl ⟨rfl, rfl, by omega⟩)), rfl, rfl, rfl, by
          simp only [checked, Next.held, granted]; omega⟩
    · have hc : checked (.waitMany m t) (h + k) = .ret (some (h + k)) := by
        obtain ⟨j, hj⟩ : ∃ j, h + k = j + 1 := ⟨h + k - 1, by omega⟩
        rw [hj]
        cases t <;> rfl
      rw [hc]
      exact ⟨k1, .inr (.inr (.inr ⟨_, rfl, by omega, by omega⟩)), rfl, rfl, rfl, by
        simp only [Next.held, granted]; omega⟩
  | signal n =>
    rcases hp with rfl | ⟨x, rfl⟩ | ⟨h1, _, _, rfl⟩ <;> exact absurd hf id
  | available =>
    rcases hp with rfl | ⟨x, rfl⟩ | ⟨h1, _, _, rfl⟩ <;> exact absurd hf id

/-- A call that waits. -/
def Waits : Op → Prop
  | .wait _ => True
  | .waitMany m _ => 0 < m
  | _ => False

theorem got_ok {op : Op} (h : Waits op) : (got op).Fine op ∧ (got op).waits = 0 ∧ (got op).toPost = 0 ∧
    (got op).added op = 0 ∧ (got op).held op = 1 := by
  cases op with
  | wait t => exact ⟨.inl rfl, rfl, rfl, rfl, rfl⟩
  | waitMany m t =>
    simp only [got]
    split
    · rename_i hm; exact ⟨.inr ⟨rfl, hm⟩, rfl, rfl, rfl, rfl⟩
    · have hc : checked (.waitMany m t) 1 = .ret (some 1) := by cases t <;> rfl
      rw [hc]
      have h' : 0 < m := h
      exact ⟨.inr (.inr (.inr ⟨1, rfl, by omega, by omega⟩)), rfl, rfl, rfl, rfl⟩
  | _ => exact absurd h id

theorem spin_ok {op : Op} (h : Waits op) (n : Nat) : (spinNext n).Fine op ∧ (spinNext n).waits = 0 ∧
    (spinNext n).toPost = 0 ∧ (spinNext n).added op = 0 ∧ (spinNext n).held op = 0 := by
  cases n with
  | zero =>
    cases op with
    | wait t => exact ⟨trivial, rfl, rfl, rfl, rfl⟩
    | waitMany m t => exact ⟨h, rfl, rfl, rfl, rfl⟩
    | _ => exact absurd h id
  | succ n =>
    cases op with
    | wait t => exact ⟨trivial, rfl, rfl, rfl, rfl⟩
    | waitMany m t => exact ⟨h, rfl, rfl, rfl, rfl⟩
    | _ => exact absurd h id

theorem miss_ok {op : Op} {h : Nat} {old : Int} (hf : Fine op (.test h old)) :
    (miss op h).Fine op ∧ (miss op h).waits = 0 ∧ (miss op h).toPost = 0 ∧ (miss op h).added op = 0 ∧
      (miss op h).held op = h := by
  cases op with
  | tryWait => cases hf; exact ⟨.inl rfl, rfl, rfl, rfl, rfl⟩
  | wait t =>
    cases hf
    exact spin_ok (op := .wait t) trivial spins
  | tryWaitMany m =>
    obtain ⟨rfl, hm⟩ := hf
    exact ⟨.inr ⟨0, rfl, hm⟩, rfl, rfl, rfl, rfl⟩
  | waitMany m t =>
    rcases hf with ⟨rfl, hm⟩ | ⟨rfl, hm⟩
    · simp only [miss]
      split
      · rename_i h; exact spin_ok (op := .waitMany m t) h spins
      · rename_i h
        have h0 : m = 0 := by omega
        cases t with
        | false => exact ⟨.inr (.inl ⟨h0, rfl, rfl⟩), rfl, rfl, rfl, rfl⟩
        | true => exact ⟨.inr (.inr (.inl ⟨rfl, rfl, hm⟩)), rfl, rfl, rfl, rfl⟩
    · have hc : miss (.waitMany m t) 1 = .ret (some 1) := by cases t <;> rfl
      rw [hc]
      exact ⟨.inr (.inr (.inr ⟨1, rfl, by omega, by omega⟩)), rfl, rfl, rfl, rfl⟩
  | _ => exact absurd hf id

theorem posts_ok {n : Int} (hn : 0 ≤ n) (k : Nat) : (posts k).Fine (.signal n) ∧ (posts k).waits = 0 ∧
    (posts k).toPost = k ∧ (posts k).added (.signal n) = n ∧ (posts k).held (.signal n) = 0 := by
  unfold posts
  split
  · rename_i h; subst h; exact ⟨.inr ⟨hn, rfl⟩, rfl, rfl, rfl, rfl⟩
  · exact ⟨⟨hn, by omega⟩, rfl, rfl, rfl, rfl⟩

theorem step_ok {op : Op} {sh : Shared} {p : Pos} {c : Bool} {sh' : Shared} {n : Next}
    (hf : Fine op p) (h : step op sh p c = some (sh', n)) : Keeps op sh p sh' n := by
  have hwait : (p = .sleep ∨ p = .adjLoad ∨ (∃ x, p = .adjTest x) ∨ p = .sub ∨ (∃ x, p = .spinLoad x) ∨
      ∃ x y, p = .spinTest x y) → Waits op := by
    intro hp
    rcases hp with rfl | rfl | ⟨_, rfl⟩ | rfl | ⟨_, rfl⟩ | ⟨_, _, rfl⟩ <;>
      (cases op <;> first | exact trivial | exact hf | exact hf.1 | exact absurd hf id)
  have htimed : (p = .adjLoad ∨ (∃ x, p = .adjTest x)) → (checked op 0).Fine op ∧ (checked op 0).held op = 0 ∧
      checked op 0 = .ret (some 0) := by
    intro hp
    rcases hp with rfl | ⟨_, rfl⟩ <;>
    · cases op with
      | wait t => cases hf; exact ⟨.inr ⟨rfl, rfl⟩, rfl, rfl⟩
      | waitMany m t =>
        obtain ⟨hm, rfl⟩ := hf
        exact ⟨.inr (.inr (.inl ⟨rfl, rfl, Int.le_of_lt hm⟩)), rfl, rfl⟩
      | _ => exact absurd hf id
  cases p with
  | load held =>
    cases h
    have : Fine op (.test held sh.count) := by cases op <;> exact hf
    exact ⟨this, rfl, rfl⟩
  | test held old =>
    simp only [step] at h
    split at h
    · cases h
      obtain ⟨h1, h2, h3, h4, h5⟩ := miss_ok hf
      exact ⟨h1, by rw [h2, h3]; rfl, by rw [h3, h4, h5]; rfl⟩
    · rename_i ho
      split at h
      · rename_i hc
        cases h
        obtain ⟨h0, h1, h2, h3, h4, h5⟩ := taken_ok (.inr (.inl ⟨old, rfl⟩)) hf (by omega : 0 < old)
        refine ⟨h1, ?_, ?_⟩
        · rw [h2, h3]
          simp only [neg, toPost, waits]
          rw [if_pos h0, if_pos (by omega)]
        · rw [h3, h4, h5]
          simp only [pos, toPost, LightSema.held, added]
          rw [if_pos h0, if_pos (by omega)]
          omega
      · cases h
        have : Fine op (.test held sh.count) := by cases op <;> exact hf
        exact ⟨this, rfl, rfl⟩
  | spinLoad left =>
    cases h
    have : Fine op (.spinTest left sh.count) := by cases op <;> exact hf
    exact ⟨this, rfl, rfl⟩
  | spinTest left old =>
    simp only [step] at h
    split at h
    · rename_i hc
      cases h
      obtain ⟨h0, h1, h2, h3, h4, h5⟩ := taken_ok (.inr (.inr ⟨rfl, left, old, rfl⟩)) hf hc.1
      refine ⟨h1, ?_, ?_⟩
      · rw [h2, h3]
        simp only [neg, toPost, waits]
        rw [if_pos h0, if_pos (by omega)]
      · rw [h3, h4, h5]
        simp only [pos, toPost, held, added]
        rw [if_pos h0, if_pos (by omega)]
        omega
    · cases h
      obtain ⟨h1, h2, h3, h4, h5⟩ := spin_ok (hwait (by simp)) left
      exact ⟨h1, by rw [h2, h3]; rfl, by rw [h3, h4, h5]; rfl⟩
  | sub =>
    simp only [step] at h
    obtain ⟨h1, h2, h3, h4, h5⟩ := got_ok (hwait (by simp))
    split at h
    · cases h
      refine ⟨h1, ?_, ?_⟩
      · rw [h2, h3]; simp only [neg, toPost, waits]; rw [if_pos (by omega), if_pos (by omega)]
      · rw [h3, h4, h5]; simp only [pos, toPost, held, added]; rw [if_pos (by omega), if_pos (by omega)]; omega
    · cases h
      have : Fine op .sleep := by cases op <;> exact hf
      refine ⟨this, ?_, ?_⟩
      · simp only [neg, toPost, waits, Next.waits, Next.toPost]; split <;> split <;> omega
      · simp only [pos, toPost, held, added, Next.held, Next.toPost, Next.added]; split <;> split <;> omega
  | sleep =>
    simp only [step] at h
    obtain ⟨h1, h2, h3, h4, h5⟩ := got_ok (hwait (by simp))
    split at h
    · split at h
      · cases h
        refine ⟨h1, ?_, ?_⟩
        · rw [h2, h3]; simp only [toPost, waits]; omega
        · rw [h3, h4, h5]; simp only [toPost, held, added]; omega
      · cases h
    · split at h
      · rename_i ht
        cases h
        have : Fine op .adjLoad := by
          cases op with
          | wait t => exact ht
          | waitMany m t => exact ⟨hf, ht⟩
          | _ => exact absurd hf id
        exact ⟨this, rfl, rfl⟩
      · cases h
  | adjLoad =>
    cases h
    have : Fine op (.adjTest sh.count) := by cases op <;> exact hf
    exact ⟨this, rfl, rfl⟩
  | adjTest old =>
    simp only [step] at h
    obtain ⟨h1, h2, h3, h4, h5⟩ := got_ok (hwait (by simp))
    have hfl : Fine op .adjLoad := by cases op <;> exact hf
    split at h
    · split at h
      · cases h
        refine ⟨h1, ?_, ?_⟩
        · rw [h2, h3]; simp only [toPost, waits]; omega
        · rw [h3, h4, h5]; simp only [toPost, held, added]; omega
      · cases h
        exact ⟨hfl, rfl, rfl⟩
    · split at h
      · rename_i h0 hc
        cases h
        obtain ⟨k1, k2, k3⟩ := htimed (.inr ⟨old, rfl⟩)
        refine ⟨k1, ?_, ?_⟩
        · rw [k3]; simp only [neg, toPost, waits, Next.waits, Next.toPost]; split <;> split <;> omega
        · rw [k2, k3]
          have : (Next.ret (some 0)).added op = 0 := by cases op <;> first | rfl | exact absurd hf id
          rw [this]
          simp only [pos, toPost, held, added, Next.toPost]; split <;> split <;> omega
      · cases h
        exact ⟨hfl, rfl, rfl⟩
  | add =>
    cases op with
    | signal m =>
      cases h
      obtain ⟨h1, h2, h3, h4, h5⟩ := posts_ok (n := m) hf (toRelease sh.count m).toNat
      have hm : 0 ≤ m := hf
      refine ⟨h1, ?_, ?_⟩
      · rw [show amount (.signal m) = m from rfl, h2, h3]
        simp only [neg, toPost, waits, toRelease]; split <;> split <;> split <;> omega
      · rw [show amount (.signal m) = m from rfl, h3, h4, h5]
        simp only [pos, toPost, held, added, toRelease]; split <;> split <;> split <;> omega
    | _ => exact absurd hf id
  | post k =>
    cases op with
    | signal m =>
      cases h
      obtain ⟨h1, h2, h3, h4, h5⟩ := posts_ok (n := m) hf.1 (k - 1)
      have hk : 0 < k := hf.2
      refine ⟨h1, ?_, ?_⟩
      · rw [h2, h3]; simp only [toPost, waits]; omega
      · rw [h3, h4, h5]; simp only [toPost, held, added, amount]; omega
    | _ => exact absurd hf id
  | read =>
    cases op with
    | available => cases h; exact ⟨⟨_, rfl⟩, rfl, rfl⟩
    | _ => exact absurd hf id

/-! ### All threads -/

def tWaits : Thread → Int
  | none => 0
  | some (_, p) => waits p
def tPost : Thread → Int
  | none => 0
  | some (_, p) => toPost p
def tAdded : Thread → Int
  | none => 0
  | some (op, p) => added op p

structure Inv (n : Nat) (s : Sys) : Prop where
  fine : ∀ op p, some (op, p) ∈ s.threads → Fine op p
  results : ∀ op r, (op, r) ∈ s.log → Result op r
  waiters : s.sh.sema + sum tPost s.threads + neg s.sh.count = sum tWaits s.threads
  permits : n + s.putIn + sum tAdded s.threads
    = s.granted + s.holding + pos s.sh.count + s.sh.sema + sum tPost s.threads

theorem init_inv (n k : Nat) : Inv n (init n k) := by
  have h0 : ∀ f : Thread → Int, f none = 0 → sum f (List.replicate k none) = 0 := by
    intro f hf
    exact sum_zero f (fun a ha => by rw [List.eq_of_mem_replicate ha, hf])
  refine ⟨?_, ?_, ?_, ?_⟩
  · intro op p h; exact absurd (List.eq_of_mem_replicate h) (by simp)
  · intro op r h; cases h
  · simp only [init]
    rw [h0 _ rfl, h0 _ rfl]
    simp only [neg]; split <;> omega
  · simp only [init, Sys.putIn, Sys.granted, Sys.holding]
    rw [h0 _ rfl, h0 _ rfl, h0 _ rfl]
    simp only [sum, pos]; split <;> omega

theorem mem_set {α : Type} {l : List α} {i : Nat} {a b : α} (h : a ∈ l.set i b) : a ∈ l ∨ a = b :=
  List.mem_or_eq_of_mem_set h

/-- A thread that moves on keeps the accounts, if its own step does. -/
theorem put_inv {n : Nat} {s : Sys} {i : Nat} {op : Op} {sh : Shared} {nx : Next} {t : Thread}
    (hi : Inv n s) (ht : s.threads[i]? = some t) (hf : nx.Fine op)
    (hw : sh.sema + nx.toPost + neg sh.count - nx.waits = s.sh.sema + tPost t + neg s.sh.count - tWaits t)
    (hp : nx.held op + pos sh.count + sh.sema + nx.toPost - nx.added op
      = holding t + pos s.sh.count + s.sh.sema + tPost t - tAdded t) :
    Inv n (put s i op sh nx) := by
  obtain ⟨h1, h2, h3, h4⟩ := hi
  cases nx with
  | «at» p =>
    refine ⟨?_, h2, ?_, ?_⟩
    · intro op' p' hm
      rcases mem_set hm with hm | hm
      · exact h1 op' p' hm
      · injection hm with hm; injection hm with e1 e2; subst e1 e2; exact hf
    · simp only [put]
      rw [sum_set _ ht, sum_set _ ht]
      simp only [tWaits, tPost, Next.waits, Next.toPost] at *
      omega
    · simp only [put, Sys.putIn, Sys.granted, Sys.holding] at *
      rw [sum_set _ ht, sum_set _ ht, sum_set _ ht]
      simp only [tPost, holding, tAdded, Next.held, Next.toPost, Next.added] at *
      omega
  | ret r =>
    refine ⟨?_, ?_, ?_, ?_⟩
    · intro op' p' hm
      rcases mem_set hm with hm | hm
      · exact h1 op' p' hm
      · cases hm
    · intro op' r' hm
      rcases List.mem_cons.1 hm with hm | hm
      · injection hm with e1 e2; subst e1 e2; exact hf
      · exact h2 op' r' hm
    · simp only [put]
      rw [sum_set _ ht, sum_set _ ht]
      simp only [tWaits, tPost, Next.waits, Next.toPost] at *
      omega
    · simp only [put, Sys.putIn, Sys.granted, Sys.holding, sum] at *
      rw [sum_set _ ht, sum_set _ ht, sum_set _ ht]
      simp only [tPost, holding, tAdded, Next.held, Next.toPost, Next.added] at *
      omega

theorem move_inv {n : Nat} {s s' : Sys} {m : Move} (hi : Inv n s) (h : move s m = some s') : Inv n s' := by
  cases m with
  | start i op =>
    simp only [move] at h
    split at h
    · rename_i ht
      cases h
      obtain ⟨h1, h2, h3, h4, h5⟩ := begin_ok op
      refine put_inv hi ht h1 ?_ ?_
      · rw [h2, h3]; rfl
      · rw [h3, h4, h5]; rfl
    · cases h
  | go i c =>
    simp only [move] at h
    split at h
    · rename_i op p ht
      cases hs : step op s.sh p c with
      | none => rw [hs] at h; cases h
      | some r =>
        rw [hs] at h
        cases h
        obtain ⟨sh', nx⟩ := r
        obtain ⟨h1, h2, h3⟩ := step_ok (hi.fine op p (List.mem_of_getElem? ht)) hs
        exact put_inv hi ht h1 h2 h3
    · cases h

theorem run_inv {n : Nat} (ms : List Move) : ∀ {s s' : Sys}, Inv n s → run s ms = some s' → Inv n s' := by
  induction ms with
  | nil => intro s s' hi h; cases h; exact hi
  | cons m ms ih =>
    intro s s' hi h
    simp only [run] at h
    cases hm : move s m with
    | none => rw [hm] at h; cases h
    | some s1 => rw [hm] at h; exact ih (move_inv hi hm) h

theorem run_append (ms ms' : List Move) : ∀ (s : Sys), run s (ms ++ ms') = (run s ms).bind fun t => run t ms' := by
  induction ms with
  | nil => intro s; rfl
  | cons m ms ih =>
    intro s
    simp only [List.cons_append, run]
    cases move s m with
    | none => rfl
    | some t => exact ih t

theorem reach_run {n k : Nat} {s s' : Sys} {ms : List Move} (h : Reach n k s) (hr : run s ms = some s') :
    Reach n k s' := by
  obtain ⟨ms0, h⟩ := h
  refine ⟨ms0 ++ ms, ?_⟩
  rw [run_append, h]
  exact hr

theorem reach_init (n k : Nat) : Reach n k (init n k) := ⟨[], rfl⟩

theorem move_go {s : Sys} {i : Nat} {c : Bool} {op : Op} {p : Pos} (ht : s.threads[i]? = some (some (op, p))) :
    move s (.go i c) = (step op s.sh p c).map fun r => put s i op r.1 r.2 := by
  simp only [move, ht]

theorem put_get {s : Sys} {i : Nat} {op : Op} {p : Pos} {sh : Shared} {t : Thread}
    (ht : s.threads[i]? = some t) : (put s i op sh (.at p)).threads[i]? = some (some (op, p)) := by
  have hlt := (List.getElem?_eq_some_iff.1 ht).1
  simp [put, hlt]

/-- A thread that spins while there is nothing to take goes on to `fetch_sub`. -/
theorem spun {i : Nat} {op : Op} (left : Nat) : ∀ {s : Sys}, s.threads[i]? = some (some (op, .spinLoad left)) →
    s.sh.count ≤ 0 → run s (List.replicate (2 * (left + 1)) (.go i true))
      = some { s with threads := s.threads.set i (some (op, .sub)) } := by
  have two : ∀ (left : Nat) {s : Sys}, s.threads[i]? = some (some (op, .spinLoad left)) → s.sh.count ≤ 0 →
      ∀ ms, run s (.go i true :: .go i true :: ms) = run (put s i op s.sh (spinNext left)) ms := by
    intro left s ht hc ms
    have hlt := (List.getElem?_eq_some_iff.1 ht).1
    have h1 : move s (.go i true) = some (put s i op s.sh (.at (.spinTest left s.sh.count))) := by
      rw [move_go ht]; rfl
    have h2 : move (put s i op s.sh (.at (.spinTest left s.sh.count))) (.go i true)
        = some (put s i op s.sh (spinNext left)) := by
      rw [move_go (put_get ht)]
      have : ¬ (0 < s.sh.count ∧ (put s i op s.sh (.at (.spinTest left s.sh.count))).sh.count = s.sh.count) := by
        omega
      simp only [step]
      rw [if_neg this]
      cases left <;> simp [spinNext, put, List.set_set]
    simp only [run]
    rw [h1]
    simp only [Option.bind]
    rw [h2]
  induction left with
  | zero =>
    intro s ht hc
    exact two 0 ht hc []
  | succ left ih =>
    intro s ht hc
    have hlt := (List.getElem?_eq_some_iff.1 ht).1
    rw [show 2 * (left + 1 + 1) = (2 * (left + 1) + 1) + 1 by omega]
    rw [List.replicate_succ, List.replicate_succ, two _ ht hc]
    rw [show spinNext (left + 1) = .at (.spinLoad left) from rfl]
    rw [ih (put_get ht) hc]
    simp [put, List.set_set]

theorem reach_inv {n k : Nat} {s : Sys} (h : Reach n k s) : Inv n s := by
  obtain ⟨ms, h⟩ := h
  exact run_inv ms (init_inv n k) h

theorem put_ret_get {s : Sys} {i : Nat} {op : Op} {r : Option Nat} {sh : Shared} {t : Thread}
    (ht : s.threads[i]? = some t) : (put s i op sh (.ret r)).threads[i]? = some none := by
  have hlt := (List.getElem?_eq_some_iff.1 ht).1
  simp [put, hlt]

theorem put_other {s : Sys} {i j : Nat} {op : Op} {sh : Shared} {n : Next} (h : i ≠ j) :
    (put s i op sh n).threads[j]? = s.threads[j]? := by
  cases n <;> simp [put, List.getElem?_set_ne h]

theorem set_same {α : Type} {l : List α} {i : Nat} {a : α} (h : l[i]? = some a) : l.set i a = l := by
  obtain ⟨hl, he⟩ := List.getElem?_eq_some_iff.1 h
  rw [← he]
  exact List.set_getElem_self hl

theorem checked_ret (op : Op) (r : Nat) : ∃ q, checked op r = .ret q := by
  unfold checked
  split <;> exact ⟨_, rfl⟩

/-- A thread only changes by its own moves. -/
theorem move_other {s s' : Sys} {m : Move} {i : Nat} (h : move s m = some s')
    (hs : ∀ op, m ≠ .start i op) (hg : ∀ c, m ≠ .go i c) : s'.threads[i]? = s.threads[i]? := by
  cases m with
  | start j op =>
    have hj : j ≠ i := fun e => hs op (by rw [e])
    simp only [move] at h
    split at h
    · cases h; exact put_other hj
    · cases h
  | go j c =>
    have hj : j ≠ i := fun e => hg c (by rw [e])
    simp only [move] at h
    split at h
    · rename_i op p ht
      cases hs : step op s.sh p c with
      | none => rw [hs] at h; cases h
      | some r => rw [hs] at h; cases h; exact put_other hj
    · cases h

theorem go_split {s s' : Sys} {i : Nat} {c : Bool} (h : move s (.go i c) = some s') :
    ∃ op p r, s.threads[i]? = some (some (op, p)) ∧ step op s.sh p c = some r ∧
      s' = put s i op r.1 r.2 := by
  simp only [move] at h
  split at h
  · rename_i op p ht
    cases hs : step op s.sh p c with
    | none => rw [hs] at h; cases h
    | some r => rw [hs] at h; cases h; exact ⟨op, p, r, ht, hs, rfl⟩
  · cases h

end Verif.LightSema
