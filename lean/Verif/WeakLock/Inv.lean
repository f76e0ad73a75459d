import Verif.WeakLock.Spec
import Verif.Weak.Embed
/-!
# What is always true of the locks
-/
namespace Verif.WeakLock
open Verif.Weak (View TView Mem Msg join bot upto msgAt newest push load store rmw fence write Below MemOk TvOk)

def Pos.held : Pos → List Nat
  | .out => []
  | .lock _ held _ => held
  | .check _ l _ => [l]
  | .all held _ => held
  | .free held => held

def Pos.todo : Pos → List Nat
  | .lock _ _ todo => todo
  | .check _ _ todo => todo
  | .all _ todo => todo
  | _ => []

/-- All that was done under lock `l` is known. -/
def Knows (mem : Mem Loc) (n : Nat) (left : List (Nat × View Loc)) (v : View Loc) (l : Nat) : Prop :=
  (∀ x, (mem (.cell l x)).length ≤ v (.cell l x)) ∧ (l < n → (mem .power).length ≤ v .power) ∧ ∀ u, (l, u) ∈ left → Below u v

structure Inv (s : Sys) : Prop where
  memOk : MemOk s.mem
  tvOk : ∀ (j : Nat) (x : Th), s.threads[j]? = some x → TvOk s.mem x.tv
  races : s.races = []
  one : ∀ (j j' : Nat) (x x' : Th) l, s.threads[j]? = some x → s.threads[j']? = some x' → l ∈ x.pos.held → l ∈ x'.pos.held → j = j'
  nodup : ∀ (j : Nat) (x : Th), s.threads[j]? = some x → x.pos.held.Nodup
  lt : ∀ (j : Nat) (x : Th), s.threads[j]? = some x → ∀ l, l ∈ x.pos.held ∨ l ∈ x.pos.todo → l < s.n
  free : ∀ l, (newest (s.mem (.lock l))).val = 0 → (∀ (j : Nat) (x : Th), s.threads[j]? = some x → l ∉ x.pos.held) ∧
    Knows s.mem s.n s.left (newest (s.mem (.lock l))).view l
  knows : ∀ (j : Nat) (x : Th), s.threads[j]? = some x → ∀ l ∈ x.pos.held, Knows s.mem s.n s.left x.tv.cur l
  all : ∀ (j : Nat) (x : Th), s.threads[j]? = some x → ∀ held todo, x.pos = .all held todo → ∀ l < s.n, l ∈ held ∨ l ∈ todo
  power : ∀ (j : Nat) (x : Th), s.threads[j]? = some x → ∀ hp held todo, x.pos = .lock hp held todo → held ≠ [] → hp = (newest (s.mem .power)).val

theorem inv_init (k n : Nat) : Inv (init k n) := by
  have hth : ∀ (j : Nat) (x : Th), (init k n).threads[j]? = some x → x = ⟨⟨bot, bot⟩, .out⟩ := by
    intro j x h
    exact List.eq_of_mem_replicate (List.mem_of_getElem? h)
  constructor
  · intro l g h; cases h
  · intro j x h
    rw [hth j x h]
    exact ⟨Weak.bounded_bot _, Weak.bounded_bot _, Weak.Below.refl _⟩
  · rfl
  · intro j j' x x' l h _ hm
    rw [hth j x h] at hm
    cases hm
  · intro j x h
    rw [hth j x h]
    exact List.nodup_nil
  · intro j x h l hm
    rw [hth j x h] at hm
    rcases hm with hm | hm <;> cases hm
  · intro l _
    refine ⟨fun j x h hm => ?_, fun x => Nat.zero_le _, fun _ => Nat.zero_le _, fun u hu => nomatch hu⟩
    rw [hth j x h] at hm
    cases hm
  · intro j x h l hm
    rw [hth j x h] at hm
    cases hm
  · intro j x h held todo hp
    rw [hth j x h] at hp
    cases hp
  · intro j x h hp held todo hq
    rw [hth j x h] at hq
    cases hq

theorem get_set {ts : List Th} {i j : Nat} {th th' x : Th} (hi : ts[i]? = some th) (h : (ts.set i th')[j]? = some x) :
    (j = i ∧ x = th') ∨ (j ≠ i ∧ ts[j]? = some x) := by
  by_cases e : j = i
  · subst e
    obtain ⟨hl, _⟩ := List.getElem?_eq_some_iff.mp hi
    rw [List.getElem?_set_self hl] at h
    exact Or.inl ⟨rfl, (Option.some.inj h).symm⟩
  · rw [List.getElem?_set_ne (Ne.symm e)] at h
    exact Or.inr ⟨e, h⟩

theorem Knows.mono {mem : Mem Loc} {n : Nat} {left : List (Nat × View Loc)} {v v' : View Loc} {l : Nat} (h : Knows mem n left v l) (hb : Below v v') : Knows mem n left v' l :=
  ⟨fun x => Nat.le_trans (h.1 x) (hb _), fun hl => Nat.le_trans (h.2.1 hl) (hb _), fun u hu => (h.2.2 u hu).trans hb⟩

variable {s : Sys} {i : Nat} {th : Th}

/-- Memory and one thread change. -/
theorem Inv.upd (inv : Inv s) (hi : s.threads[i]? = some th) {mem : Mem Loc} {th' : Th} {left : List (Nat × View Loc)}
    (hm : MemOk mem) (ho : ∀ tv, TvOk s.mem tv → TvOk mem tv) (ht : TvOk mem th'.tv)
    (hone : ∀ l ∈ th'.pos.held, ∀ (j : Nat) (x : Th), j ≠ i → s.threads[j]? = some x → l ∉ x.pos.held)
    (hnd : th'.pos.held.Nodup) (hlt : ∀ l, l ∈ th'.pos.held ∨ l ∈ th'.pos.todo → l < s.n)
    (hfree : ∀ l, (newest (mem (.lock l))).val = 0 → (∀ (j : Nat) (x : Th), j ≠ i → s.threads[j]? = some x → l ∉ x.pos.held) ∧ l ∉ th'.pos.held ∧
      Knows mem s.n left (newest (mem (.lock l))).view l)
    (hk : ∀ (j : Nat) (x : Th), j ≠ i → s.threads[j]? = some x → ∀ l ∈ x.pos.held, Knows mem s.n left x.tv.cur l)
    (hk' : ∀ l ∈ th'.pos.held, Knows mem s.n left th'.tv.cur l)
    (hall : ∀ held todo, th'.pos = .all held todo → ∀ l < s.n, l ∈ held ∨ l ∈ todo)
    (hpw : ∀ (j : Nat) (x : Th), j ≠ i → s.threads[j]? = some x → ∀ hp held todo, x.pos = .lock hp held todo → held ≠ [] → hp = (newest (mem .power)).val)
    (hpw' : ∀ hp held todo, th'.pos = .lock hp held todo → held ≠ [] → hp = (newest (mem .power)).val) :
    Inv { s with mem := mem, threads := s.threads.set i th', left := left } := by
  constructor
  · exact hm
  · intro j x h
    rcases get_set hi h with ⟨rfl, rfl⟩ | ⟨_, h⟩
    · exact ht
    · exact ho _ (inv.tvOk j x h)
  · exact inv.races
  · intro j j' x x' l h h' hl hl'
    rcases get_set hi h with ⟨e, rfl⟩ | ⟨hn, hj⟩
    · rcases get_set hi h' with ⟨e', rfl⟩ | ⟨hn', hj'⟩
      · rw [e, e']
      · exact absurd hl' (hone l hl _ _ hn' hj')
    · rcases get_set hi h' with ⟨e', rfl⟩ | ⟨hn', hj'⟩
      · exact absurd hl (hone l hl' _ _ hn hj)
      · exact inv.one j j' x x' l hj hj' hl hl'
  · intro j x h
    rcases get_set hi h with ⟨rfl, rfl⟩ | ⟨_, h⟩
    · exact hnd
    · exact inv.nodup j x h
  · intro j x h
    rcases get_set hi h with ⟨rfl, rfl⟩ | ⟨_, h⟩
    · exact hlt
    · exact inv.lt j x h
  · intro l hl
    obtain ⟨h1, h2, h3⟩ := hfree l hl
    refine ⟨fun j x h => ?_, h3⟩
    rcases get_set hi h with ⟨rfl, rfl⟩ | ⟨hn, h⟩
    · exact h2
    · exact h1 j x hn h
  · intro j x h
    rcases get_set hi h with ⟨rfl, rfl⟩ | ⟨hn, h⟩
    · exact hk'
    · exact hk j x hn h
  · intro j x h
    rcases get_set hi h with ⟨rfl, rfl⟩ | ⟨_, h⟩
    · exact hall
    · exact inv.all j x h
  · intro j x h
    rcases get_set hi h with ⟨rfl, rfl⟩ | ⟨hn, h⟩
    · exact hpw'
    · exact hpw j x hn h

/-- A step that touches neither locks nor cells nor the hash power. -/
theorem Inv.frame (inv : Inv s) (hi : s.threads[i]? = some th) {mem : Mem Loc} {th' : Th}
    (hm : MemOk mem) (ho : ∀ tv, TvOk s.mem tv → TvOk mem tv) (ht : TvOk mem th'.tv) (hb : Below th.tv.cur th'.tv.cur)
    (hlock : ∀ l, mem (.lock l) = s.mem (.lock l)) (hcell : ∀ l x, mem (.cell l x) = s.mem (.cell l x)) (hpow : mem .power = s.mem .power)
    (hh : th'.pos.held = th.pos.held) (htd : ∀ l ∈ th'.pos.todo, l < s.n)
    (hall : ∀ held todo, th'.pos = .all held todo → ∀ l < s.n, l ∈ held ∨ l ∈ todo)
    (hpw : ∀ hp held todo, th'.pos = .lock hp held todo → held ≠ [] → hp = (newest (s.mem .power)).val) :
    Inv { s with mem := mem, threads := s.threads.set i th', left := s.left } := by
  have hkn : ∀ {v l}, Knows s.mem s.n s.left v l → Knows mem s.n s.left v l := by
    intro v l h
    refine ⟨fun x => ?_, fun hl => ?_, h.2.2⟩
    · rw [hcell]; exact h.1 x
    · rw [hpow]; exact h.2.1 hl
  refine inv.upd hi hm ho ht ?_ ?_ ?_ ?_ ?_ ?_ hall ?_ ?_
  · intro l hl j x hn h hm
    rw [hh] at hl
    exact hn (inv.one j i x th l h hi hm hl)
  · rw [hh]; exact inv.nodup i th hi
  · intro l hl
    rw [hh] at hl
    rcases hl with hl | hl
    · exact inv.lt i th hi l (Or.inl hl)
    · exact htd l hl
  · intro l hl
    rw [hlock] at hl ⊢
    obtain ⟨h1, h2⟩ := inv.free l hl
    exact ⟨fun j x _ h => h1 j x h, by rw [hh]; exact h1 i th hi, hkn h2⟩
  · intro j x _ h l hl
    exact hkn (inv.knows j x h l hl)
  · intro l hl
    rw [hh] at hl
    exact (hkn (inv.knows i th hi l hl)).mono hb
  · intro j x _ h hp held todo hq hne
    rw [hpow]
    exact inv.power j x h hp held todo hq hne
  · rw [hpow]; exact hpw

/-- A lock is taken. -/
theorem Inv.take (inv : Inv s) (hi : s.threads[i]? = some th) {l : Nat} (hz : (newest (s.mem (.lock l))).val = 0) {p : Pos}
    (hh : ∀ l', l' ∈ p.held ↔ l' = l ∨ l' ∈ th.pos.held) (hnd : l ∉ th.pos.held → p.held.Nodup) (hlt : l < s.n) (htd : ∀ l' ∈ p.todo, l' < s.n)
    (hall : ∀ held todo, p = .all held todo → ∀ l < s.n, l ∈ held ∨ l ∈ todo)
    (hpw : ∀ hp held todo, p = .lock hp held todo → held ≠ [] → hp = (newest (s.mem .power)).val) :
    Inv { s with mem := (rmw true true (fun _ => 1) s.mem th.tv (.lock l)).2.1, threads := s.threads.set i ⟨(rmw true true (fun _ => 1) s.mem th.tv (.lock l)).2.2, p⟩, left := s.left } := by
  obtain ⟨hno, hkn⟩ := inv.free l hz
  obtain ⟨h1, h2, h3⟩ := Weak.rmw_spec (acq := true) (rel := true) (f := fun _ => 1) (l := Loc.lock l) inv.memOk (inv.tvOk i th hi)
  obtain ⟨w, hw⟩ : ∃ w, (rmw true true (fun _ => 1) s.mem th.tv (Loc.lock l)).2.1 = push s.mem (.lock l) ⟨1, w⟩ := ⟨_, rfl⟩
  have hv : Below (newest (s.mem (.lock l))).view (rmw true true (fun _ => 1) s.mem th.tv (Loc.lock l)).2.2.cur := Weak.below_join_right _ _
  rw [hw] at h1 h2 ⊢
  have ecell : ∀ a x, push s.mem (.lock l) ⟨1, w⟩ (.cell a x) = s.mem (.cell a x) := fun a x => Weak.push_other s.mem (l := .lock l) (l' := .cell a x) (fun h => nomatch h) _
  have epow : push s.mem (.lock l) ⟨1, w⟩ .power = s.mem .power := Weak.push_other s.mem (l := .lock l) (l' := .power) (fun h => nomatch h) _
  have hk : ∀ {v a}, Knows s.mem s.n s.left v a → Knows (push s.mem (.lock l) ⟨1, w⟩) s.n s.left v a := by
    intro v a h
    refine ⟨fun x => ?_, fun hl => ?_, h.2.2⟩
    · rw [ecell]; exact h.1 x
    · rw [epow]; exact h.2.1 hl
  refine inv.upd hi h1 (fun tv h => h.push _ _) h2 ?_ (hnd (hno i th hi)) ?_ ?_ ?_ ?_ hall ?_ ?_
  · intro l' hl' j x hn h hm
    rcases (hh l').mp hl' with rfl | hl'
    · exact hno j x h hm
    · exact hn (inv.one j i x th l' h hi hm hl')
  · intro l' hl'
    rcases hl' with hl' | hl'
    · rcases (hh l').mp hl' with rfl | hl'
      · exact hlt
      · exact inv.lt i th hi l' (Or.inl hl')
    · exact htd l' hl'
  · intro l' hl'
    by_cases e : l' = l
    · subst e
      rw [Weak.push_self, Weak.newest_append] at hl'
      cases hl'
    · have el : push s.mem (.lock l) ⟨1, w⟩ (.lock l') = s.mem (.lock l') := Weak.push_other s.mem (l := .lock l) (l' := .lock l') (fun h => e (by injection h)) _
      rw [el] at hl' ⊢
      obtain ⟨h4, h5⟩ := inv.free l' hl'
      refine ⟨fun j x _ h => h4 j x h, fun hm => ?_, hk h5⟩
      rcases (hh l').mp hm with rfl | hm
      · exact e rfl
      · exact h4 i th hi hm
  · intro j x _ h l' hl'
    exact hk (inv.knows j x h l' hl')
  · intro l' hl'
    rcases (hh l').mp hl' with rfl | hl'
    · exact (hk hkn).mono hv
    · exact (hk (inv.knows i th hi l' hl')).mono h3
  · intro j x _ h hp held todo hq hne
    rw [epow]
    exact inv.power j x h hp held todo hq hne
  · rw [epow]; exact hpw

/-- A lock is given back. -/
theorem Inv.give (inv : Inv s) (hi : s.threads[i]? = some th) {l : Nat} {rest : List Nat} (hp : th.pos = .free (l :: rest)) :
    Inv { s with mem := (store true s.mem th.tv (.lock l) 0).1, threads := s.threads.set i ⟨(store true s.mem th.tv (.lock l) 0).2.1, if rest = [] then .out else .free rest⟩, left := (l, th.tv.cur) :: s.left } := by
  have hheld : th.pos.held = l :: rest := by rw [hp]; rfl
  have hnd := inv.nodup i th hi
  rw [hheld, List.nodup_cons] at hnd
  have hh : (if rest = [] then Pos.out else .free rest).held = rest := by
    by_cases e : rest = []
    · rw [if_pos e, e]; rfl
    · rw [if_neg e]; rfl
  have htodo : (if rest = [] then Pos.out else .free rest).todo = [] := by
    split <;> rfl
  obtain ⟨h1, h2, h3⟩ := Weak.store_spec (rel := true) (l := Loc.lock l) (v := 0) inv.memOk (inv.tvOk i th hi)
  obtain ⟨w, hw, hwb⟩ : ∃ w, (store true s.mem th.tv (Loc.lock l) 0).1 = push s.mem (.lock l) ⟨0, w⟩ ∧ Below th.tv.cur w := ⟨_, rfl, Weak.below_join_left _ _⟩
  rw [hw] at h1 h2 ⊢
  have ecell : ∀ a x, push s.mem (.lock l) ⟨0, w⟩ (.cell a x) = s.mem (.cell a x) := fun a x => Weak.push_other s.mem (l := .lock l) (l' := .cell a x) (fun h => nomatch h) _
  have epow : push s.mem (.lock l) ⟨0, w⟩ .power = s.mem .power := Weak.push_other s.mem (l := .lock l) (l' := .power) (fun h => nomatch h) _
  have hk : ∀ {v a}, Knows s.mem s.n s.left v a → (a = l → Below th.tv.cur v) → Knows (push s.mem (.lock l) ⟨0, w⟩) s.n ((l, th.tv.cur) :: s.left) v a := by
    intro v a h hl
    refine ⟨fun x => ?_, fun hl => ?_, fun u hu => ?_⟩
    · rw [ecell]; exact h.1 x
    · rw [epow]; exact h.2.1 hl
    · rcases List.mem_cons.mp hu with e | hu
      · cases e
        exact hl rfl
      · exact h.2.2 u hu
  have hoth : ∀ (j : Nat) (x : Th), j ≠ i → s.threads[j]? = some x → l ∉ x.pos.held := by
    intro j x hn h hm
    exact hn (inv.one j i x th l h hi hm (by rw [hheld]; exact List.mem_cons_self))
  refine inv.upd hi h1 (fun tv h => h.push _ _) h2 ?_ ?_ ?_ ?_ ?_ ?_ ?_ ?_ ?_
  · intro l' hl' j x hn h hm
    dsimp only at hl'
    rw [hh] at hl'
    exact hn (inv.one j i x th l' h hi hm (by rw [hheld]; exact List.mem_cons_of_mem _ hl'))
  · dsimp only
    rw [hh]; exact hnd.2
  · intro l' hl'
    dsimp only at hl'
    rw [hh, htodo] at hl'
    rcases hl' with hl' | hl'
    · exact inv.lt i th hi l' (Or.inl (by rw [hheld]; exact List.mem_cons_of_mem _ hl'))
    · cases hl'
  · intro l' hl'
    dsimp only
    rw [hh]
    by_cases e : l' = l
    · subst e
      rw [Weak.push_self, Weak.newest_append]
      refine ⟨hoth, hnd.1, hk ((inv.knows i th hi l' (by rw [hheld]; exact List.mem_cons_self)).mono hwb) (fun _ => hwb)⟩
    · have el : push s.mem (.lock l) ⟨0, w⟩ (.lock l') = s.mem (.lock l') := Weak.push_other s.mem (l := .lock l) (l' := .lock l') (fun h => e (by injection h)) _
      rw [el] at hl' ⊢
      obtain ⟨h4, h5⟩ := inv.free l' hl'
      exact ⟨fun j x _ h => h4 j x h, fun hm => h4 i th hi (by rw [hheld]; exact List.mem_cons_of_mem _ hm), hk h5 (fun e' => absurd e' e)⟩
  · intro j x hn h l' hl'
    exact hk (inv.knows j x h l' hl') (fun e => absurd (e ▸ hl') (hoth j x hn h))
  · intro l' hl'
    dsimp only at hl'
    rw [hh] at hl'
    exact hk ((inv.knows i th hi l' (by rw [hheld]; exact List.mem_cons_of_mem _ hl')).mono h3) (fun _ => h3)
  · intro held todo hq
    dsimp only at hq
    split at hq <;> cases hq
  · intro j x _ h hp' held todo hq hne
    rw [epow]
    exact inv.power j x h hp' held todo hq hne
  · intro hp' held todo hq
    dsimp only at hq
    split at hq <;> cases hq

/-- A cell of a lock that is held is touched. -/
theorem Inv.touch (inv : Inv s) (hi : s.threads[i]? = some th) {l x v : Nat} (hl : l ∈ th.pos.held) : Inv (access s i th l x v) := by
  obtain ⟨h1, h2, h3⟩ := Weak.write_spec (l := Loc.cell l x) (v := v) inv.memOk (inv.tvOk i th hi)
  have hkn := inv.knows i th hi l hl
  have hflag : (write s.mem th.tv (Loc.cell l x) v).2.2 = true := by
    show decide (th.tv.cur (.cell l x) = (s.mem (.cell l x)).length) = true
    have := (inv.tvOk i th hi).cur (.cell l x)
    have := hkn.1 x
    exact decide_eq_true (by omega)
  have hown : (s.mem (.cell l x)).length + 1 ≤ (write s.mem th.tv (Loc.cell l x) v).2.1.cur (.cell l x) := by
    refine Nat.le_trans ?_ (Weak.below_join_right _ _ (Loc.cell l x))
    rw [Weak.upto_self]
    exact Nat.le_refl _
  have hr : (access s i th l x v) = { s with mem := push s.mem (.cell l x) ⟨v, bot⟩, threads := s.threads.set i ⟨(write s.mem th.tv (Loc.cell l x) v).2.1, th.pos⟩, left := s.left } := by
    unfold access put
    dsimp only
    rw [hflag]
    rfl
  rw [hr]
  have h1 : MemOk (push s.mem (Loc.cell l x) ⟨v, bot⟩) := h1
  have h2 : TvOk (push s.mem (Loc.cell l x) ⟨v, bot⟩) (write s.mem th.tv (Loc.cell l x) v).2.1 := h2
  have elock : ∀ a, push s.mem (.cell l x) ⟨v, bot⟩ (.lock a) = s.mem (.lock a) := fun a => Weak.push_other s.mem (l := .cell l x) (l' := .lock a) (fun h => nomatch h) _
  have epow : push s.mem (.cell l x) ⟨v, bot⟩ .power = s.mem .power := Weak.push_other s.mem (l := .cell l x) (l' := .power) (fun h => nomatch h) _
  have hk : ∀ {u a}, Knows s.mem s.n s.left u a → (a = l → (s.mem (.cell l x)).length + 1 ≤ u (.cell l x)) → Knows (push s.mem (.cell l x) ⟨v, bot⟩) s.n s.left u a := by
    intro u a h ha
    refine ⟨fun y => ?_, fun hl => ?_, h.2.2⟩
    · by_cases e : Loc.cell a y = .cell l x
      · injection e with e1 e2
        subst e1 e2
        rw [Weak.push_self, List.length_append]
        exact ha rfl
      · rw [Weak.push_other s.mem e]
        exact h.1 y
    · rw [epow]; exact h.2.1 hl
  have hoth : ∀ (j : Nat) (y : Th), j ≠ i → s.threads[j]? = some y → l ∉ y.pos.held := by
    intro j y hn h hm
    exact hn (inv.one j i y th l h hi hm hl)
  refine inv.upd hi h1 (fun tv h => h.push _ _) h2 ?_ (inv.nodup i th hi) (inv.lt i th hi) ?_ ?_ ?_ (inv.all i th hi) ?_ ?_
  · intro l' hl' j y hn h hm
    exact hn (inv.one j i y th l' h hi hm hl')
  · intro l' hl'
    rw [elock] at hl' ⊢
    obtain ⟨h4, h5⟩ := inv.free l' hl'
    refine ⟨fun j y _ h => h4 j y h, h4 i th hi, hk h5 (fun e => ?_)⟩
    subst e
    exact absurd hl (h4 i th hi)
  · intro j y hn h l' hl'
    exact hk (inv.knows j y h l' hl') (fun e => absurd (e ▸ hl') (hoth j y hn h))
  · intro l' hl'
    exact hk ((inv.knows i th hi l' hl').mono h3) (fun _ => hown)
  · intro j y _ h hp held todo hq hne
    rw [epow]
    exact inv.power j y h hp held todo hq hne
  · rw [epow]
    exact inv.power i th hi

/-- The hash power is changed. -/
theorem Inv.grow (inv : Inv s) (hi : s.threads[i]? = some th) {held : List Nat} (hp : th.pos = .all held []) (v : Nat) :
    Inv { s with mem := (store true s.mem th.tv .power v).1, threads := s.threads.set i ⟨(store true s.mem th.tv .power v).2.1, th.pos⟩, left := s.left } := by
  have hmine : ∀ l < s.n, l ∈ th.pos.held := by
    intro l hl
    rw [hp]
    rcases inv.all i th hi held [] hp l hl with h | h
    · exact h
    · cases h
  have hoth : ∀ (j : Nat) (y : Th), j ≠ i → s.threads[j]? = some y → ∀ l, l ∉ y.pos.held := by
    intro j y hn h l hm
    exact hn (inv.one j i y th l h hi hm (hmine l (inv.lt j y h l (Or.inl hm))))
  obtain ⟨h1, h2, h3⟩ := Weak.store_spec (rel := true) (l := Loc.power) (v := v) inv.memOk (inv.tvOk i th hi)
  have hown : (s.mem .power).length + 1 ≤ (store true s.mem th.tv Loc.power v).2.1.cur .power := by
    refine Nat.le_trans ?_ (Weak.below_join_right _ _ Loc.power)
    rw [Weak.upto_self]
    exact Nat.le_refl _
  obtain ⟨w, hw⟩ : ∃ w, (store true s.mem th.tv Loc.power v).1 = push s.mem .power ⟨v, w⟩ := ⟨_, rfl⟩
  rw [hw] at h1 h2 ⊢
  have elock : ∀ a, push s.mem .power ⟨v, w⟩ (.lock a) = s.mem (.lock a) := fun a => Weak.push_other s.mem (l := .power) (l' := .lock a) (fun h => nomatch h) _
  have ecell : ∀ a y, push s.mem .power ⟨v, w⟩ (.cell a y) = s.mem (.cell a y) := fun a y => Weak.push_other s.mem (l := .power) (l' := .cell a y) (fun h => nomatch h) _
  refine inv.upd hi h1 (fun tv h => h.push _ _) h2 ?_ (inv.nodup i th hi) (inv.lt i th hi) ?_ ?_ ?_ (inv.all i th hi) ?_ ?_
  · intro l' _ j y hn h
    exact hoth j y hn h l'
  · intro l' hl'
    rw [elock] at hl' ⊢
    obtain ⟨h4, h5⟩ := inv.free l' hl'
    refine ⟨fun j y _ h => h4 j y h, h4 i th hi, fun y => ?_, fun hlt => ?_, h5.2.2⟩
    · rw [ecell]; exact h5.1 y
    · exact absurd (hmine l' hlt) (h4 i th hi)
  · intro j y hn h l' hl'
    exact absurd hl' (hoth j y hn h l')
  · intro l' hl'
    have h5 := (inv.knows i th hi l' hl').mono h3
    refine ⟨fun y => ?_, fun hlt => ?_, h5.2.2⟩
    · rw [ecell]; exact h5.1 y
    · rw [Weak.push_self, List.length_append]
      exact hown
  · intro j y hn h hp' held' todo hq hne
    cases held' with
    | nil => exact absurd rfl hne
    | cons a t => exact absurd (by rw [hq]; exact List.mem_cons_self) (hoth j y hn h a)
  · intro hp' held' todo hq
    dsimp only at hq
    rw [hp] at hq
    cases hq

end Verif.WeakLock
