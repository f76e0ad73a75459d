import Verif.WeakSema.Inv
/-!
# Every move keeps what is always true
-/
namespace Verif.WeakSema
open Verif.Weak (View TView Mem Msg join bot upto msgAt newest push load store rmw write Below MemOk TvOk)
open Verif.LightSema (Op Pos Next begin checked taken hit spinNext miss got timed amount toRelease posts)

variable {s s' : Sys} {ow ow' : Nat → Owner} {fast fast' kern kern' : List Nat} {ps ps' : List (Nat × View Loc)} {i : Nat} {th x' : Th}

/-- Permits are put in. -/
theorem Inv.signal (inv : Inv s ow fast kern ps) (hi : s.threads[i]? = some th) {c r : Nat} (hr : r = (toRelease s.count c).toNat)
    (hmem : s'.mem = (rmw false true (fun v => enc (dec v + c)) s.mem th.tv .count).2.1)
    (htook : s'.took = s.took) (hbase : s'.base = s.base) (hgiven : s'.given = s.given ++ List.replicate c th.tv.cur)
    (hth : s'.threads = s.threads.set i x') (htv : x'.tv = (rmw false true (fun v => enc (dec v + c)) s.mem th.tv .count).2.2)
    (hcall : ∀ op p, x'.call = some (op, p) → Fine op p ∧ (∀ k, p = .post k → k = r)) :
    ∃ ow' fast', Inv s' ow' fast' kern ps := by
  obtain ⟨m1, m2, m3⟩ := Weak.rmw_spec (acq := false) (rel := true) (f := fun v => enc (dec v + c)) (l := Loc.count) inv.memOk (inv.tvOk i th hi)
  obtain ⟨n1, n2, n3, _⟩ := rmw_newest false true (fun v => enc (dec v + c)) s.mem th.tv .count
  have ho := rmw_other false true (fun v => enc (dec v + c)) s.mem th.tv (l := .count) (l' := .sema) (fun h => nomatch h)
  have hgr := rmw_grow false true (fun v => enc (dec v + c)) s.mem th.tv .count
  rw [← htv] at m2 m3
  rw [← hmem] at m1 m2 n1 n2 n3 ho hgr
  have hcnt : s'.count = s.count + c := by
    unfold Sys.count Sys.cnt
    rw [n1, hbase, dec_enc]
    omega
  have hsem : s'.sema = s.sema := by unfold Sys.sema; rw [ho]
  have hfl := inv.fastLen
  have hrc : r ≤ c ∧ ((fast.length + (c - r) : Nat) : Int) = if 0 ≤ s.count + c then s.count + c else 0 := by
    unfold toRelease at hr
    split at hr <;> split at hfl <;> split <;> omega
  have hlen : s'.given.length = s.given.length + c := by rw [hgiven, List.length_append, List.length_replicate]
  have hold : ∀ n, n < s.given.length → s'.given[n]? = s.given[n]? := fun n h => by rw [hgiven, List.getElem?_append_left h]
  refine ⟨fun n => if n < s.given.length then ow n else if n < s.given.length + r then .pend i else .fast,
    fast ++ List.range' (s.given.length + r) (c - r), inv.next hi hth m1 hgr m2 (fun n h => ⟨by omega, hold n h⟩) ?_ ?_ ?_ ?_ ?_ inv.kernDup ?_ ?_ ?_ inv.psDup ?_ ?_ ?_⟩
  · intro n j _ hl h
    simp only [hl, if_true]
    exact h
  · rw [hgiven]
    intro u hu
    rcases List.mem_append.mp hu with hu | hu
    · exact (inv.all u hu).trans n2
    · rw [List.eq_of_mem_replicate hu]
      exact n3 rfl
  · refine List.nodup_append.mpr ⟨inv.fastDup, List.nodup_range', ?_⟩
    intro a ha b hb e
    subst e
    have := (inv.fastOk a ha).2
    have := (List.mem_range'_1.mp hb).1
    omega
  · intro n hn
    rcases List.mem_append.mp hn with hn | hn
    · obtain ⟨a, b⟩ := inv.fastOk n hn
      simp only [b, if_true]
      exact ⟨a, by omega⟩
    · obtain ⟨a, b⟩ := List.mem_range'_1.mp hn
      have e1 : ¬ n < s.given.length := by omega
      have e2 : ¬ n < s.given.length + r := by omega
      simp only [e1, e2, if_false]
      exact ⟨trivial, by omega⟩
  · rw [hcnt, ← hrc.2, List.length_append, List.length_range']
  · intro n hn
    obtain ⟨a, b, d⟩ := inv.kernOk n hn
    simp only [b, if_true]
    rw [hold n b, ho]
    exact ⟨a, by omega, d⟩
  · rw [hsem]; exact inv.kernLen
  · rw [htook]; exact inv.psTook
  · intro p hp
    obtain ⟨a, u, hu, hb⟩ := inv.psOk p hp
    obtain ⟨hl, _⟩ := List.getElem?_eq_some_iff.mp hu
    simp only [hl, if_true]
    rw [hold _ hl]
    exact ⟨a, u, hu, hb⟩
  · intro op k h
    rw [(hcall op _ h).2 k rfl]
    refine ⟨List.range' s.given.length r, List.nodup_range', List.length_range', fun n hn => ?_⟩
    obtain ⟨a, b⟩ := List.mem_range'_1.mp hn
    have e1 : ¬ n < s.given.length := by omega
    simp only [e1, b, if_true, if_false]
    refine ⟨trivial, by omega, fun u hu => ?_⟩
    rw [hgiven, List.getElem?_append_right a] at hu
    rw [List.eq_of_mem_replicate (List.mem_of_getElem? hu)]
    exact m3
  · exact fun op p h => (hcall op p h).1

/-- A permit is posted. -/
theorem Inv.posted (inv : Inv s ow fast kern ps) (hi : s.threads[i]? = some th) {op : Op} {k : Nat} (hp : th.call = some (op, .post k))
    (hmem : s'.mem = (rmw false true (fun v => v + 1) s.mem th.tv .sema).2.1)
    (htook : s'.took = s.took) (hbase : s'.base = s.base) (hgiven : s'.given = s.given)
    (hth : s'.threads = s.threads.set i x') (htv : x'.tv = (rmw false true (fun v => v + 1) s.mem th.tv .sema).2.2)
    (hcall : ∀ op p, x'.call = some (op, p) → Fine op p ∧ (∀ k', p = .post k' → k' = k - 1)) :
    ∃ ow' kern', Inv s' ow' fast kern' ps := by
  obtain ⟨m1, m2, m3⟩ := Weak.rmw_spec (acq := false) (rel := true) (f := fun v => v + 1) (l := Loc.sema) inv.memOk (inv.tvOk i th hi)
  obtain ⟨n1, n2, n3, _⟩ := rmw_newest false true (fun v => v + 1) s.mem th.tv .sema
  have ho := rmw_other false true (fun v => v + 1) s.mem th.tv (l := .sema) (l' := .count) (fun h => nomatch h)
  have hgr := rmw_grow false true (fun v => v + 1) s.mem th.tv .sema
  rw [← htv] at m2 m3
  rw [← hmem] at m1 m2 n1 n2 n3 ho hgr
  have hcnt : s'.count = s.count := by
    unfold Sys.count Sys.cnt
    rw [ho, hbase]
  have hsem : s'.sema = s.sema + 1 := n1
  have hk := (inv.fine i th hi op _ hp).2.2 k rfl
  obtain ⟨l, l1, l2, l3⟩ := inv.pend i th hi op k hp
  cases hl : l with
  | nil => rw [hl] at l2; simp only [List.length_nil] at l2; omega
  | cons a rest =>
    rw [hl] at l1 l2 l3
    obtain ⟨hna, hdup⟩ := List.nodup_cons.mp l1
    obtain ⟨a1, a2, a3⟩ := l3 a List.mem_cons_self
    refine ⟨fun n => if n = a then .kern else ow n, kern ++ [a], inv.next hi hth m1 hgr m2 (fun n h => by rw [hgiven]; exact ⟨h, rfl⟩) ?_ ?_ inv.fastDup ?_ ?_ ?_ ?_ ?_ ?_ inv.psDup ?_ ?_ ?_⟩
    · intro n j hj _ h
      by_cases e : n = a
      · subst e
        rw [a1] at h
        cases h
        exact absurd rfl hj
      · simp only [e, if_false]
        exact h
    · rw [hgiven, ho]; exact inv.all
    · intro n hn
      obtain ⟨b1, b2⟩ := inv.fastOk n hn
      rw [hgiven]
      refine ⟨?_, b2⟩
      by_cases e : n = a
      · subst e
        rw [a1] at b1
        cases b1
      · simp only [e, if_false]
        exact b1
    · rw [hcnt]; exact inv.fastLen
    · refine List.nodup_append.mpr ⟨inv.kernDup, by simp, ?_⟩
      intro b hb c hc e
      subst e
      have h1 := (inv.kernOk b hb).1
      rw [show b = a from by simpa using hc, a1] at h1
      cases h1
    · intro n hn
      rw [hgiven]
      rcases List.mem_append.mp hn with hn | hn
      · obtain ⟨b1, b2, b3⟩ := inv.kernOk n hn
        refine ⟨?_, b2, fun u hu => (b3 u hu).trans n2⟩
        by_cases e : n = a
        · simp only [e, if_true]
        · simp only [e, if_false]
          exact b1
      · rw [List.mem_singleton.mp hn]
        exact ⟨by simp, a2, fun u hu => (a3 u hu).trans (n3 rfl)⟩
    · rw [hsem, List.length_append, inv.kernLen]
      rfl
    · rw [htook]; exact inv.psTook
    · intro p hp
      obtain ⟨b1, b2⟩ := inv.psOk p hp
      rw [hgiven]
      refine ⟨?_, b2⟩
      by_cases e : p.1 = a
      · rw [e, a1] at b1
        cases b1
      · simp only [e, if_false]
        exact b1
    · intro op' k' h
      rw [(hcall op' _ h).2 k' rfl]
      rw [List.length_cons] at l2
      refine ⟨rest, hdup, by omega, fun n hn => ?_⟩
      obtain ⟨b1, b2, b3⟩ := l3 n (List.mem_cons_of_mem _ hn)
      have e : n ≠ a := fun e => hna (e ▸ hn)
      simp only [e, if_false]
      rw [hgiven]
      exact ⟨b1, b2, fun u hu => (b3 u hu).trans m3⟩
    · exact fun op p h => (hcall op p h).1

/-! ### Positions -/

/-- The next position is one that a call gets to, and not in `m_sema.signal`. -/
def NextFine (op : Op) (nx : Next) : Prop := ∀ p, nx = .at p → Fine op p ∧ ∀ k, p ≠ .post k

theorem fine_same {op : Op} {p q : Pos} (h : Fine op p) (hh : heldOf q = heldOf p) (hq : ∀ k, q ≠ .post k) : Fine op q ∧ ∀ k, q ≠ .post k :=
  ⟨⟨by rw [hh]; exact h.1, h.2.1, fun k e => absurd e (hq k)⟩, hq⟩

theorem checked_fine (op : Op) (r : Nat) : NextFine op (checked op r) := by
  intro p h
  unfold checked at h
  split at h <;> cases h

theorem spin_fine {op : Op} {p : Pos} (h : Fine op p) (hh : heldOf p = 0) (n : Nat) : NextFine op (spinNext n) := by
  intro q e
  cases n with
  | zero => cases e; exact fine_same h (by rw [hh]; rfl) (fun k e => nomatch e)
  | succ n => cases e; exact fine_same h (by rw [hh]; rfl) (fun k e => nomatch e)

/-- The permits that a call may ask for. -/
def OpFine : Op → Prop
  | .tryWaitMany max => 0 ≤ max
  | .waitMany max _ => 0 ≤ max
  | .signal n => 0 ≤ n
  | _ => True

theorem opFine_fine {op : Op} (h : OpFine op) {p : Pos} (hh : heldOf p = 0) (hp : ∀ k, p ≠ .post k) : Fine op p := by
  refine ⟨fun old ho => ?_, ?_, fun k e => absurd e (hp k)⟩
  · rw [hh]
    cases op <;> unfold taken <;> dsimp only <;> unfold OpFine at h <;> dsimp only at h <;> (try split) <;> omega
  · cases op <;> unfold amount <;> dsimp only <;> unfold OpFine at h <;> dsimp only at h <;> omega

theorem fine_opFine {op : Op} {p : Pos} (h : Fine op p) : OpFine op := by
  obtain ⟨h1, h2, _⟩ := h
  cases op with
  | tryWait => trivial
  | wait t => trivial
  | available => trivial
  | signal n => exact h2
  | tryWaitMany max =>
    show 0 ≤ max
    by_cases hm : 0 ≤ max
    · exact hm
    · have := (h1 1 (by omega)).2
      unfold taken at this
      dsimp only at this
      split at this <;> omega
  | waitMany max t =>
    show 0 ≤ max
    by_cases hm : 0 ≤ max
    · exact hm
    · have := (h1 1 (by omega)).2
      unfold taken at this
      dsimp only at this
      split at this <;> omega

theorem begin_fine (op : Op) : NextFine op (begin op) := by
  intro p h
  have : heldOf p = 0 ∧ (∀ k, p ≠ .post k) ∧ OpFine op := by
    cases op <;> unfold begin at h <;> dsimp only at h <;> (try split at h) <;> cases h <;>
      exact ⟨rfl, (fun k e => nomatch e), (by first | trivial | assumption)⟩
  exact ⟨opFine_fine this.2.2 this.1 this.2.1, this.2.1⟩

theorem miss_fine {op : Op} {p : Pos} (h : Fine op p) (held : Nat) : NextFine op (miss op held) := by
  have ho := fine_opFine h
  have hs : ∀ n, NextFine op (spinNext n) := fun n => spin_fine (p := .sub) (opFine_fine ho rfl (fun k e => nomatch e)) rfl n
  unfold miss
  split
  · exact hs _
  · split
    · exact hs _
    · exact checked_fine _ _
  · exact checked_fine _ _

theorem got_fine {op : Op} {p : Pos} (h : Fine op p) : NextFine op (got op) := by
  have ho := fine_opFine h
  intro q e
  cases op with
  | waitMany max t =>
    unfold got at e
    dsimp only at e
    split at e
    · cases e
      refine ⟨⟨fun old hold => ?_, Int.le_refl _, fun k e => nomatch e⟩, fun k e => nomatch e⟩
      unfold taken heldOf
      dsimp only
      split <;> omega
    · exact checked_fine _ _ q e
  | tryWait => exact checked_fine _ _ q e
  | wait t => exact checked_fine _ _ q e
  | tryWaitMany max => exact checked_fine _ _ q e
  | signal n => exact checked_fine _ _ q e
  | available => exact checked_fine _ _ q e

theorem posts_fine {op : Op} (h : OpFine op) {r : Nat} {p : Pos} (e : posts r = .at p) : Fine op p ∧ ∀ k, p = .post k → k = r := by
  unfold posts at e
  split at e
  · cases e
  · cases e
    have hf : Fine op .sub := opFine_fine h rfl (fun k e => nomatch e)
    exact ⟨⟨hf.1, hf.2.1, fun k e => by cases e; omega⟩, fun k e => by cases e; rfl⟩

theorem to_same (s : Sys) (i : Nat) (op : Op) (tv : TView Loc) (nx : Next) :
    (to s i op tv nx).mem = s.mem ∧ (to s i op tv nx).base = s.base ∧ (to s i op tv nx).given = s.given ∧ (to s i op tv nx).took = s.took ∧
      (to s i op tv nx).threads = s.threads.set i ⟨tv, callOf op nx⟩ := by
  cases nx <;> exact ⟨rfl, rfl, rfl, rfl, rfl⟩

theorem callOf_fine {op : Op} {nx : Next} (h : NextFine op nx) : ∀ op' p, callOf op nx = some (op', p) → Fine op' p ∧ ∀ k, p ≠ .post k := by
  intro op' p e
  cases nx with
  | «at» q =>
    cases e
    exact h p rfl
  | ret r => cases e

/-! ### Steps -/

/-- The invariant for some way to say where the permits are. -/
def Good (s : Sys) : Prop := ∃ ow fast kern ps, Inv s ow fast kern ps

theorem Inv.stays (inv : Inv s ow fast kern ps) (hi : s.threads[i]? = some th) {op : Op} {tv : TView Loc} {nx : Next} (htv : TvOk s.mem tv)
    (hb : Below th.tv.cur tv.cur) (hn : NextFine op nx) : Good (to s i op tv nx) := by
  obtain ⟨t1, t2, t3, t4, t5⟩ := to_same s i op tv nx
  refine ⟨ow, fast, kern, ps, inv.quiet hi t5 t2 t3 t4 (by rw [t1]; exact inv.memOk) (fun y h => by rw [t1]; exact h) (by rw [t1]; exact htv) (by rw [t1]) (by rw [t1]) hb ?_⟩
  exact fun op' p e => ⟨(callOf_fine hn op' p e).1, Or.inl (callOf_fine hn op' p e).2⟩

theorem Inv.looks (inv : Inv s ow fast kern ps) (hi : s.threads[i]? = some th) {acq : Bool} {op : Op} {w : Nat} {nx : Int → Option Next}
    (hn : ∀ v n, nx v = some n → NextFine op n) (h : look acq s i th op w nx = some s') : Good s' := by
  unfold look at h
  split at h
  · rename_i v tv e
    obtain ⟨_, _, h3, h4, _⟩ := Weak.load_spec inv.memOk (inv.tvOk i th hi) e
    obtain ⟨n, hv, rfl⟩ := Option.map_eq_some_iff.mp h
    exact inv.stays hi h3 h4 (hn _ n hv)
  · cases h

theorem Inv.changes (inv : Inv s ow fast kern ps) (hi : s.threads[i]? = some th) {acq rel : Bool} {op : Op} {d : Int} {k : Nat} {nx : Next}
    (hk : 0 < k → acq = true) (hd : (fast.length : Int) - k = if 0 ≤ s.count + d then s.count + d else 0) (hn : NextFine op nx) :
    Good (change acq rel s i th op d k nx) := by
  unfold change
  dsimp only
  generalize hs1 : ({ s with mem := (rmw acq rel (fun v => enc (dec v + d)) s.mem th.tv .count).2.1, took := s.took ++ List.replicate k (rmw acq rel (fun v => enc (dec v + d)) s.mem th.tv .count).2.2.cur } : Sys) = s1
  obtain ⟨t1, t2, t3, t4, t5⟩ := to_same s1 i op (rmw acq rel (fun v => enc (dec v + d)) s.mem th.tv .count).2.2 nx
  subst hs1
  obtain ⟨ow', h⟩ := inv.take hi hk hd t1 t4 t2 t3 t5 rfl (callOf_fine hn)
  exact ⟨_, _, _, _, h⟩

theorem Inv.passes (inv : Inv s ow fast kern ps) (hi : s.threads[i]? = some th) {op : Op} (hpos : 0 < s.sema) (hn : NextFine op (got op)) :
    Good (pass s i th op) := by
  unfold pass
  dsimp only
  generalize hs1 : ({ s with mem := (rmw true false (fun v => v - 1) s.mem th.tv .sema).2.1, took := s.took ++ [(rmw true false (fun v => v - 1) s.mem th.tv .sema).2.2.cur] } : Sys) = s1
  obtain ⟨t1, t2, t3, t4, t5⟩ := to_same s1 i op (rmw true false (fun v => v - 1) s.mem th.tv .sema).2.2 (got op)
  subst hs1
  obtain ⟨ow', kern', ps', h⟩ := inv.passed hi hpos t1 t4 t2 t3 t5 rfl (callOf_fine hn)
  exact ⟨_, _, _, _, h⟩

theorem Inv.step (inv : Inv s ow fast kern ps) (hi : s.threads[i]? = some th) {op : Op} {p : Pos} (hc : th.call = some (op, p)) {w : Nat} {c : Bool}
    (h : step s i th op p w c = some s') : Good s' := by
  have hf := inv.fine i th hi op p hc
  have hof := fine_opFine hf
  have htv := inv.tvOk i th hi
  have hfl := inv.fastLen
  have hz : ∀ q, heldOf q = 0 → (∀ k, q ≠ .post k) → NextFine op (.at q) := fun q h1 h2 p e => by cases e; exact ⟨opFine_fine hof h1 h2, h2⟩
  have htake : ∀ held old, s.count = old → 0 < old → (0 ≤ taken op held old ∧ taken op held old ≤ old) →
      (fast.length : Int) - (old - taken op held old).toNat = if 0 ≤ s.count + (taken op held old - old) then s.count + (taken op held old - old) else 0 := by
    intro held old e ho hb
    rw [e] at hfl ⊢
    rw [if_pos (by omega)] at hfl
    split <;> omega
  unfold WeakSema.step at h
  cases p with
  | load held =>
    refine inv.looks hi (fun v n e => ?_) h
    cases e
    intro q e; cases e
    exact fine_same hf rfl (fun k e => nomatch e)
  | test held old =>
    dsimp only at h
    split at h
    · cases h
      exact inv.stays hi htv (Weak.Below.refl _) (miss_fine hf held)
    · rename_i ho
      split at h
      · split at h
        · rename_i e
          cases h
          exact inv.changes hi (fun _ => rfl) (htake held old e (by omega) (hf.1 old (by omega))) (checked_fine _ _)
        · cases h
      · refine inv.looks hi (fun v n e => ?_) h
        cases e
        intro q e; cases e
        exact fine_same hf rfl (fun k e => nomatch e)
  | spinLoad left =>
    refine inv.looks hi (fun v n e => ?_) h
    cases e
    exact hz _ rfl (fun k e => nomatch e)
  | spinTest left old =>
    dsimp only at h
    split at h
    · rename_i ho
      split at h
      · split at h
        · rename_i e
          cases h
          exact inv.changes hi (fun _ => rfl) (htake 0 old e ho (hf.1 old ho)) (checked_fine _ _)
        · cases h
      · refine inv.looks hi (fun v n e => ?_) h
        split at e
        · cases e
        · cases e
          exact spin_fine hf rfl left
    · cases h
      exact inv.stays hi htv (Weak.Below.refl _) (spin_fine hf rfl left)
  | sub =>
    cases h
    refine inv.changes hi (fun _ => rfl) ?_ ?_
    · split at hfl <;> split <;> split <;> omega
    · split
      · exact got_fine hf
      · exact hz _ rfl (fun k e => nomatch e)
  | sleep =>
    dsimp only at h
    split at h
    · split at h
      · rename_i hp
        cases h
        exact inv.passes hi hp (got_fine hf)
      · cases h
    · split at h
      · cases h
        exact inv.stays hi htv (Weak.Below.refl _) (hz _ rfl (fun k e => nomatch e))
      · cases h
  | adjLoad =>
    refine inv.looks hi (fun v n e => ?_) h
    cases e
    exact hz _ rfl (fun k e => nomatch e)
  | adjTest old =>
    dsimp only at h
    split at h
    · split at h
      · split at h
        · rename_i hp
          cases h
          exact inv.passes hi hp (got_fine hf)
        · cases h
      · cases h
        exact inv.stays hi htv (Weak.Below.refl _) (hz _ rfl (fun k e => nomatch e))
    · rename_i ho
      split at h
      · split at h
        · rename_i e
          cases h
          refine inv.changes hi (fun h => absurd h (Nat.lt_irrefl _)) ?_ (checked_fine _ _)
          split at hfl <;> split <;> omega
        · cases h
      · refine inv.looks hi (fun v n e => ?_) h
        split at e
        · cases e
        · cases e
          exact hz _ rfl (fun k e => nomatch e)
  | add =>
    cases h
    have ha : ((amount op).toNat : Int) = amount op := Int.toNat_of_nonneg hf.2.1
    unfold change
    dsimp only
    generalize hs1 : ({ s with mem := (rmw false true (fun v => enc (dec v + amount op)) s.mem th.tv .count).2.1, took := s.took ++ List.replicate 0 (rmw false true (fun v => enc (dec v + amount op)) s.mem th.tv .count).2.2.cur } : Sys) = s1
    obtain ⟨t1, t2, t3, t4, t5⟩ := to_same s1 i op (rmw false true (fun v => enc (dec v + amount op)) s.mem th.tv .count).2.2 (posts (toRelease s.count (amount op)).toNat)
    subst hs1
    rw [← ha] at t1 t2 t3 t4 t5
    rw [← ha, Int.toNat_natCast]
    obtain ⟨ow', fast', h⟩ := inv.signal (s' := { to { s with mem := (rmw false true (fun v => enc (dec v + ((amount op).toNat : Int))) s.mem th.tv .count).2.1, took := s.took ++ List.replicate 0 (rmw false true (fun v => enc (dec v + ((amount op).toNat : Int))) s.mem th.tv .count).2.2.cur } i op (rmw false true (fun v => enc (dec v + ((amount op).toNat : Int))) s.mem th.tv .count).2.2 (posts (toRelease s.count ((amount op).toNat : Int)).toNat) with given := s.given ++ List.replicate (amount op).toNat th.tv.cur })
      hi rfl t1 (by show Sys.took (to _ _ _ _ _) = _; rw [t4]; simp) t2 rfl t5 rfl (by
      intro op' p e
      cases hq : posts (toRelease s.count ((amount op).toNat : Int)).toNat with
      | «at» q => rw [hq] at e; cases e; exact posts_fine hof hq
      | ret r => rw [hq] at e; cases e)
    exact ⟨_, _, _, _, h⟩
  | post k =>
    cases h
    generalize hs1 : ({ s with mem := (rmw false true (fun v => v + 1) s.mem th.tv .sema).2.1 } : Sys) = s1
    obtain ⟨t1, t2, t3, t4, t5⟩ := to_same s1 i op (rmw false true (fun v => v + 1) s.mem th.tv .sema).2.2 (posts (k - 1))
    subst hs1
    obtain ⟨ow', kern', h⟩ := inv.posted hi hc t1 t4 t2 t3 t5 rfl (by
      intro op' p e
      cases hq : posts (k - 1) with
      | «at» q => rw [hq] at e; cases e; exact posts_fine hof hq
      | ret r => rw [hq] at e; cases e)
    exact ⟨_, _, _, _, h⟩
  | read =>
    refine inv.looks hi (fun v n e => ?_) h
    cases e
    intro q e; cases e

theorem Inv.puts (inv : Inv s ow fast kern ps) (hi : s.threads[i]? = some th) {mem : Mem Loc} {tv : TView Loc} (hm : MemOk mem) (hg : ∀ y, TvOk s.mem y → TvOk mem y)
    (htv : TvOk mem tv) (hc : mem .count = s.mem .count) (hs : mem .sema = s.mem .sema) (hb : Below th.tv.cur tv.cur) : Good (put s i th mem tv) :=
  ⟨ow, fast, kern, ps, inv.quiet (s' := put s i th mem tv) hi rfl rfl rfl rfl hm hg htv hc hs hb (fun op p e => ⟨inv.fine i th hi op p e, Or.inr rfl⟩)⟩

theorem store_other (rel : Bool) (mem : Mem Loc) (tv : TView Loc) (v : Nat) {l l' : Loc} (h : l' ≠ l) : (store rel mem tv l v).1 l' = mem l' := Weak.push_other _ h _

theorem write_other (mem : Mem Loc) (tv : TView Loc) (v : Nat) {l l' : Loc} (h : l' ≠ l) : (write mem tv l v).1 l' = mem l' := Weak.push_other _ h _

theorem Good.move (h : Good s) {m : Move} (hm : move s m = some s') : Good s' := by
  obtain ⟨ow, fast, kern, ps, inv⟩ := h
  obtain ⟨th, hi, hm⟩ := Option.bind_eq_some_iff.mp hm
  have htv := inv.tvOk _ th hi
  cases m with
  | start i op =>
    unfold act at hm
    dsimp only at hm
    split at hm
    · cases hm
      exact inv.stays hi htv (Weak.Below.refl _) (begin_fine op)
    · cases hm
  | go i w c =>
    unfold act at hm
    dsimp only at hm
    split at hm
    · rename_i op p e
      exact inv.step hi e hm
    · cases hm
  | read i x w acq =>
    unfold act at hm
    dsimp only at hm
    split at hm
    · rename_i v tv e
      cases hm
      obtain ⟨_, _, h3, h4, _⟩ := Weak.load_spec inv.memOk htv e
      exact inv.puts hi inv.memOk (fun _ h => h) h3 rfl rfl h4
    · cases hm
  | write i x v rel =>
    cases hm
    obtain ⟨h1, h2, h3⟩ := Weak.store_spec (rel := rel) (l := .user x) (v := v) inv.memOk htv
    exact inv.puts hi h1 (fun y h => h.push _ _) h2 (store_other _ _ _ _ (fun h => nomatch h)) (store_other _ _ _ _ (fun h => nomatch h)) h3
  | update i x v acq rel =>
    cases hm
    obtain ⟨h1, h2, h3⟩ := Weak.rmw_spec (acq := acq) (rel := rel) (f := fun _ => v) (l := .user x) inv.memOk htv
    exact inv.puts hi h1 (fun y h => h.push _ _) h2 (rmw_other _ _ _ _ _ (fun h => nomatch h)) (rmw_other _ _ _ _ _ (fun h => nomatch h)) h3
  | change i x v =>
    cases hm
    obtain ⟨h1, h2, h3⟩ := Weak.write_spec (l := .user x) (v := v) inv.memOk htv
    exact inv.puts hi h1 (fun y h => h.push _ _) h2 (write_other _ _ _ (fun h => nomatch h)) (write_other _ _ _ (fun h => nomatch h)) h3

theorem Good.run {ms : List Move} : ∀ {s s' : Sys}, Good s → run s ms = some s' → Good s' := by
  induction ms with
  | nil => intro s s' h hr; cases hr; exact h
  | cons m ms ih =>
    intro s s' h hr
    obtain ⟨t, ht, hr⟩ := Option.bind_eq_some_iff.mp hr
    exact ih (h.move ht) hr

theorem Reach.good {base k : Nat} (h : Reach base k s) : Good s := by
  obtain ⟨ms, hr⟩ := h
  exact Good.run ⟨_, _, _, _, inv_init base k⟩ hr

end Verif.WeakSema
