import Verif.WeakSema.Spec
import Verif.Weak.Embed
/-!
# What is always true of the semaphore
-/
namespace Verif.WeakSema
open Verif.Weak (View TView Mem Msg join bot upto msgAt newest push load store rmw write Below MemOk TvOk)
open Verif.LightSema (Op Pos Next begin checked taken hit spinNext miss got timed amount toRelease posts)

theorem dec_enc (z : Int) : dec (enc z) = z := by
  unfold dec enc
  split <;> split <;> omega

/-- Where a permit is: in the count, in `m_sema`, with thread `j` that is to post it, taken. -/
inductive Owner
  | fast
  | kern
  | pend (j : Nat)
  | used

def heldOf : Pos → Nat
  | .load held => held
  | .test held _ => held
  | _ => 0

/-- A position that a call gets to. -/
def Fine (op : Op) (p : Pos) : Prop :=
  (∀ old, 0 < old → 0 ≤ taken op (heldOf p) old ∧ taken op (heldOf p) old ≤ old) ∧ 0 ≤ amount op ∧ ∀ k, p = .post k → 0 < k

def callOf (op : Op) : Next → Option (Op × Pos)
  | .at p => some (op, p)
  | .ret _ => none

structure Inv (s : Sys) (ow : Nat → Owner) (fast kern : List Nat) (ps : List (Nat × View Loc)) : Prop where
  memOk : MemOk s.mem
  tvOk : ∀ (j : Nat) (x : Th), s.threads[j]? = some x → TvOk s.mem x.tv
  all : ∀ u ∈ s.given, Below u (newest (s.mem .count)).view
  fastDup : fast.Nodup
  fastOk : ∀ n ∈ fast, ow n = .fast ∧ n < s.given.length
  fastLen : (fast.length : Int) = if 0 ≤ s.count then s.count else 0
  kernDup : kern.Nodup
  kernOk : ∀ n ∈ kern, ow n = .kern ∧ n < s.given.length ∧ ∀ u, s.given[n]? = some u → Below u (newest (s.mem .sema)).view
  kernLen : kern.length = s.sema
  psTook : ps.map (·.2) = s.took
  psDup : (ps.map (·.1)).Nodup
  psOk : ∀ p ∈ ps, ow p.1 = .used ∧ ∃ u, s.given[p.1]? = some u ∧ Below u p.2
  pend : ∀ (j : Nat) (x : Th), s.threads[j]? = some x → ∀ op k, x.call = some (op, .post k) →
    ∃ l : List Nat, l.Nodup ∧ l.length = k ∧ ∀ n ∈ l, ow n = .pend j ∧ n < s.given.length ∧ ∀ u, s.given[n]? = some u → Below u x.tv.cur
  fine : ∀ (j : Nat) (x : Th), s.threads[j]? = some x → ∀ op p, x.call = some (op, p) → Fine op p

theorem get_set {ts : List Th} {i j : Nat} {th th' x : Th} (hi : ts[i]? = some th) (h : (ts.set i th')[j]? = some x) :
    (j = i ∧ x = th') ∨ (j ≠ i ∧ ts[j]? = some x) := by
  by_cases e : j = i
  · subst e
    obtain ⟨hl, _⟩ := List.getElem?_eq_some_iff.mp hi
    rw [List.getElem?_set_self hl] at h
    exact Or.inl ⟨rfl, (Option.some.inj h).symm⟩
  · rw [List.getElem?_set_ne (Ne.symm e)] at h
    exact Or.inr ⟨e, h⟩

theorem inv_init (base k : Nat) : Inv (init base k) (fun _ => .fast) (List.range base) [] [] := by
  have hth : ∀ (j : Nat) (x : Th), (init base k).threads[j]? = some x → x = ⟨⟨bot, bot⟩, none⟩ := by
    intro j x h
    exact List.eq_of_mem_replicate (List.mem_of_getElem? h)
  have hc : (init base k).count = base := by
    show (base : Int) + dec 0 = base
    rw [show dec 0 = 0 from by decide]
    omega
  constructor
  · intro l g h; cases h
  · intro j x h
    rw [hth j x h]
    exact ⟨Weak.bounded_bot _, Weak.bounded_bot _, Weak.Below.refl _⟩
  · intro u hu
    rw [show u = bot from List.eq_of_mem_replicate hu]
    exact Weak.bot_below _
  · exact List.nodup_range
  · intro n hn
    refine ⟨rfl, ?_⟩
    show n < (List.replicate base (bot : View Loc)).length
    rw [List.length_replicate]
    exact List.mem_range.mp hn
  · rw [hc, List.length_range, if_pos (by omega)]
  · exact List.nodup_nil
  · intro n h; cases h
  · rfl
  · rfl
  · exact List.nodup_nil
  · intro p h; cases h
  · intro j x h op k hc
    rw [hth j x h] at hc
    cases hc
  · intro j x h op k hc
    rw [hth j x h] at hc
    cases hc

variable {s s' : Sys} {ow ow' : Nat → Owner} {fast fast' kern kern' : List Nat} {ps ps' : List (Nat × View Loc)} {i : Nat} {th x' : Th}

/-- A move of thread `i`. -/
theorem Inv.next (inv : Inv s ow fast kern ps) (hi : s.threads[i]? = some th) (hth : s'.threads = s.threads.set i x')
    (hm : MemOk s'.mem) (hgrow : ∀ y, TvOk s.mem y → TvOk s'.mem y) (htv : TvOk s'.mem x'.tv)
    (hg : ∀ n, n < s.given.length → n < s'.given.length ∧ s'.given[n]? = s.given[n]?)
    (how : ∀ n j, j ≠ i → n < s.given.length → ow n = .pend j → ow' n = .pend j)
    (all : ∀ u ∈ s'.given, Below u (newest (s'.mem .count)).view)
    (fastDup : fast'.Nodup) (fastOk : ∀ n ∈ fast', ow' n = .fast ∧ n < s'.given.length)
    (fastLen : (fast'.length : Int) = if 0 ≤ s'.count then s'.count else 0)
    (kernDup : kern'.Nodup)
    (kernOk : ∀ n ∈ kern', ow' n = .kern ∧ n < s'.given.length ∧ ∀ u, s'.given[n]? = some u → Below u (newest (s'.mem .sema)).view)
    (kernLen : kern'.length = s'.sema)
    (psTook : ps'.map (·.2) = s'.took) (psDup : (ps'.map (·.1)).Nodup)
    (psOk : ∀ p ∈ ps', ow' p.1 = .used ∧ ∃ u, s'.given[p.1]? = some u ∧ Below u p.2)
    (pend : ∀ op k, x'.call = some (op, .post k) →
      ∃ l : List Nat, l.Nodup ∧ l.length = k ∧ ∀ n ∈ l, ow' n = .pend i ∧ n < s'.given.length ∧ ∀ u, s'.given[n]? = some u → Below u x'.tv.cur)
    (fine : ∀ op p, x'.call = some (op, p) → Fine op p) : Inv s' ow' fast' kern' ps' := by
  refine ⟨hm, ?_, all, fastDup, fastOk, fastLen, kernDup, kernOk, kernLen, psTook, psDup, psOk, ?_, ?_⟩
  · intro j x h
    rw [hth] at h
    rcases get_set hi h with ⟨_, rfl⟩ | ⟨_, h⟩
    · exact htv
    · exact hgrow _ (inv.tvOk j x h)
  · intro j x h op k hc
    rw [hth] at h
    rcases get_set hi h with ⟨rfl, rfl⟩ | ⟨hne, h⟩
    · exact pend op k hc
    · obtain ⟨l, h1, h2, h3⟩ := inv.pend j x h op k hc
      refine ⟨l, h1, h2, fun n hn => ?_⟩
      obtain ⟨a, b, c⟩ := h3 n hn
      refine ⟨how n j hne b a, (hg n b).1, fun u hu => c u ?_⟩
      rw [← (hg n b).2]
      exact hu
  · intro j x h op p hc
    rw [hth] at h
    rcases get_set hi h with ⟨rfl, rfl⟩ | ⟨_, h⟩
    · exact fine op p hc
    · exact inv.fine j x h op p hc

/-- A move that changes neither `m_count` nor `m_sema`. -/
theorem Inv.quiet (inv : Inv s ow fast kern ps) (hi : s.threads[i]? = some th) (hth : s'.threads = s.threads.set i x')
    (hbase : s'.base = s.base) (hgiven : s'.given = s.given) (htook : s'.took = s.took)
    (hm : MemOk s'.mem) (hgrow : ∀ y, TvOk s.mem y → TvOk s'.mem y) (htv : TvOk s'.mem x'.tv)
    (hc : s'.mem .count = s.mem .count) (hs : s'.mem .sema = s.mem .sema) (hb : Below th.tv.cur x'.tv.cur)
    (hcall : ∀ op p, x'.call = some (op, p) → Fine op p ∧ ((∀ k, p ≠ .post k) ∨ x'.call = th.call)) : Inv s' ow fast kern ps := by
  have hcnt : s'.count = s.count := by unfold Sys.count Sys.cnt; rw [hbase, hc]
  have hsem : s'.sema = s.sema := by unfold Sys.sema; rw [hs]
  refine inv.next hi hth hm hgrow htv (fun n h => by rw [hgiven]; exact ⟨h, rfl⟩) (fun _ _ _ _ h => h) ?_ inv.fastDup ?_ ?_ inv.kernDup ?_ ?_ ?_ inv.psDup ?_ ?_ ?_
  · rw [hgiven, hc]; exact inv.all
  · rw [hgiven]; exact inv.fastOk
  · rw [hcnt]; exact inv.fastLen
  · rw [hgiven, hs]; exact inv.kernOk
  · rw [hsem]; exact inv.kernLen
  · rw [htook]; exact inv.psTook
  · rw [hgiven]; exact inv.psOk
  · intro op k h
    rcases (hcall op _ h).2 with h' | h'
    · exact absurd rfl (h' k)
    · rw [h'] at h
      obtain ⟨l, h1, h2, h3⟩ := inv.pend i th hi op k h
      refine ⟨l, h1, h2, fun n hn => ?_⟩
      obtain ⟨a, b, c⟩ := h3 n hn
      rw [hgiven]
      exact ⟨a, b, fun u hu => (c u hu).trans hb⟩
  · exact fun op p h => (hcall op p h).1

theorem rmw_newest (acq rel : Bool) (f : Nat → Nat) (mem : Mem Loc) (tv : TView Loc) (l : Loc) :
    (newest ((rmw acq rel f mem tv l).2.1 l)).val = f (newest (mem l)).val ∧
      Below (newest (mem l)).view (newest ((rmw acq rel f mem tv l).2.1 l)).view ∧
      (rel = true → Below tv.cur (newest ((rmw acq rel f mem tv l).2.1 l)).view) ∧
      (acq = true → Below (newest (mem l)).view (rmw acq rel f mem tv l).2.2.cur) := by
  unfold rmw
  dsimp only
  rw [Weak.push_self, Weak.newest_append]
  refine ⟨rfl, Weak.below_join_right _ _, ?_, ?_⟩
  · intro h
    subst h
    exact ((Weak.below_join_left _ _).trans (Weak.below_join_left _ _)).trans (Weak.below_join_left _ _)
  · intro h
    subst h
    exact Weak.below_join_right _ _

theorem rmw_other (acq rel : Bool) (f : Nat → Nat) (mem : Mem Loc) (tv : TView Loc) {l l' : Loc} (h : l' ≠ l) :
    (rmw acq rel f mem tv l).2.1 l' = mem l' := Weak.push_other _ h _

theorem rmw_grow (acq rel : Bool) (f : Nat → Nat) (mem : Mem Loc) (tv : TView Loc) (l : Loc) (y : TView Loc) (h : TvOk mem y) :
    TvOk (rmw acq rel f mem tv l).2.1 y := h.push _ _

/-- Permits are taken from the count. -/
theorem Inv.take (inv : Inv s ow fast kern ps) (hi : s.threads[i]? = some th) {acq rel : Bool} {d : Int} {k : Nat} (hk : 0 < k → acq = true)
    (hd : (fast.length : Int) - k = if 0 ≤ s.count + d then s.count + d else 0)
    (hmem : s'.mem = (rmw acq rel (fun v => enc (dec v + d)) s.mem th.tv .count).2.1)
    (htook : s'.took = s.took ++ List.replicate k (rmw acq rel (fun v => enc (dec v + d)) s.mem th.tv .count).2.2.cur)
    (hbase : s'.base = s.base) (hgiven : s'.given = s.given)
    (hth : s'.threads = s.threads.set i x') (htv : x'.tv = (rmw acq rel (fun v => enc (dec v + d)) s.mem th.tv .count).2.2)
    (hcall : ∀ op p, x'.call = some (op, p) → Fine op p ∧ (∀ k, p ≠ .post k)) :
    ∃ ow', Inv s' ow' (fast.drop k) kern (ps ++ (fast.take k).map fun n => (n, x'.tv.cur)) := by
  obtain ⟨m1, m2, m3⟩ := Weak.rmw_spec (acq := acq) (rel := rel) (f := fun v => enc (dec v + d)) (l := Loc.count) inv.memOk (inv.tvOk i th hi)
  obtain ⟨n1, n2, _, n4⟩ := rmw_newest acq rel (fun v => enc (dec v + d)) s.mem th.tv .count
  have ho := rmw_other acq rel (fun v => enc (dec v + d)) s.mem th.tv (l := .count) (l' := .sema) (fun h => nomatch h)
  have hgr := rmw_grow acq rel (fun v => enc (dec v + d)) s.mem th.tv .count
  rw [← htv] at m2 m3 n4 htook
  rw [← hmem] at m1 m2 n1 n2 ho hgr
  have hcnt : s'.count = s.count + d := by
    unfold Sys.count Sys.cnt
    rw [n1, hbase, dec_enc]
    omega
  have hsem : s'.sema = s.sema := by unfold Sys.sema; rw [ho]
  have hlen : (fast.take k).length = k := by
    rw [List.length_take]
    have : (k : Int) ≤ fast.length := by split at hd <;> omega
    omega
  have hdisj : ∀ n, n ∈ fast.take k → n ∈ fast.drop k → False := by
    have hn := inv.fastDup
    rw [← List.take_append_drop k fast] at hn
    exact fun n h h' => (List.nodup_append.mp hn).2.2 n h n h' rfl
  refine ⟨fun n => if n ∈ fast.take k then .used else ow n, inv.next hi hth m1 hgr m2 (fun n h => by rw [hgiven]; exact ⟨h, rfl⟩) ?_ ?_ ?_ ?_ ?_ inv.kernDup ?_ ?_ ?_ ?_ ?_ ?_ ?_⟩
  · intro n j _ _ h
    by_cases hm : n ∈ fast.take k
    · rw [(inv.fastOk n (List.mem_of_mem_take hm)).1] at h
      cases h
    · simp only [hm, if_false]
      exact h
  · rw [hgiven]
    exact fun u hu => (inv.all u hu).trans n2
  · exact inv.fastDup.sublist (List.drop_sublist _ _)
  · intro n hn
    rw [hgiven]
    have hm : n ∉ fast.take k := fun h => hdisj n h hn
    simp only [hm, if_false]
    exact inv.fastOk n (List.mem_of_mem_drop hn)
  · rw [hcnt, ← hd, List.length_drop]
    rw [List.length_take] at hlen
    omega
  · intro n hn
    obtain ⟨a, b, c⟩ := inv.kernOk n hn
    rw [hgiven, ho]
    refine ⟨?_, b, c⟩
    by_cases hm : n ∈ fast.take k
    · rw [(inv.fastOk n (List.mem_of_mem_take hm)).1] at a
      cases a
    · simp only [hm, if_false]
      exact a
  · rw [hsem]; exact inv.kernLen
  · rw [List.map_append, inv.psTook, htook, List.map_map]
    congr 1
    refine List.eq_replicate_iff.mpr ⟨by rw [List.length_map, hlen], fun b hb => ?_⟩
    obtain ⟨n, _, rfl⟩ := List.mem_map.mp hb
    rfl
  · rw [List.map_append, List.map_map, show ((fun p : Nat × View Loc => p.1) ∘ fun n => (n, x'.tv.cur)) = id from rfl, List.map_id]
    refine List.nodup_append.mpr ⟨inv.psDup, inv.fastDup.sublist (List.take_sublist _ _), ?_⟩
    intro a ha b hb e
    subst e
    obtain ⟨p, hp, rfl⟩ := List.mem_map.mp ha
    have h1 := (inv.psOk p hp).1
    rw [(inv.fastOk _ (List.mem_of_mem_take hb)).1] at h1
    cases h1
  · intro p hp
    rw [hgiven]
    rcases List.mem_append.mp hp with hp | hp
    · obtain ⟨a, b⟩ := inv.psOk p hp
      refine ⟨?_, b⟩
      by_cases hm : p.1 ∈ fast.take k
      · simp only [hm, if_true]
      · simp only [hm, if_false]
        exact a
    · obtain ⟨n, hn, rfl⟩ := List.mem_map.mp hp
      refine ⟨by simp only [hn, if_true], ?_⟩
      have hlt := (inv.fastOk n (List.mem_of_mem_take hn)).2
      refine ⟨s.given[n], List.getElem?_eq_getElem hlt, (inv.all _ (List.getElem_mem hlt)).trans (n4 (hk ?_))⟩
      have := List.length_pos_of_mem hn
      omega
  · exact fun op k h => absurd rfl ((hcall op _ h).2 k)
  · exact fun op p h => (hcall op p h).1

/-- A permit is taken from `m_sema`. -/
theorem Inv.passed (inv : Inv s ow fast kern ps) (hi : s.threads[i]? = some th) (hpos : 0 < s.sema)
    (hmem : s'.mem = (rmw true false (fun v => v - 1) s.mem th.tv .sema).2.1)
    (htook : s'.took = s.took ++ [(rmw true false (fun v => v - 1) s.mem th.tv .sema).2.2.cur])
    (hbase : s'.base = s.base) (hgiven : s'.given = s.given)
    (hth : s'.threads = s.threads.set i x') (htv : x'.tv = (rmw true false (fun v => v - 1) s.mem th.tv .sema).2.2)
    (hcall : ∀ op p, x'.call = some (op, p) → Fine op p ∧ (∀ k, p ≠ .post k)) :
    ∃ ow' kern' ps', Inv s' ow' fast kern' ps' := by
  obtain ⟨m1, m2, m3⟩ := Weak.rmw_spec (acq := true) (rel := false) (f := fun v => v - 1) (l := Loc.sema) inv.memOk (inv.tvOk i th hi)
  obtain ⟨n1, n2, _, n4⟩ := rmw_newest true false (fun v => v - 1) s.mem th.tv .sema
  have ho := rmw_other true false (fun v => v - 1) s.mem th.tv (l := .sema) (l' := .count) (fun h => nomatch h)
  have hgr := rmw_grow true false (fun v => v - 1) s.mem th.tv .sema
  rw [← htv] at m2 m3 n4 htook
  rw [← hmem] at m1 m2 n1 n2 ho hgr
  have hcnt : s'.count = s.count := by
    unfold Sys.count Sys.cnt
    rw [ho, hbase]
  have hsem : s'.sema = s.sema - 1 := n1
  have hlen := inv.kernLen
  cases hkern : kern with
  | nil => rw [hkern] at hlen; simp only [List.length_nil] at hlen; omega
  | cons a rest =>
    have hka : a ∈ kern := by rw [hkern]; exact List.mem_cons_self
    have hkr : ∀ n ∈ rest, n ∈ kern := fun n h => by rw [hkern]; exact List.mem_cons_of_mem _ h
    have hdup := inv.kernDup
    rw [hkern] at hdup hlen
    obtain ⟨hna, hdup⟩ := List.nodup_cons.mp hdup
    obtain ⟨a1, a2, a3⟩ := inv.kernOk a hka
    refine ⟨fun n => if n = a then .used else ow n, rest, ps ++ [(a, x'.tv.cur)], inv.next hi hth m1 hgr m2 (fun n h => by rw [hgiven]; exact ⟨h, rfl⟩) ?_ ?_ inv.fastDup ?_ ?_ hdup ?_ ?_ ?_ ?_ ?_ ?_ ?_⟩
    · intro n j _ _ h
      by_cases e : n = a
      · subst e
        rw [a1] at h
        cases h
      · simp only [e, if_false]
        exact h
    · rw [hgiven, ho]; exact inv.all
    · intro n hn
      obtain ⟨b1, b2⟩ := inv.fastOk n hn
      rw [hgiven]
      refine ⟨?_, b2⟩
      by_cases e : n = a
      · subst e
        rw [a1] at b1
        cases b1
      · simp only [e, if_false]
        exact b1
    · rw [hcnt]; exact inv.fastLen
    · intro n hn
      obtain ⟨b1, b2, b3⟩ := inv.kernOk n (hkr n hn)
      have e : n ≠ a := fun e => hna (e ▸ hn)
      rw [hgiven]
      refine ⟨?_, b2, fun u hu => (b3 u hu).trans n2⟩
      simp only [e, if_false]
      exact b1
    · rw [hsem]
      rw [List.length_cons] at hlen
      omega
    · rw [List.map_append, inv.psTook, htook]
      rfl
    · rw [List.map_append]
      refine List.nodup_append.mpr ⟨inv.psDup, by simp, ?_⟩
      intro b hb c hc e
      subst e
      obtain ⟨p, hp, rfl⟩ := List.mem_map.mp hb
      have h1 := (inv.psOk p hp).1
      rw [show p.1 = a from by simpa using hc, a1] at h1
      cases h1
    · intro p hp
      rw [hgiven]
      rcases List.mem_append.mp hp with hp | hp
      · obtain ⟨b1, b2⟩ := inv.psOk p hp
        refine ⟨?_, b2⟩
        by_cases e : p.1 = a
        · simp only [e, if_true]
        · simp only [e, if_false]
          exact b1
      · rw [List.mem_singleton.mp hp]
        refine ⟨by simp, s.given[a], List.getElem?_eq_getElem a2, (a3 _ (List.getElem?_eq_getElem a2)).trans (n4 rfl)⟩
    · exact fun op k h => absurd rfl ((hcall op _ h).2 k)
    · exact fun op p h => (hcall op p h).1

end Verif.WeakSema
