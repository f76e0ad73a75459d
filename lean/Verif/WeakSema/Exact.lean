import Verif.WeakSema.Results
/-!
# No permit is lost
-/
namespace Verif.WeakSema
open Verif.Weak (View TView Mem Msg join bot upto msgAt newest push load store rmw write Below MemOk TvOk)
open Verif.LightSema (Op Pos Next begin checked taken hit spinNext miss got timed amount toRelease posts)

variable {s s' : Sys} {i : Nat} {th x' : Th}

/-- Calls that took one off the count and wait for a post. -/
def waits : Option (Op × Pos) → Nat
  | some (_, .sleep) => 1
  | some (_, .adjLoad) => 1
  | some (_, .adjTest _) => 1
  | _ => 0

/-- Posts that are still to be made. -/
def owes : Option (Op × Pos) → Nat
  | some (_, .post k) => k
  | _ => 0

def below0 (z : Int) : Int := if 0 ≤ z then 0 else -z

theorem total_set (f : Th → Nat) {ts : List Th} {x : Th} (hi : ts[i]? = some th) : ((ts.set i x).map f).sum + f th = (ts.map f).sum + f x := by
  induction ts generalizing i with
  | nil => cases hi
  | cons t ts ih =>
    cases i with
    | zero =>
      cases hi
      simp only [List.set_cons_zero, List.map_cons, List.sum_cons]
      omega
    | succ i =>
      have := ih (i := i) hi
      simp only [List.set_cons_succ, List.map_cons, List.sum_cons]
      omega

structure Exact (s : Sys) : Prop where
  perm : s.count + ((s.threads.map fun x => waits x.call).sum : Nat) + s.took.length = s.given.length
  wake : (s.sema : Int) + ((s.threads.map fun x => owes x.call).sum : Nat) + below0 s.count = ((s.threads.map fun x => waits x.call).sum : Nat)

theorem Exact.next (e : Exact s) (hi : s.threads[i]? = some th) (hth : s'.threads = s.threads.set i x')
    (h1 : s'.count + waits x'.call + s'.took.length + s.given.length = s.count + waits th.call + s.took.length + s'.given.length)
    (h2 : (s'.sema : Int) + owes x'.call + below0 s'.count + waits th.call = s.sema + owes th.call + below0 s.count + waits x'.call) : Exact s' := by
  have e1 := e.perm
  have e2 := e.wake
  have t1 := total_set (fun x => waits x.call) (x := x') hi
  have t2 := total_set (fun x => owes x.call) (x := x') hi
  refine ⟨?_, ?_⟩ <;> rw [hth] <;> omega

/-- A next position at which nothing is owed and nobody waits. -/
def Calm (op : Op) (nx : Next) : Prop := waits (callOf op nx) = 0 ∧ owes (callOf op nx) = 0

theorem checked_calm (op : Op) (r : Nat) : Calm op (checked op r) := by
  unfold checked
  split <;> exact ⟨rfl, rfl⟩

theorem spin_calm (op : Op) (n : Nat) : Calm op (spinNext n) := by cases n <;> exact ⟨rfl, rfl⟩

theorem miss_calm (op : Op) (held : Nat) : Calm op (miss op held) := by
  unfold miss
  split
  · exact spin_calm _ _
  · split
    · exact spin_calm _ _
    · exact checked_calm _ _
  · exact checked_calm _ _

theorem got_calm (op : Op) : Calm op (got op) := by
  unfold got
  split
  · split
    · exact ⟨rfl, rfl⟩
    · exact checked_calm _ _
  · exact checked_calm _ _

theorem begin_calm (op : Op) : Calm op (begin op) := by
  unfold begin
  split <;> (try split) <;> exact ⟨rfl, rfl⟩

theorem posts_owes (op : Op) (r : Nat) : waits (callOf op (posts r)) = 0 ∧ owes (callOf op (posts r)) = r := by
  unfold posts
  split
  · rename_i h
    exact ⟨rfl, h.symm⟩
  · exact ⟨rfl, rfl⟩

theorem Exact.stays (e : Exact s) (hi : s.threads[i]? = some th) {op : Op} {tv : TView Loc} {nx : Next} (h1 : waits (callOf op nx) = waits th.call)
    (h2 : owes (callOf op nx) = owes th.call) : Exact (to s i op tv nx) := by
  obtain ⟨t1, t2, t3, t4, t5⟩ := to_same s i op tv nx
  have hc : (to s i op tv nx).count = s.count := by unfold Sys.count Sys.cnt; rw [t1, t2]
  have hs : (to s i op tv nx).sema = s.sema := by unfold Sys.sema; rw [t1]
  refine e.next hi t5 ?_ ?_ <;> dsimp only
  · rw [hc, t3, t4, h1]
  · rw [hc, hs, h1, h2]

theorem Exact.looks (e : Exact s) (hi : s.threads[i]? = some th) {acq : Bool} {op : Op} {w : Nat} {nx : Int → Option Next}
    (hn : ∀ v n, nx v = some n → waits (callOf op n) = waits th.call ∧ owes (callOf op n) = owes th.call) (h : look acq s i th op w nx = some s') : Exact s' := by
  unfold look at h
  split at h
  · obtain ⟨n, hv, rfl⟩ := Option.map_eq_some_iff.mp h
    exact e.stays hi (hn _ n hv).1 (hn _ n hv).2
  · cases h

theorem change_counts (acq rel : Bool) (s : Sys) (i : Nat) (th : Th) (op : Op) (d : Int) (k : Nat) (nx : Next) :
    (change acq rel s i th op d k nx).count = s.count + d ∧ (change acq rel s i th op d k nx).sema = s.sema ∧
      (change acq rel s i th op d k nx).took.length = s.took.length + k ∧ (change acq rel s i th op d k nx).given = s.given ∧
      ∃ tv, (change acq rel s i th op d k nx).threads = s.threads.set i ⟨tv, callOf op nx⟩ := by
  obtain ⟨n1, _⟩ := rmw_newest acq rel (fun v => enc (dec v + d)) s.mem th.tv .count
  have ho := rmw_other acq rel (fun v => enc (dec v + d)) s.mem th.tv (l := .count) (l' := .sema) (fun h => nomatch h)
  unfold change
  dsimp only
  generalize hs1 : ({ s with mem := (rmw acq rel (fun v => enc (dec v + d)) s.mem th.tv .count).2.1, took := s.took ++ List.replicate k (rmw acq rel (fun v => enc (dec v + d)) s.mem th.tv .count).2.2.cur } : Sys) = s1
  obtain ⟨t1, t2, t3, t4, t5⟩ := to_same s1 i op (rmw acq rel (fun v => enc (dec v + d)) s.mem th.tv .count).2.2 nx
  subst hs1
  refine ⟨?_, ?_, ?_, t3, _, t5⟩
  · unfold Sys.count Sys.cnt
    rw [t1, t2]
    dsimp only
    rw [n1, dec_enc]
    omega
  · unfold Sys.sema
    rw [t1]
    dsimp only
    rw [ho]
  · rw [t4]
    dsimp only
    rw [List.length_append, List.length_replicate]

theorem Exact.changes (e : Exact s) (hi : s.threads[i]? = some th) {acq rel : Bool} {op : Op} {d : Int} {k : Nat} {nx : Next}
    (h1 : d + k + waits (callOf op nx) = waits th.call)
    (h2 : owes (callOf op nx) + below0 (s.count + d) + waits th.call = owes th.call + below0 s.count + waits (callOf op nx)) : Exact (change acq rel s i th op d k nx) := by
  obtain ⟨c1, c2, c3, c4, tv, c5⟩ := change_counts acq rel s i th op d k nx
  refine e.next hi c5 ?_ ?_ <;> dsimp only
  · rw [c1, c3, c4]
    omega
  · rw [c1, c2]
    omega

theorem Exact.passes (e : Exact s) (hi : s.threads[i]? = some th) {op : Op} (hpos : 0 < s.sema) (hw : waits th.call = 1) (ho : owes th.call = 0) : Exact (pass s i th op) := by
  obtain ⟨n1, _⟩ := rmw_newest true false (fun v => v - 1) s.mem th.tv .sema
  have hoth := rmw_other true false (fun v => v - 1) s.mem th.tv (l := .sema) (l' := .count) (fun h => nomatch h)
  unfold pass
  dsimp only
  generalize hs1 : ({ s with mem := (rmw true false (fun v => v - 1) s.mem th.tv .sema).2.1, took := s.took ++ [(rmw true false (fun v => v - 1) s.mem th.tv .sema).2.2.cur] } : Sys) = s1
  obtain ⟨t1, t2, t3, t4, t5⟩ := to_same s1 i op (rmw true false (fun v => v - 1) s.mem th.tv .sema).2.2 (got op)
  subst hs1
  have hc : (to { s with mem := (rmw true false (fun v => v - 1) s.mem th.tv .sema).2.1, took := s.took ++ [(rmw true false (fun v => v - 1) s.mem th.tv .sema).2.2.cur] } i op (rmw true false (fun v => v - 1) s.mem th.tv .sema).2.2 (got op)).count = s.count := by
    unfold Sys.count Sys.cnt
    rw [t1, t2]
    dsimp only
    rw [hoth]
  have hs : (to { s with mem := (rmw true false (fun v => v - 1) s.mem th.tv .sema).2.1, took := s.took ++ [(rmw true false (fun v => v - 1) s.mem th.tv .sema).2.2.cur] } i op (rmw true false (fun v => v - 1) s.mem th.tv .sema).2.2 (got op)).sema = s.sema - 1 := by
    show (newest _).val = _
    rw [t1]
    exact n1
  obtain ⟨g1, g2⟩ := got_calm op
  refine e.next hi t5 ?_ ?_ <;> dsimp only
  · rw [hc, t3, t4, g1, hw]
    dsimp only
    rw [List.length_append, List.length_singleton]
    omega
  · rw [hc, hs, g1, g2, hw, ho]
    omega

theorem Exact.step (e : Exact s) (hi : s.threads[i]? = some th) {op : Op} {p : Pos} (hc : th.call = some (op, p)) (hf : Fine op p) {w : Nat} {c : Bool}
    (h : step s i th op p w c = some s') : Exact s' := by
  have hcalm : ∀ nx, Calm op nx → waits th.call = 0 → owes th.call = 0 → waits (callOf op nx) = waits th.call ∧ owes (callOf op nx) = owes th.call :=
    fun nx h a b => ⟨h.1.trans a.symm, h.2.trans b.symm⟩
  have htake : ∀ held old, s.count = old → 0 < old → waits th.call = 0 → owes th.call = 0 → (0 ≤ taken op held old ∧ taken op held old ≤ old) →
      Exact (change true false s i th op (taken op held old - old) (old - taken op held old).toNat (hit op held (old - taken op held old).toNat)) := by
    intro held old e1 ho a b hb
    obtain ⟨g1, g2⟩ := checked_calm op (held + (old - taken op held old).toNat)
    refine e.changes hi ?_ ?_ <;> unfold hit <;> rw [g1, a]
    · omega
    · rw [g2, b, e1]
      unfold below0
      split <;> split <;> omega
  unfold WeakSema.step at h
  cases p with
  | load held => exact e.looks hi (fun v n hv => by cases hv; rw [hc]; exact ⟨rfl, rfl⟩) h
  | test held old =>
    have a : waits th.call = 0 := by rw [hc]; rfl
    have b : owes th.call = 0 := by rw [hc]; rfl
    dsimp only at h
    split at h
    · cases h
      exact e.stays hi (hcalm _ (miss_calm op held) a b).1 (hcalm _ (miss_calm op held) a b).2
    · split at h
      · split at h
        · rename_i e1
          cases h
          exact htake held old e1 (by omega) a b (hf.1 old (by omega))
        · cases h
      · exact e.looks hi (fun v n hv => by cases hv; rw [hc]; exact ⟨rfl, rfl⟩) h
  | spinLoad left => exact e.looks hi (fun v n hv => by cases hv; rw [hc]; exact ⟨rfl, rfl⟩) h
  | spinTest left old =>
    have a : waits th.call = 0 := by rw [hc]; rfl
    have b : owes th.call = 0 := by rw [hc]; rfl
    dsimp only at h
    split at h
    · rename_i ho
      split at h
      · split at h
        · rename_i e1
          cases h
          exact htake 0 old e1 ho a b (hf.1 old ho)
        · cases h
      · refine e.looks hi (fun v n hv => ?_) h
        split at hv
        · cases hv
        · cases hv
          exact hcalm _ (spin_calm op left) a b
    · cases h
      exact e.stays hi (hcalm _ (spin_calm op left) a b).1 (hcalm _ (spin_calm op left) a b).2
  | sub =>
    have a : waits th.call = 0 := by rw [hc]; rfl
    have b : owes th.call = 0 := by rw [hc]; rfl
    cases h
    by_cases hp : 0 < s.count
    · rw [if_pos hp, if_pos hp]
      obtain ⟨g1, g2⟩ := got_calm op
      refine e.changes hi ?_ ?_ <;> rw [g1, a]
      · omega
      · rw [g2, b]
        unfold below0
        split <;> split <;> omega
    · rw [if_neg hp, if_neg hp]
      refine e.changes hi ?_ ?_ <;> rw [a]
      · rfl
      · rw [b]
        show ((0 : Nat) : Int) + _ + _ = _ + _ + ((1 : Nat) : Int)
        unfold below0
        split <;> split <;> omega
  | sleep =>
    dsimp only at h
    split at h
    · split at h
      · rename_i hp
        cases h
        exact e.passes hi hp (by rw [hc]; rfl) (by rw [hc]; rfl)
      · cases h
    · split at h
      · cases h
        exact e.stays hi (by rw [hc]; rfl) (by rw [hc]; rfl)
      · cases h
  | adjLoad => exact e.looks hi (fun v n hv => by cases hv; rw [hc]; exact ⟨rfl, rfl⟩) h
  | adjTest old =>
    dsimp only at h
    split at h
    · split at h
      · split at h
        · rename_i hp
          cases h
          exact e.passes hi hp (by rw [hc]; rfl) (by rw [hc]; rfl)
        · cases h
      · cases h
        exact e.stays hi (by rw [hc]; rfl) (by rw [hc]; rfl)
    · rename_i ho
      split at h
      · split at h
        · rename_i e1
          cases h
          obtain ⟨g1, g2⟩ := checked_calm op 0
          have a : waits th.call = 1 := by rw [hc]; rfl
          have b : owes th.call = 0 := by rw [hc]; rfl
          refine e.changes hi ?_ ?_ <;> rw [g1, a]
          · rfl
          · rw [g2, b]
            unfold below0
            split <;> split <;> omega
        · cases h
      · refine e.looks hi (fun v n hv => ?_) h
        split at hv
        · cases hv
        · cases hv
          rw [hc]
          exact ⟨rfl, rfl⟩
  | add =>
    cases h
    have ha := hf.2.1
    obtain ⟨c1, c2, c3, c4, tv, c5⟩ := change_counts false true s i th op (amount op) 0 (posts (toRelease s.count (amount op)).toNat)
    obtain ⟨g1, g2⟩ := posts_owes op (toRelease s.count (amount op)).toNat
    have a : waits th.call = 0 := by rw [hc]; rfl
    have b : owes th.call = 0 := by rw [hc]; rfl
    refine e.next hi c5 ?_ ?_ <;> dsimp only
    · rw [show Sys.count { change false true s i th op (amount op) 0 (posts (toRelease s.count (amount op)).toNat) with given := s.given ++ List.replicate (amount op).toNat th.tv.cur } = s.count + amount op from c1, c3, g1, a, List.length_append, List.length_replicate]
      omega
    · rw [show Sys.count { change false true s i th op (amount op) 0 (posts (toRelease s.count (amount op)).toNat) with given := s.given ++ List.replicate (amount op).toNat th.tv.cur } = s.count + amount op from c1,
        show Sys.sema { change false true s i th op (amount op) 0 (posts (toRelease s.count (amount op)).toNat) with given := s.given ++ List.replicate (amount op).toNat th.tv.cur } = s.sema from c2, g1, g2, a, b]
      unfold below0 toRelease
      split <;> split <;> split <;> omega
  | post k =>
    cases h
    have hk := hf.2.2 k rfl
    obtain ⟨n1, _⟩ := rmw_newest false true (fun v => v + 1) s.mem th.tv .sema
    have hoth := rmw_other false true (fun v => v + 1) s.mem th.tv (l := .sema) (l' := .count) (fun h => nomatch h)
    generalize hs1 : ({ s with mem := (rmw false true (fun v => v + 1) s.mem th.tv .sema).2.1 } : Sys) = s1
    obtain ⟨t1, t2, t3, t4, t5⟩ := to_same s1 i op (rmw false true (fun v => v + 1) s.mem th.tv .sema).2.2 (posts (k - 1))
    have hcnt : (to s1 i op (rmw false true (fun v => v + 1) s.mem th.tv .sema).2.2 (posts (k - 1))).count = s.count := by
      unfold Sys.count Sys.cnt
      rw [t1, t2, ← hs1]
      dsimp only
      rw [hoth]
    have hsem : (to s1 i op (rmw false true (fun v => v + 1) s.mem th.tv .sema).2.2 (posts (k - 1))).sema = s.sema + 1 := by
      show (newest _).val = _
      rw [t1, ← hs1]
      exact n1
    obtain ⟨g1, g2⟩ := posts_owes op (k - 1)
    have a : waits th.call = 0 := by rw [hc]; rfl
    have b : owes th.call = k := by rw [hc]; rfl
    rw [← hs1] at t3 t4 t5
    rw [← hs1] at hcnt hsem ⊢
    refine e.next hi t5 ?_ ?_ <;> dsimp only
    · rw [hcnt, t3, t4, g1, a]
    · rw [hcnt, hsem, g1, g2, a, b]
      omega
  | read => exact e.looks hi (fun v n hv => by cases hv; rw [hc]; exact ⟨rfl, rfl⟩) h

theorem Exact.puts (e : Exact s) (hi : s.threads[i]? = some th) {mem : Mem Loc} {tv : TView Loc} (hc : mem .count = s.mem .count) (hs : mem .sema = s.mem .sema) :
    Exact (put s i th mem tv) := by
  have h1 : (put s i th mem tv).count = s.count := by unfold Sys.count Sys.cnt put; dsimp only; rw [hc]
  have h2 : (put s i th mem tv).sema = s.sema := by unfold Sys.sema put; dsimp only; rw [hs]
  refine e.next (s' := put s i th mem tv) (x' := ⟨tv, th.call⟩) hi rfl ?_ ?_
  · rw [h1]; rfl
  · rw [h1, h2]

theorem Exact.move (e : Exact s) (g : Good s) {m : Move} (hm : move s m = some s') : Exact s' := by
  obtain ⟨ow, fast, kern, ps, inv⟩ := g
  obtain ⟨th, hi, hm⟩ := Option.bind_eq_some_iff.mp hm
  cases m with
  | start i op =>
    unfold act at hm
    dsimp only at hm
    split at hm
    · rename_i hc
      cases hm
      exact e.stays hi (by rw [(begin_calm op).1, hc]; rfl) (by rw [(begin_calm op).2, hc]; rfl)
    · cases hm
  | go i w c =>
    unfold act at hm
    dsimp only at hm
    split at hm
    · rename_i op p hc
      exact e.step hi hc (inv.fine i th hi op p hc) hm
    · cases hm
  | read i x w acq =>
    unfold act at hm
    dsimp only at hm
    split at hm
    · cases hm
      exact e.puts hi rfl rfl
    · cases hm
  | write i x v rel => cases hm; exact e.puts hi (store_other _ _ _ _ (fun h => nomatch h)) (store_other _ _ _ _ (fun h => nomatch h))
  | update i x v acq rel => cases hm; exact e.puts hi (rmw_other _ _ _ _ _ (fun h => nomatch h)) (rmw_other _ _ _ _ _ (fun h => nomatch h))
  | change i x v => cases hm; exact e.puts hi (write_other _ _ _ (fun h => nomatch h)) (write_other _ _ _ (fun h => nomatch h))

theorem Exact.run {ms : List Move} : ∀ {s s' : Sys}, Exact s → Good s → run s ms = some s' → Exact s' := by
  induction ms with
  | nil => intro s s' h _ hr; cases hr; exact h
  | cons m ms ih =>
    intro s s' h g hr
    obtain ⟨t, ht, hr⟩ := Option.bind_eq_some_iff.mp hr
    exact ih (h.move g ht) (g.move ht) hr

theorem exact_init (base k : Nat) : Exact (init base k) := by
  have hc : (init base k).count = base := by
    show (base : Int) + dec 0 = base
    rw [show dec 0 = 0 from by decide]
    omega
  have h1 : ((init base k).threads.map fun x => waits x.call).sum = 0 := by
    show ((List.replicate k (⟨⟨bot, bot⟩, none⟩ : Th)).map fun x => waits x.call).sum = 0
    rw [List.map_replicate, List.sum_replicate_nat]
    simp [waits]
  have h2 : ((init base k).threads.map fun x => owes x.call).sum = 0 := by
    show ((List.replicate k (⟨⟨bot, bot⟩, none⟩ : Th)).map fun x => owes x.call).sum = 0
    rw [List.map_replicate, List.sum_replicate_nat]
    simp [owes]
  refine ⟨?_, ?_⟩
  · rw [hc, h1]
    show (base : Int) + 0 + 0 = (List.replicate base (bot : View Loc)).length
    rw [List.length_replicate]
    omega
  · rw [hc, h1, h2]
    show (0 : Int) + 0 + below0 base = 0
    unfold below0
    rw [if_pos (by omega)]
    rfl

theorem Reach.exact {base k : Nat} (h : Reach base k s) : Exact s := by
  obtain ⟨ms, hr⟩ := h
  exact Exact.run (exact_init base k) ⟨_, _, _, _, inv_init base k⟩ hr

theorem total_zero {f : Th → Nat} {ts : List Th} (h : ∀ x ∈ ts, f x = 0) : (ts.map f).sum = 0 := by
  induction ts with
  | nil => rfl
  | cons t ts ih =>
    rw [List.map_cons, List.sum_cons, h t List.mem_cons_self, ih fun x hx => h x (List.mem_cons_of_mem _ hx)]

theorem total_pos {f : Th → Nat} {ts : List Th} {x : Th} (h : x ∈ ts) : f x ≤ (ts.map f).sum := by
  induction ts with
  | nil => cases h
  | cons t ts ih =>
    rw [List.map_cons, List.sum_cons]
    rcases List.mem_cons.mp h with rfl | h
    · omega
    · have := ih h
      omega

end Verif.WeakSema
