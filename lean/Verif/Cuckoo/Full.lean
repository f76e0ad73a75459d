import Verif.Cuckoo.Whole
/-! # Lemmas about a search that must fail -/
namespace Verif.Cuckoo

variable {K V : Type} [DecidableEq K]

theorem rehashLocks_all {cfg : Cfg K} {t : Table K V} (lazy : Bool) (hm : ∀ l, t.migrated l = true) :
    ∀ ls, rehashLocks cfg lazy ls t = .ok t := by
  intro ls
  induction ls with
  | nil => rfl
  | cons l rest ih =>
    unfold rehashLocks rehashLock
    rw [if_pos (hm l), Outcome.bind_ok]; exact ih

theorem section_all {cfg : Cfg K} {t : Table K V} (hm : ∀ l, t.migrated l = true) (bs : List Nat) :
    section_ cfg t.hp bs t = .ok (some t) := by
  unfold section_
  rw [if_neg (by simp), rehashLocks_all true hm]; rfl

theorem runAlone_step {cfg : Cfg K} {dbl : Table K V → Nat → Outcome (Table K V)} {t t' : Table K V} {pc pc' : Pc K V} {c : Call K V}
    (hc : callOf pc = some c) (h : step cfg dbl t pc = .ok (t', pc')) (n : Nat) :
    runAlone cfg dbl (n + 1) t pc = runAlone cfg dbl n t' pc' := by
  have hrun : runAlone cfg dbl (n + 1) t pc = (step cfg dbl t pc).bind fun r => runAlone cfg dbl n r.1 r.2 := by
    cases pc <;> first | rfl | cases hc
  rw [hrun, h, Outcome.bind_ok]

theorem due_nil' : due [] = 0 := rfl

theorem scan_full {b : Nat → Option (Entry K V)} {S : Nat → Prop} {hp : Nat} {x : BSlot}
    (hb : ∀ s, s < SLOTS → ∃ e, b s = some e ∧ S (altIndex hp e.part x.bucket)) :
    ∀ (l : List Nat) (acc : List BSlot), (∀ y, y ∈ acc → S y.bucket) →
    ∃ cs, scanSlots b hp x l acc = .more cs ∧ ∀ y, y ∈ cs → S y.bucket := by
  intro l
  induction l with
  | nil => intro acc h; exact ⟨acc, rfl, h⟩
  | cons i rest ih =>
    intro acc h
    unfold scanSlots
    obtain ⟨e, he, hS⟩ := hb ((x.pathcode % SLOTS + i) % SLOTS) (Nat.mod_lt _ (by decide))
    simp only [he]
    split
    · apply ih
      intro y hy
      rcases List.mem_append.mp hy with hc | hc
      · exact h y hc
      · rw [List.mem_singleton] at hc; rw [hc]; exact hS
    · exact ih acc h

/-- A search in full buckets from which nothing leads out ends without a place. -/
theorem search_fails {cfg : Cfg K} {dbl : Table K V → Nat → Outcome (Table K V)} {t : Table K V} (hm : ∀ l, t.migrated l = true)
    {S : Nat → Prop} (hS : ∀ i, S i → ∀ s, s < SLOTS → ∃ e, t.cur i s = some e ∧ S (altIndex t.hp e.part i)) (k : K) (v : V) :
    ∀ (w : Nat) (q : List BSlot) (last : Nat), q.length + due q ≤ w → (∀ x, x ∈ q → S x.bucket) → last + due q ≤ MAX_CUCKOO_COUNT →
    ∃ N, ∀ n, runAlone cfg dbl (n + N) t (.search k v t.hp q last) = runAlone cfg dbl n t (.double k v t.hp) := by
  intro w
  induction w with
  | zero =>
    intro q last hw _ _
    have : q = [] := List.eq_nil_of_length_eq_zero (by omega)
    subst this
    exact ⟨1, fun n => runAlone_step rfl rfl n⟩
  | succ w ih =>
    intro q last hw hq hl
    cases q with
    | nil => exact ⟨1, fun n => runAlone_step rfl rfl n⟩
    | cons x q =>
      have hx := hS x.bucket (hq x (List.mem_cons_self ..))
      obtain ⟨cs, hcs, hcS⟩ := scan_full (b := t.cur x.bucket) (x := x) hx (List.range SLOTS) [] (by intro y hy; cases hy)
      have hscan := scanSlots_ok (t.cur x.bucket) t.hp x (List.range SLOTS) []
      rw [hcs] at hscan
      obtain ⟨new, h1, h2, h3⟩ := hscan
      rw [List.nil_append] at h1; subst h1
      rw [List.length_range] at h2
      have hdue := due_step x.depth cs h3 h2
      rw [due_cons] at hl hw
      rw [List.length_cons] at hw
      have hstep : step cfg dbl t (.search k v t.hp (x :: q) last) = .ok (t, .search k v t.hp (q ++ cs) (last + cs.length)) := by
        unfold step
        simp only
        rw [section_all hm, Outcome.bind_ok]
        simp only
        rw [hcs]
        simp only
        rw [if_neg (by omega)]
      obtain ⟨N, hN⟩ := ih (q ++ cs) (last + cs.length) (by rw [List.length_append, due_append]; omega)
        (by
          intro y hy
          rcases List.mem_append.mp hy with hc | hc
          · exact hq y (List.mem_cons_of_mem _ hc)
          · exact hcS y hc)
        (by rw [due_append]; omega)
      refine ⟨N + 1, fun n => ?_⟩
      rw [← Nat.add_assoc, runAlone_step rfl hstep, hN]

/-- An expansion that refuses when the load is low. -/
def Refuses (cfg : Cfg K) (dbl : Table K V → Nat → Outcome (Table K V)) : Prop :=
  ∀ t hp, loadTooLow cfg t = true → dbl t hp = .throw lowLoad

theorem fastDouble_refuses (cfg : Cfg K) : Refuses cfg (fastDouble (V := V) cfg) := by
  intro t hp h; unfold fastDouble; rw [if_pos h]

theorem expandSimple_refuses (cfg : Cfg K) (n : Nat) : Refuses cfg (expandSimple (V := V) cfg (n + 1)) := by
  intro t hp h; unfold expandSimple; rw [if_pos h]

/-- One `put` of an absent key into a table whose buckets for it are full, closed, and
whose load is low. -/
theorem put_refused {cfg : Cfg K} {dbl : Table K V → Nat → Outcome (Table K V)} (hd : Refuses cfg dbl) {t : Table K V} {m : K → Option V}
    (h : Inv cfg t m) (hm : ∀ l, t.migrated l = true) {k : K} (v : V) (hk : m k = none)
    (hfull : ∀ i, Home cfg t.hp k i → ∀ s, s < SLOTS → ∃ e, t.cur i s = some e ∧ Home cfg t.hp k (altIndex t.hp e.part i))
    (hload : loadTooLow cfg t = true) :
    ∃ N, runAlone cfg dbl N t (.snap (.assign k v)) = .ok (t, .done (.assign k v) .tooLow) := by
  have free : ∀ i, Home cfg t.hp k i → tryFindInsert cfg (t.cur i) (partialKey (cfg.hash k)) k = .free none := by
    intro i hi
    cases hx : tryFindInsert cfg (t.cur i) (partialKey (cfg.hash k)) k with
    | duplicate s =>
      obtain ⟨e, _, _, hv⟩ := tryFind_dup h.wf hx
      rw [hk] at hv; cases hv
    | free r =>
      cases r with
      | none => rfl
      | some s =>
        obtain ⟨h1, h2⟩ := (tryFind_free h.wf hx).1 s rfl
        obtain ⟨e, he, _⟩ := hfull i hi s h1
        rw [h2] at he; cases he
  have hstep : step cfg dbl t (.lock (.assign k v) t.hp) = .ok (t, startSearch k v t.hp (cfg.hash k)) := by
    unfold step
    simp only
    rw [section_all hm, Outcome.bind_ok]
    simp only
    rw [free _ (Or.inl rfl)]
    simp only
    rw [free _ (Or.inr rfl)]
  obtain ⟨N, hN⟩ := search_fails (cfg := cfg) (dbl := dbl) hm (S := Home cfg t.hp k) hfull k v 682
    [⟨first t.hp (cfg.hash k), 0, 0⟩, ⟨second t.hp (cfg.hash k), 1, 0⟩] 2 (by show 2 + due _ ≤ 682; simp only [due_cons, due_nil']; decide) (by
      intro x hx
      simp only [List.mem_cons, List.not_mem_nil, or_false] at hx
      rcases hx with rfl | rfl
      · exact Or.inl rfl
      · exact Or.inr rfl) (by simp only [due_cons, due_nil']; decide)
  have hdbl : step cfg dbl t (.double k v t.hp) = .ok (t, .done (.assign k v) .tooLow) := by
    unfold step
    simp only
    rw [hd t t.hp hload]
  refine ⟨2 + N + 1 + 1, ?_⟩
  rw [runAlone_step (t' := t) (pc' := .lock (.assign k v) t.hp) rfl rfl, runAlone_step rfl hstep]
  show runAlone cfg dbl (2 + N) t (.search k v t.hp _ 2) = _
  rw [hN, runAlone_step rfl hdbl]
  rfl

/-- At most eight keys share two buckets. -/
theorem same_le {cfg : Cfg K} {t : Table K V} {m : K → Option V} (h : Inv cfg t m) (hm : ∀ l, t.migrated l = true) {hash : BitVec 64}
    (hh : ∀ k v, m k = some v → cfg.hash k = hash) {n : Nat} (hn : Keys m n) : n ≤ 8 := by
  obtain ⟨ks, h1, h2, h3⟩ := hn
  -- the place of each key
  let place : K → Nat × Nat → Prop := fun k p => ∃ e, t.cur p.1 p.2 = some e ∧ e.key = k
  let all : List (Nat × Nat) := [(first t.hp hash, 0), (first t.hp hash, 1), (first t.hp hash, 2), (first t.hp hash, 3),
    (second t.hp hash, 0), (second t.hp hash, 1), (second t.hp hash, 2), (second t.hp hash, 3)]
  have key : ∀ (l : List K) , l.Nodup → (∀ k, k ∈ l → (m k).isSome = true) →
      ∃ ps : List (Nat × Nat), ps.length = l.length ∧ ps.Nodup ∧ ∀ p, p ∈ ps → p ∈ all ∧ ∃ k, k ∈ l ∧ place k p := by
    intro l
    induction l with
    | nil => intro _ _; exact ⟨[], rfl, List.nodup_nil, by intro p hp; cases hp⟩
    | cons k rest ih =>
      intro hnd hs
      obtain ⟨hk, hnd'⟩ := List.nodup_cons.mp hnd
      obtain ⟨ps, a, b, c⟩ := ih hnd' (fun j hj => hs j (List.mem_cons_of_mem _ hj))
      obtain ⟨v, hv⟩ := Option.isSome_iff_exists.mp (hs k (List.mem_cons_self ..))
      obtain ⟨i, s, e, he, hek, hsl, hi⟩ := present h.wf (show Both cfg t k from ⟨hm _, hm _⟩) hv
      have hkh := hh k v hv
      refine ⟨(i, s) :: ps, by simp [a], List.nodup_cons.mpr ⟨?_, b⟩, ?_⟩
      · intro hc
        obtain ⟨_, j, hj, e', he', hek'⟩ := c _ hc
        rw [he] at he'; injection he' with he'; subst he'
        exact hk (by rw [← hek, hek']; exact hj)
      · intro p hp
        rcases List.mem_cons.mp hp with hc | hc
        · subst hc
          refine ⟨?_, k, List.mem_cons_self .., e, he, hek⟩
          have : s = 0 ∨ s = 1 ∨ s = 2 ∨ s = 3 := by have : s < 4 := hsl; omega
          unfold Home at hi
          rw [hkh] at hi
          show (i, s) ∈ ([(first t.hp hash, 0), _, _, _, _, _, _, _] : List (Nat × Nat))
          rcases hi with rfl | rfl <;> rcases this with rfl | rfl | rfl | rfl <;> simp
        · obtain ⟨x, j, hj, y⟩ := c p hc
          exact ⟨x, j, List.mem_cons_of_mem _ hj, y⟩
  obtain ⟨ps, a, b, c⟩ := key ks h1 (fun k hk => (h2 k).mp hk)
  have := length_le_of_sub ps all b (fun p hp => (c p hp).1)
  rw [a, h3] at this
  exact this

/-- A `put` of a further key of the same hash into a nearly empty table: it is stored,
or the call throws and the table is as before. -/
theorem put_same {cfg : Cfg K} {dbl : Table K V → Nat → Outcome (Table K V)} (hd : Refuses cfg dbl) {t : Table K V} {m : K → Option V}
    (h : Inv cfg t m) (hm : ∀ l, t.migrated l = true) {k : K} (v : V) (hk : m k = none)
    (hh : ∀ j w, m j = some w → cfg.hash j = cfg.hash k) (hload : loadTooLow cfg t = true) :
    ∃ N t' r, runAlone cfg dbl N t (.snap (.assign k v)) = .ok (t', .done (.assign k v) r) ∧
      ((r = .tooLow ∧ t' = t) ∨ (r = .bool true ∧ Inv cfg t' (update m k (some v)) ∧ t'.hp = t.hp ∧ ∀ l, t'.migrated l = true)) := by
  have hb : Both cfg t k := ⟨hm _, hm _⟩
  have add : ∀ i s, Home cfg t.hp k i → s < SLOTS → t.cur i s = none →
      step cfg dbl t (.lock (.assign k v) t.hp) =
        ((addToBucket cfg t i s ⟨k, partialKey (cfg.hash k), v⟩).bind fun t => .ok (t, .done (.assign k v) (.bool true))) →
      ∃ N t' r, runAlone cfg dbl N t (.snap (.assign k v)) = .ok (t', .done (.assign k v) r) ∧
      ((r = .tooLow ∧ t' = t) ∨ (r = .bool true ∧ Inv cfg t' (update m k (some v)) ∧ t'.hp = t.hp ∧ ∀ l, t'.migrated l = true)) := by
    intro i s hi hs hn hstep
    obtain ⟨t', h1, h2⟩ := add_ok h v (hm _) hi hs hn hk
    have h1' := h1
    unfold addToBucket setKV at h1'
    rw [hn] at h1'
    injection h1' with h1'
    rw [h1, Outcome.bind_ok] at hstep
    refine ⟨3, t', _, ?_, Or.inr ⟨rfl, h2, by rw [← h1']; rfl, by rw [← h1']; exact hm⟩⟩
    rw [runAlone_step (t' := t) (pc' := .lock (.assign k v) t.hp) rfl rfl, runAlone_step rfl hstep]
    rfl
  cases hx : tryFindInsert cfg (t.cur (first t.hp (cfg.hash k))) (partialKey (cfg.hash k)) k with
  | duplicate s => obtain ⟨e, _, _, hv⟩ := tryFind_dup h.wf hx; rw [hk] at hv; cases hv
  | free r1 =>
    cases hy : tryFindInsert cfg (t.cur (second t.hp (cfg.hash k))) (partialKey (cfg.hash k)) k with
    | duplicate s => obtain ⟨e, _, _, hv⟩ := tryFind_dup h.wf hy; rw [hk] at hv; cases hv
    | free r2 =>
      obtain ⟨hx1, _, hx3⟩ := tryFind_free h.wf hx
      obtain ⟨hy1, _, hy3⟩ := tryFind_free h.wf hy
      cases r1 with
      | some s => exact add _ s (Or.inl rfl) (hx1 s rfl).1 (hx1 s rfl).2 (by unfold step; simp only; rw [section_all hm, Outcome.bind_ok]; simp only [hx, hy])
      | none =>
        cases r2 with
        | some s => exact add _ s (Or.inr rfl) (hy1 s rfl).1 (hy1 s rfl).2 (by unfold step; simp only; rw [section_all hm, Outcome.bind_ok]; simp only [hx, hy])
        | none =>
          obtain ⟨N, hN⟩ := put_refused hd h hm v hk (by
            intro i hi s hsl
            have hsome : (t.cur i s).isSome = true := by
              rcases hi with rfl | rfl
              · exact hx3 rfl s hsl
              · exact hy3 rfl s hsl
            obtain ⟨e, he⟩ := Option.isSome_iff_exists.mp hsome
            refine ⟨e, he, ?_⟩
            have hp := h.wf.rep.part (.cur i s) e he
            have hv := h.wf.rep.val (.cur i s) e he
            rw [hp, hh _ _ hv]
            exact hi.alt) hload
          exact ⟨N, t, _, hN, Or.inl ⟨rfl, rfl⟩⟩

end Verif.Cuckoo
