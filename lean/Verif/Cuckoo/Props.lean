import Verif.Cuckoo.Live
/-!
# Properties of the table beneath `ConcurrentHashMap`

`Run cfg dbl (Sys.new hp) es s`: from a new table, any number of threads have made the
calls of `es`, in any interleaving. `cfg.hash` is any hash function. `Grows cfg dbl`: the
table grows as the code does, in the one way or in the other.
-/
namespace Verif.Cuckoo

variable {K V : Type} [DecidableEq K]

/-- Keys that are numbers with themselves as hash, and one lock. -/
abbrev cfg0 : Cfg Nat := ⟨fun n => BitVec.ofNat 64 n, true, 0⟩

abbrev fast : Table Nat Nat → Nat → Outcome (Table Nat Nat) := fastDouble cfg0

theorem fast_grows : Grows cfg0 fast := fun _ _ => Or.inl rfl

/-- These puts, one after the other, by thread 0. -/
def puts (n : Nat) : List (Nat × Nat) → Table Nat Nat → Outcome (Table Nat Nat × List (Res Nat))
  | [], t => .ok (t, [])
  | p :: rest, t =>
    (runAlone cfg0 fast n t (.snap (.assign p.1 p.2))).bind fun r =>
      match r.2 with
      | .done _ a => (puts n rest r.1).bind fun q => .ok (q.1, a :: q.2)
      | _ => .ub

/-- One full bucket, after four puts. -/
abbrev fourPuts : Outcome (Table Nat Nat × List (Res Nat)) := puts 4 [(0, 5), (1, 6), (2, 7), (3, 8)] (Table.new 0)

/-- It grows; its pairs are still to be moved. -/
abbrev grown : Outcome (Table Nat Nat) := fourPuts.bind fun r => fast r.1 0

/-- A fifth `put` searches, grows the table, tries again and succeeds. -/
example : (match puts 800 [(0, 5), (1, 6), (2, 7), (3, 8), (4, 9)] (Table.new 0) with
    | .ok (t, rs) => decide (t.hp = 1 ∧ t.size cfg0 = 5) && rs.all fun r => match r with | .bool b => b | _ => false
    | _ => false) = true := by
  decide +kernel

/-! ## C107 Calls happen at one moment -/

/-- C107: every history of `get`, `put` and `remove` by any number of threads is
explained by a map whose calls happen at one moment between call and return. -/
theorem C107_linearizable {cfg : Cfg K} {dbl : Table K V → Nat → Outcome (Table K V)} (hd : Grows cfg dbl) {hp : Nat}
    (hb : cfg.lockBits ≤ hp) {es : List (Ev K V)} {s : Sys K V} (hr : Run cfg dbl (Sys.new hp) es s) :
    ∃ m st, Explains (fun _ => none) (fun _ => .free) es m st := by
  obtain ⟨m, st, _, h⟩ := sim_run hd.expands hr ⟨new_inv cfg hp hb, fun _ => rfl⟩
  exact ⟨m, st, h⟩

/-- Two threads put different values for one key; both are in their calls at once. -/
example : ∃ s, Run cfg0 fast (Sys.new 0) [.call 0 (.assign 7 1), .call 1 (.assign 7 2), .tau 0, .tau 1, .tau 1, .tau 0, .ret 0 (.assign 7 1) (.bool false)] s := by
  refine ⟨_, .cons (.call _ 0 _ rfl) (.cons (.call _ 1 _ rfl) (.cons (.work _ 0 _ _ rfl) (.cons (.work _ 1 _ _ rfl)
    (.cons (.work _ 1 _ _ rfl) (.cons (.work _ 0 _ _ rfl) (.cons (.ret _ 0 _ _ rfl) (.nil _)))))))⟩

/-- The explanation can tell histories apart: no map gives this answer. -/
example : ¬ ∃ m st, Explains (K := Nat) (V := Nat) (fun _ => none) (fun _ => .free)
    [.call 0 (.find 7), .ret 0 (.find 7) (.value (some 1))] m st := by
  rintro ⟨m, st, h⟩
  cases h with
  | happen i c r h hl hr => cases h
  | call i c h hr =>
    cases hr with
    | ret i c r h hr => cases h
    | happen i c r h hl hr =>
      have hi : i = 0 := by
        unfold setStatus at h
        split at h
        · assumption
        · cases h
      subst hi
      injection h with h; subst h
      cases hl
      cases hr with
      | happen i c r h hl hr =>
        unfold setStatus at h
        split at h
        · cases h
        · next hi =>
          have h : (Status.free : Status Nat Nat) = Status.called c := h
          cases h
      | ret i c r h hr => injection h with _ h; cases h

/-! ## C108 No call goes wrong inside -/

/-- C108: whatever the threads have done, the next step of a thread is defined: it does
not read or write a slot that has no pair or has one, leave the queue's array, or throw. -/
theorem C108_defined {cfg : Cfg K} {dbl : Table K V → Nat → Outcome (Table K V)} (hd : Grows cfg dbl) {hp : Nat}
    (hb : cfg.lockBits ≤ hp) {es : List (Ev K V)} {s : Sys K V} (hr : Run cfg dbl (Sys.new hp) es s) (i : Nat) :
    step cfg dbl s.table (s.pc i) ≠ .ub ∧ ∀ e, step cfg dbl s.table (s.pc i) ≠ .throw e := by
  obtain ⟨m, st, h, _⟩ := sim_run hd.expands hr ⟨new_inv cfg hp hb, fun _ => rfl⟩
  have main : ∀ c, callOf (s.pc i) = some c → PcOK cfg (s.pc i) → step cfg dbl s.table (s.pc i) ≠ .ub ∧ ∀ e, step cfg dbl s.table (s.pc i) ≠ .throw e := by
    intro c h1 h2
    have hg := step_good hd.expands h.inv h1 h2
    refine ⟨fun hx => ?_, fun e hx => ?_⟩
    · rw [hx] at hg; exact hg
    · rw [hx] at hg; exact hg
  have hm := h.pcs i
  cases hp : s.pc i with
  | idle => exact ⟨(by intro h; cases h), (by intro e h; cases h)⟩
  | done c r => exact ⟨(by intro h; cases h), (by intro e h; cases h)⟩
  | snap _ => rw [hp] at hm main; obtain ⟨c, h1, h2, _⟩ := hm; exact main c h1 h2
  | lock _ _ => rw [hp] at hm main; obtain ⟨c, h1, h2, _⟩ := hm; exact main c h1 h2
  | search _ _ _ _ _ => rw [hp] at hm main; obtain ⟨c, h1, h2, _⟩ := hm; exact main c h1 h2
  | path _ _ _ _ _ _ => rw [hp] at hm main; obtain ⟨c, h1, h2, _⟩ := hm; exact main c h1 h2
  | move _ _ _ _ _ => rw [hp] at hm main; obtain ⟨c, h1, h2, _⟩ := hm; exact main c h1 h2
  | double _ _ _ => rw [hp] at hm main; obtain ⟨c, h1, h2, _⟩ := hm; exact main c h1 h2

/-- C108 for pairs that move without exceptions: each step also ends. -/
theorem C108_ends {cfg : Cfg K} {hp : Nat} (hb : cfg.lockBits ≤ hp) {es : List (Ev K V)} {s : Sys K V}
    (hr : Run cfg (fastDouble cfg) (Sys.new hp) es s) (i : Nat) :
    ∃ t pc, step cfg (fastDouble cfg) s.table (s.pc i) = .ok (t, pc) := by
  obtain ⟨h1, h2⟩ := C108_defined (fun _ _ => Or.inl rfl) hb hr i
  have h3 := step_ends (cfg := cfg) (fastDouble_ends cfg) s.table (s.pc i)
  cases hx : step cfg (fastDouble cfg) s.table (s.pc i) with
  | ok p => exact ⟨p.1, p.2, rfl⟩
  | throw e => exact absurd hx (h2 e)
  | ub => exact absurd hx h1
  | diverge => exact absurd hx h3

/-- A `get` moves the pairs of its buckets before it looks. -/
example : (match grown with
    | .ok t => (match runAlone cfg0 fast 4 t (.snap (.find 2)) with
      | .ok (t', .done _ (.value (some v))) => decide (v = 7) && !t.migrated 0 && t'.migrated 0
      | _ => false)
    | _ => false) = true := by
  decide +kernel

/-! ## C109 The table holds the map -/

theorem holds_live {cfg : Cfg K} {t : Table K V} {m : K → Option V} (h : Inv cfg t m) (k : K) (v : V) :
    Holds cfg t k v ↔ m k = some v := by
  constructor
  · rintro ⟨i, s, e, rfl, rfl, h1 | ⟨h1, h2⟩⟩
    · exact h.wf.rep.val (.cur i s) e h1
    · apply h.wf.rep.val (.old i s) e
      show (if t.migrated (lockInd cfg i) || false then none else t.old i s) = some e
      rw [h1]; exact h2
  · intro hk
    obtain ⟨p, e, hp, rfl⟩ := h.wf.rep.all k v hk
    have hv := h.wf.rep.val p e hp
    rw [hk] at hv; injection hv with hv
    cases p with
    | cur i s => exact ⟨i, s, e, rfl, hv.symm, Or.inl hp⟩
    | old i s =>
      have hp : (if t.migrated (lockInd cfg i) || false then none else t.old i s) = some e := hp
      by_cases hm : t.migrated (lockInd cfg i) = true
      · rw [hm] at hp; cases hp
      · rw [Bool.not_eq_true] at hm
        rw [hm] at hp
        exact ⟨i, s, e, rfl, hv.symm, Or.inr ⟨hm, hp⟩⟩

/-- C109: at every moment, the pairs in the buckets are those of the map that explains
the calls, and `size()` is the number of its keys: displacement, growth and lazy
migration neither lose nor double a pair. -/
theorem C109_contents {cfg : Cfg K} {dbl : Table K V → Nat → Outcome (Table K V)} (hd : Grows cfg dbl) {hp : Nat}
    (hb : cfg.lockBits ≤ hp) {es : List (Ev K V)} {s : Sys K V} (hr : Run cfg dbl (Sys.new hp) es s) :
    ∃ m st, Explains (fun _ => none) (fun _ => .free) es m st ∧
      (∀ k v, Holds cfg s.table k v ↔ m k = some v) ∧ ∃ n : Nat, Keys m n ∧ s.table.size cfg = n := by
  obtain ⟨m, st, h, h'⟩ := sim_run hd.expands hr ⟨new_inv cfg hp hb, fun _ => rfl⟩
  exact ⟨m, st, h', holds_live h.inv, h.inv.size⟩

/-- C109: no key is at two places. -/
theorem C109_once {cfg : Cfg K} {dbl : Table K V → Nat → Outcome (Table K V)} (hd : Grows cfg dbl) {hp : Nat}
    (hb : cfg.lockBits ≤ hp) {es : List (Ev K V)} {s : Sys K V} (hr : Run cfg dbl (Sys.new hp) es s)
    {o o' : Bool} {i i' j j' : Nat} {e e' : Entry K V} (h1 : At cfg s.table o i j e) (h2 : At cfg s.table o' i' j' e')
    (hk : e.key = e'.key) : o = o' ∧ i = i' ∧ j = j' := by
  obtain ⟨m, st, h, _⟩ := sim_run hd.expands hr ⟨new_inv cfg hp hb, fun _ => rfl⟩
  have live_at : ∀ {o : Bool} {i j : Nat} {e : Entry K V}, At cfg s.table o i j e →
      live cfg s.table none2 (if o then .old i j else .cur i j) = some e := by
    intro o i j e h
    cases o with
    | false => exact h
    | true =>
      obtain ⟨a, b⟩ := h
      show (if s.table.migrated (lockInd cfg i) || false then none else s.table.old i j) = some e
      rw [a]; exact b
  have := h.inv.wf.rep.once _ _ _ _ (live_at h1) (live_at h2) hk
  cases o <;> cases o'
  · have : Place.cur i j = Place.cur i' j' := this
    injection this with a b; exact ⟨rfl, a, b⟩
  · have : Place.cur i j = Place.old i' j' := this
    cases this
  · have : Place.old i j = Place.cur i' j' := this
    cases this
  · have : Place.old i j = Place.old i' j' := this
    injection this with a b; exact ⟨rfl, a, b⟩

/-- In the midst of a growth, both kinds of places are in use. -/
example : (match grown with
    | .ok t => decide (t.hp = 1 ∧ t.migrated 0 = false ∧ t.size cfg0 = 4) && (t.old 0 0).isSome && (t.old 0 3).isSome
    | _ => false) = true := by
  decide +kernel

/-! ## C110 forEach, C111 containsValue -/

/-- C110: `forEach` shows its action the pairs of the map, each once, in some order, until
the action says stop; the map stays the same. (`walk action l []` is what a walk through
`l` has seen when the action stops it.) -/
theorem C110_forEach {cfg : Cfg K} {dbl : Table K V → Nat → Outcome (Table K V)} (hd : Grows cfg dbl) {hp : Nat}
    (hb : cfg.lockBits ≤ hp) {es : List (Ev K V)} {s : Sys K V} (hr : Run cfg dbl (Sys.new hp) es s)
    (action : List (K × V) → Bool) :
    ∃ m st, Explains (fun _ => none) (fun _ => .free) es m st ∧
      ∃ t l, forEach cfg s.table action = .ok (t, walk action l []) ∧ Listing m l ∧ ∀ k v, Holds cfg t k v ↔ m k = some v := by
  obtain ⟨m, st, h, h'⟩ := sim_run hd.expands hr ⟨new_inv cfg hp hb, fun _ => rfl⟩
  obtain ⟨t, l, h1, h2, h3⟩ := forEach_ok h.inv action
  exact ⟨m, st, h', t, l, h1, h2, holds_live h3⟩

example : (match fourPuts with
    | .ok (t, _) => (match forEach cfg0 t fun _ => false with
      | .ok (_, l) => decide (l = [(3, 8)])
      | _ => false)
    | _ => false) = true := by
  decide +kernel

/-- The walk through a list stops where it is told. -/
example : walk (fun seen => decide (seen.length < 2)) [(1, 10), (2, 20), (3, 30)] [] = [(2, 20), (1, 10)] := rfl

/-- C111: `containsValue` is true if and only if some key has the value. -/
theorem C111_containsValue [DecidableEq V] {cfg : Cfg K} {dbl : Table K V → Nat → Outcome (Table K V)} (hd : Grows cfg dbl) {hp : Nat}
    (hb : cfg.lockBits ≤ hp) {es : List (Ev K V)} {s : Sys K V} (hr : Run cfg dbl (Sys.new hp) es s) (v : V) :
    ∃ m st, Explains (fun _ => none) (fun _ => .free) es m st ∧
      ∃ t b, containsValue cfg s.table v = .ok (t, b) ∧ (b = true ↔ ∃ k, m k = some v) ∧ ∀ k v, Holds cfg t k v ↔ m k = some v := by
  obtain ⟨m, st, h, h'⟩ := sim_run hd.expands hr ⟨new_inv cfg hp hb, fun _ => rfl⟩
  obtain ⟨t, b, h1, h2, h3⟩ := containsValue_ok h.inv v
  exact ⟨m, st, h', t, b, h1, h2, holds_live h3⟩

example : (match fourPuts with
    | .ok (t, _) => (match containsValue cfg0 t 8 with
      | .ok (_, b) => b
      | _ => false)
    | _ => false) = true := by
  decide +kernel

/-! ## C112 clear -/

/-- C112, while no other thread is in a call: `clear()` empties the table. -/
theorem C112_clear_partial {cfg : Cfg K} {dbl : Table K V → Nat → Outcome (Table K V)} (hd : Grows cfg dbl) {hp : Nat}
    (hb : cfg.lockBits ≤ hp) {es : List (Ev K V)} {s : Sys K V} (hr : Run cfg dbl (Sys.new hp) es s) :
    (∀ k v, ¬ Holds cfg s.table.clear k v) ∧ s.table.clear.size cfg = 0 := by
  obtain ⟨m, st, h, _⟩ := sim_run hd.expands hr ⟨new_inv cfg hp hb, fun _ => rfl⟩
  have hc := clear_inv h.inv
  refine ⟨fun k v hk => ?_, ?_⟩
  · have := (holds_live hc k v).mp hk; cases this
  · obtain ⟨n, ⟨ks, _, h2, h3⟩, h4⟩ := hc.size
    have : ks = [] := List.eq_nil_iff_forall_not_mem.mpr fun k hk => by have := (h2 k).mp hk; cases this
    rw [this] at h3
    rw [h4, ← h3]; rfl

/-- C112 is false beside other threads: the locks are not held while the table is
cleared. From every table, a `put` that comes between two parts of `clear()` is done,
and then the table holds its pair while `size()` is 0. -/
theorem C112_clear_wrong (cfg : Cfg K) (dbl : Table K V → Nat → Outcome (Table K V)) (t : Table K V)
    (ht : ∀ l, t.migrated l = true) (k : K) (v : V) :
    ∃ t', runAlone cfg dbl 3 t.clearBuckets.clearOld (.snap (.assign k v)) = .ok (t', .done (.assign k v) (.bool true)) ∧
      Holds cfg t'.clearLocks k v ∧ t'.clearLocks.size cfg = 0 := by
  have hm : ∀ l, t.clearBuckets.clearOld.migrated l = true := ht
  refine ⟨{ t.clearBuckets.clearOld with
      cur := t.clearBuckets.clearOld.cur.put (first t.hp (cfg.hash k)) 3 (some ⟨k, partialKey (cfg.hash k), v⟩) }.count cfg (first t.hp (cfg.hash k)) 1, ?_, ?_, ?_⟩
  · refine (runAlone_step (t' := t.clearBuckets.clearOld) (pc' := .lock (.assign k v) t.hp) rfl rfl 2).trans ?_
    refine (runAlone_step rfl (t' := { t.clearBuckets.clearOld with
      cur := t.clearBuckets.clearOld.cur.put (first t.hp (cfg.hash k)) 3 (some ⟨k, partialKey (cfg.hash k), v⟩) }.count cfg (first t.hp (cfg.hash k)) 1)
      (pc' := .done (.assign k v) (.bool true)) ?_ 1).trans rfl
    have hs : section_ cfg t.hp [first t.hp (cfg.hash k), second t.hp (cfg.hash k)] t.clearBuckets.clearOld = .ok (some t.clearBuckets.clearOld) :=
      section_all hm _
    unfold step
    simp only
    rw [hs, Outcome.bind_ok]
    have hfree : ∀ i, tryFindInsert cfg (t.clearBuckets.clearOld.cur i) (partialKey (cfg.hash k)) k = .free (some 3) := fun _ => rfl
    simp only [hfree]
    rfl
  · exact ⟨first t.hp (cfg.hash k), 3, ⟨k, partialKey (cfg.hash k), v⟩, rfl, rfl, Or.inl (if_pos ⟨rfl, rfl⟩)⟩
  · show ((List.range (numLocks cfg)).map fun _ => (0 : Int)).sum = 0
    generalize List.range (numLocks cfg) = l
    induction l with
    | nil => rfl
    | cons a l ih => rw [List.map_cons, List.sum_cons, ih]; rfl

/-- C112 is false in the midst of a growth: a `get` that comes between two parts of
`clear()` for a bucket that is still to be moved reads freed memory. -/
theorem C112_freed_wrong (cfg : Cfg K) (dbl : Table K V → Nat → Outcome (Table K V)) (t : Table K V) (k : K)
    (ht : t.migrated (lockInd cfg (first t.hp (cfg.hash k))) = false) :
    step cfg dbl t.clearBuckets.clearOld (.lock (.find k) t.hp) = .ub := by
  have hs : section_ cfg t.hp [first t.hp (cfg.hash k), second t.hp (cfg.hash k)] t.clearBuckets.clearOld = .ub := by
    unfold section_
    rw [if_neg (by intro h; exact h rfl)]
    have : rehashLock cfg true t.clearBuckets.clearOld (lockInd cfg (first t.hp (cfg.hash k))) = .ub := by
      unfold rehashLock
      rw [if_neg (by show ¬ t.migrated _ = true; rw [ht]; decide)]
      exact if_pos rfl
    show Outcome.bind (Outcome.bind (rehashLock cfg true t.clearBuckets.clearOld (lockInd cfg (first t.hp (cfg.hash k)))) _) _ = _
    rw [this]; rfl
  unfold step
  simp only
  rw [hs]; rfl

example : ∀ l, (Table.new 16 : Table Nat Nat).migrated l = true := fun _ => rfl

example : (match grown with
    | .ok t => !(t.migrated (lockInd cfg0 (first t.hp (cfg0.hash 3))))
    | _ => false) = true := by
  decide +kernel

/-! ## C113 Copies -/

/-- C113, while the first array of old buckets is still there: a copy has the contents and
the size of the map. -/
theorem C113_copy_partial {cfg : Cfg K} {dbl : Table K V → Nat → Outcome (Table K V)} (hd : Grows cfg dbl) {hp : Nat}
    (hb : cfg.lockBits ≤ hp) {es : List (Ev K V)} {s : Sys K V} (hr : Run cfg dbl (Sys.new hp) es s) (ho : s.table.oldMem = true) :
    ∃ m st, Explains (fun _ => none) (fun _ => .free) es m st ∧
      ∃ t, copyTable s.table = .ok t ∧ (∀ k v, Holds cfg t k v ↔ m k = some v) ∧ ∃ n : Nat, Keys m n ∧ t.size cfg = n := by
  obtain ⟨m, st, h, h'⟩ := sim_run hd.expands hr ⟨new_inv cfg hp hb, fun _ => rfl⟩
  exact ⟨m, st, h', s.table, if_pos ho, holds_live h.inv, h.inv.size⟩

/-- C113 is false: after `forEach`, `containsValue`, `begin` or `end`, a copy reads freed
memory, whatever the map holds. -/
theorem C113_copy_wrong {cfg : Cfg K} {dbl : Table K V → Nat → Outcome (Table K V)} (hd : Grows cfg dbl) {hp : Nat}
    (hb : cfg.lockBits ≤ hp) {es : List (Ev K V)} {s : Sys K V} (hr : Run cfg dbl (Sys.new hp) es s) (action : List (K × V) → Bool) :
    ∃ t l, forEach cfg s.table action = .ok (t, l) ∧ copyTable t = .ub := by
  obtain ⟨m, st, h, _⟩ := sim_run hd.expands hr ⟨new_inv cfg hp hb, fun _ => rfl⟩
  obtain ⟨t', l, h1, _⟩ := forEach_ok h.inv action
  obtain ⟨t, h2, _, h3, _⟩ := lockTable_ok h.inv
  refine ⟨t', _, h1, ?_⟩
  unfold forEach at h1
  rw [h2, Outcome.bind_ok] at h1
  cases hx : forEachLoop (hashsize t.hp) t.cur action (t.size cfg).toNat (begin_ (hashsize t.hp) t.cur) [] with
  | ok seen =>
    rw [hx, Outcome.bind_ok] at h1
    injection h1 with h1; injection h1 with h1 _
    subst h1
    unfold copyTable
    rw [h3]; rfl
  | throw e => rw [hx] at h1; cases h1
  | ub => rw [hx] at h1; cases h1
  | diverge => rw [hx] at h1; cases h1

/-- C113 is false: after `clear()`, a copy reads freed memory. -/
theorem C113_cleared_wrong (t : Table K V) : copyTable t.clear = .ub := rfl

example : (match puts 800 [(0, 5), (1, 6), (2, 7)] (Table.new 0) with
    | .ok (t, _) => t.oldMem && decide (t.size cfg0 = 3)
    | _ => false) = true := by
  decide +kernel

/-! ## C114 A put stores its pair -/

/-- C114: a `put` that has not stored its pair has thrown, and the load was below one
twentieth (pairs that move without exceptions). -/
theorem C114_put_partial {cfg : Cfg K} {hp : Nat} (hb : cfg.lockBits ≤ hp) {es : List (Ev K V)} {s s' : Sys K V}
    (hr : Run cfg (fastDouble cfg) (Sys.new hp) es s) {i : Nat} (hs : Step cfg (fastDouble cfg) s (.tau i) s') {c : Call K V}
    (h0 : s.pc i ≠ .done c .tooLow) (h1 : s'.pc i = .done c .tooLow) :
    (∃ k v, c = .assign k v) ∧ 20 * s.table.size cfg < 4 * 2 ^ s.table.hp := by
  obtain ⟨m, st, hsim, _⟩ := sim_run (fastDouble_expands cfg) hr ⟨new_inv cfg hp hb, fun _ => rfl⟩
  cases hs with
  | whole i t hi hw =>
    have h1 : s.pc i = .done c .tooLow := h1
    exact absurd h1 h0
  | work i t' pc' hw =>
  have h1 : goto s.pc i pc' i = .done c .tooLow := h1
  rw [goto_at] at h1
  subst h1
  generalize hpc' : s.pc i = pc at hw h0
  have hinv := hsim.inv
  generalize s.table = t at hw hinv ⊢
  have hpc : ∀ c r, pc ≠ .done c r := by
    intro c' r hx
    rw [hx] at hw h0
    injection hw with hw; injection hw with _ hw
    exact h0 hw
  have hdone : ∀ k v hp, pc = .double k v hp → (∃ k v, c = .assign k v) ∧ 20 * t.size cfg < 4 * 2 ^ t.hp := by
    intro k v hp hx
    subst hx
    have h := hw
    unfold step at h
    simp only at h
    cases hf : fastDouble cfg t hp with
    | ok t1 => rw [hf] at h; cases h
    | ub => rw [hf] at h; cases h
    | diverge => rw [hf] at h; cases h
    | throw e =>
      rw [hf] at h
      injection h with h; injection h with _ h; injection h with h _
      refine ⟨⟨k, v, h.symm⟩, ?_⟩
      unfold fastDouble at hf
      split at hf
      · next hl =>
        have := of_decide_eq_true hl
        unfold hashsize at this
        have h4 : ((2 ^ t.hp * SLOTS : Nat) : Int) = 4 * 2 ^ t.hp := by
          show ((2 ^ t.hp * 4 : Nat) : Int) = _
          rw [Int.natCast_mul, Int.natCast_pow, Int.mul_comm]; rfl
        rw [h4] at this
        exact this
      · next hl =>
        split at hf
        · cases hf
        · obtain ⟨t1, hr1, _⟩ := settle_ok hinv
          rw [hr1] at hf; cases hf
  by_cases hx : ∃ k v hp, pc = .double k v hp
  · obtain ⟨k, v, hp, hx⟩ := hx; exact hdone k v hp hx
  · exact absurd hw (step_high t pc hpc (fun k v hp he => hx ⟨k, v, hp, he⟩) t' c)

/-- All these keys are put, one after the other. -/
theorem put_all {cfg : Cfg K} {dbl : Table K V → Nat → Outcome (Table K V)} (hd : Refuses cfg dbl) (v : V) {hash : BitVec 64} {hp : Nat} (hp6 : 6 ≤ hp) :
    ∀ (ks : List K) (t : Table K V) (m : K → Option V) (n : Nat), Inv cfg t m → (∀ l, t.migrated l = true) → t.hp = hp →
      (∀ k w, m k = some w → cfg.hash k = hash) → (∀ k, k ∈ ks → cfg.hash k = hash ∧ m k = none) → ks.Nodup → Keys m n →
      (∃ es s, Run cfg dbl ⟨t, fun _ => .idle⟩ es s ∧ (∀ i c, .call i c ∈ es → i = 0 ∧ ∃ k, k ∈ ks ∧ c = .assign k v) ∧
        ∃ k, k ∈ ks ∧ Ev.ret 0 (.assign k v) .tooLow ∈ es) ∨ n + ks.length ≤ 8 := by
  intro ks
  induction ks with
  | nil => intro t m n h hm _ hh _ _ hn; exact Or.inr (same_le h hm hh hn)
  | cons k rest ih =>
    intro t m n h hm hthp hh hk hnd hn
    obtain ⟨hkr, hnd'⟩ := List.nodup_cons.mp hnd
    obtain ⟨hkh, hkn⟩ := hk k (List.mem_cons_self ..)
    have hload : loadTooLow cfg t = true := by
      obtain ⟨n', hn', hsz⟩ := h.size
      have h8 := same_le h hm hh hn'
      unfold loadTooLow
      rw [decide_eq_true_eq, hsz, hthp]
      have : 2 ^ 6 ≤ 2 ^ hp := Nat.pow_le_pow_right (by omega) hp6
      show (20 * (n' : Int)) < ((2 ^ hp * 4 : Nat) : Int)
      omega
    obtain ⟨N, t', r, h1, h2⟩ := put_same hd h hm v hkn (by intro j w hj; rw [hh j w hj, hkh]) hload
    obtain ⟨es, h3, h4⟩ := run_call (f := fun _ => Pc.idle) (i := 0) rfl h1
    have calls : ∀ i c, .call i c ∈ (Ev.call 0 (.assign k v) :: (es ++ [Ev.ret 0 (.assign k v) r])) → i = 0 ∧ c = .assign k v := by
      intro i c hc
      rcases List.mem_cons.mp hc with hc | hc
      · injection hc with hi hc; exact ⟨hi, hc⟩
      · rcases List.mem_append.mp hc with hc | hc
        · have := h4 _ hc; cases this
        · rw [List.mem_singleton] at hc; cases hc
    rcases h2 with ⟨rfl, rfl⟩ | ⟨rfl, h5, h6, h7⟩
    · refine Or.inl ⟨_, _, h3, ?_, k, List.mem_cons_self .., ?_⟩
      · intro i c hc
        obtain ⟨a, b⟩ := calls i c hc
        exact ⟨a, k, List.mem_cons_self .., b⟩
      · exact List.mem_cons_of_mem _ (List.mem_append.mpr (Or.inr (List.mem_singleton.mpr rfl)))
    · rcases ih t' (update m k (some v)) (n + 1) h5 h7 (h6.trans hthp) (by
          intro j w hj
          unfold update at hj
          split at hj
          · next hjk => rw [hjk]; exact hkh
          · exact hh j w hj) (by
          intro j hj
          obtain ⟨a, b⟩ := hk j (List.mem_cons_of_mem _ hj)
          refine ⟨a, ?_⟩
          unfold update
          rw [if_neg (by intro hjk; rw [hjk] at hj; exact hkr hj)]; exact b) hnd' (Keys.add hn v hkn) with ⟨es', s, a, b, k', c, d⟩ | hle
      · refine Or.inl ⟨_, s, h3.append a, ?_, k', List.mem_cons_of_mem _ c, List.mem_append.mpr (Or.inr d)⟩
        intro i c' hc
        rcases List.mem_append.mp hc with hc | hc
        · obtain ⟨x, y⟩ := calls i c' hc
          exact ⟨x, k, List.mem_cons_self .., y⟩
        · obtain ⟨x, j, y, z⟩ := b i c' hc
          exact ⟨x, j, List.mem_cons_of_mem _ y, z⟩
      · right; rw [List.length_cons]; omega

/-- C114 is false: of nine keys with the same hash that one thread puts into a new map
(of at least 64 buckets; `ConcurrentHashMap` has 65536), one is refused with an exception.
`Refuses`: the table does not grow while its load is low. -/
theorem C114_nine_wrong {cfg : Cfg K} {dbl : Table K V → Nat → Outcome (Table K V)} (hd : Refuses cfg dbl) {hp : Nat}
    (hb : cfg.lockBits ≤ hp) (hp6 : 6 ≤ hp) (ks : List K) (hn : ks.Nodup) (hl : ks.length = 9) {hash : BitVec 64}
    (hh : ∀ k, k ∈ ks → cfg.hash k = hash) (v : V) :
    ∃ es s, Run cfg dbl (Sys.new hp) es s ∧ (∀ i c, .call i c ∈ es → i = 0 ∧ ∃ k, k ∈ ks ∧ c = .assign k v) ∧
      ∃ k, k ∈ ks ∧ Ev.ret 0 (.assign k v) .tooLow ∈ es := by
  rcases put_all hd v hp6 ks (Table.new hp) (fun _ => none) 0 (new_inv cfg hp hb) (fun _ => rfl) rfl (by intro k w h; cases h)
    (fun k hk => ⟨hh k hk, rfl⟩) hn ⟨[], List.nodup_nil, (by intro k; simp), rfl⟩ with h | h
  · exact h
  · rw [hl] at h; omega

/-- Both ways to grow refuse. -/
example : Refuses (cfg0) fast ∧ Refuses cfg0 (expandSimple (V := Nat) cfg0 5) := ⟨fastDouble_refuses _, expandSimple_refuses _ 4⟩

/-- Nine keys with one hash, for a hash of the last three bits. -/
example : ∃ ks : List Nat, ks.Nodup ∧ ks.length = 9 ∧ ∀ k, k ∈ ks → (fun n : Nat => BitVec.ofNat 64 (n % 8)) k = 1#64 :=
  ⟨(List.range 9).map (fun i => 8 * i + 1), by decide, rfl, by decide⟩

end Verif.Cuckoo
