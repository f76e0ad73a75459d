import Verif.Cuckoo.Migrate
/-! # Lemmas about the critical sections -/
namespace Verif.Cuckoo

variable {K V : Type} [DecidableEq K]

/-! ## Size -/

theorem sum_set (f : Nat → Int) (a n : Nat) (d : Int) :
    ((List.range n).map fun l => if l = a then f l + d else f l).sum = ((List.range n).map f).sum + (if a < n then d else 0) := by
  induction n with
  | zero => simp
  | succ n ih =>
    rw [List.range_succ, List.map_append, List.map_append, List.sum_append, List.sum_append, ih]
    simp only [List.map_cons, List.map_nil, List.sum_cons, List.sum_nil]
    by_cases h1 : n = a
    · rw [if_pos h1, if_neg (by omega), if_pos (by omega)]; omega
    · rw [if_neg h1]
      by_cases h2 : a < n
      · rw [if_pos h2, if_pos (by omega)]; omega
      · rw [if_neg h2, if_neg (by omega)]; omega

theorem size_count (cfg : Cfg K) (t : Table K V) (b : Nat) (d : Int) : (t.count cfg b d).size cfg = t.size cfg + d := by
  have h := sum_set t.counter (lockInd cfg b) (numLocks cfg) d
  rw [if_pos (lockInd_lt cfg b)] at h
  exact h

theorem update_self (m : K → Option V) (k : K) (x : Option V) : update m k x k = x := if_pos rfl

theorem update_other (m : K → Option V) {k j : K} (x : Option V) (h : j ≠ k) : update m k x j = m j := if_neg h

theorem Keys.add {m : K → Option V} {n : Nat} (h : Keys m n) {k : K} (v : V) (hk : m k = none) :
    Keys (update m k (some v)) (n + 1) := by
  obtain ⟨ks, h1, h2, h3⟩ := h
  have hn : k ∉ ks := by intro hc; have := (h2 k).mp hc; rw [hk] at this; cases this
  refine ⟨k :: ks, List.nodup_cons.mpr ⟨hn, h1⟩, ?_, by rw [List.length_cons, h3]⟩
  intro j
  by_cases hj : j = k
  · rw [hj, update_self]; simp
  · rw [update_other _ _ hj, List.mem_cons, ← h2 j]
    simp [hj]

theorem Keys.set {m : K → Option V} {n : Nat} (h : Keys m n) {k : K} {w : V} (v : V) (hk : m k = some w) :
    Keys (update m k (some v)) n := by
  obtain ⟨ks, h1, h2, h3⟩ := h
  refine ⟨ks, h1, ?_, h3⟩
  intro j
  by_cases hj : j = k
  · rw [hj, update_self, h2 k, hk]; simp
  · rw [update_other _ _ hj, h2 j]

theorem Keys.del {m : K → Option V} {n : Nat} (h : Keys m n) {k : K} {w : V} (hk : m k = some w) :
    ∃ n', n = n' + 1 ∧ Keys (update m k none) n' := by
  obtain ⟨ks, h1, h2, h3⟩ := h
  have hin : k ∈ ks := by rw [h2, hk]; rfl
  refine ⟨(ks.erase k).length, ?_, ks.erase k, h1.erase k, ?_, rfl⟩
  · rw [List.length_erase_of_mem hin]
    have := List.length_pos_of_mem hin
    omega
  · intro j
    rw [h1.mem_erase_iff]
    by_cases hj : j = k
    · rw [hj, update_self]; simp
    · rw [update_other _ _ hj, h2 j]; simp [hj]

/-! ## The invariant -/

/-- The table stands for `m`, and counts its keys. -/
structure Inv (cfg : Cfg K) (t : Table K V) (m : K → Option V) : Prop where
  wf : WF cfg t m
  size : ∃ n : Nat, Keys m n ∧ t.size cfg = n

/-- A critical section: the hash power has changed, or the stripes are migrated. -/
theorem section_ok {cfg : Cfg K} {t : Table K V} {m : K → Option V} (h : Inv cfg t m) (hp : Nat) (bs : List Nat) :
    section_ cfg hp bs t = .ok none ∨
    ∃ t', section_ cfg hp bs t = .ok (some t') ∧ Inv cfg t' m ∧ t'.hp = hp ∧ t.hp = hp ∧ ∀ i, i ∈ bs → t'.migrated (lockInd cfg i) = true := by
  unfold section_
  by_cases hh : t.hp ≠ hp
  · rw [if_pos hh]; exact Or.inl rfl
  · rw [if_neg hh]
    have hh' : t.hp = hp := by simpa using hh
    obtain ⟨t', h1, h2, h3, h4⟩ := rehashLocks_ok (bs.map (lockInd cfg)) t h.wf (by
      intro l hl; obtain ⟨i, _, rfl⟩ := List.mem_map.mp hl; exact lockInd_lt cfg i)
    right
    refine ⟨t', by rw [h1]; rfl, ⟨h2, ?_⟩, by rw [h3.hp, hh'], hh', fun i hi => h4 _ (List.mem_map_of_mem hi)⟩
    obtain ⟨n, hn, hs⟩ := h.size
    refine ⟨n, hn, ?_⟩
    have : t'.size cfg = t.size cfg := by unfold Table.size; rw [h3.counter]
    rw [this, hs]

/-- The two buckets of a key are migrated. -/
def Both (cfg : Cfg K) (t : Table K V) (k : K) : Prop :=
  t.migrated (lockInd cfg (first t.hp (cfg.hash k))) = true ∧ t.migrated (lockInd cfg (second t.hp (cfg.hash k))) = true

/-- A key of the map is in one of its two buckets. -/
theorem present {cfg : Cfg K} {t : Table K V} {m : K → Option V} (h : WF cfg t m) {k : K} {v : V} (hb : Both cfg t k)
    (hk : m k = some v) : ∃ i s e, t.cur i s = some e ∧ e.key = k ∧ s < SLOTS ∧ Home cfg t.hp k i := by
  obtain ⟨p, e, hp, he⟩ := h.rep.all k v hk
  have hf := h.rep.fits p e hp
  cases p with
  | cur i s => exact ⟨i, s, e, hp, he, hf.1, he ▸ hf.2⟩
  | old i s =>
    exfalso
    rw [he] at hf
    have hm : t.migrated (lockInd cfg i) = false := by
      cases hc : t.migrated (lockInd cfg i) with
      | false => rfl
      | true =>
        have : (if t.migrated (lockInd cfg i) || none2 i s then none else t.old i s) = some e := hp
        rw [hc] at this; cases this
    obtain ⟨_, hhp, hbits⟩ := h.lazy.mem i hm
    have hbits' := h.lazy.bits
    rcases hf.2 with hi | hi
    · have h1 := hb.1
      rw [lockInd_first _ _ _ hbits'] at h1
      rw [hi, lockInd_first _ _ _ hbits, h1] at hm; cases hm
    · have h1 := hb.2
      rw [lockInd_second _ _ _ hbits'] at h1
      rw [hi, lockInd_second _ _ _ hbits, h1] at hm; cases hm

theorem hit_iff {cfg : Cfg K} {t : Table K V} {m : K → Option V} (h : WF cfg t m) {i s : Nat} {e : Entry K V} (k : K)
    (he : t.cur i s = some e) : hit cfg (partialKey (cfg.hash k)) k e = true ↔ e.key = k := by
  unfold hit
  have hp : e.part = partialKey (cfg.hash e.key) := h.rep.part (.cur i s) e he
  constructor
  · intro hh; simp at hh; exact hh.2
  · intro hh; rw [hp, hh]; simp

theorem tryRead_some {cfg : Cfg K} {t : Table K V} {m : K → Option V} (h : WF cfg t m) {i : Nat} {k : K} {s : Nat}
    (hr : tryRead cfg (t.cur i) (partialKey (cfg.hash k)) k = some s) : ∃ e, t.cur i s = some e ∧ e.key = k := by
  unfold tryRead at hr
  have := List.find?_some hr
  cases he : t.cur i s with
  | none => rw [he] at this; cases this
  | some e => rw [he] at this; exact ⟨e, rfl, (hit_iff h k he).mp this⟩

theorem tryRead_none {cfg : Cfg K} {t : Table K V} {m : K → Option V} (h : WF cfg t m) {i : Nat} {k : K}
    (hr : tryRead cfg (t.cur i) (partialKey (cfg.hash k)) k = none) {s : Nat} {e : Entry K V} (hs : s < SLOTS)
    (he : t.cur i s = some e) : e.key ≠ k := by
  unfold tryRead at hr
  rw [List.find?_eq_none] at hr
  have := hr s (List.mem_range.mpr hs)
  rw [he] at this
  intro hc
  exact this ((hit_iff h k he).mpr hc)

theorem find_none {cfg : Cfg K} {t : Table K V} {m : K → Option V} (h : WF cfg t m) {k : K} (hb : Both cfg t k)
    (hf : cuckooFind cfg t.cur k (partialKey (cfg.hash k)) (first t.hp (cfg.hash k)) (second t.hp (cfg.hash k)) = none) :
    m k = none := by
  unfold cuckooFind at hf
  cases h1 : tryRead cfg (t.cur (first t.hp (cfg.hash k))) (partialKey (cfg.hash k)) k with
  | some s => rw [h1] at hf; cases hf
  | none =>
    rw [h1] at hf
    cases h2 : tryRead cfg (t.cur (second t.hp (cfg.hash k))) (partialKey (cfg.hash k)) k with
    | some s => rw [h2] at hf; cases hf
    | none =>
      cases hm : m k with
      | none => rfl
      | some v =>
        exfalso
        obtain ⟨i, s, e, he, hk, hs, hi⟩ := present h hb hm
        rcases hi with rfl | rfl
        · exact tryRead_none h h1 hs he hk
        · exact tryRead_none h h2 hs he hk

theorem find_some {cfg : Cfg K} {t : Table K V} {m : K → Option V} (h : WF cfg t m) {k : K} {i s : Nat}
    (hf : cuckooFind cfg t.cur k (partialKey (cfg.hash k)) (first t.hp (cfg.hash k)) (second t.hp (cfg.hash k)) = some (i, s)) :
    ∃ e, t.cur i s = some e ∧ e.key = k ∧ m k = some e.val := by
  unfold cuckooFind at hf
  have fin : ∀ e, t.cur i s = some e → e.key = k → ∃ e, t.cur i s = some e ∧ e.key = k ∧ m k = some e.val :=
    fun e he hk => ⟨e, he, hk, by rw [← hk]; exact h.rep.val (.cur i s) e he⟩
  cases h1 : tryRead cfg (t.cur (first t.hp (cfg.hash k))) (partialKey (cfg.hash k)) k with
  | some s' =>
    rw [h1] at hf
    injection hf with hf; injection hf with hi hs
    subst hi hs
    obtain ⟨e, he, hk⟩ := tryRead_some h h1
    exact fin e he hk
  | none =>
    rw [h1] at hf
    cases h2 : tryRead cfg (t.cur (second t.hp (cfg.hash k))) (partialKey (cfg.hash k)) k with
    | some s' =>
      rw [h2] at hf
      injection hf with hf; injection hf with hi hs
      subst hi hs
      obtain ⟨e, he, hk⟩ := tryRead_some h h2
      exact fin e he hk
    | none => rw [h2] at hf; cases hf

theorem tryFindLoop_ok {cfg : Cfg K} {b : Nat → Option (Entry K V)} {part : BitVec 8} {k : K} :
    ∀ (l : List Nat) (slot : Option Nat), (∀ s, s ∈ l → s < SLOTS) → (∀ s, slot = some s → s < SLOTS ∧ b s = none) →
    match tryFindLoop cfg b part k l slot with
    | .duplicate s => ∃ e, b s = some e ∧ hit cfg part k e = true
    | .free r => (∀ s, r = some s → s < SLOTS ∧ b s = none) ∧ (∀ s e, s ∈ l → b s = some e → hit cfg part k e = false) ∧
        (r = none → slot = none ∧ ∀ s, s ∈ l → (b s).isSome = true) := by
  intro l
  induction l with
  | nil => intro slot _ hs; exact ⟨hs, (by intro s e h; cases h), fun h => ⟨h, by intro s hs; cases hs⟩⟩
  | cons i rest ih =>
    intro slot hl hs
    unfold tryFindLoop
    cases hb : b i with
    | some e =>
      simp only
      cases hh : hit cfg part k e with
      | true => rw [if_pos rfl]; exact ⟨e, hb, hh⟩
      | false =>
        rw [if_neg (by simp)]
        have := ih slot (fun s h => hl s (List.mem_cons_of_mem _ h)) hs
        cases hx : tryFindLoop cfg b part k rest slot with
        | duplicate s => rw [hx] at this; exact this
        | free r =>
          rw [hx] at this
          refine ⟨this.1, ?_, ?_⟩
          · intro s e' hs' he'
            rcases List.mem_cons.mp hs' with hc | hc
            · rw [hc, hb] at he'; injection he' with he'; rw [← he']; exact hh
            · exact this.2.1 s e' hc he'
          · intro hr
            refine ⟨(this.2.2 hr).1, ?_⟩
            intro s hs'
            rcases List.mem_cons.mp hs' with hc | hc
            · rw [hc, hb]; rfl
            · exact (this.2.2 hr).2 s hc
    | none =>
      simp only
      have := ih (some i) (fun s h => hl s (List.mem_cons_of_mem _ h)) (by
        intro s hs'; injection hs' with hs'; subst hs'; exact ⟨hl i (List.mem_cons_self ..), hb⟩)
      cases hx : tryFindLoop cfg b part k rest (some i) with
      | duplicate s => rw [hx] at this; exact this
      | free r =>
        rw [hx] at this
        refine ⟨this.1, ?_, ?_⟩
        · intro s e' hs' he'
          rcases List.mem_cons.mp hs' with hc | hc
          · rw [hc, hb] at he'; cases he'
          · exact this.2.1 s e' hc he'
        · intro hr
          have := (this.2.2 hr).1
          cases this

theorem tryFind_dup {cfg : Cfg K} {t : Table K V} {m : K → Option V} (h : WF cfg t m) {i : Nat} {k : K} {s : Nat}
    (hr : tryFindInsert cfg (t.cur i) (partialKey (cfg.hash k)) k = .duplicate s) :
    ∃ e, t.cur i s = some e ∧ e.key = k ∧ m k = some e.val := by
  have := tryFindLoop_ok (cfg := cfg) (b := t.cur i) (part := partialKey (cfg.hash k)) (k := k) (List.range SLOTS) none
    (fun s h => List.mem_range.mp h) (by intro s hs; cases hs)
  unfold tryFindInsert at hr
  rw [hr] at this
  obtain ⟨e, he, hh⟩ := this
  have hk := (hit_iff h k he).mp hh
  exact ⟨e, he, hk, by rw [← hk]; exact h.rep.val (.cur i s) e he⟩

theorem tryFind_free {cfg : Cfg K} {t : Table K V} {m : K → Option V} (h : WF cfg t m) {i : Nat} {k : K} {r : Option Nat}
    (hr : tryFindInsert cfg (t.cur i) (partialKey (cfg.hash k)) k = .free r) :
    (∀ s, r = some s → s < SLOTS ∧ t.cur i s = none) ∧ (∀ s e, s < SLOTS → t.cur i s = some e → e.key ≠ k) ∧
      (r = none → ∀ s, s < SLOTS → (t.cur i s).isSome = true) := by
  have := tryFindLoop_ok (cfg := cfg) (b := t.cur i) (part := partialKey (cfg.hash k)) (k := k) (List.range SLOTS) none
    (fun s h => List.mem_range.mp h) (by intro s hs; cases hs)
  unfold tryFindInsert at hr
  rw [hr] at this
  refine ⟨this.1, ?_, fun hn s hs => (this.2.2 hn).2 s (List.mem_range.mpr hs)⟩
  intro s e hs he hk
  have h1 := this.2.1 s e (List.mem_range.mpr hs) he
  rw [(hit_iff h k he).mpr hk] at h1; cases h1

/-- Neither bucket has the key. -/
theorem absent {cfg : Cfg K} {t : Table K V} {m : K → Option V} (h : WF cfg t m) {k : K} (hb : Both cfg t k)
    (h1 : ∀ s e, s < SLOTS → t.cur (first t.hp (cfg.hash k)) s = some e → e.key ≠ k)
    (h2 : ∀ s e, s < SLOTS → t.cur (second t.hp (cfg.hash k)) s = some e → e.key ≠ k) : m k = none := by
  cases hm : m k with
  | none => rfl
  | some v =>
    exfalso
    obtain ⟨i, s, e, he, hk, hs, hi⟩ := present h hb hm
    rcases hi with rfl | rfl
    · exact h1 s e hs he hk
    · exact h2 s e hs he hk

theorem put_lazy {cfg : Cfg K} {t : Table K V} (h : Lazy cfg t) {i : Nat} (s : Nat) (x : Option (Entry K V))
    (hm : t.migrated (lockInd cfg i) = true) : Lazy cfg { t with cur := t.cur.put i s x } := by
  refine ⟨h.bits, h.mem, ?_⟩
  intro j r hj
  show t.cur.put i s x j r = none
  rw [put_bucket]
  · exact h.empty j r hj
  · intro hc; rw [hc] at hj; have : t.migrated (lockInd cfg i) = false := hj; rw [hm] at this; cases this

theorem Home.migrated {cfg : Cfg K} {t : Table K V} {k : K} {i : Nat} (hb : Both cfg t k) (hi : Home cfg t.hp k i) :
    t.migrated (lockInd cfg i) = true := by
  rcases hi with rfl | rfl
  · exact hb.1
  · exact hb.2

/-- A new key. -/
theorem add_ok {cfg : Cfg K} {t : Table K V} {m : K → Option V} (h : Inv cfg t m) {k : K} (v : V) {i s : Nat}
    (hm : t.migrated (lockInd cfg i) = true)
    (hi : Home cfg t.hp k i) (hs : s < SLOTS) (hn : t.cur i s = none) (hk : m k = none) :
    ∃ t', addToBucket cfg t i s ⟨k, partialKey (cfg.hash k), v⟩ = .ok t' ∧ Inv cfg t' (update m k (some v)) := by
  unfold addToBucket setKV
  rw [hn]
  refine ⟨_, rfl, ⟨⟨?_, ?_, ?_⟩, ?_⟩⟩
  · have hr := h.wf.rep.add v (q := .cur i s) hn hk ⟨hs, hi⟩
    rw [← live_put] at hr
    exact hr
  · have hz := put_lazy h.wf.lazy s (some ⟨k, partialKey (cfg.hash k), v⟩) hm
    exact ⟨hz.bits, hz.mem, hz.empty⟩
  · exact h.wf.left
  · obtain ⟨n, h1, h2⟩ := h.size
    refine ⟨n + 1, h1.add v hk, ?_⟩
    rw [size_count]
    have : ({ t with cur := t.cur.put i s (some ⟨k, partialKey (cfg.hash k), v⟩) } : Table K V).size cfg = t.size cfg := rfl
    rw [this, h2]; simp

/-- A key goes. -/
theorem del_ok {cfg : Cfg K} {t : Table K V} {m : K → Option V} (h : Inv cfg t m) {i s : Nat} {e : Entry K V}
    (he : t.cur i s = some e) : ∃ t', delFromBucket cfg t i s = .ok t' ∧ Inv cfg t' (update m e.key none) := by
  have hm : t.migrated (lockInd cfg i) = true := by
    cases hc : t.migrated (lockInd cfg i) with
    | true => rfl
    | false => rw [h.wf.lazy.empty i s hc] at he; cases he
  unfold delFromBucket eraseKV
  rw [he]
  refine ⟨_, rfl, ⟨⟨?_, ?_, ?_⟩, ?_⟩⟩
  · have hr := h.wf.rep.del (p := .cur i s) he
    rw [← live_put] at hr
    exact hr
  · have hz := put_lazy h.wf.lazy s none hm
    exact ⟨hz.bits, hz.mem, hz.empty⟩
  · exact h.wf.left
  · obtain ⟨n, h1, h2⟩ := h.size
    obtain ⟨n', hn', h1'⟩ := h1.del (h.wf.rep.val (.cur i s) e he)
    refine ⟨n', h1', ?_⟩
    rw [size_count]
    have : ({ t with cur := t.cur.put i s none } : Table K V).size cfg = t.size cfg := rfl
    rw [this, h2, hn']; omega

/-- A value changes. -/
theorem assign_ok {cfg : Cfg K} {t : Table K V} {m : K → Option V} (h : Inv cfg t m) {i s : Nat} {e : Entry K V} (v : V)
    (he : t.cur i s = some e) : ∃ t', assignAt t i s v = .ok t' ∧ Inv cfg t' (update m e.key (some v)) := by
  have hm : t.migrated (lockInd cfg i) = true := by
    cases hc : t.migrated (lockInd cfg i) with
    | true => rfl
    | false => rw [h.wf.lazy.empty i s hc] at he; cases he
  unfold assignAt
  rw [he]
  refine ⟨_, rfl, ⟨⟨?_, ?_, ?_⟩, ?_⟩⟩
  · have hr := h.wf.rep.set (p := .cur i s) he v
    rw [← live_put] at hr
    exact hr
  · exact put_lazy h.wf.lazy s _ hm
  · exact h.wf.left
  · obtain ⟨n, h1, h2⟩ := h.size
    exact ⟨n, h1.set v (h.wf.rep.val (.cur i s) e he), h2⟩

/-- One hop of a cuckoo path. -/
theorem hop_ok {cfg : Cfg K} {t : Table K V} {m : K → Option V} (h : Inv cfg t m) {i s j r : Nat} {e : Entry K V}
    (he : t.cur i s = some e) (hn : t.cur j r = none) (hr : r < SLOTS) (hm : t.migrated (lockInd cfg j) = true)
    (hj : j = altIndex t.hp (partialKey (cfg.hash e.key)) i) :
    ∃ cur, ((setKV t.cur j r e).bind fun cur => eraseKV cur i s) = .ok cur ∧ cur i s = none ∧
      Inv cfg { t with cur := cur } m := by
  have hf := h.wf.rep.fits (.cur i s) e he
  have hm' : t.migrated (lockInd cfg i) = true := by
    cases hc : t.migrated (lockInd cfg i) with
    | true => rfl
    | false => rw [h.wf.lazy.empty i s hc] at he; cases he
  have hsame : t.cur.put j r (some e) i s = some e := by
    unfold Buckets.put
    split
    · rfl
    · exact he
  have hset : setKV t.cur j r e = .ok (t.cur.put j r (some e)) := by unfold setKV; rw [hn]
  have her : eraseKV (t.cur.put j r (some e)) i s = .ok ((t.cur.put j r (some e)).put i s none) := by unfold eraseKV; rw [hsame]
  rw [hset, Outcome.bind_ok, her]
  refine ⟨_, rfl, put_self _ _ _ _, ⟨⟨?_, ?_, ?_⟩, h.size⟩⟩
  · have hrep := h.wf.rep.move (p := .cur i s) (q := .cur j r) he hn ⟨hr, hj ▸ hf.2.alt⟩
    rw [← live_put] at hrep
    have := live_put cfg { t with cur := t.cur.put j r (some e) } none2 i s none
    rw [← this] at hrep
    exact hrep
  · have hz := put_lazy h.wf.lazy r (some e) hm
    exact put_lazy hz s none hm'
  · exact h.wf.left

end Verif.Cuckoo
