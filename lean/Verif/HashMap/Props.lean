import Verif.HashMap.Spec
/-!
# Properties of `HashMap` (C30, C31)
-/
namespace Verif.HashMap

variable {K V : Type}

/-! ## Lemmas -/

theorem find_eq [DecidableEq K] {l : List (K × V)} {m : FMap K V} (h : Holds l m) (k : K) : find l k = m k := by
  unfold find
  cases hf : l.find? (fun e => decide (e.1 = k)) with
  | none =>
    rw [List.find?_eq_none] at hf
    cases hm : m k with
    | none => rfl
    | some v =>
      have := hf (k, v) ((h.mem k v).mpr hm)
      simp at this
  | some e =>
    have h1 : e.1 = k := by simpa using List.find?_some hf
    have h2 := List.mem_of_find?_eq_some hf
    have : (e.1, e.2) ∈ l := h2
    rw [h.mem, h1] at this
    simp [this]

theorem Holds.empty : Holds ([] : List (K × V)) (fun _ => none) := ⟨List.nodup_nil, by simp⟩

theorem Holds.insert [DecidableEq K] {l l' : List (K × V)} {m : FMap K V} (h : Holds l m) {k : K} {v : V} (hk : m k = none)
    (hp : l'.Perm ((k, v) :: l)) : Holds l' (m.set k (some v)) := by
  refine ⟨?_, fun x w => ?_⟩
  · rw [(hp.map _).nodup_iff, List.map_cons, List.nodup_cons]
    refine ⟨?_, h.nodup⟩
    intro hm
    obtain ⟨e, he, hek⟩ := List.mem_map.mp hm
    have : (e.1, e.2) ∈ l := he
    rw [h.mem, show e.1 = k from hek, hk] at this
    cases this
  · rw [hp.mem_iff, List.mem_cons, h.mem, Prod.mk.injEq]
    unfold FMap.set
    by_cases hx : x = k
    · subst hx
      rw [if_pos rfl, hk]
      simp [eq_comm]
    · rw [if_neg hx]
      simp [hx]

theorem Holds.same [DecidableEq K] {l : List (K × V)} {m : FMap K V} (h : Holds l m) {k : K} {v : V} (hk : m k = some v) :
    Holds l (m.set k (some v)) := by
  have : m.set k (some v) = m := by
    funext x
    unfold FMap.set
    by_cases hx : x = k
    · rw [if_pos hx, hx, hk]
    · rw [if_neg hx]
  rw [this]
  exact h

theorem Holds.erase [DecidableEq K] {l : List (K × V)} {m : FMap K V} (h : Holds l m) (k : K) : Holds (HashMap.erase l k) (m.set k none) := by
  refine ⟨?_, fun x w => ?_⟩
  · exact h.nodup.sublist (List.filter_sublist.map _)
  · unfold HashMap.erase FMap.set
    rw [List.mem_filter, h.mem]
    by_cases hx : x = k
    · simp [hx]
    · simp [hx]

theorem Holds.assign [DecidableEq K] {l : List (K × V)} {m : FMap K V} (h : Holds l m) {k : K} {w : V} (hk : m k = some w) (v : V) :
    Holds (HashMap.assign l k v) (m.set k (some v)) := by
  refine ⟨?_, fun x u => ?_⟩
  · have : (HashMap.assign l k v).map (·.1) = l.map (·.1) := by
      unfold HashMap.assign
      rw [List.map_map]
      apply List.map_congr_left
      intro e _
      simp only [Function.comp]
      by_cases he : e.1 = k
      · rw [if_pos he]
      · rw [if_neg he]
    rw [this]
    exact h.nodup
  · unfold HashMap.assign FMap.set
    rw [List.mem_map]
    by_cases hx : x = k
    · subst hx
      rw [if_pos rfl]
      constructor
      · rintro ⟨e, he, hex⟩
        by_cases h1 : e.1 = x
        · rw [if_pos h1] at hex
          cases hex
          rfl
        · rw [if_neg h1] at hex
          exact absurd (by rw [hex]) h1
      · intro hu
        exact ⟨(x, w), (h.mem x w).mpr hk, by simp at hu; simp [hu]⟩
    · rw [if_neg hx, ← h.mem]
      constructor
      · rintro ⟨e, he, hex⟩
        by_cases h1 : e.1 = k
        · rw [if_pos h1] at hex
          cases hex
          exact absurd h1 hx
        · rw [if_neg h1] at hex
          rw [← hex]
          exact he
      · intro hm
        exact ⟨(x, u), hm, by rw [if_neg hx]⟩

theorem Holds.size {l : List (K × V)} {m : FMap K V} (h : Holds l m) : m.HasSize l.length := by
  refine ⟨l.map (·.1), h.nodup, fun k => ?_, by simp⟩
  rw [List.mem_map]
  constructor
  · rintro ⟨e, he, rfl⟩
    have : (e.1, e.2) ∈ l := he
    rw [h.mem] at this
    rw [this]
    simp
  · intro hk
    cases hm : m k with
    | none => exact absurd hm hk
    | some v => exact ⟨(k, v), (h.mem k v).mpr hm, rfl⟩

theorem FMap.HasSize.unique {m : FMap K V} {a b : Nat} (ha : m.HasSize a) (hb : m.HasSize b) : a = b := by
  obtain ⟨x, x1, x2, x3⟩ := ha
  obtain ⟨y, y1, y2, y3⟩ := hb
  have : x.Perm y := (List.perm_ext_iff_of_nodup x1 y1).mpr (fun k => by rw [x2, y2])
  rw [← x3, ← y3, this.length_eq]

theorem nodup_length_le [DecidableEq K] : ∀ (a b : List K), a.Nodup → a ⊆ b → a.length ≤ b.length := by
  intro a
  induction a with
  | nil => intro b _ _; simp
  | cons x a ih =>
    intro b hn hs
    rw [List.nodup_cons] at hn
    have hx : x ∈ b := hs List.mem_cons_self
    have := ih (b.erase x) hn.2 (fun y hy => (List.mem_erase_of_ne (by rintro rfl; exact hn.1 hy)).mpr (hs (List.mem_cons_of_mem _ hy)))
    rw [List.length_erase_of_mem hx] at this
    have hpos : 0 < b.length := List.length_pos_of_mem hx
    rw [List.length_cons]
    omega

theorem put_new [DecidableEq K] (L : Lib K V) {l : List (K × V)} {m : FMap K V} (h : Holds l m) {k : K} (v : V) (hk : m k = none) :
    put L k v l = .ret (L.ins l (k, v)) () ∧ Holds (L.ins l (k, v)) (m.set k (some v)) := by
  refine ⟨?_, h.insert hk (L.ins_perm _ _)⟩
  unfold put
  simp only [OM.bind_eq, OM.bind_read, find_eq h, hk]
  rfl

theorem put_old [DecidableEq K] (L : Lib K V) {l : List (K × V)} {m : FMap K V} (h : Holds l m) {k : K} (v : V) {w : V} (hk : m k = some w) :
    put L k v l = .ret l () := by
  unfold put
  simp only [OM.bind_eq, OM.bind_read, find_eq h, hk]
  rfl

theorem putAll_ok [DecidableEq K] (L : Lib K V) : ∀ (o : List (K × V)) (l : List (K × V)) (m : FMap K V), Holds l m →
    (∀ e ∈ o, m e.1 = none ∨ m e.1 = some e.2) → o.Pairwise (fun a b => a.1 ≠ b.1) →
    ∃ l', putAll L o l = .ret l' () ∧ Holds l' (m.union o) := by
  intro o
  induction o with
  | nil => intro l m h _ _; exact ⟨l, rfl, h⟩
  | cons e r ih =>
    intro l m h ho hp
    rw [List.pairwise_cons] at hp
    have next : ∀ l₁, put L e.1 e.2 l = .ret l₁ () → Holds l₁ (m.set e.1 (some e.2)) →
        ∃ l', putAll L (e :: r) l = .ret l' () ∧ Holds l' (m.union (e :: r)) := by
      intro l₁ h1 h2
      obtain ⟨l', h3, h4⟩ := ih l₁ _ h2 (fun e' he' => by
        unfold FMap.set
        rw [if_neg (Ne.symm (hp.1 e' he'))]
        exact ho e' (List.mem_cons_of_mem _ he')) hp.2
      refine ⟨l', ?_, h4⟩
      unfold putAll
      simp only [OM.bind_eq]
      rw [OM.bind_of_ret h1]
      exact h3
    rcases ho e List.mem_cons_self with hk | hk
    · obtain ⟨h1, h2⟩ := put_new L h e.2 hk
      exact next _ h1 h2
    · exact next _ (put_old L h e.2 hk) (h.same hk)

theorem defaultValue_some {L : Lib K V} {d : V} (h : L.dflt = some d) (l : List (K × V)) : defaultValue L l = .ret l d := by
  unfold defaultValue; rw [h]; rfl

theorem get_some [DecidableEq K] {L : Lib K V} {l : List (K × V)} {k : K} {v : V} (h : find l k = some v) : get L k l = .ret l v := by
  unfold get
  simp only [OM.bind_eq, OM.bind_read, h]
  rfl

theorem get_none [DecidableEq K] {L : Lib K V} {l : List (K × V)} {k : K} (h : find l k = none) : get L k l = defaultValue L l := by
  unfold get
  simp only [OM.bind_eq, OM.bind_read, h]

/-! ## C30 -/

/-- **C30** (one call). -/
theorem C30_call [DecidableEq K] [DecidableEq V] (L : Lib K V) (op : Op K V) (l : List (K × V)) (m : FMap K V) (h : Holds l m)
    (hl : Legal L.dflt op m) : ∃ l' m' a, Holds l' m' ∧ Does L.dflt op m m' a ∧ (step L op l).Is l' a := by
  cases op with
  | put k v =>
    rcases hl with hk | hk
    · obtain ⟨h1, h2⟩ := put_new L h v hk
      exact ⟨_, _, .ok .unit, h2, ⟨rfl, rfl⟩, by simp only [Res.Is, step, OM.bind_eq]; exact (OM.bind_of_ret h1).trans rfl⟩
    · exact ⟨_, _, .ok .unit, h.same hk, ⟨rfl, rfl⟩, by
        simp only [Res.Is, step, OM.bind_eq]; exact (OM.bind_of_ret (put_old L h v hk)).trans rfl⟩
  | putAll o =>
    obtain ⟨l', h1, h2⟩ := putAll_ok L o l m h hl.1 hl.2
    exact ⟨_, _, .ok .unit, h2, ⟨rfl, rfl⟩, by simp only [Res.Is, step, OM.bind_eq]; exact (OM.bind_of_ret h1).trans rfl⟩
  | putIfAbsent k v =>
    cases hk : m k with
    | some w =>
      refine ⟨l, m, .ok (.val w), h, .inl ⟨w, hk, rfl, rfl⟩, ?_⟩
      simp only [Res.Is, step, OM.bind_eq, putIfAbsent]
      refine (OM.bind_of_ret (v := w) (s' := l) ?_).trans rfl
      simp only [OM.bind_read, find_eq h, hk]
      rfl
    | none =>
      cases hd : L.dflt with
      | none => exact absurd hk (hl.elim id (fun h' => absurd hd h'))
      | some d =>
        refine ⟨_, _, .ok (.val d), h.insert hk (L.ins_perm l (k, v)), .inr ⟨d, hk, rfl, rfl, rfl⟩, ?_⟩
        simp only [Res.Is, step, OM.bind_eq, putIfAbsent]
        refine (OM.bind_of_ret (v := d) ?_).trans rfl
        simp only [OM.bind_read, find_eq h, hk, OM.bind_write]
        exact defaultValue_some hd _
  | get k =>
    cases hk : m k with
    | some w =>
      refine ⟨l, m, .ok (.val w), h, ⟨rfl, .inl ⟨w, hk, rfl⟩⟩, ?_⟩
      simp only [Res.Is, step, OM.bind_eq]
      exact (OM.bind_of_ret (get_some (by rw [find_eq h, hk]))).trans rfl
    | none =>
      cases hd : L.dflt with
      | none => exact absurd hk (hl.elim id (fun h' => absurd hd h'))
      | some d =>
        refine ⟨l, m, .ok (.val d), h, ⟨rfl, .inr ⟨d, hk, rfl, rfl⟩⟩, ?_⟩
        simp only [Res.Is, step, OM.bind_eq]
        exact (OM.bind_of_ret ((get_none (by rw [find_eq h, hk])).trans (defaultValue_some hd l))).trans rfl
  | getOrDefault k x =>
    cases hk : m k with
    | some w =>
      refine ⟨l, m, .ok (.val w), h, ⟨rfl, .inl ⟨w, hk, rfl⟩⟩, ?_⟩
      simp only [Res.Is, step, OM.bind_eq, getOrDefault]
      refine (OM.bind_of_ret (v := w) (s' := l) ?_).trans rfl
      simp only [OM.bind_read, find_eq h, hk]
      rfl
    | none =>
      refine ⟨l, m, .ok (.val x), h, ⟨rfl, .inr ⟨hk, rfl⟩⟩, ?_⟩
      simp only [Res.Is, step, OM.bind_eq, getOrDefault]
      refine (OM.bind_of_ret (v := x) (s' := l) ?_).trans rfl
      simp only [OM.bind_read, find_eq h, hk]
      rfl
  | containsKey k =>
    refine ⟨l, m, .ok (.bool (m k).isSome), h, ⟨rfl, _, rfl, Option.isSome_iff_exists⟩, ?_⟩
    simp only [Res.Is, step, OM.bind_eq, containsKey]
    refine (OM.bind_of_ret (v := (m k).isSome) (s' := l) ?_).trans rfl
    simp only [OM.bind_read, find_eq h]
    rfl
  | containsValue v =>
    refine ⟨l, m, .ok (.bool (l.any fun e => decide (e.2 = v))), h, ⟨rfl, _, rfl, ?_⟩, rfl⟩
    rw [List.any_eq_true]
    constructor
    · rintro ⟨e, he, hv⟩
      refine ⟨e.1, (h.mem _ _).mp ?_⟩
      rw [← of_decide_eq_true hv]
      exact he
    · rintro ⟨k, hk⟩
      exact ⟨(k, v), (h.mem _ _).mpr hk, by simp⟩
  | remove k =>
    cases hk : m k with
    | some w =>
      refine ⟨_, _, .ok (.val w), h.erase k, .inl ⟨w, hk, rfl, rfl⟩, ?_⟩
      simp only [Res.Is, step, OM.bind_eq, remove]
      refine (OM.bind_of_ret (v := w) ?_).trans rfl
      simp only [OM.bind_read, find_eq h, hk]
      rfl
    | none =>
      cases hd : L.dflt with
      | none => exact absurd hk (hl.elim id (fun h' => absurd hd h'))
      | some d =>
        refine ⟨l, m, .ok (.val d), h, .inr ⟨d, hk, rfl, rfl, rfl⟩, ?_⟩
        simp only [Res.Is, step, OM.bind_eq, remove]
        refine (OM.bind_of_ret (v := d) ?_).trans rfl
        simp only [OM.bind_read, find_eq h, hk]
        exact defaultValue_some hd _
  | removePair k v =>
    by_cases hk : m k = some v
    · refine ⟨_, _, .ok (.bool true), h.erase k, .inl ⟨hk, rfl, rfl⟩, ?_⟩
      simp only [Res.Is, step, OM.bind_eq, removePair]
      refine (OM.bind_of_ret (v := true) ?_).trans rfl
      simp only [OM.bind_read, find_eq h, hk]
      rw [if_neg (fun hh => hh rfl)]
      rfl
    · refine ⟨l, m, .ok (.bool false), h, .inr ⟨hk, rfl, rfl⟩, ?_⟩
      simp only [Res.Is, step, OM.bind_eq, removePair]
      refine (OM.bind_of_ret (v := false) ?_).trans rfl
      simp only [OM.bind_read, find_eq h]
      cases hm : m k with
      | none => rfl
      | some w =>
        simp only []
        rw [if_pos (fun hh => hk (by rw [hm, hh]))]
        rfl
  | replace k v =>
    cases hk : m k with
    | some w =>
      refine ⟨_, _, .ok (.val w), h.assign hk v, .inl ⟨w, hk, rfl, rfl⟩, ?_⟩
      simp only [Res.Is, step, OM.bind_eq, replace]
      refine (OM.bind_of_ret (v := w) ?_).trans rfl
      simp only [OM.bind_read, find_eq h, hk]
      rfl
    | none =>
      cases hd : L.dflt with
      | none => exact absurd hk (hl.elim id (fun h' => absurd hd h'))
      | some d =>
        refine ⟨l, m, .ok (.val d), h, .inr ⟨d, hk, rfl, rfl, rfl⟩, ?_⟩
        simp only [Res.Is, step, OM.bind_eq, replace]
        refine (OM.bind_of_ret (v := d) ?_).trans rfl
        simp only [OM.bind_read, find_eq h, hk]
        exact defaultValue_some hd _
  | replacePair k o n =>
    by_cases hk : m k = some o
    · refine ⟨_, _, .ok (.bool true), h.assign hk n, .inl ⟨hk, rfl, rfl⟩, ?_⟩
      simp only [Res.Is, step, OM.bind_eq, replacePair]
      refine (OM.bind_of_ret (v := true) ?_).trans rfl
      simp only [OM.bind_read, find_eq h, hk]
      rw [if_neg (fun hh => hh rfl)]
      rfl
    · refine ⟨l, m, .ok (.bool false), h, .inr ⟨hk, rfl, rfl⟩, ?_⟩
      simp only [Res.Is, step, OM.bind_eq, replacePair]
      refine (OM.bind_of_ret (v := false) ?_).trans rfl
      simp only [OM.bind_read, find_eq h]
      cases hm : m k with
      | none => rfl
      | some w =>
        simp only []
        rw [if_pos (fun hh => hk (by rw [hm, hh]))]
        rfl
  | isEmpty =>
    refine ⟨l, m, .ok (.bool (decide (l.length = 0))), h, ⟨rfl, _, rfl, ?_⟩, rfl⟩
    rw [decide_eq_true_iff]
    constructor
    · intro h0 k
      have : l = [] := List.eq_nil_of_length_eq_zero h0
      cases hm : m k with
      | none => rfl
      | some v => have := (h.mem k v).mpr hm; simp_all
    · intro h0
      cases l with
      | nil => rfl
      | cons e r =>
        have := (h.mem e.1 e.2).mp List.mem_cons_self
        rw [h0] at this
        cases this
  | size => exact ⟨l, m, .ok (.int l.length), h, ⟨rfl, _, rfl, h.size⟩, rfl⟩
  | clear => exact ⟨[], _, .ok .unit, .empty, ⟨rfl, rfl⟩, rfl⟩

/-- **C30** (histories, partial). For every iteration order the library may
choose, every legal history on a new map is one of a finite map. Missing from the
full statement: the calls outside `Legal`, refuted below. -/
theorem C30_history_partial [DecidableEq K] [DecidableEq V] (L : Lib K V) (ops : List (Op K V)) (hl : Always (Does L.dflt) (Legal L.dflt) ops (fun _ => none)) :
    ∃ l m as, Holds l m ∧ Follows (Does L.dflt) ops as (fun _ => none) m ∧ runHist (step L) ops [] = .ok (l, as) :=
  runHist_follows _ _ Holds _ (fun op s t hS hl => C30_call L op s t hS hl) ops _ _ .empty hl

/-- The same from any map. -/
theorem C30_history_from_partial [DecidableEq K] [DecidableEq V] (L : Lib K V) (ops : List (Op K V)) (l : List (K × V)) (m : FMap K V) (h : Holds l m)
    (hl : Always (Does L.dflt) (Legal L.dflt) ops m) :
    ∃ l' m' as, Holds l' m' ∧ Follows (Does L.dflt) ops as m m' ∧ runHist (step L) ops l = .ok (l', as) :=
  runHist_follows _ _ Holds _ (fun op s t hS hl => C30_call L op s t hS hl) ops _ _ h hl

/-- A legal history, for the library that prepends: a new key, an update by
`replace`, an `int` default. -/
example : Always (Does (K := Nat) (some 0)) (Legal (some 0)) [Op.put 1 10, .replace 1 11, .get 1, .remove 1, .get 1, .size] (fun _ => none) ∧
    runHist (step (K := Nat) ⟨fun l e => e :: l, fun _ _ => List.Perm.refl _, some 0⟩) [Op.put 1 10, .replace 1 11, .get 1, .remove 1, .get 1, .size] [] =
      .ok ([], [.ok .unit, .ok (.val 10), .ok (.val 11), .ok (.val 11), .ok (.val 0), .ok (.int 0)]) := by
  refine ⟨?_, rfl⟩
  simp [Always, Legal]

/-- **C30** (negation). `put` of a key already bound changes nothing: the old
value stays, whatever the map, the key and the values. -/
theorem C30_put_wrong [DecidableEq K] (L : Lib K V) (l : List (K × V)) (m : FMap K V) (h : Holds l m) (k : K) (v w : V) (hk : m k = some w) :
    put L k v l = .ret l () ∧ get L k l = .ret l w :=
  ⟨put_old L h v hk, get_some (by rw [find_eq h, hk])⟩

/-- **C30** (negation). For a primitive value type, `get`, `remove`, `replace`
and `putIfAbsent` of a missing key return an indeterminate value. -/
theorem C30_primitive_wrong [DecidableEq K] (L : Lib K V) (hd : L.dflt = none) (l : List (K × V)) (m : FMap K V) (h : Holds l m) (k : K) (v : V) (hk : m k = none) :
    get L k l = .ub ∧ remove L k l = .ub ∧ replace L k v l = .ub ∧ putIfAbsent L k v l = .ub := by
  have hdv : ∀ l, defaultValue L l = .ub := by intro l; unfold defaultValue; rw [hd]; rfl
  refine ⟨?_, ?_, ?_, ?_⟩
  · rw [get_none (by rw [find_eq h, hk]), hdv]
  · unfold remove
    simp only [OM.bind_eq, OM.bind_read, find_eq h, hk, hdv]
  · unfold replace
    simp only [OM.bind_eq, OM.bind_read, find_eq h, hk, hdv]
  · unfold putIfAbsent
    simp only [OM.bind_eq, OM.bind_read, find_eq h, hk, OM.bind_write, hdv]

example : ∃ (L : Lib Nat Nat) (l : List (Nat × Nat)) (m : FMap Nat Nat), L.dflt = none ∧ Holds l m ∧ m 1 = none ∧ m 2 = some 5 :=
  ⟨⟨fun l e => e :: l, fun _ _ => List.Perm.refl _, none⟩, [(2, 5)], fun k => if k = 2 then some 5 else none, rfl,
    ⟨by simp, by intro k v; by_cases h : k = 2 <;> simp [h, eq_comm]⟩, rfl, rfl⟩

/-- **C30** (copies). The copy constructor and `clone` build a map with the same
bindings. -/
theorem C30_copy [DecidableEq K] (L : Lib K V) (l : List (K × V)) (m : FMap K V) (h : Holds l m) : ∃ l', copy L l = .ret l' () ∧ Holds l' m := by
  have hp : l.Pairwise (fun a b => a.1 ≠ b.1) := by
    have := h.nodup
    unfold List.Nodup at this
    rw [List.pairwise_map] at this
    exact this
  obtain ⟨l', h1, h2⟩ := putAll_ok L l [] _ Holds.empty (fun _ _ => .inl rfl) hp
  refine ⟨l', h1, ?_⟩
  have : FMap.union (fun _ => none) l = m := by
    have key : ∀ (l : List (K × V)) (m₀ : FMap K V), l.Pairwise (fun a b => a.1 ≠ b.1) →
        ∀ k, FMap.union m₀ l k = match find l k with | some v => some v | none => m₀ k := by
      intro l
      induction l with
      | nil => intro m₀ _ k; rfl
      | cons e r ih =>
        intro m₀ hp k
        rw [List.pairwise_cons] at hp
        unfold FMap.union
        rw [ih _ hp.2]
        unfold find
        rw [List.find?_cons]
        by_cases hek : e.1 = k
        · have hn : r.find? (fun e => decide (e.1 = k)) = none := by
            rw [List.find?_eq_none]
            intro x hx
            have := hp.1 x hx
            rw [hek] at this
            simpa using fun h => this h.symm
          simp [hn, hek, FMap.set]
        · simp only [decide_eq_true_eq, hek, decide_false]
          cases hf : Option.map (fun x => x.2) (List.find? (fun e => decide (e.1 = k)) r) with
          | none => simp [FMap.set, Ne.symm hek]
          | some v => rfl
    funext k
    rw [key l _ hp k, find_eq h]
    cases m k <;> rfl
  rw [← this]
  exact h2

/-- **C30** (the constructor from pairs). When a key is listed twice, the first
value is kept. -/
theorem C30_ofPairs [DecidableEq K] (L : Lib K V) (l : List (K × V)) :
    ∃ l' m, ofPairs L l = .ret l' () ∧ Holds l' m ∧ ∀ k, m k = (l.find? fun e => decide (e.1 = k)).map (·.2) := by
  have key : ∀ (o : List (K × V)) (l : List (K × V)) (m : FMap K V), Holds l m →
      ∃ l' m', putAll L o l = .ret l' () ∧ Holds l' m' ∧ ∀ k, m' k = match m k with | some v => some v | none => (o.find? fun e => decide (e.1 = k)).map (·.2) := by
    intro o
    induction o with
    | nil =>
      intro l m h
      refine ⟨l, m, rfl, h, fun k => ?_⟩
      cases m k <;> rfl
    | cons e r ih =>
      intro l m h
      have next : ∀ l₁ m₁, put L e.1 e.2 l = .ret l₁ () → Holds l₁ m₁ →
          (∀ k, m₁ k = match m k with | some v => some v | none => if e.1 = k then some e.2 else none) →
          ∃ l' m', putAll L (e :: r) l = .ret l' () ∧ Holds l' m' ∧
            ∀ k, m' k = match m k with | some v => some v | none => ((e :: r).find? fun e => decide (e.1 = k)).map (·.2) := by
        intro l₁ m₁ h1 h2 h3
        obtain ⟨l', m', e1, e2, e3⟩ := ih l₁ m₁ h2
        refine ⟨l', m', ?_, e2, fun k => ?_⟩
        · unfold putAll
          simp only [OM.bind_eq]
          rw [OM.bind_of_ret h1]
          exact e1
        · rw [e3, h3]
          cases m k with
          | some v => rfl
          | none =>
            rw [List.find?_cons]
            by_cases hek : e.1 = k
            · simp [hek]
            · simp [hek]
      cases hk : m e.1 with
      | none =>
        obtain ⟨h1, h2⟩ := put_new L h e.2 hk
        refine next _ _ h1 h2 (fun k => ?_)
        unfold FMap.set
        by_cases hek : k = e.1
        · rw [if_pos hek, hek, hk]; simp
        · rw [if_neg hek]
          cases m k with
          | some v => rfl
          | none => simp [Ne.symm hek]
      | some w =>
        refine next _ _ (put_old L h e.2 hk) h (fun k => ?_)
        cases hmk : m k with
        | some v => rfl
        | none =>
          have : e.1 ≠ k := by rintro rfl; rw [hk] at hmk; cases hmk
          simp [this]
  obtain ⟨l', m', h1, h2, h3⟩ := key l [] _ Holds.empty
  exact ⟨l', m', h1, h2, h3⟩

/-- Entries separated by a comma and a space. -/
def joined : List (List Byte) → List Byte
  | [] => []
  | [x] => x
  | x :: r => x ++ [44#8, 32#8] ++ joined r

/-- **C30** (text). `toString` lists every binding once, as `key: value`, between
braces; string keys are quoted, string values unless they start with `[` or
`{`. -/
theorem C30_toString (ks vs : Bool) (kt : K → List Byte) (vt : V → List Byte) (l : List (K × V)) :
    toString ks vs kt vt l = .ret l (123#8 :: joined (l.map fun e =>
      (if ks then 34#8 :: kt e.1 ++ [34#8] else kt e.1) ++ [58#8, 32#8] ++
      (if vs ∧ (vt e.2).head? ≠ some 91#8 ∧ (vt e.2).head? ≠ some 123#8 then 34#8 :: vt e.2 ++ [34#8] else vt e.2)) ++ [125#8]) := by
  have hq : ∀ e : K × V, entryText ks vs (kt e.1) (vt e.2) = (if ks then 34#8 :: kt e.1 ++ [34#8] else kt e.1) ++ [58#8, 32#8] ++
      (if vs ∧ (vt e.2).head? ≠ some 91#8 ∧ (vt e.2).head? ≠ some 123#8 then 34#8 :: vt e.2 ++ [34#8] else vt e.2) := by
    intro e
    unfold entryText
    cases h : vt e.2 with
    | nil => simp
    | cons c r => simp
  have loop : ∀ (r : List (K × V)) n b, n + r.length = l.length → toStringLoop ks vs kt vt l.length r n b =
      b ++ joined (r.map fun e => entryText ks vs (kt e.1) (vt e.2)) := by
    intro r
    induction r with
    | nil => intro n b _; simp [toStringLoop, joined]
    | cons e r ih =>
      intro n b hn
      rw [List.length_cons] at hn
      rw [toStringLoop, ih _ _ (by omega)]
      cases r with
      | nil =>
        rw [List.length_nil] at hn
        rw [if_neg (by omega)]
        simp [joined]
      | cons x r =>
        rw [List.length_cons] at hn
        rw [if_pos (by omega)]
        simp [joined]
  unfold toString
  simp only [OM.bind_eq, OM.bind_read]
  by_cases h : l.length = 0
  · have : l = [] := List.eq_nil_of_length_eq_zero h
    subst this
    rfl
  · rw [if_neg h, loop l 0 _ (by omega)]
    simp only [OM.ret_apply, Res.ret.injEq, true_and]
    rw [List.map_congr_left (fun e _ => hq e)]
    rfl

/-! ## C31 -/

theorem equalsLoop_true [DecidableEq K] [DecidableEq V] (L : Lib K V) (o : List (K × V)) (mo : FMap K V) (ho : Holds o mo) (d : V) (hd : L.dflt = some d) :
    ∀ l : List (K × V), equalsLoop L o l = .ok (decide (∀ e ∈ l, (mo e.1).getD d = e.2)) := by
  intro l
  induction l with
  | nil => rfl
  | cons e r ih =>
    unfold equalsLoop
    have hg : get L e.1 o = .ret o ((mo e.1).getD d) := by
      cases hm : mo e.1 with
      | none => rw [get_none (by rw [find_eq ho, hm]), defaultValue_some hd]; rfl
      | some v => rw [get_some (by rw [find_eq ho, hm])]; rfl
    rw [hg]
    simp only []
    by_cases hv : e.2 ≠ (mo e.1).getD d
    · rw [if_pos hv]
      congr 1
      symm
      rw [decide_eq_false_iff_not]
      intro hall
      exact hv (hall e List.mem_cons_self).symm
    · rw [if_neg hv, ih]
      congr 1
      rw [decide_eq_decide]
      constructor
      · intro hall e' he'
        rcases List.mem_cons.mp he' with rfl | he'
        · exact (Classical.not_not.mp hv).symm
        · exact hall e' he'
      · intro hall e' he'
        exact hall e' (List.mem_cons_of_mem _ he')

/-- **C31** (exact behaviour). For a value type with a default value `d`,
`equals` is true exactly when the maps have the same number of keys and every
value of this map is the value of the other, a missing key counting as `d`. -/
theorem C31_equals_exact [DecidableEq K] [DecidableEq V] (L : Lib K V) (d : V) (hd : L.dflt = some d) (l o : List (K × V)) (m mo : FMap K V)
    (h : Holds l m) (ho : Holds o mo) :
    ∃ b, equals L l o = .ok b ∧ (b = true ↔ (∃ n, m.HasSize n ∧ mo.HasSize n) ∧ ∀ k v, m k = some v → mo k = some v ∨ (mo k = none ∧ v = d)) := by
  unfold equals
  have hsz : l.length = o.length ↔ ∃ n, m.HasSize n ∧ mo.HasSize n := by
    constructor
    · intro he; exact ⟨l.length, h.size, he ▸ ho.size⟩
    · rintro ⟨n, h1, h2⟩; rw [h.size.unique h1, ho.size.unique h2]
  by_cases hl : l.length = o.length
  · rw [if_neg (fun hh => hh hl), equalsLoop_true L o mo ho d hd l]
    refine ⟨_, rfl, ?_⟩
    rw [decide_eq_true_iff]
    constructor
    · intro hall
      refine ⟨hsz.mp hl, fun k v hk => ?_⟩
      have := hall (k, v) ((h.mem k v).mpr hk)
      simp only at this
      cases hmo : mo k with
      | none => rw [hmo] at this; exact .inr ⟨rfl, this.symm⟩
      | some w => rw [hmo] at this; exact .inl (by rw [← this]; rfl)
    · rintro ⟨_, hall⟩ e he
      have hm : m e.1 = some e.2 := (h.mem e.1 e.2).mp he
      rcases hall e.1 e.2 hm with h' | ⟨h', h''⟩
      · rw [h']; rfl
      · rw [h', h'']; rfl
  · rw [if_pos hl]
    refine ⟨false, rfl, ?_⟩
    constructor
    · intro h'; cases h'
    · rintro ⟨h1, _⟩; exact absurd (hsz.mpr h1) hl

/-- **C31** (partial). If the default value is not a value of this map, `equals`
is true exactly when the maps bind the same keys to the same values. Missing from
the full statement: maps holding the default value, see `C31_equals_wrong`. -/
theorem C31_equals_partial [DecidableEq K] [DecidableEq V] (L : Lib K V) (d : V) (hd : L.dflt = some d) (l o : List (K × V)) (m mo : FMap K V)
    (h : Holds l m) (ho : Holds o mo) (hnd : ∀ k, m k ≠ some d) :
    ∃ b, equals L l o = .ok b ∧ (b = true ↔ ∀ k, m k = mo k) := by
  obtain ⟨b, h1, h2⟩ := C31_equals_exact L d hd l o m mo h ho
  refine ⟨b, h1, h2.trans ?_⟩
  constructor
  · rintro ⟨⟨n, s1, s2⟩, hall⟩ k
    have sub : ∀ k v, m k = some v → mo k = some v := by
      intro k v hk
      rcases hall k v hk with h' | ⟨_, rfl⟩
      · exact h'
      · exact absurd hk (hnd k)
    cases hm : m k with
    | some v => rw [sub k v hm]
    | none =>
      cases hmo : mo k with
      | none => rfl
      | some w =>
        exfalso
        -- the keys of this map and k are n + 1 keys of the other
        obtain ⟨x, x1, x2, x3⟩ := s1
        obtain ⟨y, y1, y2, y3⟩ := s2
        have hkx : k ∉ x := fun hx => (x2 k).mp hx hm
        have hsub : (k :: x) ⊆ y := by
          intro z hz
          rw [y2]
          rcases List.mem_cons.mp hz with rfl | hz
          · rw [hmo]; simp
          · cases hmz : m z with
            | none => exact absurd hmz ((x2 z).mp hz)
            | some v => rw [sub z v hmz]; simp
        have hnk : (k :: x).Nodup := List.nodup_cons.mpr ⟨hkx, x1⟩
        have := nodup_length_le _ _ hnk hsub
        simp only [List.length_cons] at this
        omega
  · intro hall
    have : m = mo := funext hall
    subst this
    exact ⟨⟨_, h.size, h.size⟩, fun k v hk => .inl hk⟩

/-- **C31** (negation). Any two maps with one key each, this one holding the
default value, are reported equal when their keys differ — and the report is not
symmetric unless the other value is the default one too. -/
theorem C31_equals_wrong [DecidableEq K] [DecidableEq V] (L : Lib K V) (d : V) (hd : L.dflt = some d) (k k' : K) (v : V) (hk : k ≠ k') :
    equals L [(k, d)] [(k', v)] = .ok true ∧ equals L [(k', v)] [(k, d)] = .ok (decide (v = d)) := by
  have e1 : find [(k', v)] k = none := by simp [find, Ne.symm hk]
  have e2 : find [(k, d)] k' = none := by simp [find, hk]
  constructor
  · unfold equals
    rw [if_neg (by simp)]
    unfold equalsLoop
    simp only [get_none e1, defaultValue_some hd]
    rw [if_neg (by simp)]
    rfl
  · unfold equals
    rw [if_neg (by simp)]
    unfold equalsLoop
    simp only [get_none e2, defaultValue_some hd]
    by_cases hv : v = d
    · rw [if_neg (by simp [hv])]; simp [equalsLoop, hv]
    · rw [if_pos hv]; simp [hv]

/-- **C31** (negation). For a primitive value type, comparing two maps with one
key each and different keys is undefined. -/
theorem C31_primitive_wrong [DecidableEq K] [DecidableEq V] (L : Lib K V) (hd : L.dflt = none) (k k' : K) (v w : V) (hk : k ≠ k') :
    equals L [(k, v)] [(k', w)] = .ub := by
  have e1 : find [(k', w)] k = none := by simp [find, Ne.symm hk]
  unfold equals
  rw [if_neg (by simp)]
  unfold equalsLoop
  simp only [get_none e1, defaultValue, hd]
  rfl

/-- Two maps that meet the hypotheses of the partial theorem. -/
example : ∃ l : List (Nat × Nat), ∃ m : FMap Nat Nat, Holds l m ∧ l.length = 2 ∧ ∀ k, m k ≠ some 0 :=
  ⟨[(1, 5), (2, 6)], fun k => if k = 1 then some 5 else if k = 2 then some 6 else none,
    ⟨by simp, by intro k v; by_cases h1 : k = 1 <;> by_cases h2 : k = 2 <;> simp [h1, h2, eq_comm]⟩, rfl, by
      intro k; simp only []; by_cases h1 : k = 1 <;> by_cases h2 : k = 2 <;> simp [h1, h2]⟩

end Verif.HashMap
