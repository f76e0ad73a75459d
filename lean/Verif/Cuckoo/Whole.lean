import Verif.Cuckoo.Sim
/-! # Lemmas about calls that use the whole table -/
namespace Verif.Cuckoo

variable {K V : Type} [DecidableEq K]

theorem clear_inv {cfg : Cfg K} {t : Table K V} {m : K → Option V} (h : Inv cfg t m) : Inv cfg t.clear (fun _ => none) := by
  have hl : ∀ p, live cfg t.clear none2 p = none := by
    intro p; cases p <;> rfl
  refine ⟨⟨⟨?_, ?_, ?_, ?_, ?_⟩, ⟨h.wf.lazy.bits, ?_, ?_⟩, ?_⟩, 0, ⟨[], List.nodup_nil, by intro k; simp, rfl⟩, ?_⟩
  · intro p e hp; rw [hl] at hp; cases hp
  · intro p e hp; rw [hl] at hp; cases hp
  · intro p e hp; rw [hl] at hp; cases hp
  · intro k v hk; cases hk
  · intro p q e e' hp; rw [hl] at hp; cases hp
  · intro i hi; cases hi
  · intro i s _; rfl
  · exact (unmigrated_all_true _).symm
  · exact (new_inv (V := V) cfg _ h.wf.lazy.bits).size.elim fun n hn => by
      show ((List.range (numLocks cfg)).map fun _ => (0 : Int)).sum = (0 : Nat)
      generalize numLocks cfg = n
      induction n with
      | zero => rfl
      | succ n ih => rw [List.range_succ, List.map_append, List.sum_append, ih]; rfl

/-! ## Iteration -/

/-- The pairs from a position on. -/
def after (size : Nat) (b : Buckets K V) (i s : Nat) : List (Entry K V) :=
  if i < size then
    if s < SLOTS then (b i s).toList ++ after size b i (s + 1)
    else after size b (i + 1) 0
  else []
termination_by (size - i, SLOTS - s)

theorem seek_after (size : Nat) (b : Buckets K V) (i s : Nat) :
    (after size b i s = [] ) ∨
    ∃ e, (seek size b i s).1 < size ∧ b (seek size b i s).1 (seek size b i s).2 = some e ∧
      after size b i s = e :: after size b (seek size b i s).1 ((seek size b i s).2 + 1) := by
  induction i, s using seek.induct (b := b) (size := size) with
  | case1 i s h1 h2 h3 =>
    rw [seek, if_pos h1, if_pos h2, if_pos h3]
    right
    obtain ⟨e, he⟩ := Option.isSome_iff_exists.mp h3
    refine ⟨e, h1, he, ?_⟩
    rw [after, if_pos h1, if_pos h2, he]; rfl
  | case2 i s h1 h2 h3 ih =>
    rw [seek, if_pos h1, if_pos h2, if_neg h3]
    have hn : b i s = none := by simpa using h3
    have : after size b i s = after size b i (s + 1) := by
      conv => lhs; rw [after, if_pos h1, if_pos h2, hn]
      rfl
    rw [this]; exact ih
  | case3 i s h1 h2 ih =>
    rw [seek, if_pos h1, if_neg h2]
    have : after size b i s = after size b (i + 1) 0 := by
      conv => lhs; rw [after, if_pos h1, if_neg h2]
    rw [this]; exact ih
  | case4 i s h1 => left; rw [after, if_neg h1]

theorem mem_after (size : Nat) (b : Buckets K V) (i s : Nat) (e : Entry K V) :
    e ∈ after size b i s ↔ ∃ j r, j < size ∧ r < SLOTS ∧ b j r = some e ∧ (i < j ∨ (j = i ∧ s ≤ r)) := by
  induction i, s using after.induct (size := size) with
  | case1 i s h1 h2 ih =>
    rw [after, if_pos h1, if_pos h2, List.mem_append, ih]
    constructor
    · rintro (h | ⟨j, r, hj, hr, hb, ho⟩)
      · exact ⟨i, s, h1, h2, Option.mem_toList.mp h, Or.inr ⟨rfl, Nat.le_refl _⟩⟩
      · exact ⟨j, r, hj, hr, hb, by omega⟩
    · rintro ⟨j, r, hj, hr, hb, ho⟩
      by_cases hc : j = i ∧ r = s
      · obtain ⟨rfl, rfl⟩ := hc; left; exact Option.mem_toList.mpr hb
      · right; exact ⟨j, r, hj, hr, hb, by omega⟩
  | case2 i s h1 h2 ih =>
    rw [after, if_pos h1, if_neg h2, ih]
    constructor
    · rintro ⟨j, r, hj, hr, hb, ho⟩; exact ⟨j, r, hj, hr, hb, by omega⟩
    · rintro ⟨j, r, hj, hr, hb, ho⟩; exact ⟨j, r, hj, hr, hb, by omega⟩
  | case3 i s h1 =>
    rw [after, if_neg h1]
    constructor
    · intro h; cases h
    · rintro ⟨j, r, hj, _, _, _⟩; omega

theorem nodup_after {size : Nat} {b : Buckets K V}
    (h : ∀ i s j r e e', b i s = some e → b j r = some e' → e.key = e'.key → i = j ∧ s = r) (i s : Nat) :
    ((after size b i s).map Entry.key).Nodup := by
  induction i, s using after.induct (size := size) with
  | case1 i s h1 h2 ih =>
    rw [after, if_pos h1, if_pos h2]
    cases hb : b i s with
    | none => exact ih
    | some e =>
      show (e.key :: (after size b i (s + 1)).map Entry.key).Nodup
      refine List.nodup_cons.mpr ⟨?_, ih⟩
      intro hc
      obtain ⟨e', he', hk⟩ := List.mem_map.mp hc
      obtain ⟨j, r, _, _, hb', ho⟩ := (mem_after size b i (s + 1) e').mp he'
      have := h i s j r e e' hb hb' hk.symm
      omega
  | case2 i s h1 h2 ih => rw [after, if_pos h1, if_neg h2]; exact ih
  | case3 i s h1 => rw [after, if_neg h1]; exact List.nodup_nil

theorem begin_after {size : Nat} {b : Buckets K V} (hs : 0 < size) : after size b 0 0 = [] ∨
    ∃ e, (begin_ size b).1 < size ∧ b (begin_ size b).1 (begin_ size b).2 = some e ∧
      after size b 0 0 = e :: after size b (begin_ size b).1 ((begin_ size b).2 + 1) := by
  have := seek_after size b 0 0
  have hb : begin_ size b = seek size b 0 0 := by
    unfold begin_
    conv => rhs; rw [seek, if_pos hs, if_pos (by decide)]
  rw [hb]; exact this

/-- A walk along the iterator. -/
theorem forEachLoop_ok (size : Nat) (b : Buckets K V) (action : List (K × V) → Bool) :
    ∀ (l : List (Entry K V)) (p : Nat × Nat) (seen : List (K × V)),
      (l = [] ∨ ∃ e, p.1 < size ∧ b p.1 p.2 = some e ∧ l = e :: after size b p.1 (p.2 + 1)) →
      forEachLoop size b action l.length p seen = .ok (walk action (l.map fun e => (e.key, e.val)) seen) := by
  intro l
  induction l with
  | nil => intro p seen _; rfl
  | cons e rest ih =>
    intro p seen h
    rcases h with h | ⟨e', h1, h2, h3⟩
    · cases h
    · injection h3 with h3 h4
      subst h3
      rw [List.length_cons]
      unfold forEachLoop
      rw [if_pos h1, h2]
      simp only [List.map_cons, walk]
      by_cases ha : action ((e.key, e.val) :: seen) = true
      · rw [if_pos ha, if_pos ha]
        apply ih
        have := seek_after size b p.1 (p.2 + 1)
        rw [← h4] at this
        exact this
      · rw [if_neg ha, if_neg ha]

theorem length_le_of_sub {α : Type} [DecidableEq α] : ∀ (a b : List α), a.Nodup → (∀ x, x ∈ a → x ∈ b) → a.length ≤ b.length := by
  intro a
  induction a with
  | nil => intro b _ _; exact Nat.zero_le _
  | cons x rest ih =>
    intro b hn hs
    obtain ⟨hx, hn'⟩ := List.nodup_cons.mp hn
    have hxb := hs x (List.mem_cons_self ..)
    have := ih (b.erase x) hn' (by
      intro y hy
      refine (List.mem_erase_of_ne ?_).mpr (hs y (List.mem_cons_of_mem _ hy))
      intro hc; exact hx (hc ▸ hy))
    rw [List.length_erase_of_mem hxb] at this
    have := List.length_pos_of_mem hxb
    simp only [List.length_cons]
    omega

theorem Keys.unique {m : K → Option V} {n n' : Nat} (h : Keys m n) (h' : Keys m n') : n = n' := by
  obtain ⟨ks, h1, h2, h3⟩ := h
  obtain ⟨ks', h1', h2', h3'⟩ := h'
  have a := length_le_of_sub ks ks' h1 (fun x hx => (h2' x).mpr ((h2 x).mp hx))
  have b := length_le_of_sub ks' ks h1' (fun x hx => (h2 x).mpr ((h2' x).mp hx))
  omega

theorem Listing.keys {m : K → Option V} {l : List (K × V)} (h : Listing m l) : Keys m l.length := by
  refine ⟨l.map Prod.fst, h.1, ?_, by rw [List.length_map]⟩
  intro k
  constructor
  · intro hk
    obtain ⟨⟨k', v⟩, hp, rfl⟩ := List.mem_map.mp hk
    rw [(h.2 k' v).mp hp]; rfl
  · intro hk
    obtain ⟨v, hv⟩ := Option.isSome_iff_exists.mp hk
    exact List.mem_map.mpr ⟨(k, v), (h.2 k v).mpr hv, rfl⟩

theorem forEach_ok {cfg : Cfg K} {t : Table K V} {m : K → Option V} (h : Inv cfg t m) (action : List (K × V) → Bool) :
    ∃ t' l, forEach cfg t action = .ok (t', walk action l []) ∧ Listing m l ∧ Inv cfg t' m := by
  obtain ⟨t', h1, h2, _, h4⟩ := lockTable_ok h
  have hr := h2.wf.rep
  have hlist : Listing m ((after (hashsize t'.hp) t'.cur 0 0).map fun e => (e.key, e.val)) := by
    refine ⟨?_, ?_⟩
    · rw [List.map_map]
      show ((after (hashsize t'.hp) t'.cur 0 0).map Entry.key).Nodup
      apply nodup_after
      intro i s j r e e' he he' hk
      have := hr.once (.cur i s) (.cur j r) e e' he he' hk
      injection this with ha hb; exact ⟨ha, hb⟩
    · intro k v
      rw [List.mem_map]
      constructor
      · rintro ⟨e, he, hp⟩
        injection hp with hk hv
        obtain ⟨j, r, _, _, hb, _⟩ := (mem_after _ _ _ _ e).mp he
        have := hr.val (.cur j r) e hb
        rw [hk, hv] at this; exact this
      · intro hk
        obtain ⟨p, e, hp, he⟩ := hr.all k v hk
        cases p with
        | old i s => rw [h4] at hp; cases hp
        | cur i s =>
          have hf := hr.fits _ _ hp
          have hv := hr.val _ _ hp
          rw [he, hk] at hv; injection hv with hv
          exact ⟨e, (mem_after _ _ _ _ e).mpr ⟨i, s, hf.2.lt, hf.1, hp, by omega⟩, by rw [he, ← hv]⟩
  obtain ⟨n, hn, hs⟩ := h2.size
  have hlen := hlist.keys.unique hn
  rw [List.length_map] at hlen
  refine ⟨t', _, ?_, hlist, h2⟩
  unfold forEach
  rw [h1, Outcome.bind_ok, hs, Int.toNat_natCast, ← hlen, forEachLoop_ok _ _ _ _ _ _ (begin_after (size := hashsize t'.hp) (Nat.two_pow_pos _)), Outcome.bind_ok]

theorem walk_mem (f : List (K × V) → Bool) : ∀ (l seen : List (K × V)) (p : K × V), p ∈ walk f l seen → p ∈ l ∨ p ∈ seen := by
  intro l
  induction l with
  | nil => intro seen p h; exact Or.inr h
  | cons q rest ih =>
    intro seen p h
    unfold walk at h
    split at h
    · rcases ih _ _ h with h | h
      · exact Or.inl (List.mem_cons_of_mem _ h)
      · rcases List.mem_cons.mp h with h | h
        · exact Or.inl (h ▸ List.mem_cons_self ..)
        · exact Or.inr h
    · rcases List.mem_cons.mp h with h | h
      · exact Or.inl (h ▸ List.mem_cons_self ..)
      · exact Or.inr h

theorem walk_seen (f : List (K × V) → Bool) : ∀ (l seen : List (K × V)) (p : K × V), p ∈ seen → p ∈ walk f l seen := by
  intro l
  induction l with
  | nil => intro seen p h; exact h
  | cons q rest ih =>
    intro seen p h
    unfold walk
    split
    · exact ih _ _ (List.mem_cons_of_mem _ h)
    · exact List.mem_cons_of_mem _ h

theorem walk_find [DecidableEq V] (v : V) : ∀ (l seen : List (K × V)) (p : K × V), p ∈ l → p.2 = v →
    ∃ p, p ∈ walk (untilValue v) l seen ∧ p.2 = v := by
  intro l
  induction l with
  | nil => intro seen p h; cases h
  | cons q rest ih =>
    intro seen p hp hv
    unfold walk
    by_cases hq : v = q.2
    · rw [if_neg (by unfold untilValue; simpa using hq)]
      exact ⟨q, List.mem_cons_self .., hq.symm⟩
    · rw [if_pos (by unfold untilValue; simpa using hq)]
      rcases List.mem_cons.mp hp with h | h
      · exact absurd (h ▸ hv).symm hq
      · exact ih _ p h hv

theorem containsValue_ok [DecidableEq V] {cfg : Cfg K} {t : Table K V} {m : K → Option V} (h : Inv cfg t m) (v : V) :
    ∃ t' b, containsValue cfg t v = .ok (t', b) ∧ (b = true ↔ ∃ k, m k = some v) ∧ Inv cfg t' m := by
  obtain ⟨t', l, h1, h2, h3⟩ := forEach_ok h (untilValue v)
  refine ⟨t', _, by unfold containsValue; rw [h1, Outcome.bind_ok], ?_, h3⟩
  rw [List.any_eq_true]
  constructor
  · rintro ⟨p, hp, hv⟩
    rcases walk_mem _ l [] p hp with hp | hp
    · refine ⟨p.1, (h2.2 p.1 v).mp ?_⟩
      have : v = p.2 := by simpa using hv
      rw [this]; exact hp
    · cases hp
  · rintro ⟨k, hk⟩
    obtain ⟨p, hp, hv⟩ := walk_find v l [] (k, v) ((h2.2 k v).mpr hk) rfl
    exact ⟨p, hp, by simp [hv]⟩

end Verif.Cuckoo
