import Verif.Cuckoo.Lemmas
/-! # Lemmas about the migration of old buckets -/
namespace Verif.Cuckoo

variable {K V : Type} [DecidableEq K]

/-- The old slot `i`, `s` has been moved too. -/
def mark (moved : Nat → Nat → Bool) (i s : Nat) : Nat → Nat → Bool :=
  fun j r => if j = i ∧ r = s then true else moved j r

theorem mark_self (moved : Nat → Nat → Bool) (i s : Nat) : mark moved i s i s = true := if_pos ⟨rfl, rfl⟩

theorem mark_mono {moved : Nat → Nat → Bool} (i s : Nat) {j r : Nat} (h : moved j r = true) : mark moved i s j r = true := by
  unfold mark; split
  · rfl
  · exact h

theorem mark_slot {moved : Nat → Nat → Bool} {i s r : Nat} (h : r ≠ s) : mark moved i s i r = moved i r :=
  if_neg fun hc => h hc.2

theorem mark_bucket {moved : Nat → Nat → Bool} {i s j r : Nat} (h : j ≠ i) : mark moved i s j r = moved j r :=
  if_neg fun hc => h hc.1

theorem live_mark (cfg : Cfg K) (t : Table K V) (moved : Nat → Nat → Bool) (i s : Nat) :
    live cfg t (mark moved i s) = upd (live cfg t moved) (.old i s) none := by
  funext p
  cases p with
  | cur j r =>
    unfold upd
    rw [if_neg (by intro hc; cases hc)]
    rfl
  | old j r =>
    show (if t.migrated (lockInd cfg j) || mark moved i s j r then none else t.old j r) =
      (if Place.old j r = Place.old i s then none else if t.migrated (lockInd cfg j) || moved j r then none else t.old j r)
    by_cases h : j = i ∧ r = s
    · obtain ⟨rfl, rfl⟩ := h
      rw [mark_self]; simp
    · rw [if_neg (c := Place.old j r = Place.old i s)]
      · have : mark moved i s j r = moved j r := if_neg h
        rw [this]
      · intro hc; injection hc with h1 h2; exact h ⟨h1, h2⟩

theorem put_bucket {b : Buckets K V} {i s j r : Nat} {x : Option (Entry K V)} (h : j ≠ i) : b.put i s x j r = b j r :=
  if_neg fun hc => h hc.1

theorem put_slot {b : Buckets K V} {i s r : Nat} {x : Option (Entry K V)} (h : r ≠ s) : b.put i s x i r = b i r :=
  if_neg fun hc => h hc.2

theorem put_self (b : Buckets K V) (i s : Nat) (x : Option (Entry K V)) : b.put i s x i s = x := if_pos ⟨rfl, rfl⟩

/-- `move_bucket` moves every pair of the rest of its bucket to a bucket of its own. -/
theorem moveSlots_ok {cfg : Cfg K} {t : Table K V} {m : K → Option V} {ind : Nat}
    (hl : t.migrated (lockInd cfg ind) = false) (hhp : t.hp = t.oldHp + 1) :
    ∀ (slots : List Nat) (n : Nat) (b : Buckets K V) (M : Nat → Nat → Bool),
      Rep cfg t.hp t.oldHp (live cfg { t with cur := b } M) m → slots.Nodup →
      (∀ s, s ∈ slots → b ind s = none ∧ M ind s = false) → (∀ s, n ≤ s → b (ind + hashsize t.oldHp) s = none) →
      n + slots.length ≤ SLOTS →
      ∃ b' M', moveSlots cfg t.oldHp t.hp t.old ind slots n b = .ok b' ∧
        Rep cfg t.hp t.oldHp (live cfg { t with cur := b' } M') m ∧ (∀ s, s ∈ slots → M' ind s = true) ∧
        (∀ i s, M i s = true → M' i s = true) ∧ (∀ i s, i ≠ ind → M' i s = M i s) ∧
        (∀ i s, i ≠ ind → i ≠ ind + hashsize t.oldHp → b' i s = b i s) := by
  intro slots
  induction slots with
  | nil =>
    intro n b M hr _ _ _ _
    exact ⟨b, M, rfl, hr, (by intro s hs; cases hs), fun _ _ h => h, fun _ _ _ => rfl, fun _ _ _ _ => rfl⟩
  | cons s rest ih =>
    intro n b M hr hnd hfree hup hlen
    have hs := hfree s (List.mem_cons_self ..)
    have hnd' := List.nodup_cons.mp hnd
    have hne : ∀ r, r ∈ rest → r ≠ s := fun r hr hc => hnd'.1 (hc ▸ hr)
    have hlen' : n + (rest.length + 1) ≤ SLOTS := hlen
    have hsize : 0 < hashsize t.oldHp := Nat.two_pow_pos _
    have hold : live cfg { t with cur := b } M (.old ind s) = t.old ind s := by
      show (if t.migrated (lockInd cfg ind) || M ind s then none else t.old ind s) = _
      rw [hl, hs.2]; rfl
    have hmark := live_mark cfg { t with cur := b } M ind s
    unfold moveSlots
    cases ho : t.old ind s with
    | none =>
      have hsame : live cfg { t with cur := b } (mark M ind s) = live cfg { t with cur := b } M := by
        rw [hmark]; funext p
        unfold upd
        split
        · next h => rw [h, hold, ho]
        · rfl
      obtain ⟨b', M', h1, h2, h3, h4, h5, h6⟩ := ih n b (mark M ind s) (by rw [hsame]; exact hr) hnd'.2
        (by intro r hr'; refine ⟨(hfree r (List.mem_cons_of_mem _ hr')).1, ?_⟩
            rw [mark_slot (hne r hr')]; exact (hfree r (List.mem_cons_of_mem _ hr')).2) hup (by omega)
      refine ⟨b', M', h1, h2, ?_, fun i r h => h4 i r (mark_mono ind s h), ?_, h6⟩
      · intro r hr'
        rcases List.mem_cons.mp hr' with h | h
        · rw [h]; exact h4 ind s (mark_self ..)
        · exact h3 r h
      · intro i r hi; rw [h5 i r hi, mark_bucket hi]
    | some e =>
      rw [ho] at hold
      have hfit : s < SLOTS ∧ Home cfg t.oldHp e.key ind := hr.fits _ _ hold
      simp only
      by_cases hc : (ind = first t.oldHp (cfg.hash e.key) ∧ first t.hp (cfg.hash e.key) = ind + hashsize t.oldHp) ∨
         (ind = second t.oldHp (cfg.hash e.key) ∧ second t.hp (cfg.hash e.key) = ind + hashsize t.oldHp)
      · rw [if_pos hc]
        have hnone : b (ind + hashsize t.oldHp) n = none := hup n (Nat.le_refl _)
        have hset : setKV b (ind + hashsize t.oldHp) n e = .ok (b.put (ind + hashsize t.oldHp) n (some e)) := by
          unfold setKV; rw [hnone]
        rw [hset, Outcome.bind_ok]
        rw [hhp] at hc
        have hfits : Fits cfg t.hp t.oldHp e.key (.cur (ind + hashsize t.oldHp) n) :=
          ⟨by omega, by rw [hhp]; exact home_up hc⟩
        have hr' := hr.move hold (q := .cur (ind + hashsize t.oldHp) n) hnone hfits
        have hput := live_put cfg { t with cur := b } M (ind + hashsize t.oldHp) n (some e)
        rw [← hput, ← live_mark] at hr'
        obtain ⟨b', M', h1, h2, h3, h4, h5, h6⟩ := ih (n + 1) (b.put (ind + hashsize t.oldHp) n (some e)) (mark M ind s) hr' hnd'.2
          (by intro r hr'; refine ⟨?_, ?_⟩
              · rw [put_bucket (by omega)]; exact (hfree r (List.mem_cons_of_mem _ hr')).1
              · rw [mark_slot (hne r hr')]; exact (hfree r (List.mem_cons_of_mem _ hr')).2)
          (by intro r hr'; rw [put_slot (by omega)]; exact hup r (by omega)) (by omega)
        refine ⟨b', M', h1, h2, ?_, fun i r h => h4 i r (mark_mono ind s h), ?_, ?_⟩
        · intro r hr'
          rcases List.mem_cons.mp hr' with h | h
          · rw [h]; exact h4 ind s (mark_self ..)
          · exact h3 r h
        · intro i r hi; rw [h5 i r hi, mark_bucket hi]
        · intro i r hi hi'; rw [h6 i r hi hi', put_bucket hi']
      · rw [if_neg hc]
        have hset : setKV b ind s e = .ok (b.put ind s (some e)) := by
          unfold setKV; rw [hs.1]
        rw [hset, Outcome.bind_ok]
        rw [hhp] at hc
        have hfits : Fits cfg t.hp t.oldHp e.key (.cur ind s) :=
          ⟨hfit.1, by rw [hhp]; exact home_stay hfit.2 hc⟩
        have hr' := hr.move hold (q := .cur ind s) hs.1 hfits
        have hput := live_put cfg { t with cur := b } M ind s (some e)
        rw [← hput, ← live_mark] at hr'
        obtain ⟨b', M', h1, h2, h3, h4, h5, h6⟩ := ih n (b.put ind s (some e)) (mark M ind s) hr' hnd'.2
          (by intro r hr'; refine ⟨?_, ?_⟩
              · rw [put_slot (hne r hr')]; exact (hfree r (List.mem_cons_of_mem _ hr')).1
              · rw [mark_slot (hne r hr')]; exact (hfree r (List.mem_cons_of_mem _ hr')).2)
          (by intro r hr'; rw [put_bucket (by omega)]; exact hup r hr') (by omega)
        refine ⟨b', M', h1, h2, ?_, fun i r h => h4 i r (mark_mono ind s h), ?_, ?_⟩
        · intro r hr'
          rcases List.mem_cons.mp hr' with h | h
          · rw [h]; exact h4 ind s (mark_self ..)
          · exact h3 r h
        · intro i r hi; rw [h5 i r hi, mark_bucket hi]
        · intro i r hi hi'; rw [h6 i r hi hi', put_bucket hi]

/-- The buckets of a stripe. -/
theorem moveBuckets_ok {cfg : Cfg K} {t : Table K V} {m : K → Option V} {l : Nat}
    (hl : t.migrated l = false) (hhp : t.hp = t.oldHp + 1) (hbits : cfg.lockBits ≤ t.oldHp) :
    ∀ (inds : List Nat) (b : Buckets K V) (M : Nat → Nat → Bool),
      Rep cfg t.hp t.oldHp (live cfg { t with cur := b } M) m → inds.Nodup →
      (∀ i, i ∈ inds → i < hashsize t.oldHp ∧ lockInd cfg i = l ∧
        ∀ s, b i s = none ∧ b (i + hashsize t.oldHp) s = none ∧ M i s = false) →
      ∃ b' M', moveBuckets cfg t.oldHp t.hp t.old inds b = .ok b' ∧
        Rep cfg t.hp t.oldHp (live cfg { t with cur := b' } M') m ∧ (∀ i s, i ∈ inds → s < SLOTS → M' i s = true) ∧
        (∀ i s, M i s = true → M' i s = true) ∧ (∀ i s, lockInd cfg i ≠ l → M' i s = M i s) ∧
        (∀ i s, lockInd cfg i ≠ l → b' i s = b i s) := by
  intro inds
  induction inds with
  | nil =>
    intro b M hr _ _
    exact ⟨b, M, rfl, hr, (by intro i s hs; cases hs), fun _ _ h => h, fun _ _ _ => rfl, fun _ _ _ => rfl⟩
  | cons i rest ih =>
    intro b M hr hnd hfree
    have hi := hfree i (List.mem_cons_self ..)
    have hnd' := List.nodup_cons.mp hnd
    have hne : ∀ j, j ∈ rest → j ≠ i := fun j hj hc => hnd'.1 (hc ▸ hj)
    unfold moveBuckets moveBucket
    obtain ⟨b1, M1, h1, h2, h3, h4, h5, h6⟩ := moveSlots_ok (ind := i) (by rw [hi.2.1]; exact hl) hhp (List.range SLOTS) 0 b M hr
      List.nodup_range (fun s _ => ⟨(hi.2.2 s).1, (hi.2.2 s).2.2⟩) (fun s _ => (hi.2.2 s).2.1) (by simp)
    rw [h1, Outcome.bind_ok]
    obtain ⟨b', M', h1', h2', h3', h4', h5', h6'⟩ := ih b1 M1 h2 hnd'.2 (by
      intro j hj
      have hj' := hfree j (List.mem_cons_of_mem _ hj)
      refine ⟨hj'.1, hj'.2.1, fun s => ⟨?_, ?_, ?_⟩⟩
      · rw [h6 j s (hne j hj) (by omega)]; exact (hj'.2.2 s).1
      · rw [h6 _ s (by omega) (by have := hne j hj; omega)]; exact (hj'.2.2 s).2.1
      · rw [h5 j s (hne j hj)]; exact (hj'.2.2 s).2.2)
    refine ⟨b', M', h1', h2', ?_, fun j s h => h4' j s (h4 j s h), ?_, ?_⟩
    · intro j s hj hs
      rcases List.mem_cons.mp hj with h | h
      · rw [h]; exact h4' i s (h3 s (by simpa using hs))
      · exact h3' j s h hs
    · intro j s hj
      rw [h5' j s hj, h5 j s (by intro hc; rw [hc] at hj; exact hj hi.2.1)]
    · intro j s hj
      rw [h6' j s hj, h6 j s (by intro hc; rw [hc] at hj; exact hj hi.2.1)
        (by intro hc; rw [hc, lockInd_add _ _ _ hbits] at hj; exact hj hi.2.1)]

theorem mem_stripe {cfg : Cfg K} {oldHp l i : Nat} (hbits : cfg.lockBits ≤ oldHp) (hl : l < numLocks cfg) :
    i ∈ stripe cfg oldHp l ↔ i < hashsize oldHp ∧ lockInd cfg i = l := by
  have hsz : hashsize oldHp = numLocks cfg * 2 ^ (oldHp - cfg.lockBits) := by
    unfold hashsize numLocks; rw [← Nat.pow_add]; congr 1; omega
  have hpos : 0 < numLocks cfg := Nat.two_pow_pos _
  unfold stripe
  rw [lockInd_eq]
  show _ ↔ _ ∧ i % numLocks cfg = l
  rw [hsz]
  simp only [List.mem_map, List.mem_range]
  constructor
  · rintro ⟨j, hj, rfl⟩
    refine ⟨?_, ?_⟩
    · have := Nat.mul_le_mul_left (numLocks cfg) (Nat.succ_le_of_lt hj)
      rw [Nat.mul_succ] at this
      rw [Nat.mul_comm j]; omega
    · rw [Nat.add_mul_mod_self_right, Nat.mod_eq_of_lt hl]
  · rintro ⟨h1, h2⟩
    refine ⟨i / numLocks cfg, Nat.div_lt_of_lt_mul h1, ?_⟩
    have := Nat.mod_add_div i (numLocks cfg)
    rw [Nat.mul_comm] at this
    omega

theorem nodup_stripe (cfg : Cfg K) (oldHp l : Nat) : (stripe cfg oldHp l).Nodup := by
  unfold stripe
  have hpos : 0 < numLocks cfg := Nat.two_pow_pos _
  refine List.Pairwise.map _ ?_ List.nodup_range
  intro a b hab hc
  exact hab (Nat.eq_of_mul_eq_mul_right hpos (by omega))

/-- The flags and the old buckets fit together. -/
structure Lazy (cfg : Cfg K) (t : Table K V) : Prop where
  bits : cfg.lockBits ≤ t.hp
  mem : ∀ i, t.migrated (lockInd cfg i) = false → t.oldMem = true ∧ t.hp = t.oldHp + 1 ∧ cfg.lockBits ≤ t.oldHp
  empty : ∀ i s, t.migrated (lockInd cfg i) = false → t.cur i s = none

theorem lockInd_self {cfg : Cfg K} {l : Nat} (h : l < numLocks cfg) : lockInd cfg l = l := by
  rw [lockInd_eq]; exact Nat.mod_eq_of_lt h

/-- The table with the stripe of lock `l` migrated. -/
theorem migrate_ok {cfg : Cfg K} {t : Table K V} {m : K → Option V} {l : Nat} (hr : Rep cfg t.hp t.oldHp (live cfg t none2) m)
    (hz : Lazy cfg t) (hlt : l < numLocks cfg) (hl : t.migrated l = false) :
    ∃ cur, moveBuckets cfg t.oldHp t.hp t.old (stripe cfg t.oldHp l) t.cur = .ok cur ∧
      Rep cfg t.hp t.oldHp (live cfg { t with cur := cur, migrated := fun j => if j = l then true else t.migrated j } none2) m ∧
      Lazy cfg { t with cur := cur, migrated := fun j => if j = l then true else t.migrated j } := by
  have hself := lockInd_self hlt
  obtain ⟨hmem, hhp, hbits⟩ := hz.mem l (by rw [hself]; exact hl)
  obtain ⟨b', M', h1, h2, h3, _, h5, h6⟩ := moveBuckets_ok hl hhp hbits (stripe cfg t.oldHp l) t.cur none2 hr (nodup_stripe ..) (by
    intro i hi
    obtain ⟨hi1, hi2⟩ := (mem_stripe hbits hlt).mp hi
    refine ⟨hi1, hi2, fun s => ⟨hz.empty i s (by rw [hi2]; exact hl), hz.empty _ s (by rw [lockInd_add _ _ _ hbits, hi2]; exact hl), rfl⟩⟩)
  have hlive : live cfg { t with cur := b', migrated := fun j => if j = l then true else t.migrated j } none2 =
      live cfg { t with cur := b' } M' := by
    funext p
    cases p with
    | cur i s => rfl
    | old i s =>
      show (if (if lockInd cfg i = l then true else t.migrated (lockInd cfg i)) || false then none else t.old i s) =
        (if t.migrated (lockInd cfg i) || M' i s then none else t.old i s)
      by_cases hi : lockInd cfg i = l
      · rw [if_pos hi, hi, hl]
        cases hm : M' i s with
        | true => rfl
        | false =>
          cases ho : t.old i s with
          | none => rfl
          | some e =>
            exfalso
            have hlv : live cfg { t with cur := b' } M' (.old i s) = some e := by
              show (if t.migrated (lockInd cfg i) || M' i s then none else t.old i s) = _
              rw [hi, hl, hm]; exact ho
            obtain ⟨hs, hh⟩ := h2.fits _ _ hlv
            have := h3 i s ((mem_stripe hbits hlt).mpr ⟨hh.lt, hi⟩) hs
            rw [this] at hm; cases hm
      · rw [if_neg hi, h5 i s hi]; rfl
  refine ⟨b', h1, by rw [hlive]; exact h2, ⟨hz.bits, ?_, ?_⟩⟩
  · intro i hi
    by_cases hc : lockInd cfg i = l
    · simp [hc] at hi
    · simp only [if_neg hc] at hi; exact hz.mem i hi
  · intro i s hi
    by_cases hc : lockInd cfg i = l
    · simp [hc] at hi
    · simp only [if_neg hc] at hi
      show b' i s = none
      rw [h6 i s hc]; exact hz.empty i s hi

/-- The number of locks below `n` that are not migrated. -/
def unmigrated (f : Nat → Bool) (n : Nat) : Nat := (List.range n).countP fun l => !f l

theorem unmigrated_succ (f : Nat → Bool) (n : Nat) : unmigrated f (n + 1) = unmigrated f n + (if f n then 0 else 1) := by
  unfold unmigrated
  rw [List.range_succ, List.countP_append, List.countP_cons, List.countP_nil]
  cases f n <;> simp

theorem unmigrated_ge (f : Nat → Bool) (l n : Nat) (h : n ≤ l) :
    unmigrated (fun j => if j = l then true else f j) n = unmigrated f n := by
  induction n with
  | zero => rfl
  | succ n ih =>
    have hne : n ≠ l := by omega
    rw [unmigrated_succ, unmigrated_succ, ih (by omega), if_neg hne]

theorem unmigrated_set (f : Nat → Bool) (l n : Nat) (h : l < n) (hl : f l = false) :
    unmigrated (fun j => if j = l then true else f j) n + 1 = unmigrated f n := by
  induction n with
  | zero => omega
  | succ n ih =>
    rw [unmigrated_succ, unmigrated_succ]
    by_cases hc : n = l
    · rw [hc, unmigrated_ge f l l (Nat.le_refl _), if_pos rfl, hl]; simp
    · rw [if_neg hc]; have := ih (by omega); omega

theorem unmigrated_zero {f : Nat → Bool} {n l : Nat} (h : unmigrated f n = 0) (hl : l < n) : f l = true := by
  induction n with
  | zero => omega
  | succ n ih =>
    rw [unmigrated_succ] at h
    by_cases hc : l = n
    · rw [hc]; cases hf : f n
      · rw [hf] at h; simp at h
      · rfl
    · exact ih (by omega) (by omega)

theorem unmigrated_all_true (n : Nat) : unmigrated (fun _ => true) n = 0 := by
  induction n with
  | zero => rfl
  | succ n ih => rw [unmigrated_succ, ih]; rfl

theorem unmigrated_all_false (n : Nat) : unmigrated (fun _ => false) n = n := by
  induction n with
  | zero => rfl
  | succ n ih => rw [unmigrated_succ, ih]; rfl

/-- The whole invariant of a table that stands for map `m`. -/
structure WF (cfg : Cfg K) (t : Table K V) (m : K → Option V) : Prop where
  rep : Rep cfg t.hp t.oldHp (live cfg t none2) m
  lazy : Lazy cfg t
  left : t.remaining = unmigrated t.migrated (numLocks cfg)

/-- Old buckets may go when all locks are migrated. -/
theorem live_drop (cfg : Cfg K) (t : Table K V) (n : Nat) (h : ∀ i, t.migrated (lockInd cfg i) = true) :
    live cfg ({ t with remaining := n }.drop) none2 = live cfg t none2 := by
  funext p
  cases p with
  | cur i s => rfl
  | old i s =>
    show (if t.migrated (lockInd cfg i) || false then none else none) = (if t.migrated (lockInd cfg i) || false then none else t.old i s)
    rw [h i]; rfl

theorem Lazy.drop {cfg : Cfg K} {t : Table K V} (n : Nat) (hz : Lazy cfg t) (h : ∀ i, t.migrated (lockInd cfg i) = true) :
    Lazy cfg ({ t with remaining := n }.drop) :=
  ⟨hz.bits, fun i hi => absurd ((h i).symm.trans hi) (by simp), fun i s hi => absurd ((h i).symm.trans hi) (by simp)⟩

/-- What a lock taken leaves unchanged. -/
structure Same (t t' : Table K V) : Prop where
  hp : t'.hp = t.hp
  counter : t'.counter = t.counter
  mono : ∀ l, t.migrated l = true → t'.migrated l = true

theorem Same.refl (t : Table K V) : Same t t := ⟨rfl, rfl, fun _ h => h⟩

theorem Same.trans {t t' t'' : Table K V} (h : Same t t') (h' : Same t' t'') : Same t t'' :=
  ⟨h'.hp.trans h.hp, h'.counter.trans h.counter, fun l hl => h'.mono l (h.mono l hl)⟩

/-- Lazy migration keeps the contents. -/
theorem rehashLock_ok {cfg : Cfg K} {t : Table K V} {m : K → Option V} {l : Nat} (h : WF cfg t m) (hlt : l < numLocks cfg) :
    ∃ t', rehashLock cfg true t l = .ok t' ∧ WF cfg t' m ∧ Same t t' ∧ t'.migrated l = true := by
  unfold rehashLock
  by_cases hm : t.migrated l = true
  · rw [if_pos hm]; exact ⟨t, rfl, h, Same.refl t, hm⟩
  · rw [if_neg hm]
    have hm' : t.migrated l = false := by simpa using hm
    have hmem := (h.lazy.mem l (by rw [lockInd_self hlt]; exact hm')).1
    rw [if_neg (by rw [hmem]; simp)]
    obtain ⟨cur, h1, h2, h3⟩ := migrate_ok h.rep h.lazy hlt hm'
    rw [h1, Outcome.bind_ok]
    have hcount := unmigrated_set t.migrated l (numLocks cfg) hlt hm'
    have hleft := h.left
    simp only [if_true]
    by_cases h1' : t.remaining = 1
    · rw [if_pos h1']
      have hall : ∀ i, (fun j => if j = l then true else t.migrated j) (lockInd cfg i) = true :=
        fun i => unmigrated_zero (f := fun j => if j = l then true else t.migrated j) (by omega) (lockInd_lt cfg i)
      refine ⟨_, rfl, ⟨?_, ?_, ?_⟩, ⟨rfl, rfl, ?_⟩, ?_⟩
      · have := live_drop cfg { t with cur := cur, migrated := fun j => if j = l then true else t.migrated j } (t.remaining - 1) hall
        show Rep cfg t.hp t.oldHp (live cfg ({ { t with cur := cur, migrated := fun j => if j = l then true else t.migrated j } with remaining := t.remaining - 1 }.drop) none2) m
        rw [this]; exact h2
      · exact h3.drop _ hall
      · show t.remaining - 1 = unmigrated (fun j => if j = l then true else t.migrated j) (numLocks cfg)
        omega
      · intro j hj; show (if j = l then true else t.migrated j) = true; rw [hj]; simp
      · show (if l = l then true else t.migrated l) = true; simp
    · rw [if_neg h1']
      refine ⟨_, rfl, ⟨h2, ⟨h3.bits, h3.mem, h3.empty⟩, ?_⟩, ⟨rfl, rfl, ?_⟩, ?_⟩
      · show t.remaining - 1 = unmigrated (fun j => if j = l then true else t.migrated j) (numLocks cfg)
        omega
      · intro j hj; show (if j = l then true else t.migrated j) = true; rw [hj]; simp
      · show (if l = l then true else t.migrated l) = true; simp

theorem rehashLocks_ok {cfg : Cfg K} {m : K → Option V} : ∀ (ls : List Nat) (t : Table K V), WF cfg t m →
    (∀ l, l ∈ ls → l < numLocks cfg) →
    ∃ t', rehashLocks cfg true ls t = .ok t' ∧ WF cfg t' m ∧ Same t t' ∧ ∀ l, l ∈ ls → t'.migrated l = true := by
  intro ls
  induction ls with
  | nil => intro t h _; exact ⟨t, rfl, h, Same.refl t, by intro l hl; cases hl⟩
  | cons l rest ih =>
    intro t h hlt
    unfold rehashLocks
    obtain ⟨t1, h1, h2, h3, h4⟩ := rehashLock_ok h (hlt l (List.mem_cons_self ..))
    rw [h1, Outcome.bind_ok]
    obtain ⟨t2, h1', h2', h3', h4'⟩ := ih t1 h2 (fun j hj => hlt j (List.mem_cons_of_mem _ hj))
    refine ⟨t2, h1', h2', h3.trans h3', ?_⟩
    intro j hj
    rcases List.mem_cons.mp hj with hc | hc
    · rw [hc]; exact h3'.mono l h4
    · exact h4' j hc

/-- The eager migration of all stripes. -/
theorem rehashAll_ok {cfg : Cfg K} {m : K → Option V} : ∀ (ls : List Nat) (t : Table K V),
    Rep cfg t.hp t.oldHp (live cfg t none2) m → Lazy cfg t → (∀ l, l ∈ ls → l < numLocks cfg) →
    ∃ t', rehashLocks cfg false ls t = .ok t' ∧ Rep cfg t'.hp t'.oldHp (live cfg t' none2) m ∧ Lazy cfg t' ∧ Same t t' ∧
      ∀ l, l ∈ ls → t'.migrated l = true := by
  intro ls
  induction ls with
  | nil => intro t h h' _; exact ⟨t, rfl, h, h', Same.refl t, by intro l hl; cases hl⟩
  | cons l rest ih =>
    intro t hr hz hlt
    have hl := hlt l (List.mem_cons_self ..)
    unfold rehashLocks
    have key : ∃ t1, rehashLock cfg false t l = .ok t1 ∧ Rep cfg t1.hp t1.oldHp (live cfg t1 none2) m ∧ Lazy cfg t1 ∧ Same t t1 ∧
        t1.migrated l = true := by
      unfold rehashLock
      by_cases hm : t.migrated l = true
      · rw [if_pos hm]; exact ⟨t, rfl, hr, hz, Same.refl t, hm⟩
      · rw [if_neg hm]
        have hm' : t.migrated l = false := by simpa using hm
        have hmem := (hz.mem l (by rw [lockInd_self hl]; exact hm')).1
        rw [if_neg (by rw [hmem]; simp)]
        obtain ⟨cur, h1, h2, h3⟩ := migrate_ok hr hz hl hm'
        rw [h1, Outcome.bind_ok]
        refine ⟨_, rfl, h2, h3, ⟨rfl, rfl, ?_⟩, ?_⟩
        · intro j hj; show (if j = l then true else t.migrated j) = true; rw [hj]; simp
        · show (if l = l then true else t.migrated l) = true; simp
    obtain ⟨t1, h1, h2, h3, h4, h5⟩ := key
    rw [h1, Outcome.bind_ok]
    obtain ⟨t2, h1', h2', h3', h4', h5'⟩ := ih t1 h2 h3 (fun j hj => hlt j (List.mem_cons_of_mem _ hj))
    refine ⟨t2, h1', h2', h3', h4.trans h4', ?_⟩
    intro j hj
    rcases List.mem_cons.mp hj with hc | hc
    · rw [hc]; exact h4'.mono l h5
    · exact h5' j hc

end Verif.Cuckoo
