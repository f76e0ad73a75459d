import Verif.Cuckoo.Sections
/-! # Every step keeps the map, or is the moment of its call -/
namespace Verif.Cuckoo

variable {K V : Type} [DecidableEq K]

/-! ## The search -/

/-- The number of buckets a search can visit from a bucket at this depth. -/
def below : Nat → Nat
  | 0 => 341 | 1 => 85 | 2 => 21 | 3 => 5 | _ => 1

/-- What may still come into the queue. -/
def due (q : List BSlot) : Nat := (q.map fun x => below x.depth - 1).sum

theorem scanSlots_ok (b : Nat → Option (Entry K V)) (hp : Nat) (x : BSlot) : ∀ (l : List Nat) (acc : List BSlot),
    match scanSlots b hp x l acc with
    | .found s => s < SLOTS ∧ b s = none
    | .more cs => ∃ new, cs = acc ++ new ∧ new.length ≤ (if x.depth < MAX_BFS_PATH_LEN - 1 then l.length else 0) ∧
        ∀ y, y ∈ new → y.depth = x.depth + 1 ∧ x.depth < MAX_BFS_PATH_LEN - 1 := by
  intro l
  induction l with
  | nil => intro acc; exact ⟨[], by simp, by simp, by intro y hy; cases hy⟩
  | cons i rest ih =>
    intro acc
    unfold scanSlots
    simp only
    cases hb : b ((x.pathcode % SLOTS + i) % SLOTS) with
    | none => exact ⟨Nat.mod_lt _ (by decide), hb⟩
    | some e =>
      simp only
      by_cases hd : x.depth < MAX_BFS_PATH_LEN - 1
      · rw [if_pos hd]
        have := ih (acc ++ [⟨altIndex hp e.part x.bucket, x.pathcode * SLOTS + (x.pathcode % SLOTS + i) % SLOTS, x.depth + 1⟩])
        cases hx : scanSlots b hp x rest (acc ++ [⟨altIndex hp e.part x.bucket, x.pathcode * SLOTS + (x.pathcode % SLOTS + i) % SLOTS, x.depth + 1⟩]) with
        | found s => rw [hx] at this; exact this
        | more cs =>
          rw [hx] at this
          obtain ⟨new, h1, h2, h3⟩ := this
          refine ⟨⟨altIndex hp e.part x.bucket, x.pathcode * SLOTS + (x.pathcode % SLOTS + i) % SLOTS, x.depth + 1⟩ :: new, ?_, ?_, ?_⟩
          · rw [h1, List.append_assoc]; rfl
          · rw [if_pos hd] at h2 ⊢; simp only [List.length_cons]; omega
          · intro y hy
            rcases List.mem_cons.mp hy with hc | hc
            · rw [hc]; exact ⟨rfl, hd⟩
            · exact h3 y hc
      · rw [if_neg hd]
        have := ih acc
        cases hx : scanSlots b hp x rest acc with
        | found s => rw [hx] at this; exact this
        | more cs =>
          rw [hx] at this
          obtain ⟨new, h1, h2, h3⟩ := this
          refine ⟨new, h1, ?_, h3⟩
          rw [if_neg hd] at h2 ⊢; exact h2

theorem decode_ok : ∀ (n code : Nat), (decode n code).2.length = n ∧ ∀ s, s ∈ (decode n code).2 → s < SLOTS := by
  intro n
  induction n with
  | zero => intro code; exact ⟨rfl, by intro s hs; cases hs⟩
  | succ n ih =>
    intro code
    have := ih (code / SLOTS)
    unfold decode
    simp only
    refine ⟨by rw [List.length_append, this.1]; rfl, ?_⟩
    intro s hs
    rcases List.mem_append.mp hs with h | h
    · exact this.2 s h
    · rw [List.mem_singleton] at h; rw [h]; exact Nat.mod_lt _ (by decide)

theorem due_append (a b : List BSlot) : due (a ++ b) = due a + due b := by
  unfold due; rw [List.map_append, List.sum_append]

theorem due_cons (x : BSlot) (b : List BSlot) : due (x :: b) = (below x.depth - 1) + due b := rfl

theorem due_children (d : Nat) : ∀ (cs : List BSlot), (∀ y, y ∈ cs → y.depth = d) → due cs = cs.length * (below d - 1) := by
  intro cs
  induction cs with
  | nil => intro _; simp [due]
  | cons y rest ih =>
    intro h
    rw [due_cons, ih (fun z hz => h z (List.mem_cons_of_mem _ hz)), h y (List.mem_cons_self ..), List.length_cons, Nat.succ_mul]
    omega

/-- The children of a bucket do not exceed what it had due. -/
theorem due_step (d : Nat) (cs : List BSlot) (h : ∀ y, y ∈ cs → y.depth = d + 1 ∧ d < MAX_BFS_PATH_LEN - 1)
    (hl : cs.length ≤ (if d < MAX_BFS_PATH_LEN - 1 then SLOTS else 0)) : cs.length + due cs ≤ below d - 1 := by
  rw [due_children (d + 1) cs fun y hy => (h y hy).1]
  by_cases hd : d < MAX_BFS_PATH_LEN - 1
  · rw [if_pos hd] at hl
    have hd' : d < 4 := hd
    have hl' : cs.length ≤ 4 := hl
    have : d = 0 ∨ d = 1 ∨ d = 2 ∨ d = 3 := by omega
    rcases this with rfl | rfl | rfl | rfl <;> simp only [below] <;> omega
  · rw [if_neg hd] at hl
    have : cs.length = 0 := by omega
    rw [this]; simp

/-! ## Where a thread may be -/

/-- The records of a path: slots exist, the first bucket is one of the key's, and
each next bucket is the other bucket of the recorded hash. -/
def Chain (cfg : Cfg K) (hp : Nat) (k : K) (recs : List Rec) : Prop :=
  (∀ r, r ∈ recs → r.slot < SLOTS) ∧ (∀ r, recs[0]? = some r → Home cfg hp k r.bucket) ∧
  ∀ j r r', recs[j]? = some r → recs[j + 1]? = some r' → r'.bucket = altIndex hp (partialKey r.hash) r.bucket

/-- The bucket after the records. -/
def Next (cfg : Cfg K) (hp : Nat) (k : K) (recs : List Rec) (bucket : Nat) : Prop :=
  (recs = [] → Home cfg hp k bucket) ∧
  ∀ r, recs[recs.length - 1]? = some r → bucket = altIndex hp (partialKey r.hash) r.bucket

/-- The call of a thread. -/
def callOf : Pc K V → Option (Call K V)
  | .idle => none
  | .done _ _ => none
  | .snap c => some c
  | .lock c _ => some c
  | .search k v _ _ _ => some (.assign k v)
  | .path k v _ _ _ _ => some (.assign k v)
  | .move k v _ _ _ => some (.assign k v)
  | .double k v _ => some (.assign k v)

/-- What a thread knows. -/
def PcOK (cfg : Cfg K) : Pc K V → Prop
  | .lock _ hp => cfg.lockBits ≤ hp
  | .double _ _ hp => cfg.lockBits ≤ hp
  | .search _ _ hp q last => cfg.lockBits ≤ hp ∧ last + due q ≤ MAX_CUCKOO_COUNT
  | .path k _ hp recs bucket slots => cfg.lockBits ≤ hp ∧ slots ≠ [] ∧ (∀ s, s ∈ slots → s < SLOTS) ∧ Chain cfg hp k recs ∧ Next cfg hp k recs bucket
  | .move k _ hp recs d => cfg.lockBits ≤ hp ∧ d < recs.length ∧ Chain cfg hp k recs
  | _ => True

theorem Chain.snoc {cfg : Cfg K} {hp : Nat} {k : K} {recs : List Rec} {bucket s : Nat} {hash : BitVec 64}
    (h : Chain cfg hp k recs) (hn : Next cfg hp k recs bucket) (hs : s < SLOTS) :
    Chain cfg hp k (recs ++ [⟨bucket, s, hash⟩]) := by
  refine ⟨?_, ?_, ?_⟩
  · intro r hr
    rcases List.mem_append.mp hr with hc | hc
    · exact h.1 r hc
    · rw [List.mem_singleton] at hc; rw [hc]; exact hs
  · intro r hr
    cases recs with
    | nil => injection hr with hr; rw [← hr]; exact hn.1 rfl
    | cons a l => exact h.2.1 r hr
  · intro j r r' hr hr'
    have hlt : j + 1 < (recs ++ [(⟨bucket, s, hash⟩ : Rec)]).length := (List.getElem?_eq_some_iff.mp hr').1
    rw [List.length_append, List.length_singleton] at hlt
    rw [List.getElem?_append_left (by omega)] at hr
    by_cases hj : j + 1 < recs.length
    · rw [List.getElem?_append_left hj] at hr'
      exact h.2.2 j r r' hr hr'
    · have hj' : j + 1 = recs.length := by omega
      rw [hj', List.getElem?_append_right (Nat.le_refl _), Nat.sub_self] at hr'
      injection hr' with hr'
      rw [← hr']
      exact hn.2 r (by rw [← hj']; exact hr)

theorem Next.snoc {cfg : Cfg K} {hp : Nat} {k : K} (recs : List Rec) (bucket s : Nat) (hash : BitVec 64) :
    Next cfg hp k (recs ++ [⟨bucket, s, hash⟩]) (altIndex hp (partialKey hash) bucket) := by
  refine ⟨fun h => absurd h (by simp), ?_⟩
  intro r hr
  rw [List.length_append, List.length_singleton, Nat.add_sub_cancel, List.getElem?_append_right (Nat.le_refl _), Nat.sub_self] at hr
  injection hr with hr
  rw [← hr]

/-! ## One step -/

/-- What a step of a thread in call `c` may do to map `m`. -/
def Good (cfg : Cfg K) (m : K → Option V) (c : Call K V) : Outcome (Table K V × Pc K V) → Prop
  | .ok (t', pc') => (Inv cfg t' m ∧ callOf pc' = some c ∧ PcOK cfg pc') ∨
      ∃ r m', pc' = .done c r ∧ Legal m c r m' ∧ Inv cfg t' m'
  | .throw _ => False
  | .ub => False
  | .diverge => True

/-- An expansion keeps the map. -/
def Expands (cfg : Cfg K) (dbl : Table K V → Nat → Outcome (Table K V)) : Prop :=
  ∀ t m hp, Inv cfg t m → cfg.lockBits ≤ hp →
    match dbl t hp with
    | .ok t' => Inv cfg t' m
    | .throw _ => True
    | .ub => False
    | .diverge => True

theorem good_stay {cfg : Cfg K} {m : K → Option V} {c : Call K V} {t : Table K V} {pc : Pc K V} (h : Inv cfg t m)
    (h1 : callOf pc = some c) (h2 : PcOK cfg pc) : Good cfg m c (.ok (t, pc)) := Or.inl ⟨h, h1, h2⟩

theorem startSearch_ok {cfg : Cfg K} {hp : Nat} (hp' : cfg.lockBits ≤ hp) (k : K) (v : V) (hash : BitVec 64) :
    PcOK cfg (startSearch k v hp hash) := by
  refine ⟨hp', ?_⟩
  show 2 + due _ ≤ MAX_CUCKOO_COUNT
  simp only [due, List.map_cons, List.map_nil, List.sum_cons, List.sum_nil, below]
  decide

theorem both_of {cfg : Cfg K} {t : Table K V} {k : K} {hp : Nat} {bs : List Nat} (hhp : t.hp = hp)
    (hm : ∀ i, i ∈ bs → t.migrated (lockInd cfg i) = true) (h1 : first hp (cfg.hash k) ∈ bs) (h2 : second hp (cfg.hash k) ∈ bs) :
    Both cfg t k := by
  subst hhp; exact ⟨hm _ h1, hm _ h2⟩

theorem finish_good {cfg : Cfg K} {t : Table K V} {m : K → Option V} (h : Inv cfg t m) {k : K} (v : V) {i s : Nat}
    (hb : Both cfg t k) (hi : Home cfg t.hp k i) (hs : s < SLOTS) (hn : t.cur i s = none) :
    Good cfg m (.assign k v) (finish cfg t k v i s) := by
  unfold finish
  simp only
  cases hf : cuckooFind cfg t.cur k (partialKey (cfg.hash k)) (first t.hp (cfg.hash k)) (second t.hp (cfg.hash k)) with
  | some p =>
    obtain ⟨j, r⟩ := p
    obtain ⟨e, he, hk, hv⟩ := find_some h.wf hf
    obtain ⟨t', h1, h2⟩ := assign_ok h v he
    simp only
    rw [h1, Outcome.bind_ok]
    right
    refine ⟨.bool false, update m k (some v), rfl, ?_, hk ▸ h2⟩
    have := Legal.assign m k v
    rw [hv] at this; exact this
  | none =>
    have hk := find_none h.wf hb hf
    obtain ⟨t', h1, h2⟩ := add_ok h v (hi.migrated hb) hi hs hn hk
    simp only
    rw [h1, Outcome.bind_ok]
    right
    refine ⟨.bool true, update m k (some v), rfl, ?_, h2⟩
    have := Legal.assign m k v
    rw [hk] at this; exact this

theorem good_section {cfg : Cfg K} {t : Table K V} {m : K → Option V} {c : Call K V} (h : Inv cfg t m) (hp : Nat) (bs : List Nat)
    {f : Option (Table K V) → Outcome (Table K V × Pc K V)}
    (h0 : Good cfg m c (f none))
    (h1 : ∀ t', Inv cfg t' m → t'.hp = hp → (∀ i, i ∈ bs → t'.migrated (lockInd cfg i) = true) → Good cfg m c (f (some t'))) :
    Good cfg m c ((section_ cfg hp bs t).bind f) := by
  rcases section_ok h hp bs with he | ⟨t', he, hi, hhp, _, hm⟩
  · rw [he, Outcome.bind_ok]; exact h0
  · rw [he, Outcome.bind_ok]; exact h1 t' hi hhp hm

theorem step_good {cfg : Cfg K} {dbl : Table K V → Nat → Outcome (Table K V)} (hd : Expands cfg dbl) {t : Table K V}
    {m : K → Option V} {pc : Pc K V} {c : Call K V} (h : Inv cfg t m) (hc : callOf pc = some c) (hok : PcOK cfg pc) :
    Good cfg m c (step cfg dbl t pc) := by
  cases pc with
  | idle => cases hc
  | done c r => cases hc
  | snap c' => exact good_stay h hc h.wf.lazy.bits
  | lock c' hp =>
    injection hc with hc; subst hc
    have hbits : cfg.lockBits ≤ hp := hok
    cases c' with
    | find k =>
      unfold step
      apply good_section h
      · exact good_stay h rfl trivial
      · intro t' hi hhp hm
        have hb := both_of (k := k) hhp hm (by simp) (by simp)
        subst hhp
        simp only
        cases hf : cuckooFind cfg t'.cur k (partialKey (cfg.hash k)) (first t'.hp (cfg.hash k)) (second t'.hp (cfg.hash k)) with
        | none =>
          right
          refine ⟨_, m, rfl, ?_, hi⟩
          have := Legal.find m k
          rw [find_none hi.wf hb hf] at this; exact this
        | some p =>
          obtain ⟨i, s⟩ := p
          obtain ⟨e, he, hk, hv⟩ := find_some hi.wf hf
          simp only
          rw [he]
          right
          refine ⟨_, m, rfl, ?_, hi⟩
          have := Legal.find m k
          rw [hv] at this; exact this
    | erase k =>
      unfold step
      apply good_section h
      · exact good_stay h rfl trivial
      · intro t' hi hhp hm
        have hb := both_of (k := k) hhp hm (by simp) (by simp)
        subst hhp
        simp only
        cases hf : cuckooFind cfg t'.cur k (partialKey (cfg.hash k)) (first t'.hp (cfg.hash k)) (second t'.hp (cfg.hash k)) with
        | none =>
          have hk := find_none hi.wf hb hf
          right
          refine ⟨_, update m k none, rfl, ?_, ?_⟩
          · have := Legal.erase m k
            rw [hk] at this; exact this
          · have : update m k none = m := by
              funext j; unfold update; split
              · next hj => rw [hj, hk]
              · rfl
            rw [this]; exact hi
        | some p =>
          obtain ⟨i, s⟩ := p
          obtain ⟨e, he, hk, hv⟩ := find_some hi.wf hf
          obtain ⟨t'', h1, h2⟩ := del_ok hi he
          simp only
          rw [h1, Outcome.bind_ok]
          right
          refine ⟨_, update m k none, rfl, ?_, hk ▸ h2⟩
          have := Legal.erase m k
          rw [hv] at this; exact this
    | assign k v =>
      unfold step
      apply good_section h
      · exact good_stay h rfl trivial
      · intro t' hi hhp hm
        have hb := both_of (k := k) hhp hm (by simp) (by simp)
        subst hhp
        simp only
        have dup : ∀ i s, tryFindInsert cfg (t'.cur i) (partialKey (cfg.hash k)) k = .duplicate s →
            Good cfg m (.assign k v) ((assignAt t' i s v).bind fun t => .ok (t, .done (.assign k v) (.bool false))) := by
          intro i s hx
          obtain ⟨e, he, hk, hv⟩ := tryFind_dup hi.wf hx
          obtain ⟨t'', h1, h2⟩ := assign_ok hi v he
          rw [h1, Outcome.bind_ok]
          right
          refine ⟨_, update m k (some v), rfl, ?_, hk ▸ h2⟩
          have := Legal.assign m k v
          rw [hv] at this; exact this
        have add : ∀ i s, Home cfg t'.hp k i → s < SLOTS → t'.cur i s = none → m k = none →
            Good cfg m (.assign k v) ((addToBucket cfg t' i s ⟨k, partialKey (cfg.hash k), v⟩).bind fun t => .ok (t, .done (.assign k v) (.bool true))) := by
          intro i s hhome hs hn hk
          obtain ⟨t'', h1, h2⟩ := add_ok hi v (hhome.migrated hb) hhome hs hn hk
          rw [h1, Outcome.bind_ok]
          right
          refine ⟨_, update m k (some v), rfl, ?_, h2⟩
          have := Legal.assign m k v
          rw [hk] at this; exact this
        cases hx : tryFindInsert cfg (t'.cur (first t'.hp (cfg.hash k))) (partialKey (cfg.hash k)) k with
        | duplicate s => exact dup _ s hx
        | free r1 =>
          simp only
          cases hy : tryFindInsert cfg (t'.cur (second t'.hp (cfg.hash k))) (partialKey (cfg.hash k)) k with
          | duplicate s => exact dup _ s hy
          | free r2 =>
            obtain ⟨hx1, hx2, _⟩ := tryFind_free hi.wf hx
            obtain ⟨hy1, hy2, _⟩ := tryFind_free hi.wf hy
            have hk := absent hi.wf hb hx2 hy2
            simp only
            cases r1 with
            | some s => exact add _ s (Or.inl rfl) (hx1 s rfl).1 (hx1 s rfl).2 hk
            | none =>
              cases r2 with
              | some s => exact add _ s (Or.inr rfl) (hy1 s rfl).1 (hy1 s rfl).2 hk
              | none => exact good_stay hi rfl (startSearch_ok hbits ..)
  | search k v hp q last =>
    injection hc with hc; subst hc
    obtain ⟨hbits, hok⟩ := hok
    cases q with
    | nil => exact good_stay h rfl hbits
    | cons x q =>
      unfold step
      apply good_section h
      · exact good_stay h rfl trivial
      · intro t' hi hhp hm
        have hscan := scanSlots_ok (t'.cur x.bucket) hp x (List.range SLOTS) []
        simp only
        cases hx : scanSlots (t'.cur x.bucket) hp x (List.range SLOTS) [] with
        | found slot =>
          simp only
          have hdec := decode_ok (x.depth + 1) (x.pathcode * SLOTS + slot)
          refine good_stay hi rfl ⟨hbits, ?_, hdec.2, ⟨(by intro r hr; cases hr), (by intro r hr; cases hr), (by intro j r r' hr; simp at hr)⟩, ?_, ?_⟩
          · intro hc; have := hdec.1; rw [hc] at this; simp at this
          · intro _
            split
            · exact Or.inl rfl
            · exact Or.inr rfl
          · intro r hr; simp at hr
        | more cs =>
          rw [hx] at hscan
          obtain ⟨new, h1, h2, h3⟩ := hscan
          rw [List.nil_append] at h1; subst h1
          rw [List.length_range] at h2
          have hdue := due_step x.depth cs h3 h2
          have hok' : last + due (x :: q) ≤ MAX_CUCKOO_COUNT := hok
          rw [due_cons] at hok'
          simp only
          rw [if_neg (by omega)]
          refine good_stay hi rfl ⟨hbits, ?_⟩
          show last + cs.length + due (q ++ cs) ≤ MAX_CUCKOO_COUNT
          rw [due_append]; omega
  | path k v hp recs bucket slots =>
    injection hc with hc; subst hc
    obtain ⟨hbits, hne, hslots, hch, hnext⟩ := hok
    cases slots with
    | nil => exact absurd rfl hne
    | cons s rest =>
      unfold step
      apply good_section h
      · exact good_stay h rfl trivial
      · intro t' hi hhp hm
        have hs := hslots s (List.mem_cons_self ..)
        simp only
        cases he : t'.cur bucket s with
        | none =>
          exact good_stay hi rfl ⟨hbits, by rw [List.length_append, List.length_singleton]; omega, hch.snoc hnext hs⟩
        | some e =>
          simp only
          split
          · exact good_stay hi rfl ⟨hbits, by rw [List.length_append, List.length_singleton]; omega, hch.snoc hnext hs⟩
          · next hr => exact good_stay hi rfl ⟨hbits, hr, fun r hr => hslots r (List.mem_cons_of_mem _ hr), hch.snoc hnext hs, Next.snoc ..⟩
  | move k v hp recs d =>
    injection hc with hc; subst hc
    obtain ⟨hbits, hlt, hch⟩ := hok
    cases d with
    | zero =>
      unfold step
      apply good_section h
      · exact good_stay h rfl trivial
      · intro t' hi hhp hm
        have hb := both_of (k := k) hhp hm (by simp) (by simp)
        have hr : recs[0]? = some recs[0] := List.getElem?_eq_getElem hlt
        simp only
        rw [hr]
        simp only
        cases he : t'.cur recs[0].bucket recs[0].slot with
        | some e => exact good_stay hi rfl (startSearch_ok hbits ..)
        | none => exact finish_good hi v hb (hhp ▸ hch.2.1 _ hr) (hch.1 _ (List.getElem_mem hlt)) he
    | succ d =>
      unfold step
      have hr : recs[d]? = some recs[d] := List.getElem?_eq_getElem (by omega)
      have hr' : recs[d + 1]? = some recs[d + 1] := List.getElem?_eq_getElem hlt
      simp only [hr, hr']
      apply good_section h
      · exact good_stay h rfl trivial
      · intro t' hi hhp hm
        have hto : t'.migrated (lockInd cfg recs[d + 1].bucket) = true := by
          apply hm; split <;> simp
        have hst : Good cfg m (.assign k v) (.ok (t', startSearch k v hp (cfg.hash k))) := good_stay hi rfl (startSearch_ok hbits ..)
        simp only
        cases hn : t'.cur recs[d + 1].bucket recs[d + 1].slot with
        | some x =>
          cases he : t'.cur recs[d].bucket recs[d].slot with
          | none => exact hst
          | some e => exact hst
        | none =>
          cases he : t'.cur recs[d].bucket recs[d].slot with
          | none => exact hst
          | some e =>
            simp only
            by_cases hh : cfg.hash e.key ≠ recs[d].hash
            · rw [if_pos hh]; exact hst
            · rw [if_neg hh]
              have hh' : cfg.hash e.key = recs[d].hash := by simpa using hh
              have hj := hch.2.2 d _ _ hr hr'
              rw [← hh', ← hhp] at hj
              obtain ⟨cur, h1, h2, h3⟩ := hop_ok hi he hn (hch.1 _ (List.getElem_mem hlt)) hto hj
              have hset : setKV t'.cur recs[d + 1].bucket recs[d + 1].slot e = .ok (t'.cur.put recs[d + 1].bucket recs[d + 1].slot (some e)) := by
                unfold setKV; rw [hn]
              rw [hset, Outcome.bind_ok] at h1
              rw [hset, Outcome.bind_ok, h1, Outcome.bind_ok]
              by_cases hd0 : d = 0
              · subst hd0
                rw [if_pos rfl, hr]
                have hb : Both cfg t' k := both_of hhp hm (by simp) (by simp)
                have hb' : Both cfg { t' with cur := cur } k := hb
                refine finish_good h3 v hb' ?_ (hch.1 _ (List.getElem_mem _)) h2
                show Home cfg t'.hp k _
                rw [hhp]; exact hch.2.1 _ hr
              · rw [if_neg hd0]
                exact good_stay h3 rfl ⟨hbits, by omega, hch⟩
  | double k v hp =>
    injection hc with hc; subst hc
    unfold step
    have := hd t m hp h hok
    cases hx : dbl t hp with
    | ok t' => simp only [hx] at this ⊢; exact good_stay this rfl trivial
    | throw x => simp only [hx]; exact Or.inr ⟨_, m, rfl, Legal.refused m k v, h⟩
    | ub => simp only [hx] at this
    | diverge => simp only [hx]; trivial

/-! ## Executions -/

/-- A thread and its status. -/
def Match (cfg : Cfg K) : Pc K V → Status K V → Prop
  | .idle, st => st = .free
  | .done c r, st => st = .answered c r
  | pc, st => ∃ c, callOf pc = some c ∧ PcOK cfg pc ∧ st = .called c

theorem Match.called {cfg : Cfg K} {pc : Pc K V} {c : Call K V} (h1 : callOf pc = some c) (h2 : PcOK cfg pc) :
    Match cfg pc (.called c) := by
  cases pc <;> first | exact ⟨c, h1, h2, rfl⟩ | cases h1

/-- The system stands for the map. -/
structure Sim (cfg : Cfg K) (s : Sys K V) (m : K → Option V) (st : Nat → Status K V) : Prop where
  inv : Inv cfg s.table m
  pcs : ∀ i, Match cfg (s.pc i) (st i)

theorem setStatus_self (st : Nat → Status K V) (i : Nat) : setStatus st i (st i) = st := by
  funext j; unfold setStatus; split
  · next h => rw [h]
  · rfl

theorem match_set {cfg : Cfg K} {f : Nat → Pc K V} {st : Nat → Status K V} (h : ∀ i, Match cfg (f i) (st i)) {i : Nat} {p : Pc K V}
    {x : Status K V} (hm : Match cfg p x) : ∀ j, Match cfg (goto f i p j) (setStatus st i x j) := by
  intro j
  unfold goto setStatus
  by_cases hj : j = i
  · rw [if_pos hj, if_pos hj]; exact hm
  · rw [if_neg hj, if_neg hj]; exact h j

theorem settle_ok {cfg : Cfg K} {t : Table K V} {m : K → Option V} (h : Inv cfg t m) :
    ∃ t', rehashLocks cfg false (List.range (numLocks cfg)) t = .ok t' ∧ Inv cfg ({ t' with remaining := 0 }.drop) m ∧ t'.hp = t.hp ∧
      ∀ i, t'.migrated (lockInd cfg i) = true := by
  obtain ⟨t', h1, h2, h3, h4, h5⟩ := rehashAll_ok (List.range (numLocks cfg)) t h.wf.rep h.wf.lazy (fun l hl => List.mem_range.mp hl)
  have hall : ∀ i, t'.migrated (lockInd cfg i) = true := fun i => h5 _ (List.mem_range.mpr (lockInd_lt cfg i))
  refine ⟨t', h1, ⟨⟨?_, h3.drop 0 hall, ?_⟩, ?_⟩, h4.hp, hall⟩
  · have := live_drop cfg t' 0 hall
    show Rep cfg t'.hp t'.oldHp (live cfg ({ t' with remaining := 0 }.drop) none2) m
    rw [this]; exact h2
  · show 0 = unmigrated t'.migrated (numLocks cfg)
    have key : ∀ n, (∀ l, l < n → t'.migrated l = true) → unmigrated t'.migrated n = 0 := by
      intro n
      induction n with
      | zero => intro _; rfl
      | succ n ih => intro hh; rw [unmigrated_succ, ih (fun l hl => hh l (by omega)), hh n (by omega)]; rfl
    exact (key _ fun l hl => h5 l (List.mem_range.mpr hl)).symm
  · obtain ⟨n, hn, hs⟩ := h.size
    refine ⟨n, hn, ?_⟩
    have : ({ t' with remaining := 0 }.drop : Table K V).size cfg = t.size cfg := by
      show ((List.range (numLocks cfg)).map t'.counter).sum = ((List.range (numLocks cfg)).map t.counter).sum
      rw [h4.counter]
    rw [this, hs]

/-- `cuckoo_fast_double` keeps the map. -/
theorem lockTable_ok {cfg : Cfg K} {t : Table K V} {m : K → Option V} (h : Inv cfg t m) :
    ∃ t', lockTable cfg t = .ok t' ∧ Inv cfg t' m ∧ t'.oldMem = false ∧ ∀ i s, live cfg t' none2 (.old i s) = none := by
  obtain ⟨t', h1, h2, _, _⟩ := settle_ok h
  refine ⟨{ t' with remaining := 0 }.drop, by unfold lockTable; rw [h1]; rfl, h2, rfl, ?_⟩
  intro i s
  show (if t'.migrated (lockInd cfg i) || false then none else none) = none
  split <;> rfl

theorem sim_step {cfg : Cfg K} {dbl : Table K V → Nat → Outcome (Table K V)} (hd : Expands cfg dbl) {s s' : Sys K V} {e : Ev K V}
    {m : K → Option V} {st : Nat → Status K V} (h : Sim cfg s m st) (hs : Step cfg dbl s e s') :
    ∃ m' st', Sim cfg s' m' st' ∧ ∀ es m'' st'', Explains m' st' es m'' st'' → Explains m st (e :: es) m'' st'' := by
  cases hs with
  | call i c hi =>
    have hm := h.pcs i
    rw [hi] at hm
    exact ⟨m, setStatus st i (.called c), ⟨h.inv, match_set h.pcs (Match.called rfl trivial)⟩, fun es m'' st'' he => .call i c hm he⟩
  | ret i c r hi =>
    have hm := h.pcs i
    rw [hi] at hm
    exact ⟨m, setStatus st i .free, ⟨h.inv, match_set h.pcs (show Match cfg Pc.idle Status.free from rfl)⟩, fun es m'' st'' he => .ret i c r hm he⟩
  | work i t p hw =>
    have hm := h.pcs i
    have main : ∀ c, callOf (s.pc i) = some c → PcOK cfg (s.pc i) → st i = .called c → ∃ m' st', Sim cfg ⟨t, goto s.pc i p⟩ m' st' ∧
        ∀ es m'' st'', Explains m' st' es m'' st'' → Explains m st (.tau i :: es) m'' st'' := by
      intro c h1 h2 h3
      have hg := step_good hd h.inv h1 h2
      rw [hw] at hg
      rcases hg with ⟨g1, g2, g3⟩ | ⟨r, m', g1, g2, g3⟩
      · refine ⟨m, st, ⟨g1, ?_⟩, fun es m'' st'' he => .tau i he⟩
        have := match_set h.pcs (i := i) (Match.called g2 g3)
        rw [← h3, setStatus_self] at this
        exact this
      · refine ⟨m', setStatus st i (.answered c r), ⟨g3, match_set h.pcs (by rw [g1]; rfl)⟩, ?_⟩
        intro es m'' st'' he
        exact .tau i (.happen i c r h3 g2 he)
    cases hp : s.pc i with
    | idle =>
      rw [hp] at hw hm
      injection hw with hw; injection hw with hw1 hw2
      subst hw1 hw2
      refine ⟨m, st, ⟨h.inv, ?_⟩, fun es m'' st'' he => .tau i he⟩
      have := match_set h.pcs (i := i) (p := .idle) (x := st i) hm
      rw [setStatus_self] at this; exact this
    | done c r =>
      rw [hp] at hw hm
      injection hw with hw; injection hw with hw1 hw2
      subst hw1 hw2
      refine ⟨m, st, ⟨h.inv, ?_⟩, fun es m'' st'' he => .tau i he⟩
      have := match_set h.pcs (i := i) (p := .done c r) (x := st i) hm
      rw [setStatus_self] at this; exact this
    | snap _ => rw [hp] at hm main; obtain ⟨c, h1, h2, h3⟩ := hm; exact main c h1 h2 h3
    | lock _ _ => rw [hp] at hm main; obtain ⟨c, h1, h2, h3⟩ := hm; exact main c h1 h2 h3
    | search _ _ _ _ _ => rw [hp] at hm main; obtain ⟨c, h1, h2, h3⟩ := hm; exact main c h1 h2 h3
    | path _ _ _ _ _ _ => rw [hp] at hm main; obtain ⟨c, h1, h2, h3⟩ := hm; exact main c h1 h2 h3
    | move _ _ _ _ _ => rw [hp] at hm main; obtain ⟨c, h1, h2, h3⟩ := hm; exact main c h1 h2 h3
    | double _ _ _ => rw [hp] at hm main; obtain ⟨c, h1, h2, h3⟩ := hm; exact main c h1 h2 h3
  | whole i t hi hw =>
    obtain ⟨t', h1, h2, _⟩ := lockTable_ok h.inv
    rw [h1] at hw; injection hw with hw; subst hw
    exact ⟨m, st, ⟨h2, h.pcs⟩, fun es m'' st'' he => .tau i he⟩

theorem sim_run {cfg : Cfg K} {dbl : Table K V → Nat → Outcome (Table K V)} (hd : Expands cfg dbl) {s s' : Sys K V}
    {es : List (Ev K V)} (hr : Run cfg dbl s es s') : ∀ {m : K → Option V} {st : Nat → Status K V}, Sim cfg s m st →
    ∃ m' st', Sim cfg s' m' st' ∧ Explains m st es m' st' := by
  induction hr with
  | nil s => intro m st h; exact ⟨m, st, h, .nil m st⟩
  | cons h _ ih =>
    intro m st hs
    obtain ⟨m1, st1, h1, h2⟩ := sim_step hd hs h
    obtain ⟨m2, st2, h3, h4⟩ := ih h1
    exact ⟨m2, st2, h3, h2 _ _ _ h4⟩

/-! ## New tables and growth -/

theorem new_inv (cfg : Cfg K) (hp : Nat) (h : cfg.lockBits ≤ hp) : Inv cfg (Table.new hp : Table K V) (fun _ => none) := by
  have hl : ∀ p, live cfg (Table.new hp : Table K V) none2 p = none := by
    intro p; cases p <;> rfl
  refine ⟨⟨⟨?_, ?_, ?_, ?_, ?_⟩, ⟨h, ?_, ?_⟩, ?_⟩, 0, ⟨[], List.nodup_nil, by intro k; simp, rfl⟩, ?_⟩
  · intro p e hp; rw [hl] at hp; cases hp
  · intro p e hp; rw [hl] at hp; cases hp
  · intro p e hp; rw [hl] at hp; cases hp
  · intro k v hk; cases hk
  · intro p q e e' hp; rw [hl] at hp; cases hp
  · intro i hi; cases hi
  · intro i s _; rfl
  · exact (unmigrated_all_true _).symm
  · have := sum_set (fun _ => 0) 0 (numLocks cfg) 0
    show ((List.range (numLocks cfg)).map fun _ => (0 : Int)).sum = (0 : Nat)
    generalize numLocks cfg = n
    induction n with
    | zero => rfl
    | succ n ih => rw [List.range_succ, List.map_append, List.sum_append, ih]; rfl

/-- All migrated: everything is in the current buckets. -/
theorem fastDouble_expands (cfg : Cfg K) : Expands cfg (fastDouble (V := V) cfg) := by
  intro t m hp h _
  unfold fastDouble
  by_cases h1 : loadTooLow cfg t = true
  · rw [if_pos h1]; trivial
  · rw [if_neg h1]
    by_cases h2 : t.hp ≠ hp
    · rw [if_pos h2]; exact h
    · rw [if_neg h2]
      have h2' : t.hp = hp := by simpa using h2
      obtain ⟨t', h3, h4, h5, hall⟩ := settle_ok h
      rw [h3, Outcome.bind_ok]
      have hhp : t'.hp = hp := h5.trans h2'
      have hbits : cfg.lockBits ≤ t'.hp := h4.wf.lazy.bits
      -- the current slots become the old ones
      have hcur : ∀ i s e, t'.cur i s = some e → live cfg ({ t' with remaining := 0 }.drop) none2 (.cur i s) = some e := fun i s e he => he
      have hold : ∀ i s, live cfg ({ t' with remaining := 0 }.drop) none2 (.old i s) = none := by
        intro i s
        show (if t'.migrated (lockInd cfg i) || false then none else none) = none
        split <;> rfl
      have hr := h4.wf.rep
      refine ⟨⟨⟨?_, ?_, ?_, ?_, ?_⟩, ⟨?_, ?_, ?_⟩, ?_⟩, ?_⟩
      · intro p e hp'
        cases p with
        | cur i s => cases hp'
        | old i s => exact hr.part (.cur i s) e hp'
      · intro p e hp'
        cases p with
        | cur i s => cases hp'
        | old i s => exact hr.fits (.cur i s) e hp'
      · intro p e hp'
        cases p with
        | cur i s => cases hp'
        | old i s => exact hr.val (.cur i s) e hp'
      · intro k v hk
        obtain ⟨p, e, hp', he⟩ := hr.all k v hk
        cases p with
        | cur i s => exact ⟨.old i s, e, hp', he⟩
        | old i s => rw [hold] at hp'; cases hp'
      · intro p q e e' hp' hq' hk
        cases p with
        | cur i s => cases hp'
        | old i s =>
          cases q with
          | cur j r => cases hq'
          | old j r =>
            have := hr.once (.cur i s) (.cur j r) e e' hp' hq' hk
            injection this with h1 h2; rw [h1, h2]
      · show cfg.lockBits ≤ hp + 1; omega
      · intro i _; exact ⟨rfl, by show hp + 1 = t'.hp + 1; rw [hhp], hbits⟩
      · intro i s _; rfl
      · exact (unmigrated_all_false _).symm
      · exact h4.size

/-! ## Growth by a new table -/

theorem mem_entries {hp : Nat} {b : Buckets K V} {e : Entry K V} :
    e ∈ entries hp b ↔ ∃ i s, i < hashsize hp ∧ s < SLOTS ∧ b i s = some e := by
  unfold entries
  simp only [List.mem_flatMap, List.mem_range, List.mem_filterMap]
  constructor
  · rintro ⟨i, hi, s, hs, he⟩; exact ⟨i, s, hi, hs, he⟩
  · rintro ⟨i, s, hi, hs, he⟩; exact ⟨i, hi, s, hs, he⟩

theorem runAlone_good {cfg : Cfg K} {dbl : Table K V → Nat → Outcome (Table K V)} (hd : Expands cfg dbl) {m : K → Option V} {c : Call K V} :
    ∀ (n : Nat) (t : Table K V) (pc : Pc K V),
      ((Inv cfg t m ∧ callOf pc = some c ∧ PcOK cfg pc) ∨ ∃ r m', pc = .done c r ∧ Legal m c r m' ∧ Inv cfg t m') →
      match runAlone cfg dbl n t pc with
      | .ok (t', pc') => ∃ r m', pc' = .done c r ∧ Legal m c r m' ∧ Inv cfg t' m'
      | .throw _ => False
      | .ub => False
      | .diverge => True := by
  intro n
  induction n with
  | zero => intro t pc _; trivial
  | succ n ih =>
    intro t pc h
    rcases h with ⟨h1, h2, h3⟩ | ⟨r, m', h1, h2, h3⟩
    · have hg := step_good hd h1 h2 h3
      have hrun : runAlone cfg dbl (n + 1) t pc = (step cfg dbl t pc).bind fun r => runAlone cfg dbl n r.1 r.2 := by
        cases pc <;> first | rfl | cases h2
      rw [hrun]
      cases hx : step cfg dbl t pc with
      | ok p =>
        obtain ⟨t', pc'⟩ := p
        rw [hx] at hg
        rw [Outcome.bind_ok]
        exact ih t' pc' hg
      | throw x => rw [hx] at hg; exact hg.elim
      | ub => rw [hx] at hg; exact hg.elim
      | diverge => trivial
    · subst h1
      exact ⟨r, m', rfl, h2, h3⟩

theorem insertAlone_good {cfg : Cfg K} {dbl : Table K V → Nat → Outcome (Table K V)} (hd : Expands cfg dbl) {m : K → Option V} (n : Nat)
    {t : Table K V} (h : Inv cfg t m) (k : K) (v : V) :
    match insertAlone cfg dbl n t k v with
    | .ok t' => Inv cfg t' (update m k (some v))
    | .throw _ => True
    | .ub => False
    | .diverge => True := by
  have hg := runAlone_good hd n t (.snap (.assign k v)) (Or.inl ⟨h, rfl, trivial⟩)
  unfold insertAlone
  cases hx : runAlone cfg dbl n t (.snap (.assign k v)) with
  | ok p =>
    obtain ⟨t', pc'⟩ := p
    rw [hx] at hg
    obtain ⟨r, m', h1, h2, h3⟩ := hg
    subst h1
    rw [Outcome.bind_ok]
    cases h2 with
    | assign => exact h3
    | refused => trivial
  | throw x => rw [hx] at hg; exact hg.elim
  | ub => rw [hx] at hg; exact hg.elim
  | diverge => trivial

/-- The map of a list of pairs. -/
def collect (es : List (Entry K V)) (m : K → Option V) : K → Option V := es.foldl (fun m e => update m e.key (some e.val)) m

theorem collect_eq {m : K → Option V} : ∀ (es : List (Entry K V)) (m0 : K → Option V) (k : K),
    (∀ e, e ∈ es → m e.key = some e.val) → ((∃ e, e ∈ es ∧ e.key = k) ∨ m0 k = m k) → collect es m0 k = m k := by
  intro es
  induction es with
  | nil =>
    intro m0 k _ h
    rcases h with ⟨e, he, _⟩ | h
    · cases he
    · exact h
  | cons e rest ih =>
    intro m0 k hv h
    show collect rest (update m0 e.key (some e.val)) k = m k
    apply ih _ _ (fun e' he' => hv e' (List.mem_cons_of_mem _ he'))
    by_cases hk : k = e.key
    · right; rw [hk, update_self]; exact (hv e (List.mem_cons_self ..)).symm
    · rcases h with ⟨e', he', hk'⟩ | h
      · left
        rcases List.mem_cons.mp he' with hc | hc
        · exact absurd (hc ▸ hk').symm hk
        · exact ⟨e', hc, hk'⟩
      · right; rw [update_other _ _ hk]; exact h

theorem insertAll_good {cfg : Cfg K} {dbl : Table K V → Nat → Outcome (Table K V)} (hd : Expands cfg dbl) (n : Nat) :
    ∀ (es : List (Entry K V)) (t : Table K V) (m : K → Option V), Inv cfg t m →
    match insertAll (insertAlone cfg dbl n) es t with
    | .ok t' => Inv cfg t' (collect es m)
    | .throw _ => True
    | .ub => False
    | .diverge => True := by
  intro es
  induction es with
  | nil => intro t m h; exact h
  | cons e rest ih =>
    intro t m h
    have hg := insertAlone_good hd n h e.key e.val
    unfold insertAll
    cases hx : insertAlone cfg dbl n t e.key e.val with
    | ok t' => rw [hx] at hg; rw [Outcome.bind_ok]; exact ih t' _ hg
    | throw x => trivial
    | ub => rw [hx] at hg; exact hg.elim
    | diverge => trivial

/-- `cuckoo_expand_simple` keeps the map. -/
theorem expandSimple_expands (cfg : Cfg K) : ∀ n, Expands cfg (expandSimple (V := V) cfg n) := by
  intro n
  induction n with
  | zero => intro t m hp _ _; trivial
  | succ n ih =>
    intro t m hp h hbits
    unfold expandSimple
    by_cases h1 : loadTooLow cfg t = true
    · rw [if_pos h1]; trivial
    · rw [if_neg h1]
      obtain ⟨t', h3, h4, _, hall⟩ := settle_ok h
      rw [h3, Outcome.bind_ok]
      simp only
      have hold : ∀ i s, live cfg ({ t' with remaining := 0 }.drop) none2 (.old i s) = none := by
        intro i s
        show (if t'.migrated (lockInd cfg i) || false then none else none) = none
        split <;> rfl
      have hins := insertAll_good ih n (entries t'.hp t'.cur) (Table.new (hp + 1)) _ (new_inv cfg (hp + 1) (by omega))
      have hcol : collect (entries t'.hp t'.cur) (fun _ => none) = m := by
        funext k
        apply collect_eq
        · intro e he
          obtain ⟨i, s, _, _, hb⟩ := mem_entries.mp he
          exact h4.wf.rep.val (.cur i s) e hb
        · cases hm : m k with
          | none => exact Or.inr rfl
          | some v =>
            left
            obtain ⟨p, e, hp', he⟩ := h4.wf.rep.all k v hm
            cases p with
            | old i s => rw [hold] at hp'; cases hp'
            | cur i s =>
              have hf := h4.wf.rep.fits _ _ hp'
              exact ⟨e, mem_entries.mpr ⟨i, s, hf.2.lt, hf.1, hp'⟩, he⟩
      rw [hcol] at hins
      show match (insertAll (insertAlone cfg (expandSimple cfg n) n) (entries t'.hp t'.cur) (Table.new (hp + 1))).bind _ with
        | .ok t' => Inv cfg t' m
        | .throw _ => True
        | .ub => False
        | .diverge => True
      cases hx : insertAll (insertAlone cfg (expandSimple cfg n) n) (entries t'.hp t'.cur) (Table.new (hp + 1)) with
      | throw x => trivial
      | ub => rw [hx] at hins; exact hins.elim
      | diverge => trivial
      | ok new =>
        rw [hx] at hins
        rw [Outcome.bind_ok]
        obtain ⟨new', g1, g2, _, gall⟩ := settle_ok hins
        rw [g1, Outcome.bind_ok]
        have gold : ∀ i s, live cfg ({ new' with remaining := 0 }.drop) none2 (.old i s) = none := by
          intro i s
          show (if new'.migrated (lockInd cfg i) || false then none else none) = none
          split <;> rfl
        have gr := g2.wf.rep
        have hold' : ∀ i s e, ¬ (if t'.migrated (lockInd cfg i) || none2 i s then none else (Buckets.empty : Buckets K V) i s) = some e := by
          intro i s e; split <;> exact fun h => by cases h
        refine ⟨⟨⟨?_, ?_, ?_, ?_, ?_⟩, ⟨?_, ?_, ?_⟩, ?_⟩, ?_⟩
        · intro p e hp'
          cases p with
          | cur i s => exact gr.part (.cur i s) e hp'
          | old i s => exact absurd hp' (hold' i s e)
        · intro p e hp'
          cases p with
          | cur i s => exact gr.fits (.cur i s) e hp'
          | old i s => exact absurd hp' (hold' i s e)
        · intro p e hp'
          cases p with
          | cur i s => exact gr.val (.cur i s) e hp'
          | old i s => exact absurd hp' (hold' i s e)
        · intro k v hk
          obtain ⟨p, e, hp', he⟩ := gr.all k v hk
          cases p with
          | cur i s => exact ⟨.cur i s, e, hp', he⟩
          | old i s => rw [gold] at hp'; cases hp'
        · intro p q e e' hp' hq' hk
          cases p with
          | old i s => exact absurd hp' (hold' i s e)
          | cur i s =>
            cases q with
            | old j r => exact absurd hq' (hold' j r e')
            | cur j r => exact gr.once (.cur i s) (.cur j r) e e' hp' hq' hk
        · exact g2.wf.lazy.bits
        · intro i hi; exact absurd ((hall i).symm.trans hi) (by simp)
        · intro i s hi; exact absurd ((hall i).symm.trans hi) (by simp)
        · exact h4.wf.left
        · exact h4.size

/-- The ways the table grows. -/
def Grows (cfg : Cfg K) (dbl : Table K V → Nat → Outcome (Table K V)) : Prop :=
  ∀ t hp, dbl t hp = fastDouble cfg t hp ∨ ∃ n, dbl t hp = expandSimple cfg n t hp

theorem Grows.expands {cfg : Cfg K} {dbl : Table K V → Nat → Outcome (Table K V)} (h : Grows cfg dbl) : Expands cfg dbl := by
  intro t m hp hi hb
  rcases h t hp with he | ⟨n, he⟩
  · rw [he]; exact fastDouble_expands cfg t m hp hi hb
  · rw [he]; exact expandSimple_expands cfg n t m hp hi hb

end Verif.Cuckoo
