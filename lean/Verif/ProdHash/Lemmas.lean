import Verif.ProdHash.Model
/-!
# Invariant of the table of producers
-/
namespace Verif.ProdHash

/-! ### Pigeons -/

theorem pigeon : ∀ (n m : Nat) (f : Nat → Nat), (∀ a, a < n → f a < m) →
    (∀ a b, a < n → b < n → f a = f b → a = b) → n ≤ m
  | 0, _, _, _, _ => Nat.zero_le _
  | n + 1, m, f, hf, hi => by
    have hv := hf n (by omega)
    have := pigeon n (m - 1) (fun a => if f a = m - 1 then f n else f a)
      (fun a ha => by
        have h1 := hf a (by omega)
        have h2 : f a ≠ f n := fun h => by
          have := hi a n (by omega) (by omega) h
          omega
        show (if f a = m - 1 then f n else f a) < m - 1
        split <;> omega)
      (fun a b ha hb hab => by
        have h2 : f a ≠ f n := fun h => by
          have := hi a n (by omega) (by omega) h
          omega
        have h3 : f b ≠ f n := fun h => by
          have := hi b n (by omega) (by omega) h
          omega
        apply hi a b (by omega) (by omega)
        have hab' : (if f a = m - 1 then f n else f a) = (if f b = m - 1 then f n else f b) := hab
        split at hab' <;> split at hab' <;> omega)
    omega

/-! ### Ranks -/

/-- The place of a thread in the order in which threads counted themselves. -/
def rank (i : Nat) : List Nat → Nat
  | [] => 0
  | x :: l => if x = i then l.length + 1 else rank i l

theorem rank_le (i : Nat) : ∀ l, rank i l ≤ l.length
  | [] => Nat.le_refl _
  | x :: l => by
    have := rank_le i l
    simp only [rank, List.length_cons]
    split <;> omega

theorem rank_inj (i j : Nat) : ∀ l, i ∈ l → j ∈ l → rank i l = rank j l → i = j
  | [], hi, _, _ => by cases hi
  | x :: l, hi, hj, h => by
    have h1 := rank_le i l
    have h2 := rank_le j l
    simp only [rank] at h
    split at h <;> split at h
    · omega
    · omega
    · omega
    · rename_i a b
      refine rank_inj i j l ?_ ?_ h
      · cases hi with
        | head => exact absurd rfl a
        | tail _ h => exact h
      · cases hj with
        | head => exact absurd rfl b
        | tail _ h => exact h

theorem rank_erase (i j : Nat) : ∀ l, i ≠ j → rank i (l.erase j) ≤ rank i l
  | [], _ => by simp [rank]
  | x :: l, hij => by
    have ih := rank_erase i j l hij
    by_cases hx : x = j
    · subst hx
      rw [List.erase_cons_head]
      simp only [rank]
      have := rank_le i l
      split <;> omega
    · rw [List.erase_cons_tail (by simpa using hx)]
      simp only [rank]
      have hl : (l.erase j).length ≤ l.length := List.length_erase_le
      split <;> omega

/-! ### Views -/

/-- The key in a slot. -/
def K (sh : Shared) (t a : Nat) : Option Nat := (sh.tables[t]?).bind fun T => T.keys a

/-- The value in a slot. -/
def W (sh : Shared) (t a : Nat) : Option Nat := (sh.tables[t]?).bind fun T => T.vals a

theorem keyAt_eq (sh : Shared) (t ix : Nat) : keyAt sh t ix = K sh t (ix % capOf sh t) := by
  unfold keyAt K capOf
  cases sh.tables[t]? <;> rfl

theorem valAt_eq (sh : Shared) (t ix : Nat) : valAt sh t ix = W sh t (ix % capOf sh t) := by
  unfold valAt W capOf
  cases sh.tables[t]? <;> rfl

theorem K_lt {sh : Shared} {t a i : Nat} (h : K sh t a = some i) : t < sh.tables.length := by
  unfold K at h
  cases ht : sh.tables[t]? with
  | none => rw [ht] at h; cases h
  | some T => exact (List.getElem?_eq_some_iff.mp ht).1

theorem setKey_len (sh : Shared) (m ix i : Nat) :
    (setKey sh m ix i).tables.length = sh.tables.length := by
  simp [setKey]

theorem setKey_cap (sh : Shared) (m ix i t : Nat) : capOf (setKey sh m ix i) t = capOf sh t := by
  simp only [setKey, capOf, List.getElem?_modify]
  cases sh.tables[t]? with
  | none => rfl
  | some T => by_cases h : m = t <;> simp [h]

theorem setKey_prev (sh : Shared) (m ix i t : Nat) : prevOf (setKey sh m ix i) t = prevOf sh t := by
  simp only [setKey, prevOf, List.getElem?_modify]
  cases sh.tables[t]? with
  | none => rfl
  | some T => by_cases h : m = t <;> simp [h]

theorem setKey_W (sh : Shared) (m ix i t a : Nat) : W (setKey sh m ix i) t a = W sh t a := by
  simp only [setKey, W, List.getElem?_modify]
  cases sh.tables[t]? with
  | none => rfl
  | some T => by_cases h : m = t <;> simp [h]

theorem setKey_K {sh : Shared} {m : Nat} (hm : m < sh.tables.length) (ix i t a : Nat) :
    K (setKey sh m ix i) t a = if t = m ∧ a = ix % capOf sh m then some i else K sh t a := by
  by_cases h : m = t
  · subst h
    have hc : capOf sh m = (sh.tables[m]).cap := by simp [capOf, hm]
    rw [hc]
    simp [setKey, K, List.getElem?_modify, hm]
  · rw [if_neg (fun h' => h h'.1.symm)]
    simp only [setKey, K, List.getElem?_modify]
    cases sh.tables[t]? with
    | none => rfl
    | some T => simp [h]

theorem setVal_len (sh : Shared) (m ix i : Nat) :
    (setVal sh m ix i).tables.length = sh.tables.length := by
  simp [setVal]

theorem setVal_cap (sh : Shared) (m ix i t : Nat) : capOf (setVal sh m ix i) t = capOf sh t := by
  simp only [setVal, capOf, List.getElem?_modify]
  cases sh.tables[t]? with
  | none => rfl
  | some T => by_cases h : m = t <;> simp [h]

theorem setVal_prev (sh : Shared) (m ix i t : Nat) : prevOf (setVal sh m ix i) t = prevOf sh t := by
  simp only [setVal, prevOf, List.getElem?_modify]
  cases sh.tables[t]? with
  | none => rfl
  | some T => by_cases h : m = t <;> simp [h]

theorem setVal_K (sh : Shared) (m ix i t a : Nat) : K (setVal sh m ix i) t a = K sh t a := by
  simp only [setVal, K, List.getElem?_modify]
  cases sh.tables[t]? with
  | none => rfl
  | some T => by_cases h : m = t <;> simp [h]

theorem setVal_W {sh : Shared} {m : Nat} (hm : m < sh.tables.length) (ix i t a : Nat) :
    W (setVal sh m ix i) t a = if t = m ∧ a = ix % capOf sh m then some i else W sh t a := by
  by_cases h : m = t
  · subst h
    have hc : capOf sh m = (sh.tables[m]).cap := by simp [capOf, hm]
    rw [hc]
    simp [setVal, W, List.getElem?_modify, hm]
  · rw [if_neg (fun h' => h h'.1.symm)]
    simp only [setVal, W, List.getElem?_modify]
    cases sh.tables[t]? with
    | none => rfl
    | some T => simp [h]

/-- The state after a table is added. -/
def grown (sh : Shared) (c m : Nat) : Shared :=
  { sh with tables := sh.tables ++ [fresh c m], main := sh.tables.length }

theorem grown_K (sh : Shared) (c m t a : Nat) : K (grown sh c m) t a = K sh t a := by
  simp only [grown, K]
  by_cases h : t < sh.tables.length
  · rw [List.getElem?_append_left h]
  · rw [List.getElem?_append_right (by omega), List.getElem?_eq_none (l := sh.tables) (by omega)]
    cases t - sh.tables.length <;> rfl

theorem grown_W (sh : Shared) (c m t a : Nat) : W (grown sh c m) t a = W sh t a := by
  simp only [grown, W]
  by_cases h : t < sh.tables.length
  · rw [List.getElem?_append_left h]
  · rw [List.getElem?_append_right (by omega), List.getElem?_eq_none (l := sh.tables) (by omega)]
    cases t - sh.tables.length <;> rfl

theorem grown_cap (sh : Shared) (c m t : Nat) :
    capOf (grown sh c m) t = if t = sh.tables.length then c else capOf sh t := by
  simp only [grown, capOf]
  by_cases h : t < sh.tables.length
  · rw [List.getElem?_append_left h, if_neg (by omega)]
  · rw [List.getElem?_append_right (by omega), List.getElem?_eq_none (l := sh.tables) (by omega)]
    by_cases h' : t = sh.tables.length
    · subst h'
      simp [fresh]
    · obtain ⟨k, hk⟩ : ∃ k, t - sh.tables.length = k + 1 := ⟨t - sh.tables.length - 1, by omega⟩
      rw [hk, if_neg h']
      rfl

theorem grown_prev (sh : Shared) (c m t : Nat) :
    prevOf (grown sh c m) t = if t = sh.tables.length then some m else prevOf sh t := by
  simp only [grown, prevOf]
  by_cases h : t < sh.tables.length
  · rw [List.getElem?_append_left h, if_neg (by omega)]
  · rw [List.getElem?_append_right (by omega), List.getElem?_eq_none (l := sh.tables) (by omega)]
    by_cases h' : t = sh.tables.length
    · subst h'
      simp [fresh]
    · obtain ⟨k, hk⟩ : ∃ k, t - sh.tables.length = k + 1 := ⟨t - sh.tables.length - 1, by omega⟩
      rw [hk, if_neg h']
      rfl

theorem doubled_ge (n : Nat) : ∀ fuel c, c ≤ doubled n fuel c
  | 0, _ => Nat.le_refl _
  | fuel + 1, c => by
    have := doubled_ge n fuel (2 * c)
    simp only [doubled]
    split <;> omega

theorem doubled_gt (n : Nat) : ∀ fuel c, 2 ≤ c → n < fuel + c / 2 → n < doubled n fuel c / 2
  | 0, c, _, h => by simp only [doubled]; omega
  | fuel + 1, c, hc, h => by
    simp only [doubled]
    split
    · exact doubled_gt n fuel (2 * c) (by omega) (by omega)
    · omega

/-! ### The invariant -/

/-- Facts about the tables. `order`: threads in the order in which they counted themselves, newest
first; `prod`: the producer made for a thread; `owner`: the thread with the flag. -/
structure Glob (hid : Nat → Nat) (sh : Shared) (order : List Nat) (prod : Nat → Option Nat)
    (owner : Option Nat) : Prop where
  len : sh.main + 1 = sh.tables.length
  capPos : ∀ t, t < sh.tables.length → 0 < capOf sh t
  capMono : ∀ t t', t ≤ t' → t' < sh.tables.length → capOf sh t ≤ capOf sh t'
  prev : ∀ t, t < sh.tables.length → prevOf sh t = if t = 0 then none else some (t - 1)
  slot : ∀ t a i, K sh t a = some i → a < capOf sh t
  uniq : ∀ t a b i, K sh t a = some i → K sh t b = some i → a = b
  chain : ∀ t a i, K sh t a = some i →
    ∃ d, a = (hid i + d) % capOf sh t ∧ ∀ e, e < d → K sh t ((hid i + e) % capOf sh t) ≠ none
  cnt : sh.count = order.length
  nodup : order.Nodup
  mem : ∀ t a i, K sh t a = some i →
    i ∈ order ∧ rank i order < capOf sh t / 2 + capOf sh t / 4
  own : ∀ t a i, K sh t a = some i → ∃ p, prod i = some p
  lt : ∀ i p, prod i = some p → p < sh.made
  inj : ∀ i j p, prod i = some p → prod j = some p → i = j
  surj : ∀ p, p < sh.made → ∃ i, prod i = some p
  flag : sh.busy = owner.isSome

/-- A thread without a pending insertion. -/
def Settled (sh : Shared) (order : List Nat) (prod : Nat → Option Nat) (log : List (Nat × Option Nat))
    (i : Nat) : Prop :=
  (i ∈ order → ∃ t a, K sh t a = some i) ∧
    ∀ p, prod i = some p → (∃ t a, K sh t a = some i) ∧ (i, some p) ∈ log

/-- The values next to a thread's keys are its producer. -/
def Good (sh : Shared) (prod : Nat → Option Nat) (i : Nat) : Prop :=
  ∀ t a, K sh t a = some i → W sh t a = prod i

/-- A thread that has counted itself and has no key yet. -/
def Waiting (sh : Shared) (order : List Nat) (prod : Nat → Option Nat) (i n : Nat) : Prop :=
  (∀ t a, K sh t a ≠ some i) ∧ prod i = none ∧ i ∈ order ∧ rank i order ≤ n

/-- A thread outside. -/
def Absent (sh : Shared) (order : List Nat) (prod : Nat → Option Nat) (i : Nat) : Prop :=
  (∀ t a, K sh t a ≠ some i) ∧ prod i = none ∧ ¬ i ∈ order

/-- The slots probed so far are taken. -/
def Probed (hid : Nat → Nat) (sh : Shared) (m i ix : Nat) : Prop :=
  ∃ d, ix = hid i + d ∧ ∀ e, e < d → K sh m ((hid i + e) % capOf sh m) ≠ none

/-- Facts about one thread. -/
def TI (hid : Nat → Nat) (sh : Shared) (order : List Nat) (prod : Nat → Option Nat)
    (owner : Option Nat) (log : List (Nat × Option Nat)) (i : Nat) : Option Pos → Prop
  | none => owner ≠ some i ∧ Settled sh order prod log i ∧ Good sh prod i
  | some .load => owner ≠ some i ∧ Settled sh order prod log i ∧ Good sh prod i
  | some (.find m t ix) => owner ≠ some i ∧ Settled sh order prod log i ∧ Good sh prod i ∧ t ≤ m ∧
      m < sh.tables.length ∧ (∀ t' a, t < t' → K sh t' a ≠ some i) ∧
      ∃ d, ix = hid i + d ∧ ∀ e, e < d → K sh t ((hid i + e) % capOf sh t) ≠ none ∧
        K sh t ((hid i + e) % capOf sh t) ≠ some i
  | some (.copy m ix v) => owner ≠ some i ∧ Settled sh order prod log i ∧ Good sh prod i ∧
      m < sh.tables.length ∧ prod i = some v ∧ (∃ t a, t < m ∧ K sh t a = some i) ∧
      (∀ a, K sh m a ≠ some i) ∧ Probed hid sh m i ix
  | some (.copyCas m ix v) => owner ≠ some i ∧ Settled sh order prod log i ∧ Good sh prod i ∧
      m < sh.tables.length ∧ prod i = some v ∧ (∃ t a, t < m ∧ K sh t a = some i) ∧
      (∀ a, K sh m a ≠ some i) ∧ Probed hid sh m i ix
  | some (.copyVal m ix v) => owner ≠ some i ∧ Settled sh order prod log i ∧
      m < sh.tables.length ∧ prod i = some v ∧ K sh m (ix % capOf sh m) = some i ∧
      ∀ t a, K sh t a = some i → (t = m ∧ a = ix % capOf sh m) ∨ W sh t a = prod i
  | some (.add m) => owner ≠ some i ∧ Absent sh order prod i ∧ m < sh.tables.length
  | some (.tas m n) => owner ≠ some i ∧ Waiting sh order prod i n ∧ m < sh.tables.length
  | some (.reload n) => owner = some i ∧ Waiting sh order prod i n
  | some (.grow m n) => owner = some i ∧ Waiting sh order prod i n ∧ m = sh.main ∧
      m < sh.tables.length ∧ capOf sh m / 2 ≤ n
  | some (.unlock m n) => owner = some i ∧ Waiting sh order prod i n ∧ m < sh.tables.length ∧
      n < capOf sh m / 2
  | some .subLocked => owner = some i ∧ ∃ n, Waiting sh order prod i n
  | some .unlockFail => owner = some i ∧ Absent sh order prod i
  | some (.spin n) => owner ≠ some i ∧ Waiting sh order prod i n
  | some (.make m n) => owner ≠ some i ∧ Waiting sh order prod i n ∧ m < sh.tables.length ∧
      n < capOf sh m / 2 + capOf sh m / 4
  | some .sub => owner ≠ some i ∧ ∃ n, Waiting sh order prod i n
  | some (.ins m ix p) => owner ≠ some i ∧ (∀ t a, K sh t a ≠ some i) ∧ prod i = some p ∧ i ∈ order ∧
      rank i order < capOf sh m / 2 + capOf sh m / 4 ∧ m < sh.tables.length ∧ Probed hid sh m i ix
  | some (.insCas m ix p) => owner ≠ some i ∧ (∀ t a, K sh t a ≠ some i) ∧ prod i = some p ∧
      i ∈ order ∧ rank i order < capOf sh m / 2 + capOf sh m / 4 ∧ m < sh.tables.length ∧
      Probed hid sh m i ix
  | some (.insVal m ix p) => owner ≠ some i ∧ m < sh.tables.length ∧ prod i = some p ∧
      K sh m (ix % capOf sh m) = some i ∧
      ∀ t a, K sh t a = some i → t = m ∧ a = ix % capOf sh m

/-- The results so far. -/
structure LogOK (prod : Nat → Option Nat) (log : List (Nat × Option Nat)) : Prop where
  given : ∀ i p, (i, some p) ∈ log → prod i = some p
  after : ∀ l₁ l₂ i p r, log = l₁ ++ (i, some p) :: l₂ → (i, r) ∈ l₁ → r = some p

/-- The invariant. -/
structure Inv (hid : Nat → Nat) (s : Sys) (order : List Nat) (prod : Nat → Option Nat)
    (owner : Option Nat) : Prop where
  glob : Glob hid s.sh order prod owner
  thr : ∀ (i : Nat) (o : Option Pos), s.threads[i]? = some o → TI hid s.sh order prod owner s.log i o
  logs : LogOK prod s.log
  inr : ∀ i p, prod i = some p → i < s.threads.length
  ordr : ∀ i, i ∈ order → i < s.threads.length

/-- What a step of another thread leaves alone. -/
structure Ext (i : Nat) (sh : Shared) (order : List Nat) (prod : Nat → Option Nat)
    (owner : Option Nat) (sh' : Shared) (order' : List Nat) (prod' : Nat → Option Nat)
    (owner' : Option Nat) : Prop where
  len : sh.tables.length ≤ sh'.tables.length
  cap : ∀ t, t < sh.tables.length → capOf sh' t = capOf sh t
  keep : ∀ t a k, K sh t a = some k → K sh' t a = some k
  mine : ∀ t a, K sh' t a = some i → K sh t a = some i
  vals : ∀ t a, K sh t a = some i → W sh' t a = W sh t a
  ord : i ∈ order' ↔ i ∈ order
  rnk : rank i order' ≤ rank i order
  prd : prod' i = prod i
  own : owner' = some i ↔ owner = some i
  main : owner = some i → sh'.main = sh.main

theorem Ext.refl (i : Nat) (sh : Shared) (order prod owner) :
    Ext i sh order prod owner sh order prod owner :=
  ⟨Nat.le_refl _, fun _ _ => rfl, fun _ _ _ h => h, fun _ _ h => h, fun _ _ _ => rfl, Iff.rfl,
    Nat.le_refl _, rfl, Iff.rfl, fun _ => rfl⟩

section
variable {hid : Nat → Nat} {i : Nat} {sh sh' : Shared} {order order' : List Nat}
  {prod prod' : Nat → Option Nat} {owner owner' : Option Nat} {log log' : List (Nat × Option Nat)}

theorem Ext.nonone (h : Ext i sh order prod owner sh' order' prod' owner') {t a : Nat}
    (hk : K sh t a ≠ none) : K sh' t a ≠ none := by
  cases hk' : K sh t a with
  | none => exact absurd hk' hk
  | some k => rw [h.keep _ _ _ hk']; intro h; cases h

theorem Ext.other (h : Ext i sh order prod owner sh' order' prod' owner') {t a : Nat}
    (hk : K sh t a ≠ some i) : K sh' t a ≠ some i := fun h' => hk (h.mine _ _ h')

theorem Ext.settled (h : Ext i sh order prod owner sh' order' prod' owner')
    (hl : ∀ x, x ∈ log → x ∈ log') (hs : Settled sh order prod log i) :
    Settled sh' order' prod' log' i := by
  refine ⟨fun ho => ?_, fun p hp => ?_⟩
  · obtain ⟨t, a, hk⟩ := hs.1 (h.ord.mp ho)
    exact ⟨t, a, h.keep _ _ _ hk⟩
  · rw [h.prd] at hp
    obtain ⟨⟨t, a, hk⟩, hm⟩ := hs.2 p hp
    exact ⟨⟨t, a, h.keep _ _ _ hk⟩, hl _ hm⟩

theorem Ext.good (h : Ext i sh order prod owner sh' order' prod' owner') (hg : Good sh prod i) :
    Good sh' prod' i := fun t a hk => by
  have hk' := h.mine t a hk
  rw [h.vals t a hk', h.prd, hg t a hk']

theorem Ext.waiting (h : Ext i sh order prod owner sh' order' prod' owner') {n : Nat}
    (hw : Waiting sh order prod i n) : Waiting sh' order' prod' i n :=
  ⟨fun t a => h.other (hw.1 t a), h.prd.trans hw.2.1, h.ord.mpr hw.2.2.1,
    Nat.le_trans h.rnk hw.2.2.2⟩

theorem Ext.absent (h : Ext i sh order prod owner sh' order' prod' owner')
    (hw : Absent sh order prod i) : Absent sh' order' prod' i :=
  ⟨fun t a => h.other (hw.1 t a), h.prd.trans hw.2.1, fun ho => hw.2.2 (h.ord.mp ho)⟩

theorem Ext.probed (h : Ext i sh order prod owner sh' order' prod' owner') {m ix : Nat}
    (hm : m < sh.tables.length) (hp : Probed hid sh m i ix) : Probed hid sh' m i ix := by
  obtain ⟨d, hd, hp⟩ := hp
  refine ⟨d, hd, fun e he => ?_⟩
  rw [h.cap m hm]
  exact h.nonone (hp e he)

theorem Ext.ti (h : Ext i sh order prod owner sh' order' prod' owner')
    (hl : ∀ x, x ∈ log → x ∈ log') : ∀ {o : Option Pos}, TI hid sh order prod owner log i o →
    TI hid sh' order' prod' owner' log' i o := by
  have hno : owner ≠ some i → owner' ≠ some i := fun hn h' => hn (h.own.mp h')
  have hyo : owner = some i → owner' = some i := fun hn => h.own.mpr hn
  have hlen : ∀ {m}, m < sh.tables.length → m < sh'.tables.length := fun hm => Nat.lt_of_lt_of_le hm h.len
  intro o hT
  cases o with
  | none => exact ⟨hno hT.1, h.settled hl hT.2.1, h.good hT.2.2⟩
  | some p =>
    cases p with
    | load => exact ⟨hno hT.1, h.settled hl hT.2.1, h.good hT.2.2⟩
    | find m t ix =>
      obtain ⟨h1, h2, h3, h4, h5, h6, d, h7, h8⟩ := hT
      refine ⟨hno h1, h.settled hl h2, h.good h3, h4, hlen h5, fun t' a ht => h.other (h6 t' a ht), d, h7,
        fun e he => ?_⟩
      rw [h.cap t (by omega)]
      exact ⟨h.nonone (h8 e he).1, h.other (h8 e he).2⟩
    | copy m ix v =>
      obtain ⟨h1, h2, h3, h4, h5, ⟨t, a, ht, hk⟩, h6, h7⟩ := hT
      exact ⟨hno h1, h.settled hl h2, h.good h3, hlen h4, h.prd.trans h5, ⟨t, a, ht, h.keep _ _ _ hk⟩,
        fun a => h.other (h6 a), h.probed h4 h7⟩
    | copyCas m ix v =>
      obtain ⟨h1, h2, h3, h4, h5, ⟨t, a, ht, hk⟩, h6, h7⟩ := hT
      exact ⟨hno h1, h.settled hl h2, h.good h3, hlen h4, h.prd.trans h5, ⟨t, a, ht, h.keep _ _ _ hk⟩,
        fun a => h.other (h6 a), h.probed h4 h7⟩
    | copyVal m ix v =>
      obtain ⟨h1, h2, h4, h5, h6, h7⟩ := hT
      refine ⟨hno h1, h.settled hl h2, hlen h4, h.prd.trans h5, ?_, fun t a hk => ?_⟩
      · rw [h.cap m h4]
        exact h.keep _ _ _ h6
      · rw [h.cap m h4, h.prd]
        have hk' := h.mine t a hk
        rw [h.vals t a hk']
        exact h7 t a hk'
    | add m => exact ⟨hno hT.1, h.absent hT.2.1, hlen hT.2.2⟩
    | tas m n => exact ⟨hno hT.1, h.waiting hT.2.1, hlen hT.2.2⟩
    | reload n => exact ⟨hyo hT.1, h.waiting hT.2⟩
    | grow m n =>
      obtain ⟨h1, h2, h3, hm, h4⟩ := hT
      exact ⟨hyo h1, h.waiting h2, h3.trans (h.main h1).symm, hlen hm, by rw [h.cap m hm]; exact h4⟩
    | unlock m n =>
      obtain ⟨h1, h2, h3, h4⟩ := hT
      exact ⟨hyo h1, h.waiting h2, hlen h3, by rw [h.cap m h3]; exact h4⟩
    | subLocked =>
      obtain ⟨h1, n, h2⟩ := hT
      exact ⟨hyo h1, n, h.waiting h2⟩
    | unlockFail => exact ⟨hyo hT.1, h.absent hT.2⟩
    | spin n => exact ⟨hno hT.1, h.waiting hT.2⟩
    | make m n =>
      obtain ⟨h1, h2, h3, h4⟩ := hT
      exact ⟨hno h1, h.waiting h2, hlen h3, by rw [h.cap m h3]; exact h4⟩
    | sub =>
      obtain ⟨h1, n, h2⟩ := hT
      exact ⟨hno h1, n, h.waiting h2⟩
    | ins m ix p =>
      obtain ⟨h1, h2, h3, h4, h5, h6, h7⟩ := hT
      refine ⟨hno h1, fun t a => h.other (h2 t a), h.prd.trans h3, h.ord.mpr h4, ?_, hlen h6,
        h.probed h6 h7⟩
      rw [h.cap m h6]
      exact Nat.lt_of_le_of_lt h.rnk h5
    | insCas m ix p =>
      obtain ⟨h1, h2, h3, h4, h5, h6, h7⟩ := hT
      refine ⟨hno h1, fun t a => h.other (h2 t a), h.prd.trans h3, h.ord.mpr h4, ?_, hlen h6,
        h.probed h6 h7⟩
      rw [h.cap m h6]
      exact Nat.lt_of_le_of_lt h.rnk h5
    | insVal m ix p =>
      obtain ⟨h1, h4, h5, h6, h7⟩ := hT
      refine ⟨hno h1, hlen h4, h.prd.trans h5, ?_, fun t a hk => ?_⟩
      · rw [h.cap m h4]
        exact h.keep _ _ _ h6
      · rw [h.cap m h4]
        exact h7 t a (h.mine t a hk)

end

/-! ### Moves -/

/-- What a thread's step must establish for the thread itself. -/
def NI (hid : Nat → Nat) (sh : Shared) (order : List Nat) (prod : Nat → Option Nat)
    (owner : Option Nat) (log : List (Nat × Option Nat)) (i : Nat) : Next → Prop
  | .at q => TI hid sh order prod owner log i (some q)
  | .ret r => r = prod i ∧ owner ≠ some i ∧ (i ∈ order → ∃ t a, K sh t a = some i) ∧
      (∀ p, prod i = some p → ∃ t a, K sh t a = some i) ∧ Good sh prod i

theorem inv_put {hid : Nat → Nat} {s : Sys} {order order' : List Nat} {prod prod' : Nat → Option Nat}
    {owner owner' : Option Nat} (h : Inv hid s order prod owner) {i : Nat} {o : Option Pos}
    (hi : s.threads[i]? = some o) {sh' : Shared} {nx : Next} (hG : Glob hid sh' order' prod' owner')
    (hE : ∀ j, j ≠ i → Ext j s.sh order prod owner sh' order' prod' owner')
    (hP : ∀ p, prod i = some p → prod' i = some p)
    (hN : NI hid sh' order' prod' owner' s.log i nx) : Inv hid (put s i sh' nx) order' prod' owner' := by
  have hil : i < s.threads.length := (List.getElem?_eq_some_iff.mp hi).1
  have hPP : ∀ j p, prod j = some p → prod' j = some p := fun j p hp => by
    by_cases hj : j = i
    · subst hj; exact hP p hp
    · rw [(hE j hj).prd]; exact hp
  have hR : ∀ (q : Option Pos) (j p : Nat), prod' j = some p → j < (s.threads.set i q).length :=
    fun q j p hp => by
      rw [List.length_set]
      by_cases hj : j = i
      · omega
      · rw [(hE j hj).prd] at hp
        exact h.inr j p hp
  have hO : ∀ (q : Option Pos) (j : Nat), j ∈ order' → j < (s.threads.set i q).length :=
    fun q j hp => by
      rw [List.length_set]
      by_cases hj : j = i
      · omega
      · exact h.ordr j ((hE j hj).ord.mp hp)
  cases nx with
  | «at» q =>
    refine ⟨hG, fun j o' hj => ?_, ⟨fun j p hp => hPP j p (h.logs.given j p hp), h.logs.after⟩, hR _, hO _⟩
    have hj' : (s.threads.set i (some q))[j]? = some o' := hj
    by_cases hij : j = i
    · subst hij
      rw [List.getElem?_set_self hil] at hj'
      cases hj'
      exact hN
    · rw [List.getElem?_set_ne (fun h => hij h.symm)] at hj'
      exact (hE j hij).ti (fun _ hx => hx) (h.thr j o' hj')
  | ret r =>
    obtain ⟨hr, ho, h1, h2, h3⟩ := hN
    refine ⟨hG, fun j o' hj => ?_, ⟨fun j p hp => ?_, fun l₁ l₂ j p r' hl hr' => ?_⟩, hR _, hO _⟩
    · have hj' : (s.threads.set i none)[j]? = some o' := hj
      by_cases hij : j = i
      · subst hij
        rw [List.getElem?_set_self hil] at hj'
        cases hj'
        refine ⟨ho, ⟨h1, fun p hp => ⟨h2 p hp, ?_⟩⟩, h3⟩
        show (j, some p) ∈ (j, r) :: s.log
        rw [hr, hp]
        exact List.mem_cons_self
      · rw [List.getElem?_set_ne (fun h => hij h.symm)] at hj'
        exact (hE j hij).ti (fun _ hx => List.mem_cons_of_mem _ hx) (h.thr j o' hj')
    · cases hp with
      | head => exact hr.symm
      | tail _ hp => exact hPP j p (h.logs.given j p hp)
    · have hl' : (i, r) :: s.log = l₁ ++ (j, some p) :: l₂ := hl
      cases l₁ with
      | nil => cases hr'
      | cons x l₁ =>
        rw [List.cons_append] at hl'
        injection hl' with hx hl'
        cases hr' with
        | head =>
          have hjr := Prod.mk.inj hx
          rw [← hjr.2, hr, hjr.1]
          exact hPP j p (h.logs.given j p (by rw [hl']; exact List.mem_append_right _ List.mem_cons_self))
        | tail _ hr' => exact h.logs.after l₁ l₂ j p r' hl' hr'

section
variable {hid : Nat → Nat} {i : Nat} {sh : Shared} {order : List Nat}
  {prod : Nat → Option Nat} {owner : Option Nat} {log : List (Nat × Option Nat)}

/-- The flag and its holder. -/
theorem glob_owner (hG : Glob hid sh order prod owner) (b : Bool) (owner' : Option Nat)
    (hb : b = owner'.isSome) : Glob hid { sh with busy := b } order prod owner' :=
  ⟨hG.len, hG.capPos, hG.capMono, hG.prev, hG.slot, hG.uniq, hG.chain, hG.cnt, hG.nodup, hG.mem, hG.own,
    hG.lt, hG.inj, hG.surj, hb⟩

theorem ext_owner (i j : Nat) (sh : Shared) (order prod) (owner owner' : Option Nat) (b : Bool)
    (h : owner' = some j ↔ owner = some j) :
    Ext j sh order prod owner { sh with busy := b } order prod owner' :=
  ⟨Nat.le_refl _, fun _ _ => rfl, fun _ _ _ h => h, fun _ _ h => h, fun _ _ _ => rfl, Iff.rfl,
    Nat.le_refl _, rfl, h, fun _ => rfl⟩

theorem rank_cons_ne {i j : Nat} (h : j ≠ i) (l : List Nat) : rank j (i :: l) = rank j l := by
  have h' : ¬ i = j := fun h' => h h'.symm
  simp only [rank, if_neg h']

theorem glob_add (hG : Glob hid sh order prod owner) (ha : Absent sh order prod i) :
    Glob hid { sh with count := sh.count + 1 } (i :: order) prod owner :=
  ⟨hG.len, hG.capPos, hG.capMono, hG.prev, hG.slot, hG.uniq, hG.chain,
    congrArg (· + 1) hG.cnt, List.nodup_cons.mpr ⟨ha.2.2, hG.nodup⟩,
    fun t a j hk => by
      have hji : j ≠ i := fun h => ha.1 t a (h ▸ hk)
      rw [rank_cons_ne hji]
      exact ⟨List.mem_cons_of_mem _ (hG.mem t a j hk).1, (hG.mem t a j hk).2⟩,
    hG.own, hG.lt, hG.inj, hG.surj, hG.flag⟩

theorem ext_add (j : Nat) (h : j ≠ i) (sh : Shared) (order prod) (owner : Option Nat) :
    Ext j sh order prod owner { sh with count := sh.count + 1 } (i :: order) prod owner :=
  ⟨Nat.le_refl _, fun _ _ => rfl, fun _ _ _ h => h, fun _ _ h => h, fun _ _ _ => rfl,
    ⟨fun hm => by
      cases hm with
      | head => exact absurd rfl h
      | tail _ hm => exact hm, List.mem_cons_of_mem _⟩,
    Nat.le_of_eq (rank_cons_ne h order), rfl, Iff.rfl, fun _ => rfl⟩

theorem glob_sub (hG : Glob hid sh order prod owner) {n : Nat} (ha : Waiting sh order prod i n) :
    Glob hid { sh with count := sh.count - 1 } (order.erase i) prod owner :=
  ⟨hG.len, hG.capPos, hG.capMono, hG.prev, hG.slot, hG.uniq, hG.chain,
    by
      show sh.count - 1 = (order.erase i).length
      rw [List.length_erase_of_mem ha.2.2.1, hG.cnt],
    hG.nodup.erase i,
    fun t a j hk => by
      have hji : j ≠ i := fun h => ha.1 t a (h ▸ hk)
      have := hG.mem t a j hk
      exact ⟨(List.mem_erase_of_ne hji).mpr this.1, Nat.lt_of_le_of_lt (rank_erase j i order hji) this.2⟩,
    hG.own, hG.lt, hG.inj, hG.surj, hG.flag⟩

theorem ext_sub (j : Nat) (h : j ≠ i) (sh : Shared) (order prod) (owner : Option Nat) :
    Ext j sh order prod owner { sh with count := sh.count - 1 } (order.erase i) prod owner :=
  ⟨Nat.le_refl _, fun _ _ => rfl, fun _ _ _ h => h, fun _ _ h => h, fun _ _ _ => rfl,
    List.mem_erase_of_ne h, rank_erase j i order h, rfl, Iff.rfl, fun _ => rfl⟩

theorem absent_sub (hG : Glob hid sh order prod owner) {n : Nat} (ha : Waiting sh order prod i n) :
    Absent { sh with count := sh.count - 1 } (order.erase i) prod i :=
  ⟨ha.1, ha.2.1, fun h => by
    have := (List.Nodup.mem_erase_iff hG.nodup).mp h
    exact this.1 rfl⟩

theorem glob_key (hG : Glob hid sh order prod owner) {m ix p : Nat} (hm : m < sh.tables.length)
    (hn : K sh m (ix % capOf sh m) = none) (hno : ∀ a, K sh m a ≠ some i) (hp : prod i = some p)
    (ho : i ∈ order) (hr : rank i order < capOf sh m / 2 + capOf sh m / 4)
    (hpr : Probed hid sh m i ix) : Glob hid (setKey sh m ix i) order prod owner := by
  have hnn : ∀ t a, K sh t a ≠ none → K (setKey sh m ix i) t a ≠ none := fun t a h => by
    rw [setKey_K hm]
    split
    · intro h; cases h
    · exact h
  refine ⟨?_, ?_, ?_, ?_, ?_, ?_, ?_, hG.cnt, hG.nodup, ?_, ?_, hG.lt, hG.inj, hG.surj, hG.flag⟩
  · rw [setKey_len]; exact hG.len
  · intro t ht
    rw [setKey_len] at ht
    rw [setKey_cap]
    exact hG.capPos t ht
  · intro t t' h ht
    rw [setKey_len] at ht
    rw [setKey_cap, setKey_cap]
    exact hG.capMono t t' h ht
  · intro t ht
    rw [setKey_len] at ht
    rw [setKey_prev]
    exact hG.prev t ht
  · intro t a j hk
    rw [setKey_K hm] at hk
    rw [setKey_cap]
    split at hk
    · rename_i h
      rw [h.1, h.2]
      exact Nat.mod_lt _ (hG.capPos m hm)
    · exact hG.slot t a j hk
  · intro t a b j ha hb
    rw [setKey_K hm] at ha hb
    split at ha <;> split at hb
    · rename_i h h'
      rw [h.2, h'.2]
    · rename_i h h'
      cases ha
      exact absurd hb (h.1 ▸ hno b)
    · rename_i h h'
      cases hb
      exact absurd ha (h'.1 ▸ hno a)
    · exact hG.uniq t a b j ha hb
  · intro t a j hk
    rw [setKey_K hm] at hk
    rw [setKey_cap]
    split at hk
    · rename_i h
      cases hk
      obtain ⟨d, hd, hd'⟩ := hpr
      refine ⟨d, ?_, fun e he => ?_⟩
      · rw [h.1, h.2, hd]
      · rw [h.1]
        exact hnn _ _ (hd' e he)
    · obtain ⟨d, hd, hd'⟩ := hG.chain t a j hk
      exact ⟨d, hd, fun e he => hnn _ _ (hd' e he)⟩
  · intro t a j hk
    rw [setKey_K hm] at hk
    rw [setKey_cap]
    split at hk
    · rename_i h
      cases hk
      rw [h.1]
      exact ⟨ho, hr⟩
    · exact hG.mem t a j hk
  · intro t a j hk
    rw [setKey_K hm] at hk
    split at hk
    · cases hk
      exact ⟨p, hp⟩
    · exact hG.own t a j hk

theorem ext_key (j : Nat) (h : j ≠ i) {m ix : Nat} (hm : m < sh.tables.length)
    (hn : K sh m (ix % capOf sh m) = none) (order prod) (owner : Option Nat) :
    Ext j sh order prod owner (setKey sh m ix i) order prod owner := by
  refine ⟨?_, ?_, ?_, ?_, ?_, Iff.rfl, Nat.le_refl _, rfl, Iff.rfl, fun _ => rfl⟩
  · rw [setKey_len]; exact Nat.le_refl _
  · intro t _; exact setKey_cap ..
  · intro t a k hk
    rw [setKey_K hm]
    split
    · rename_i h'
      rw [h'.1, h'.2, hn] at hk
      cases hk
    · exact hk
  · intro t a hk
    rw [setKey_K hm] at hk
    split at hk
    · cases hk; exact absurd rfl h
    · exact hk
  · intro t a _; exact setKey_W ..

theorem glob_val (hG : Glob hid sh order prod owner) (m ix p : Nat) :
    Glob hid (setVal sh m ix p) order prod owner := by
  refine ⟨?_, ?_, ?_, ?_, ?_, ?_, ?_, hG.cnt, hG.nodup, ?_, ?_, hG.lt, hG.inj, hG.surj, hG.flag⟩
  · rw [setVal_len]; exact hG.len
  · intro t ht
    rw [setVal_len] at ht
    rw [setVal_cap]
    exact hG.capPos t ht
  · intro t t' h ht
    rw [setVal_len] at ht
    rw [setVal_cap, setVal_cap]
    exact hG.capMono t t' h ht
  · intro t ht
    rw [setVal_len] at ht
    rw [setVal_prev]
    exact hG.prev t ht
  · intro t a j hk
    rw [setVal_K] at hk
    rw [setVal_cap]
    exact hG.slot t a j hk
  · intro t a b j ha hb
    rw [setVal_K] at ha hb
    exact hG.uniq t a b j ha hb
  · intro t a j hk
    rw [setVal_K] at hk
    rw [setVal_cap]
    obtain ⟨d, hd, hd'⟩ := hG.chain t a j hk
    exact ⟨d, hd, fun e he => by rw [setVal_K]; exact hd' e he⟩
  · intro t a j hk
    rw [setVal_K] at hk
    rw [setVal_cap]
    exact hG.mem t a j hk
  · intro t a j hk
    rw [setVal_K] at hk
    exact hG.own t a j hk

theorem ext_val (j : Nat) (h : j ≠ i) {m ix : Nat} (hm : m < sh.tables.length)
    (hn : K sh m (ix % capOf sh m) = some i) (p : Nat) (order prod) (owner : Option Nat) :
    Ext j sh order prod owner (setVal sh m ix p) order prod owner := by
  refine ⟨?_, ?_, ?_, ?_, ?_, Iff.rfl, Nat.le_refl _, rfl, Iff.rfl, fun _ => rfl⟩
  · rw [setVal_len]; exact Nat.le_refl _
  · intro t _; exact setVal_cap ..
  · intro t a k hk
    rw [setVal_K]; exact hk
  · intro t a hk
    rw [setVal_K] at hk; exact hk
  · intro t a hk
    rw [setVal_W hm, if_neg]
    intro h'
    rw [h'.1, h'.2, hn] at hk
    cases hk
    exact h rfl

theorem glob_grown (hG : Glob hid sh order prod owner) {c : Nat} (hc : 0 < c)
    (hc' : capOf sh sh.main ≤ c) : Glob hid (grown sh c sh.main) order prod owner := by
  have hl := hG.len
  have hlen : (grown sh c sh.main).tables.length = sh.tables.length + 1 := by simp [grown]
  have hlt : ∀ {t a j}, K sh t a = some j → capOf (grown sh c sh.main) t = capOf sh t := fun hk => by
    have := K_lt hk
    rw [grown_cap, if_neg (by omega)]
  refine ⟨?_, ?_, ?_, ?_, ?_, ?_, ?_, hG.cnt, hG.nodup, ?_, ?_, hG.lt, hG.inj, hG.surj, hG.flag⟩
  · rw [hlen]; rfl
  · intro t ht
    rw [grown_cap]
    split
    · exact hc
    · exact hG.capPos t (by omega)
  · intro t t' h ht
    rw [grown_cap, grown_cap]
    split <;> split
    · exact Nat.le_refl _
    · omega
    · exact Nat.le_trans (hG.capMono t sh.main (by omega) (by omega)) hc'
    · exact hG.capMono t t' h (by omega)
  · intro t ht
    rw [grown_prev]
    split
    · rw [if_neg (by omega)]
      congr 1
      omega
    · exact hG.prev t (by omega)
  · intro t a j hk
    rw [grown_K] at hk
    rw [hlt hk]
    exact hG.slot t a j hk
  · intro t a b j ha hb
    rw [grown_K] at ha hb
    exact hG.uniq t a b j ha hb
  · intro t a j hk
    rw [grown_K] at hk
    rw [hlt hk]
    obtain ⟨d, hd, hd'⟩ := hG.chain t a j hk
    exact ⟨d, hd, fun e he => by rw [grown_K]; exact hd' e he⟩
  · intro t a j hk
    rw [grown_K] at hk
    rw [hlt hk]
    exact hG.mem t a j hk
  · intro t a j hk
    rw [grown_K] at hk
    exact hG.own t a j hk

theorem ext_grown (j : Nat) (ho : owner ≠ some j) (c : Nat) (order prod) :
    Ext j sh order prod owner (grown sh c sh.main) order prod owner := by
  refine ⟨?_, ?_, ?_, ?_, ?_, Iff.rfl, Nat.le_refl _, rfl, Iff.rfl, fun h => absurd h ho⟩
  · simp [grown]
  · intro t ht
    rw [grown_cap, if_neg (by omega)]
  · intro t a k hk
    rw [grown_K]; exact hk
  · intro t a hk
    rw [grown_K] at hk; exact hk
  · intro t a _
    rw [grown_W]

theorem glob_made (hG : Glob hid sh order prod owner) (hn : prod i = none) :
    Glob hid { sh with made := sh.made + 1 } order (fun j => if j = i then some sh.made else prod j) owner := by
  refine ⟨hG.len, hG.capPos, hG.capMono, hG.prev, hG.slot, hG.uniq, hG.chain, hG.cnt, hG.nodup, hG.mem, ?_,
    ?_, ?_, ?_, hG.flag⟩
  · intro t a j hk
    show ∃ p, (if j = i then some sh.made else prod j) = some p
    split
    · exact ⟨_, rfl⟩
    · exact hG.own t a j hk
  · intro j p hp
    show p < sh.made + 1
    have hp' : (if j = i then some sh.made else prod j) = some p := hp
    split at hp'
    · cases hp'; omega
    · have := hG.lt j p hp'; omega
  · intro j k p hj hk
    have hj' : (if j = i then some sh.made else prod j) = some p := hj
    have hk' : (if k = i then some sh.made else prod k) = some p := hk
    split at hj' <;> split at hk'
    · omega
    · have := hG.lt k p hk'
      cases hj'
      omega
    · have := hG.lt j p hj'
      cases hk'
      omega
    · exact hG.inj j k p hj' hk'
  · intro p hp
    have hp' : p < sh.made + 1 := hp
    by_cases h : p = sh.made
    · exact ⟨i, by rw [if_pos rfl, h]⟩
    · obtain ⟨j, hj⟩ := hG.surj p (by omega)
      have : j ≠ i := fun h => by rw [h, hn] at hj; cases hj
      exact ⟨j, by rw [if_neg this]; exact hj⟩

theorem ext_made (j : Nat) (h : j ≠ i) (sh : Shared) (order) (prod : Nat → Option Nat) (owner : Option Nat) :
    Ext j sh order prod owner { sh with made := sh.made + 1 } order
      (fun j => if j = i then some sh.made else prod j) owner :=
  ⟨Nat.le_refl _, fun _ _ => rfl, fun _ _ _ h => h, fun _ _ h => h, fun _ _ _ => rfl, Iff.rfl,
    Nat.le_refl _, if_neg h, Iff.rfl, fun _ => rfl⟩

theorem ni_room {m n : Nat} (ho : owner ≠ some i) (hw : Waiting sh order prod i n)
    (hm : m < sh.tables.length) : NI hid sh order prod owner log i (room sh m n) := by
  unfold room
  split
  · exact ⟨ho, hw, hm, by assumption⟩
  · exact ⟨ho, hw⟩

theorem ni_half {m n : Nat} (ho : owner ≠ some i) (hw : Waiting sh order prod i n)
    (hm : m < sh.tables.length) : NI hid sh order prod owner log i (half sh m n) := by
  unfold half
  split
  · exact ⟨ho, hw, hm⟩
  · exact ni_room ho hw hm

end

theorem find_absent {hid : Nat → Nat} {sh : Shared} {order : List Nat} {prod : Nat → Option Nat}
    {owner : Option Nat} {i t d : Nat} (hG : Glob hid sh order prod owner)
    (hp : ∀ e, e < d → K sh t ((hid i + e) % capOf sh t) ≠ some i)
    (hn : K sh t ((hid i + d) % capOf sh t) = none) (a : Nat) : K sh t a ≠ some i := fun hk => by
  obtain ⟨d', hd, hd'⟩ := hG.chain t a i hk
  rcases Nat.lt_trichotomy d d' with h | h | h
  · exact hd' d h hn
  · subst h
    rw [hd, hn] at hk
    cases hk
  · exact hp d' h (hd ▸ hk)

theorem inv_step {hid : Nat → Nat} {s : Sys} {order : List Nat} {prod : Nat → Option Nat}
    {owner : Option Nat} (h : Inv hid s order prod owner) {i : Nat} {p : Pos}
    (hi : s.threads[i]? = some (some p)) (c : Bool) :
    ∃ order' prod' owner',
      Inv hid (put s i (step hid i s.sh c p).1 (step hid i s.sh c p).2) order' prod' owner' := by
  have hG := h.glob
  have hT := h.thr i _ hi
  have stay : ∀ {nx : Next}, NI hid s.sh order prod owner s.log i nx →
      ∃ order' prod' owner', Inv hid (put s i s.sh nx) order' prod' owner' := fun hN =>
    ⟨order, prod, owner, inv_put h hi hG (fun j _ => Ext.refl ..) (fun _ h => h) hN⟩
  have probe : ∀ {m ix : Nat}, Probed hid s.sh m i ix → K s.sh m (ix % capOf s.sh m) ≠ none →
      Probed hid s.sh m i (ix + 1) := fun {m ix} hp hk => by
    obtain ⟨d, hd, hp⟩ := hp
    refine ⟨d + 1, by omega, fun e he => ?_⟩
    by_cases h : e < d
    · exact hp e h
    · have : e = d := by omega
      subst this
      rw [← hd]
      exact hk
  cases p with
  | load =>
    have hl := hG.len
    exact stay ⟨hT.1, hT.2.1, hT.2.2, Nat.le_refl _, by omega,
      fun t' a ht hk => by have := K_lt hk; omega, 0, rfl, fun e he => absurd he (Nat.not_lt_zero _)⟩
  | find m t ix =>
    obtain ⟨h1, h2, h3, h4, h5, h6, d, h7, h8⟩ := hT
    refine stay ?_
    simp only [step, keyAt_eq, valAt_eq]
    by_cases hk : K s.sh t (ix % capOf s.sh t) = some i
    · rw [if_pos hk]
      by_cases htm : t = m
      · rw [if_pos htm]
        exact ⟨h3 _ _ hk, h1, fun _ => ⟨_, _, hk⟩, fun _ _ => ⟨_, _, hk⟩, h3⟩
      · rw [if_neg htm]
        obtain ⟨p, hp⟩ := hG.own _ _ _ hk
        refine ⟨h1, h2, h3, h5, ?_, ⟨t, _, by omega, hk⟩, fun a => h6 m a (by omega), 0, rfl,
          fun e he => absurd he (Nat.not_lt_zero _)⟩
        rw [h3 _ _ hk, hp]
        rfl
    · rw [if_neg hk]
      by_cases hn : K s.sh t (ix % capOf s.sh t) = none
      · rw [if_pos hn, hG.prev t (by omega)]
        have habs := find_absent hG (fun e he => (h8 e he).2) (h7 ▸ hn)
        have hall : ∀ t' a, t ≤ t' → K s.sh t' a ≠ some i := fun t' a ht => by
          by_cases h : t = t'
          · subst h; exact habs a
          · exact h6 t' a (by omega)
        by_cases ht : t = 0
        · rw [if_pos ht]
          have hnk : ∀ t a, K s.sh t a ≠ some i := fun t' a => hall t' a (by omega)
          refine ⟨h1, ⟨hnk, ?_, fun ho => ?_⟩, h5⟩
          · cases hp : prod i with
            | none => rfl
            | some p =>
              obtain ⟨⟨t', a, hk⟩, _⟩ := h2.2 p hp
              exact absurd hk (hnk t' a)
          · obtain ⟨t', a, hk⟩ := h2.1 ho
            exact absurd hk (hnk t' a)
        · rw [if_neg ht]
          exact ⟨h1, h2, h3, by omega, h5, fun t' a ht => hall t' a (by omega), 0, rfl,
            fun e he => absurd he (Nat.not_lt_zero _)⟩
      · rw [if_neg hn]
        refine ⟨h1, h2, h3, h4, h5, h6, d + 1, by omega, fun e he => ?_⟩
        by_cases h : e < d
        · exact h8 e h
        · have : e = d := by omega
          subst this
          rw [← h7]
          exact ⟨hn, hk⟩
  | copy m ix v =>
    obtain ⟨h1, h2, h3, h4, h5, h6, h7, h8⟩ := hT
    refine stay ?_
    simp only [step, keyAt_eq]
    by_cases hn : K s.sh m (ix % capOf s.sh m) = none
    · rw [if_pos hn]
      exact ⟨h1, h2, h3, h4, h5, h6, h7, h8⟩
    · rw [if_neg hn]
      exact ⟨h1, h2, h3, h4, h5, h6, h7, probe h8 hn⟩
  | copyCas m ix v =>
    obtain ⟨h1, h2, h3, h4, h5, h6, h7, h8⟩ := hT
    simp only [step, keyAt_eq]
    by_cases hn : K s.sh m (ix % capOf s.sh m) = none
    · rw [if_pos hn]
      obtain ⟨t, a, ht, hk⟩ := h6
      have hm := hG.mem t a i hk
      have hcap := hG.capMono t m (by omega) h4
      refine ⟨order, prod, owner, inv_put h hi
        (glob_key hG h4 hn h7 h5 hm.1 ?_ h8) (fun j hj => ext_key j hj h4 hn ..) (fun _ h => h) ?_⟩
      · have := hm.2
        omega
      · have hkk : K (setKey s.sh m ix i) m (ix % capOf (setKey s.sh m ix i) m) = some i := by
          rw [setKey_K h4, setKey_cap, if_pos ⟨rfl, rfl⟩]
        refine ⟨h1, ⟨fun _ => ⟨_, _, hkk⟩, fun p hp => ⟨⟨_, _, hkk⟩, (h2.2 p hp).2⟩⟩, ?_, h5, hkk, ?_⟩
        · rw [setKey_len]; exact h4
        · intro t a hk
          rw [setKey_K h4] at hk
          rw [setKey_W, setKey_cap]
          split at hk
          · left; assumption
          · right; exact h3 t a hk
    · rw [if_neg hn]
      exact stay ⟨h1, h2, h3, h4, h5, h6, h7, probe h8 hn⟩
  | copyVal m ix v =>
    obtain ⟨h1, h2, h4, h5, h6, h7⟩ := hT
    refine ⟨order, prod, owner, inv_put h hi (sh' := setVal s.sh m ix v) (glob_val hG m ix v)
      (fun j hj => ext_val j hj h4 h6 ..) (fun _ h => h) ?_⟩
    refine ⟨h5.symm, h1, fun _ => ⟨m, ix % capOf s.sh m, (setVal_K ..).trans h6⟩,
      fun _ _ => ⟨m, ix % capOf s.sh m, (setVal_K ..).trans h6⟩, fun t a hk => ?_⟩
    rw [setVal_K] at hk
    rw [setVal_W h4]
    split
    · exact h5.symm
    · rcases h7 t a hk with h | h
      · exact absurd h (by assumption)
      · exact h
  | add m =>
    obtain ⟨h1, h2, h3⟩ := hT
    refine ⟨i :: order, prod, owner, inv_put h hi (glob_add hG h2) (fun j hj => ext_add j hj ..)
      (fun _ h => h) ?_⟩
    have hw : Waiting { s.sh with count := s.sh.count + 1 } (i :: order) prod i (s.sh.count + 1) := by
      refine ⟨h2.1, h2.2.1, List.mem_cons_self, ?_⟩
      have := rank_le i (i :: order)
      rw [hG.cnt]
      exact this
    exact ni_half h1 hw h3
  | tas m n =>
    obtain ⟨h1, h2, h3⟩ := hT
    cases hb : s.sh.busy with
    | true =>
      simp only [step, hb, if_true]
      exact stay (ni_room h1 h2 h3)
    | false =>
      simp only [step, hb, Bool.false_eq_true, if_false]
      have hf := hG.flag
      rw [hb] at hf
      have hon : owner = none := by cases ho : owner with
        | none => rfl
        | some x => rw [ho] at hf; cases hf
      refine ⟨order, prod, some i, inv_put h hi (glob_owner hG true (some i) rfl)
        (fun j hj => ext_owner i j s.sh order prod owner (some i) true ?_) (fun _ h => h) ⟨rfl, h2⟩⟩
      rw [hon]
      exact ⟨fun h => absurd (Option.some.inj h).symm hj, fun h => by cases h⟩
  | reload n =>
    obtain ⟨h1, h2⟩ := hT
    have hl := hG.len
    refine stay ?_
    simp only [step]
    split
    · exact ⟨h1, h2, rfl, by omega, by assumption⟩
    · exact ⟨h1, h2, by omega, by omega⟩
  | grow m n =>
    obtain ⟨h1, h2, h3, h4, h5⟩ := hT
    have hpos := hG.capPos m h4
    cases c with
    | false => exact stay ⟨h1, n, h2⟩
    | true =>
      have hge := doubled_ge n (n + 1) (2 * capOf s.sh m)
      have hgt := doubled_gt n (n + 1) (2 * capOf s.sh m) (by omega) (by omega)
      subst h3
      have hcc : capOf s.sh s.sh.main ≤ doubled n (n + 1) (2 * capOf s.sh s.sh.main) := by omega
      refine ⟨order, prod, owner, inv_put h hi
        (sh' := grown s.sh (doubled n (n + 1) (2 * capOf s.sh s.sh.main)) s.sh.main)
        (glob_grown hG (by omega) hcc) (fun j hj => ext_grown j ?_ ..) (fun _ h => h) ?_⟩
      · rw [h1]
        intro h
        exact hj (Option.some.inj h).symm
      · refine ⟨h1, ⟨fun t a => by rw [grown_K]; exact h2.1 t a, h2.2⟩, by simp [grown], ?_⟩
        rw [grown_cap, if_pos rfl]
        exact hgt
  | unlock m n =>
    obtain ⟨h1, h2, h3, h4⟩ := hT
    refine ⟨order, prod, none, inv_put h hi (glob_owner hG false none rfl)
      (fun j hj => ext_owner i j s.sh order prod owner none false ?_) (fun _ h => h)
      (ni_room (by intro h; cases h) h2 h3)⟩
    rw [h1]
    exact ⟨fun h => (nomatch h), fun h => absurd (Option.some.inj h).symm hj⟩
  | subLocked =>
    obtain ⟨h1, n, h2⟩ := hT
    exact ⟨order.erase i, prod, owner, inv_put h hi (glob_sub hG h2) (fun j hj => ext_sub j hj ..)
      (fun _ h => h) ⟨h1, absent_sub hG h2⟩⟩
  | unlockFail =>
    obtain ⟨h1, h2⟩ := hT
    refine ⟨order, prod, none, inv_put h hi (glob_owner hG false none rfl)
      (fun j hj => ext_owner i j s.sh order prod owner none false ?_) (fun _ h => h)
      ⟨h2.2.1.symm, (by intro h; cases h), fun h => absurd h h2.2.2, fun p hp => ?_, fun t a hk => absurd hk (h2.1 t a)⟩⟩
    · rw [h1]
      exact ⟨fun h => (nomatch h), fun h => absurd (Option.some.inj h).symm hj⟩
    · rw [h2.2.1] at hp
      cases hp
  | spin n =>
    have hl := hG.len
    exact stay (ni_half hT.1 hT.2 (by omega))
  | make m n =>
    obtain ⟨h1, h2, h3, h4⟩ := hT
    cases c with
    | false => exact stay ⟨h1, n, h2⟩
    | true =>
      refine ⟨order, _, owner, inv_put h hi (glob_made hG h2.2.1) (fun j hj => ext_made j hj ..)
        (fun p hp => ?_) ⟨h1, h2.1, if_pos rfl, h2.2.2.1, Nat.lt_of_le_of_lt h2.2.2.2 h4, h3, 0, rfl,
          fun e he => absurd he (Nat.not_lt_zero _)⟩⟩
      rw [h2.2.1] at hp
      cases hp
  | sub =>
    obtain ⟨h1, n, h2⟩ := hT
    have ha := absent_sub hG h2
    refine ⟨order.erase i, prod, owner, inv_put h hi (glob_sub hG h2) (fun j hj => ext_sub j hj ..)
      (fun _ h => h) ⟨ha.2.1.symm, h1, fun h => absurd h ha.2.2, fun p hp => ?_, fun t a hk => absurd hk (ha.1 t a)⟩⟩
    rw [ha.2.1] at hp
    cases hp
  | ins m ix p =>
    obtain ⟨h1, h2, h3, h4, h5, h6, h7⟩ := hT
    refine stay ?_
    simp only [step, keyAt_eq]
    by_cases hn : K s.sh m (ix % capOf s.sh m) = none
    · rw [if_pos hn]
      exact ⟨h1, h2, h3, h4, h5, h6, h7⟩
    · rw [if_neg hn]
      exact ⟨h1, h2, h3, h4, h5, h6, probe h7 hn⟩
  | insCas m ix p =>
    obtain ⟨h1, h2, h3, h4, h5, h6, h7⟩ := hT
    simp only [step, keyAt_eq]
    by_cases hn : K s.sh m (ix % capOf s.sh m) = none
    · rw [if_pos hn]
      refine ⟨order, prod, owner, inv_put h hi (glob_key hG h6 hn (h2 m) h3 h4 h5 h7)
        (fun j hj => ext_key j hj h6 hn ..) (fun _ h => h) ⟨h1, ?_, h3, ?_, ?_⟩⟩
      · rw [setKey_len]; exact h6
      · rw [setKey_K h6, setKey_cap, if_pos ⟨rfl, rfl⟩]
      · intro t a hk
        rw [setKey_K h6] at hk
        rw [setKey_cap]
        split at hk
        · assumption
        · exact absurd hk (h2 t a)
    · rw [if_neg hn]
      exact stay ⟨h1, h2, h3, h4, h5, h6, probe h7 hn⟩
  | insVal m ix p =>
    obtain ⟨h1, h4, h5, h6, h7⟩ := hT
    refine ⟨order, prod, owner, inv_put h hi (sh' := setVal s.sh m ix p) (glob_val hG m ix p)
      (fun j hj => ext_val j hj h4 h6 ..) (fun _ h => h) ?_⟩
    refine ⟨h5.symm, h1, fun _ => ⟨m, ix % capOf s.sh m, (setVal_K ..).trans h6⟩,
      fun _ _ => ⟨m, ix % capOf s.sh m, (setVal_K ..).trans h6⟩, fun t a hk => ?_⟩
    rw [setVal_K] at hk
    rw [setVal_W h4, if_pos (h7 t a hk)]
    exact h5.symm

/-- The invariant with its ghosts. -/
def Ok (hid : Nat → Nat) (s : Sys) : Prop := ∃ order prod owner, Inv hid s order prod owner

theorem ok_move {hid : Nat → Nat} {s s' : Sys} (h : Ok hid s) {m : Move} (hm : move hid s m = some s') :
    Ok hid s' := by
  obtain ⟨order, prod, owner, h⟩ := h
  cases m with
  | start i =>
    simp only [move] at hm
    cases hi : s.threads[i]? with
    | none => rw [hi] at hm; cases hm
    | some o =>
      cases o with
      | some p => rw [hi] at hm; cases hm
      | none =>
        rw [hi] at hm
        cases hm
        refine ⟨order, prod, owner, h.glob, fun j o hj => ?_, h.logs, fun j p hp => ?_, fun j hp => ?_⟩
        case refine_3 =>
          show j < (s.threads.set i (some .load)).length
          rw [List.length_set]
          exact h.ordr j hp
        case refine_2 =>
          show j < (s.threads.set i (some .load)).length
          rw [List.length_set]
          exact h.inr j p hp
        have hil : i < s.threads.length := (List.getElem?_eq_some_iff.mp hi).1
        by_cases hij : j = i
        · subst hij
          rw [List.getElem?_set_self hil] at hj
          cases hj
          exact h.thr j none hi
        · rw [List.getElem?_set_ne (fun h => hij h.symm)] at hj
          exact h.thr j o hj
  | go i c =>
    simp only [move] at hm
    cases hi : s.threads[i]? with
    | none => rw [hi] at hm; cases hm
    | some o =>
      cases o with
      | none => rw [hi] at hm; cases hm
      | some p =>
        rw [hi] at hm
        cases hm
        exact inv_step h hi c

theorem ok_run {hid : Nat → Nat} : ∀ {ms : List Move} {s s' : Sys}, Ok hid s → run hid s ms = some s' →
    Ok hid s'
  | [], s, s', h, hr => by cases hr; exact h
  | m :: ms, s, s', h, hr => by
    simp only [run] at hr
    cases hm : move hid s m with
    | none => rw [hm] at hr; cases hr
    | some s₁ =>
      rw [hm] at hr
      exact ok_run (ok_move h hm) hr

theorem init_K (k t a : Nat) : K (init k).sh t a = none := by
  cases t <;> rfl

theorem ok_init (hid : Nat → Nat) (k : Nat) : Ok hid (init k) := by
  have hK : ∀ {t a i}, K (init k).sh t a = some i → False := fun {t a i} h => by
    rw [init_K] at h; cases h
  have hone : ∀ {t}, t < (init k).sh.tables.length → t = 0 := fun {t} h => by
    have : t < 1 := h
    omega
  refine ⟨[], fun _ => none, none, ⟨rfl, ?_, ?_, ?_, ?_, ?_, ?_, rfl, List.nodup_nil, ?_, ?_, ?_, ?_, ?_,
    rfl⟩, ?_, ⟨?_, ?_⟩, fun i p h => (nomatch h), fun i h => (nomatch h)⟩
  · intro t ht
    rw [hone ht]
    exact (by decide : 0 < 32)
  · intro t t' h ht
    have h0 := hone ht
    have h1 : t = 0 := by omega
    rw [h0, h1]
    exact Nat.le_refl _
  · intro t ht
    rw [hone ht]
    rfl
  · intro t a i h; exact (hK h).elim
  · intro t a b i h; exact (hK h).elim
  · intro t a i h; exact (hK h).elim
  · intro t a i h; exact (hK h).elim
  · intro t a i h; exact (hK h).elim
  · intro i p h; cases h
  · intro i j p h; cases h
  · intro p h; exact absurd h (Nat.not_lt_zero _)
  · intro i o hi
    have hi' : (List.replicate k (none : Option Pos))[i]? = some o := hi
    rw [List.getElem?_replicate] at hi'
    split at hi'
    · cases hi'
      exact ⟨(by intro h; cases h), ⟨fun h => (nomatch h), fun p hp => (nomatch hp)⟩, fun t a h => (hK h).elim⟩
    · cases hi'
  · intro i p h; cases h
  · intro l₁ l₂ i p r h
    cases l₁ <;> cases h

/-! ### Room -/

theorem free_slot {hid : Nat → Nat} {sh : Shared} {order : List Nat} {prod : Nat → Option Nat}
    {owner : Option Nat} (hG : Glob hid sh order prod owner) {t : Nat} (ht : t < sh.tables.length) :
    ∃ a, a < capOf sh t ∧ K sh t a = none := by
  refine Classical.byContradiction fun hno => ?_
  have hall : ∀ a, a < capOf sh t → ∃ i, K sh t a = some i := fun a ha => by
    cases hk : K sh t a with
    | none => exact absurd ⟨a, ha, hk⟩ hno
    | some i => exact ⟨i, rfl⟩
  have hpos := hG.capPos t ht
  have := pigeon (capOf sh t) (capOf sh t / 2 + capOf sh t / 4)
    (fun a => rank ((K sh t a).getD 0) order)
    (fun a ha => by
      obtain ⟨i, hi⟩ := hall a ha
      show rank ((K sh t a).getD 0) order < _
      rw [hi]
      exact (hG.mem t a i hi).2)
    (fun a b ha hb hab => by
      obtain ⟨i, hi⟩ := hall a ha
      obtain ⟨j, hj⟩ := hall b hb
      have hab' : rank ((K sh t a).getD 0) order = rank ((K sh t b).getD 0) order := hab
      rw [hi, hj] at hab'
      have := rank_inj i j order (hG.mem t a i hi).1 (hG.mem t b j hj).1 hab'
      subst this
      exact hG.uniq t a b i hi hj)
  omega

theorem probe_lt {hid : Nat → Nat} {sh : Shared} {order : List Nat} {prod : Nat → Option Nat}
    {owner : Option Nat} (hG : Glob hid sh order prod owner) {t : Nat} (ht : t < sh.tables.length)
    {x d : Nat} (hp : ∀ e, e < d → K sh t ((x + e) % capOf sh t) ≠ none) : d < capOf sh t := by
  obtain ⟨a, ha, hn⟩ := free_slot hG ht
  have hpos := hG.capPos t ht
  refine Classical.byContradiction fun hd => ?_
  have hx := Nat.mod_lt x hpos
  have hdiv := Nat.div_add_mod x (capOf sh t)
  by_cases h : x % capOf sh t ≤ a
  · refine hp (a - x % capOf sh t) (by omega) ?_
    have : x + (a - x % capOf sh t) = a + capOf sh t * (x / capOf sh t) := by omega
    rw [this, Nat.add_mul_mod_self_left, Nat.mod_eq_of_lt ha]
    exact hn
  · refine hp (a + capOf sh t - x % capOf sh t) (by omega) ?_
    have : x + (a + capOf sh t - x % capOf sh t) = a + capOf sh t * (x / capOf sh t + 1) := by
      rw [Nat.mul_add]
      omega
    rw [this, Nat.add_mul_mod_self_left, Nat.mod_eq_of_lt ha]
    exact hn

/-! ### Single moves -/

theorem move_go {hid : Nat → Nat} {s s' : Sys} {i : Nat} {c : Bool} (h : move hid s (.go i c) = some s') :
    ∃ p, s.threads[i]? = some (some p) ∧ s' = put s i (step hid i s.sh c p).1 (step hid i s.sh c p).2 := by
  simp only [move] at h
  cases hi : s.threads[i]? with
  | none => rw [hi] at h; cases h
  | some o =>
    cases o with
    | none => rw [hi] at h; cases h
    | some p =>
      rw [hi] at h
      cases h
      exact ⟨p, rfl, rfl⟩

theorem move_start {hid : Nat → Nat} {s s' : Sys} {i : Nat} (h : move hid s (.start i) = some s') :
    s.threads[i]? = some none ∧ s' = { s with threads := s.threads.set i (some .load) } := by
  simp only [move] at h
  cases hi : s.threads[i]? with
  | none => rw [hi] at h; cases h
  | some o =>
    cases o with
    | some p => rw [hi] at h; cases h
    | none =>
      rw [hi] at h
      cases h
      exact ⟨rfl, rfl⟩

theorem put_other {s : Sys} {i j : Nat} (h : j ≠ i) (sh : Shared) (nx : Next) :
    (put s i sh nx).threads[j]? = s.threads[j]? := by
  cases nx <;> exact List.getElem?_set_ne (fun h' => h h'.symm)

theorem put_sh (s : Sys) (i : Nat) (sh : Shared) (nx : Next) : (put s i sh nx).sh = sh := by
  cases nx <;> rfl

theorem put_at {s : Sys} {i : Nat} {o : Option Pos} (h : s.threads[i]? = some o) (sh : Shared) (q : Pos) :
    (put s i sh (.at q)).threads[i]? = some (some q) :=
  List.getElem?_set_self (List.getElem?_eq_some_iff.mp h).1

theorem put_ret {s : Sys} {i : Nat} {o : Option Pos} (h : s.threads[i]? = some o) (sh : Shared)
    (r : Option Nat) : (put s i sh (.ret r)).threads[i]? = some none :=
  List.getElem?_set_self (List.getElem?_eq_some_iff.mp h).1

theorem put_log (s : Sys) (i : Nat) (sh : Shared) (nx : Next) : ∃ l, (put s i sh nx).log = l ++ s.log := by
  cases nx with
  | «at» q => exact ⟨[], rfl⟩
  | ret r => exact ⟨[(i, r)], rfl⟩

theorem move_log {hid : Nat → Nat} {s s' : Sys} {m : Move} (h : move hid s m = some s') :
    ∃ l, s'.log = l ++ s.log := by
  cases m with
  | start i => rw [(move_start h).2]; exact ⟨[], rfl⟩
  | go i c =>
    obtain ⟨p, _, h⟩ := move_go h
    rw [h]
    exact put_log ..

theorem run_log {hid : Nat → Nat} : ∀ {ms : List Move} {s s' : Sys}, run hid s ms = some s' →
    ∃ l, s'.log = l ++ s.log
  | [], s, s', h => by cases h; exact ⟨[], rfl⟩
  | m :: ms, s, s', h => by
    simp only [run] at h
    cases hm : move hid s m with
    | none => rw [hm] at h; cases h
    | some s₁ =>
      rw [hm] at h
      obtain ⟨l, hl⟩ := run_log (s := s₁) h
      obtain ⟨l', hl'⟩ := move_log hm
      exact ⟨l ++ l', by rw [hl, hl', List.append_assoc]⟩

/-- A step changes no capacity. -/
theorem step_cap (hid : Nat → Nat) (i : Nat) (sh : Shared) (c : Bool) (p : Pos) {t : Nat}
    (ht : t < sh.tables.length) : capOf (step hid i sh c p).1 t = capOf sh t := by
  have hg : ∀ n m, capOf (grown sh n m) t = capOf sh t := fun n m => by
    rw [grown_cap, if_neg (by omega)]
  cases p with
  | grow m n => cases c with
    | false => rfl
    | true => exact hg ..
  | copyCas m ix v => simp only [step]; split <;> first | exact setKey_cap .. | rfl
  | insCas m ix v => simp only [step]; split <;> first | exact setKey_cap .. | rfl
  | copyVal m ix v => exact setVal_cap ..
  | insVal m ix v => exact setVal_cap ..
  | tas m n => simp only [step]; split <;> rfl
  | make m n => simp only [step]; split <;> rfl
  | _ => rfl

/-! ### No result without memory -/

/-- The positions after a failed allocation. -/
def failing : Pos → Bool
  | .subLocked | .unlockFail | .sub => true
  | _ => false

/-- Thread `i` gave up, or is about to. -/
def Bad (s : Sys) (i : Nat) : Prop :=
  (i, none) ∈ s.log ∨ ∃ p, s.threads[i]? = some (some p) ∧ failing p = true

theorem room_ok (sh : Shared) (m n : Nat) : ∃ q, room sh m n = .at q ∧ failing q = false := by
  unfold room
  split <;> exact ⟨_, rfl, rfl⟩

theorem half_ok (sh : Shared) (m n : Nat) : ∃ q, half sh m n = .at q ∧ failing q = false := by
  unfold half
  split
  · exact ⟨_, rfl, rfl⟩
  · exact room_ok ..

theorem step_ok {hid : Nat → Nat} {s : Sys} (h : Ok hid s) {i : Nat} {p : Pos}
    (hi : s.threads[i]? = some (some p)) (hp : failing p = false) :
    (∃ q, (step hid i s.sh true p).2 = .at q ∧ failing q = false) ∨
      ∃ x, (step hid i s.sh true p).2 = .ret (some x) := by
  obtain ⟨order, prod, owner, h⟩ := h
  have hT := h.thr i _ hi
  cases p with
  | load => exact .inl ⟨_, rfl, rfl⟩
  | find m t ix =>
    simp only [step]
    split
    · rename_i hk
      split
      · right
        rw [keyAt_eq] at hk
        obtain ⟨p, hp⟩ := h.glob.own _ _ _ hk
        exact ⟨p, by rw [valAt_eq, hT.2.2.1 _ _ hk, hp]⟩
      · exact .inl ⟨_, rfl, rfl⟩
    · split
      · cases prevOf s.sh t <;> exact .inl ⟨_, rfl, rfl⟩
      · exact .inl ⟨_, rfl, rfl⟩
  | copy m ix v => simp only [step]; split <;> exact .inl ⟨_, rfl, rfl⟩
  | copyCas m ix v => simp only [step]; split <;> exact .inl ⟨_, rfl, rfl⟩
  | copyVal m ix v => exact .inr ⟨v, rfl⟩
  | add m => exact .inl (half_ok ..)
  | tas m n =>
    simp only [step]
    split
    · exact .inl (room_ok ..)
    · exact .inl ⟨_, rfl, rfl⟩
  | reload n => simp only [step]; split <;> exact .inl ⟨_, rfl, rfl⟩
  | grow m n => exact .inl ⟨_, rfl, rfl⟩
  | unlock m n => exact .inl (room_ok ..)
  | subLocked => cases hp
  | unlockFail => cases hp
  | spin n => exact .inl (half_ok ..)
  | make m n => exact .inl ⟨_, rfl, rfl⟩
  | sub => cases hp
  | ins m ix v => simp only [step]; split <;> exact .inl ⟨_, rfl, rfl⟩
  | insCas m ix v => simp only [step]; split <;> exact .inl ⟨_, rfl, rfl⟩
  | insVal m ix v => exact .inr ⟨v, rfl⟩

theorem bad_move {hid : Nat → Nat} {s s' : Sys} (h : Ok hid s) {m : Move} {i : Nat}
    (hm : move hid s m = some s') (hb : Bad s' i) : Bad s i ∨ m = .go i false := by
  cases m with
  | start j =>
    obtain ⟨hj, hs⟩ := move_start hm
    subst hs
    left
    rcases hb with hb | ⟨p, hp, hf⟩
    · exact .inl hb
    · have hjl := (List.getElem?_eq_some_iff.mp hj).1
      by_cases hij : i = j
      · subst hij
        have hp' : (s.threads.set i (some .load))[i]? = some (some p) := hp
        rw [List.getElem?_set_self hjl] at hp'
        cases hp'
        cases hf
      · have hp' : (s.threads.set j (some .load))[i]? = some (some p) := hp
        rw [List.getElem?_set_ne (fun h => hij h.symm)] at hp'
        exact .inr ⟨p, hp', hf⟩
  | go j c =>
    obtain ⟨p, hj, hs⟩ := move_go hm
    subst hs
    by_cases hij : i = j
    · subst hij
      cases c with
      | false => exact .inr rfl
      | true =>
        left
        cases hf : failing p with
        | true => exact .inr ⟨p, hj, hf⟩
        | false =>
          rcases step_ok h hj hf with ⟨q, hq, hqf⟩ | ⟨x, hx⟩
          · rw [hq] at hb
            rcases hb with hb | ⟨q', hq', hf'⟩
            · exact .inl hb
            · rw [put_at hj] at hq'
              cases hq'
              rw [hqf] at hf'
              cases hf'
          · rw [hx] at hb
            rcases hb with hb | ⟨q', hq', hf'⟩
            · cases hb with
              | tail _ hb => exact .inl hb
            · rw [put_ret hj] at hq'
              cases hq'
    · left
      rcases hb with hb | ⟨q, hq, hf⟩
      · cases hnx : (step hid j s.sh c p).2 with
        | «at» q => rw [hnx] at hb; exact .inl hb
        | ret r =>
          rw [hnx] at hb
          cases hb with
          | head => exact absurd rfl hij
          | tail _ hb => exact .inl hb
      · rw [put_other hij] at hq
        exact .inr ⟨q, hq, hf⟩

theorem bad_run {hid : Nat → Nat} {i : Nat} : ∀ {ms : List Move} {s s' : Sys}, Ok hid s →
    run hid s ms = some s' → Bad s' i → Bad s i ∨ Move.go i false ∈ ms
  | [], s, s', _, hr, hb => by cases hr; exact .inl hb
  | m :: ms, s, s', h, hr, hb => by
    simp only [run] at hr
    cases hm : move hid s m with
    | none => rw [hm] at hr; cases hr
    | some s₁ =>
      rw [hm] at hr
      rcases bad_run (ok_move h hm) hr hb with h' | h'
      · rcases bad_move h hm h' with h' | h'
        · exact .inl h'
        · rw [h']
          exact .inr List.mem_cons_self
      · exact .inr (List.mem_cons_of_mem _ h')

/-! ### A thread that has its producer -/

/-- Steps a call may still take. -/
def mu (hid : Nat → Nat) (sh : Shared) (i : Nat) : Pos → Nat
  | .find m t ix => t * (capOf sh m + 1) + (hid i + capOf sh t - ix) + 2 * capOf sh m + 2
  | .copy m ix _ => 2 * (hid i + capOf sh m - ix) + 1
  | .copyCas m ix _ => 2 * (hid i + capOf sh m - ix)
  | .copyVal _ _ _ => 1
  | _ => 0

/-- Positions of a call that finds its producer. -/
def looking : Pos → Bool
  | .find _ _ _ | .copy _ _ _ | .copyCas _ _ _ | .copyVal _ _ _ => true
  | _ => false

theorem mu_same {hid : Nat → Nat} {s s' : Sys} {order : List Nat} {prod : Nat → Option Nat}
    {owner : Option Nat} (h : Inv hid s order prod owner) {i : Nat} {p : Pos}
    (hi : s.threads[i]? = some (some p)) (hc : ∀ t, t < s.sh.tables.length → capOf s'.sh t = capOf s.sh t) :
    mu hid s'.sh i p = mu hid s.sh i p := by
  have hT := h.thr i _ hi
  cases p with
  | find m t ix =>
    obtain ⟨_, _, _, h4, h5, _⟩ := hT
    simp only [mu]
    rw [hc m h5, hc t (by omega)]
  | copy m ix v => simp only [mu]; rw [hc m hT.2.2.2.1]
  | copyCas m ix v => simp only [mu]; rw [hc m hT.2.2.2.1]
  | _ => rfl

theorem mu_pos {hid : Nat → Nat} {s : Sys} {order : List Nat} {prod : Nat → Option Nat}
    {owner : Option Nat} (h : Inv hid s order prod owner) {i : Nat} {p : Pos}
    (hi : s.threads[i]? = some (some p)) (hl : looking p = true) : 0 < mu hid s.sh i p := by
  have hT := h.thr i _ hi
  cases p with
  | find m t ix => simp only [mu]; omega
  | copy m ix v => simp only [mu]; omega
  | copyCas m ix v =>
    obtain ⟨_, _, _, h4, _, _, _, d, h7, h8⟩ := hT
    have := probe_lt h.glob h4 h8
    simp only [mu]
    omega
  | copyVal m ix v => simp only [mu]; omega
  | _ => cases hl

theorem mu_step {hid : Nat → Nat} {s : Sys} (hok : Ok hid s) {i x : Nat} {p : Pos}
    (hi : s.threads[i]? = some (some p)) (hl : looking p = true) (hx : (i, some x) ∈ s.log) (c : Bool) :
    (step hid i s.sh c p).2 = .ret (some x) ∨ ∃ q, (step hid i s.sh c p).2 = .at q ∧ looking q = true ∧
      mu hid (step hid i s.sh c p).1 i q < mu hid s.sh i p := by
  obtain ⟨order, prod, owner, h⟩ := hok
  have hT := h.thr i _ hi
  have hpx := h.logs.given i x hx
  cases p with
  | find m t ix =>
    obtain ⟨h1, h2, h3, h4, h5, h6, d, h7, h8⟩ := hT
    have hlt := probe_lt h.glob (t := t) (by omega) (fun e he => (h8 e he).1)
    simp only [step, keyAt_eq, valAt_eq]
    by_cases hk : K s.sh t (ix % capOf s.sh t) = some i
    · rw [if_pos hk]
      by_cases htm : t = m
      · rw [if_pos htm, h3 _ _ hk, hpx]
        exact .inl rfl
      · rw [if_neg htm]
        refine .inr ⟨_, rfl, rfl, ?_⟩
        simp only [mu]
        omega
    · rw [if_neg hk]
      by_cases hn : K s.sh t (ix % capOf s.sh t) = none
      · rw [if_pos hn, h.glob.prev t (by omega)]
        by_cases ht : t = 0
        · exfalso
          obtain ⟨⟨t', a, hk'⟩, _⟩ := h2.2 x hpx
          by_cases h0 : t' = t
          · rw [h0] at hk'
            exact find_absent h.glob (fun e he => (h8 e he).2) (h7 ▸ hn) a hk'
          · exact h6 t' a (by omega) hk'
        · rw [if_neg ht]
          refine .inr ⟨_, rfl, rfl, ?_⟩
          have hm := h.glob.capMono (t - 1) m (by omega) h5
          obtain ⟨u, hu⟩ : ∃ u, t = u + 1 := ⟨t - 1, by omega⟩
          subst hu
          simp only [mu, Nat.add_sub_cancel, Nat.add_mul, Nat.one_mul] at hm ⊢
          omega
      · rw [if_neg hn]
        refine .inr ⟨_, rfl, rfl, ?_⟩
        simp only [mu]
        omega
  | copy m ix v =>
    obtain ⟨_, _, _, h4, _, _, _, d, h7, h8⟩ := hT
    have := probe_lt h.glob h4 h8
    simp only [step]
    split
    · refine .inr ⟨_, rfl, rfl, ?_⟩
      simp only [mu]
      omega
    · refine .inr ⟨_, rfl, rfl, ?_⟩
      simp only [mu]
      omega
  | copyCas m ix v =>
    obtain ⟨_, _, _, h4, _, _, _, d, h7, h8⟩ := hT
    have := probe_lt h.glob h4 h8
    simp only [step]
    split
    · refine .inr ⟨_, rfl, rfl, ?_⟩
      simp only [mu]
      omega
    · refine .inr ⟨_, rfl, rfl, ?_⟩
      simp only [mu]
      omega
  | copyVal m ix v =>
    left
    have hv := hT.2.2.2.1
    rw [hpx] at hv
    cases hv
    rfl
  | _ => cases hl

/-! ### A thread by itself -/

/-- Thread `i` by itself ends its call, whether or not memory can be had. -/
inductive Ends (hid : Nat → Nat) (i : Nat) : Sys → Prop
  | done {s} : s.threads[i]? = some none → Ends hid i s
  | step {s p} : s.threads[i]? = some (some p) →
      (∀ c, Ends hid i (put s i (step hid i s.sh c p).1 (step hid i s.sh c p).2)) → Ends hid i s

section
variable {hid : Nat → Nat} {i : Nat}

theorem ok_put {s : Sys} (h : Ok hid s) {p : Pos} (hi : s.threads[i]? = some (some p)) (c : Bool) :
    Ok hid (put s i (step hid i s.sh c p).1 (step hid i s.sh c p).2) := by
  obtain ⟨_, _, _, h⟩ := h
  exact inv_step h hi c

theorem ends_val {s : Sys} {m ix v : Nat} (hi : s.threads[i]? = some (some (.insVal m ix v))) :
    Ends hid i s :=
  .step hi fun _ => .done (put_ret hi ..)

theorem ends_ins : ∀ (f : Nat) {s : Sys}, Ok hid s → ∀ {m ix v : Nat},
    s.threads[i]? = some (some (.ins m ix v)) → hid i + capOf s.sh m - ix ≤ f → Ends hid i s
  | f, s, h, m, ix, v, hi, hf => by
    obtain ⟨order, prod, owner, hI⟩ := h
    obtain ⟨_, _, _, _, _, h6, d, h7, h8⟩ := hI.thr i _ hi
    have hlt := probe_lt hI.glob h6 h8
    cases f with
    | zero => omega
    | succ f =>
      refine .step hi fun c => ?_
      have hok := ok_put ⟨order, prod, owner, hI⟩ hi c
      simp only [step] at hok ⊢
      by_cases hn : keyAt s.sh m ix = none
      · rw [if_pos hn] at hok ⊢
        have hi' := put_at hi s.sh (.insCas m ix v)
        refine .step hi' fun c => ?_
        have hn' : keyAt (put s i s.sh (.at (.insCas m ix v))).sh m ix = none := hn
        simp only [step, if_pos hn']
        exact ends_val (put_at hi' ..)
      · rw [if_neg hn] at hok ⊢
        refine ends_ins f hok (put_at hi ..) ?_
        show hid i + capOf s.sh m - (ix + 1) ≤ f
        omega

theorem ends_copy : ∀ (f : Nat) {s : Sys}, Ok hid s → ∀ {m ix v : Nat},
    s.threads[i]? = some (some (.copy m ix v)) → hid i + capOf s.sh m - ix ≤ f → Ends hid i s
  | f, s, h, m, ix, v, hi, hf => by
    obtain ⟨order, prod, owner, hI⟩ := h
    obtain ⟨_, _, _, h4, _, _, _, d, h7, h8⟩ := hI.thr i _ hi
    have hlt := probe_lt hI.glob h4 h8
    cases f with
    | zero => omega
    | succ f =>
      refine .step hi fun c => ?_
      have hok := ok_put ⟨order, prod, owner, hI⟩ hi c
      simp only [step] at hok ⊢
      by_cases hn : keyAt s.sh m ix = none
      · rw [if_pos hn] at hok ⊢
        have hi' := put_at hi s.sh (.copyCas m ix v)
        refine .step hi' fun c => ?_
        have hn' : keyAt (put s i s.sh (.at (.copyCas m ix v))).sh m ix = none := hn
        simp only [step, if_pos hn']
        have hi'' := put_at hi' (setKey (put s i s.sh (.at (.copyCas m ix v))).sh m ix i) (.copyVal m ix v)
        exact .step hi'' fun _ => .done (put_ret hi'' ..)
      · rw [if_neg hn] at hok ⊢
        refine ends_copy f hok (put_at hi ..) ?_
        show hid i + capOf s.sh m - (ix + 1) ≤ f
        omega

theorem ends_copyCas {s : Sys} (h : Ok hid s) {m ix v : Nat}
    (hi : s.threads[i]? = some (some (.copyCas m ix v))) : Ends hid i s := by
  refine .step hi fun c => ?_
  have hok := ok_put h hi c
  simp only [step] at hok ⊢
  by_cases hn : keyAt s.sh m ix = none
  · rw [if_pos hn]
    have hi' := put_at hi (setKey s.sh m ix i) (.copyVal m ix v)
    exact .step hi' fun _ => .done (put_ret hi' ..)
  · rw [if_neg hn] at hok ⊢
    exact ends_copy _ hok (put_at hi ..) (Nat.le_refl _)

theorem ends_insCas {s : Sys} (h : Ok hid s) {m ix v : Nat}
    (hi : s.threads[i]? = some (some (.insCas m ix v))) : Ends hid i s := by
  refine .step hi fun c => ?_
  have hok := ok_put h hi c
  simp only [step] at hok ⊢
  by_cases hn : keyAt s.sh m ix = none
  · rw [if_pos hn]
    exact ends_val (put_at hi ..)
  · rw [if_neg hn] at hok ⊢
    exact ends_ins _ hok (put_at hi ..) (Nat.le_refl _)

theorem ends_make {s : Sys} (h : Ok hid s) {m n : Nat} (hi : s.threads[i]? = some (some (.make m n))) :
    Ends hid i s := by
  refine .step hi fun c => ?_
  have hok := ok_put h hi c
  cases c with
  | false =>
    have hi' := put_at hi s.sh .sub
    exact .step hi' fun _ => .done (put_ret hi' ..)
  | true => exact ends_ins _ hok (put_at hi ..) (Nat.le_refl _)

theorem ends_unlock {s : Sys} (h : Ok hid s) {m n : Nat}
    (hi : s.threads[i]? = some (some (.unlock m n))) : Ends hid i s := by
  obtain ⟨order, prod, owner, hI⟩ := h
  obtain ⟨_, _, _, h4⟩ := hI.thr i _ hi
  refine .step hi fun c => ?_
  have hok := ok_put ⟨order, prod, owner, hI⟩ hi c
  have hr : room s.sh m n = .at (.make m n) := if_pos (by omega)
  simp only [step, hr] at hok ⊢
  exact ends_make hok (put_at hi ..)

theorem ends_unlockFail {s : Sys} (hi : s.threads[i]? = some (some .unlockFail)) : Ends hid i s :=
  .step hi fun _ => .done (put_ret hi ..)

theorem ends_subLocked {s : Sys} (hi : s.threads[i]? = some (some .subLocked)) : Ends hid i s :=
  .step hi fun _ => ends_unlockFail (put_at hi ..)

theorem ends_grow {s : Sys} (h : Ok hid s) {m n : Nat} (hi : s.threads[i]? = some (some (.grow m n))) :
    Ends hid i s := by
  refine .step hi fun c => ?_
  have hok := ok_put h hi c
  cases c with
  | false => exact ends_subLocked (put_at hi ..)
  | true => exact ends_unlock hok (put_at hi ..)

theorem ends_reload {s : Sys} (h : Ok hid s) {n : Nat} (hi : s.threads[i]? = some (some (.reload n))) :
    Ends hid i s := by
  refine .step hi fun c => ?_
  have hok := ok_put h hi c
  simp only [step] at hok ⊢
  split at hok
  · rw [if_pos (by assumption)]
    exact ends_grow hok (put_at hi ..)
  · rw [if_neg (by assumption)]
    exact ends_unlock hok (put_at hi ..)

theorem ends_tas {s : Sys} (h : Ok hid s) (hb : s.sh.busy = false) {m n : Nat}
    (hi : s.threads[i]? = some (some (.tas m n))) : Ends hid i s := by
  refine .step hi fun c => ?_
  have hok := ok_put h hi c
  simp only [step, hb, Bool.false_eq_true, if_false] at hok ⊢
  exact ends_reload hok (put_at hi ..)

theorem ends_half {s : Sys} {sh : Shared} (hb : sh.busy = false) {o : Option Pos}
    (hi : s.threads[i]? = some o) {m n : Nat} (h : Ok hid (put s i sh (half sh m n))) :
    Ends hid i (put s i sh (half sh m n)) := by
  by_cases hn : capOf sh m / 2 ≤ n
  · have hh : half sh m n = .at (.tas m n) := if_pos hn
    rw [hh] at h ⊢
    exact ends_tas h hb (put_at hi ..)
  · have hh : half sh m n = .at (.make m n) := by
      unfold half room
      rw [if_neg hn, if_pos (by omega)]
    rw [hh] at h ⊢
    exact ends_make h (put_at hi ..)

theorem ends_spin {s : Sys} (h : Ok hid s) (hb : s.sh.busy = false) {n : Nat}
    (hi : s.threads[i]? = some (some (.spin n))) : Ends hid i s :=
  .step hi fun c => ends_half hb hi (ok_put h hi c)

theorem ends_add {s : Sys} (h : Ok hid s) (hb : s.sh.busy = false) {m : Nat}
    (hi : s.threads[i]? = some (some (.add m))) : Ends hid i s :=
  .step hi fun c => ends_half (sh := { s.sh with count := s.sh.count + 1 }) hb hi (ok_put h hi c)

theorem ends_find : ∀ (t f : Nat) {s : Sys}, Ok hid s → s.sh.busy = false → ∀ {m ix : Nat},
    s.threads[i]? = some (some (.find m t ix)) → hid i + capOf s.sh t - ix ≤ f → Ends hid i s
  | t, f, s, h, hb, m, ix, hi, hf => by
    obtain ⟨order, prod, owner, hI⟩ := h
    obtain ⟨_, _, _, h4, h5, _, d, h7, h8⟩ := hI.thr i _ hi
    have hlt := probe_lt hI.glob (t := t) (by omega) (fun e he => (h8 e he).1)
    cases f with
    | zero => omega
    | succ f =>
      refine .step hi fun c => ?_
      have hok := ok_put ⟨order, prod, owner, hI⟩ hi c
      simp only [step] at hok ⊢
      by_cases hk : keyAt s.sh t ix = some i
      · rw [if_pos hk] at hok ⊢
        by_cases htm : t = m
        · rw [if_pos htm]
          exact .done (put_ret hi ..)
        · rw [if_neg htm] at hok ⊢
          exact ends_copy _ hok (put_at hi ..) (Nat.le_refl _)
      · rw [if_neg hk] at hok ⊢
        by_cases hn : keyAt s.sh t ix = none
        · rw [if_pos hn, hI.glob.prev t (by omega)] at hok ⊢
          cases t with
          | zero => exact ends_add hok hb (put_at hi ..)
          | succ t => exact ends_find t _ hok hb (put_at hi ..) (Nat.le_refl _)
        · rw [if_neg hn] at hok ⊢
          refine ends_find t f hok hb (put_at hi ..) ?_
          show hid i + capOf s.sh t - (ix + 1) ≤ f
          omega
  termination_by t f => (t, f)

theorem ends_load {s : Sys} (h : Ok hid s) (hb : s.sh.busy = false)
    (hi : s.threads[i]? = some (some .load)) : Ends hid i s :=
  .step hi fun c => ends_find _ _ (ok_put h hi c) hb (put_at hi ..) (Nat.le_refl _)

theorem Ends.stream {s : Sys} (h : Ends hid i s) : ∀ cs : Nat → Bool, ∃ n s',
    run hid s ((List.range n).map fun k => .go i (cs k)) = some s' ∧ s'.threads[i]? = some none := by
  induction h with
  | @done s h => intro cs; exact ⟨0, s, rfl, h⟩
  | @step s p hi _ ih =>
    intro cs
    obtain ⟨n, s', hr, ho⟩ := ih (cs 0) (fun k => cs (k + 1))
    refine ⟨n + 1, s', ?_, ho⟩
    rw [List.range_succ_eq_map, List.map_cons, List.map_map]
    simp only [run, move, hi]
    exact hr

end

/-! ### Sizes -/

theorem doubled_le (n : Nat) : ∀ fuel c, c ≤ 4 * n + 32 → doubled n fuel c ≤ 4 * n + 32
  | 0, _, h => h
  | fuel + 1, c, h => by
    simp only [doubled]
    split
    · exact doubled_le n fuel (2 * c) (by omega)
    · exact h

/-- What a thread counted. -/
def counted : Pos → Nat
  | .tas _ n | .reload n | .grow _ n | .unlock _ n | .spin n | .make _ n => n
  | _ => 0

/-- Sizes of tables with `k` threads. -/
structure Sized (k : Nat) (s : Sys) : Prop where
  len : s.threads.length = k
  cap : ∀ t, capOf s.sh t ≤ 4 * k + 32
  dbl : ∀ t, t + 1 < s.sh.tables.length → 2 * capOf s.sh t ≤ capOf s.sh (t + 1)
  cnt : ∀ (i : Nat) (p : Pos), s.threads[i]? = some (some p) → counted p ≤ k

theorem room_counted (sh : Shared) (m n : Nat) : ∃ q, room sh m n = .at q ∧ counted q = n := by
  unfold room
  split <;> exact ⟨_, rfl, rfl⟩

theorem half_counted (sh : Shared) (m n : Nat) : ∃ q, half sh m n = .at q ∧ counted q = n := by
  unfold half
  split
  · exact ⟨_, rfl, rfl⟩
  · exact room_counted ..

theorem order_le {s : Sys} {hid : Nat → Nat} {order : List Nat} {prod : Nat → Option Nat}
    {owner : Option Nat} (h : Inv hid s order prod owner) : order.length ≤ s.threads.length := by
  refine pigeon order.length s.threads.length (fun a => (order[a]?).getD 0) (fun a ha => ?_)
    (fun a b ha hb hab => ?_)
  · show (order[a]?).getD 0 < _
    rw [List.getElem?_eq_getElem ha]
    exact h.ordr _ (List.getElem_mem ha)
  · have hab' : (order[a]?).getD 0 = (order[b]?).getD 0 := hab
    rw [List.getElem?_eq_getElem ha, List.getElem?_eq_getElem hb] at hab'
    have hab'' : order[a] = order[b] := hab'
    have hp := List.pairwise_iff_getElem.mp h.glob.nodup
    rcases Nat.lt_trichotomy a b with hlt | heq | hgt
    · exact absurd hab'' (hp a b ha hb hlt)
    · exact heq
    · exact absurd hab''.symm (hp b a hb ha hgt)

theorem sized_put {k : Nat} {s : Sys} (h : Sized k s) {i : Nat} {o : Option Pos}
    (hi : s.threads[i]? = some o) {sh' : Shared} {nx : Next} (hc : ∀ t, capOf sh' t ≤ 4 * k + 32)
    (hd : ∀ t, t + 1 < sh'.tables.length → 2 * capOf sh' t ≤ capOf sh' (t + 1))
    (hn : ∀ q, nx = .at q → counted q ≤ k) : Sized k (put s i sh' nx) := by
  refine ⟨?_, ?_, ?_, ?_⟩
  · cases nx <;> exact (List.length_set ..).trans h.len
  · rw [put_sh]; exact hc
  · rw [put_sh]; exact hd
  · intro j p hj
    by_cases hij : j = i
    · subst hij
      cases nx with
      | «at» q =>
        rw [put_at hi] at hj
        cases hj
        exact hn _ rfl
      | ret r =>
        rw [put_ret hi] at hj
        cases hj
    · rw [put_other hij] at hj
      exact h.cnt j p hj

theorem sized_move {hid : Nat → Nat} {k : Nat} {s s' : Sys} (hok : Ok hid s) (hok' : Ok hid s')
    (h : Sized k s) {m : Move} (hm : move hid s m = some s') : Sized k s' := by
  cases m with
  | start i =>
    obtain ⟨hi, hs⟩ := move_start hm
    subst hs
    refine ⟨(List.length_set ..).trans h.len, h.cap, h.dbl, fun j p hj => ?_⟩
    have hj' : (s.threads.set i (some .load))[j]? = some (some p) := hj
    by_cases hij : j = i
    · subst hij
      rw [List.getElem?_set_self (List.getElem?_eq_some_iff.mp hi).1] at hj'
      cases hj'
      exact Nat.zero_le _
    · rw [List.getElem?_set_ne (fun h => hij h.symm)] at hj'
      exact h.cnt j p hj'
  | go i c =>
    obtain ⟨p, hi, hs⟩ := move_go hm
    subst hs
    have hcp := h.cnt i p hi
    have key : ∀ {m ix : Nat}, (∀ t, capOf (setKey s.sh m ix i) t ≤ 4 * k + 32) ∧
        ∀ t, t + 1 < (setKey s.sh m ix i).tables.length →
          2 * capOf (setKey s.sh m ix i) t ≤ capOf (setKey s.sh m ix i) (t + 1) :=
      ⟨fun t => by rw [setKey_cap]; exact h.cap t, fun t ht => by
        rw [setKey_len] at ht
        rw [setKey_cap, setKey_cap]
        exact h.dbl t ht⟩
    have val : ∀ {m ix v : Nat}, (∀ t, capOf (setVal s.sh m ix v) t ≤ 4 * k + 32) ∧
        ∀ t, t + 1 < (setVal s.sh m ix v).tables.length →
          2 * capOf (setVal s.sh m ix v) t ≤ capOf (setVal s.sh m ix v) (t + 1) :=
      ⟨fun t => by rw [setVal_cap]; exact h.cap t, fun t ht => by
        rw [setVal_len] at ht
        rw [setVal_cap, setVal_cap]
        exact h.dbl t ht⟩
    cases p with
    | load => exact sized_put h hi h.cap h.dbl fun q hq => by cases hq; exact Nat.zero_le _
    | find m t ix =>
      refine sized_put h hi h.cap h.dbl fun q hq => ?_
      simp only [step] at hq
      split at hq
      · split at hq <;> cases hq
        exact Nat.zero_le _
      · split at hq
        · cases hp : prevOf s.sh t <;> rw [hp] at hq <;> cases hq <;> exact Nat.zero_le _
        · cases hq; exact Nat.zero_le _
    | copy m ix v =>
      refine sized_put h hi h.cap h.dbl fun q hq => ?_
      simp only [step] at hq
      split at hq <;> cases hq <;> exact Nat.zero_le _
    | copyCas m ix v =>
      simp only [step]
      split
      · exact sized_put h hi key.1 key.2 fun q hq => by cases hq; exact Nat.zero_le _
      · exact sized_put h hi h.cap h.dbl fun q hq => by cases hq; exact Nat.zero_le _
    | copyVal m ix v => exact sized_put h hi val.1 val.2 fun q hq => by cases hq
    | add m =>
      refine sized_put h hi h.cap h.dbl fun q hq => ?_
      obtain ⟨q', hq', hc'⟩ := half_counted s.sh m (s.sh.count + 1)
      have hq2 : half s.sh m (s.sh.count + 1) = .at q := hq
      rw [hq'] at hq2
      cases hq2
      rw [hc']
      obtain ⟨order, prod, owner, hI⟩ := hok'
      have hl := order_le hI
      have hcn := hI.glob.cnt
      rw [put_sh] at hcn
      have hcn' : s.sh.count + 1 = order.length := hcn
      have hlen : (put s i (step hid i s.sh c (.add m)).1 (step hid i s.sh c (.add m)).2).threads.length = k := by
        rw [hq]
        exact (List.length_set ..).trans h.len
      omega
    | tas m n =>
      simp only [step]
      split
      · refine sized_put h hi h.cap h.dbl fun q hq => ?_
        obtain ⟨q', hq', hc'⟩ := room_counted s.sh m n
        rw [hq'] at hq
        cases hq
        rw [hc']
        exact hcp
      · exact sized_put h hi h.cap h.dbl fun q hq => by cases hq; exact hcp
    | reload n =>
      refine sized_put h hi h.cap h.dbl fun q hq => ?_
      simp only [step] at hq
      split at hq <;> cases hq <;> exact hcp
    | grow m n =>
      cases c with
      | false => exact sized_put h hi h.cap h.dbl fun q hq => by cases hq; exact Nat.zero_le _
      | true =>
        obtain ⟨order, prod, owner, hI⟩ := hok
        obtain ⟨h1, h2, h3, h4, h5⟩ := hI.thr i _ hi
        have hlen := hI.glob.len
        have hcp' : n ≤ k := hcp
        have hge := doubled_ge n (n + 1) (2 * capOf s.sh m)
        have hle := doubled_le n (n + 1) (2 * capOf s.sh m) (by omega)
        refine sized_put (sh' := grown s.sh (doubled n (n + 1) (2 * capOf s.sh m)) m) h hi (fun t => ?_)
          (fun t ht => ?_) fun q hq => by cases hq; exact hcp
        · rw [grown_cap]
          split
          · omega
          · exact h.cap t
        · have ht' : t + 1 < s.sh.tables.length + 1 := by simpa [grown] using ht
          rw [grown_cap, grown_cap, if_neg (by omega)]
          split
          · have : t = m := by omega
            rw [this]
            exact hge
          · exact h.dbl t (by omega)
    | unlock m n =>
      refine sized_put h hi h.cap h.dbl fun q hq => ?_
      obtain ⟨q', hq', hc'⟩ := room_counted s.sh m n
      have hq2 : room s.sh m n = .at q := hq
      rw [hq'] at hq2
      cases hq2
      rw [hc']
      exact hcp
    | subLocked => exact sized_put h hi h.cap h.dbl fun q hq => by cases hq; exact Nat.zero_le _
    | unlockFail => exact sized_put h hi h.cap h.dbl fun q hq => by cases hq
    | spin n =>
      refine sized_put h hi h.cap h.dbl fun q hq => ?_
      obtain ⟨q', hq', hc'⟩ := half_counted s.sh s.sh.main n
      have hq2 : half s.sh s.sh.main n = .at q := hq
      rw [hq'] at hq2
      cases hq2
      rw [hc']
      exact hcp
    | make m n =>
      cases c with
      | false => exact sized_put h hi h.cap h.dbl fun q hq => by cases hq; exact Nat.zero_le _
      | true => exact sized_put h hi h.cap h.dbl fun q hq => by cases hq; exact Nat.zero_le _
    | sub => exact sized_put h hi h.cap h.dbl fun q hq => by cases hq
    | ins m ix v =>
      refine sized_put h hi h.cap h.dbl fun q hq => ?_
      simp only [step] at hq
      split at hq <;> cases hq <;> exact Nat.zero_le _
    | insCas m ix v =>
      simp only [step]
      split
      · exact sized_put h hi key.1 key.2 fun q hq => by cases hq; exact Nat.zero_le _
      · exact sized_put h hi h.cap h.dbl fun q hq => by cases hq; exact Nat.zero_le _
    | insVal m ix v => exact sized_put h hi val.1 val.2 fun q hq => by cases hq

theorem sized_run {hid : Nat → Nat} {k : Nat} : ∀ {ms : List Move} {s s' : Sys}, Ok hid s → Sized k s →
    run hid s ms = some s' → Sized k s'
  | [], s, s', _, h, hr => by cases hr; exact h
  | m :: ms, s, s', hok, h, hr => by
    simp only [run] at hr
    cases hm : move hid s m with
    | none => rw [hm] at hr; cases hr
    | some s₁ =>
      rw [hm] at hr
      exact sized_run (ok_move hok hm) (sized_move hok (ok_move hok hm) h hm) hr

theorem sized_init (k : Nat) : Sized k (init k) := by
  refine ⟨List.length_replicate, fun t => ?_, fun t ht => ?_, fun i p hi => ?_⟩
  · cases t with
    | zero => show 32 ≤ _; omega
    | succ t => show 0 ≤ _; omega
  · have : t + 1 < 1 := ht
    omega
  · have hi' : (List.replicate k (none : Option Pos))[i]? = some (some p) := hi
    rw [List.getElem?_replicate] at hi'
    split at hi' <;> cases hi'

end Verif.ProdHash
