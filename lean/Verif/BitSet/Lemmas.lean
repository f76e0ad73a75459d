import Verif.BitSet.Spec
import Verif.Bits.Props
namespace Verif.BitSet
open Verif.CInt Verif.Bits

/-- Word `k`, zero beyond the array. -/
def wd (ws : List Word) (k : Nat) : Word := ws.getD k 0

/-- Bit `i` of the array. -/
def bt (ws : List Word) (i : Nat) : Bool := (wd ws (i / 64)).getLsbD (i % 64)

theorem rd_ok {ws : List Word} {k : Nat} (h : k < ws.length) : rd ws k = .ok (wd ws k) := by
  unfold rd wd; rw [Arr.get_nat h]; simp [h]

theorem wr_ok {ws : List Word} {k : Nat} (v : Word) (h : k < ws.length) : wr ws k v = .ok (ws.set k v) :=
  Arr.set_nat h

theorem wd_set {ws : List Word} {k : Nat} (v : Word) (h : k < ws.length) (j : Nat) :
    wd (ws.set k v) j = if j = k then v else wd ws j := by
  unfold wd
  rw [List.getD_eq_getElem?_getD, List.getD_eq_getElem?_getD, List.getElem?_set]
  by_cases hj : j = k
  · subst hj; simp [h]
  · rw [if_neg (fun h => hj h.symm), if_neg hj]

theorem wd_ge {ws : List Word} {k : Nat} (h : ws.length ≤ k) : wd ws k = 0 := by
  unfold wd; simp [h]

theorem updLoop_ok (f : Nat → Word → Outcome Word) (g : Nat → Word → Word) :
    ∀ (n i : Nat) (ws : List Word), i + n ≤ ws.length →
      (∀ k, i ≤ k → k < i + n → ∀ w, f k w = .ok (g k w)) →
      ∃ ws', updLoop f i n ws = .ok ws' ∧ ws'.length = ws.length ∧
        ∀ k, wd ws' k = if i ≤ k ∧ k < i + n then g k (wd ws k) else wd ws k := by
  intro n
  induction n with
  | zero =>
    intro i ws _ _
    refine ⟨ws, rfl, rfl, fun k => ?_⟩
    rw [if_neg (by omega)]
  | succ n ih =>
    intro i ws hl hf
    obtain ⟨ws', h1, h2, h3⟩ := ih (i + 1) (ws.set i (g i (wd ws i))) (by simp; omega)
      (fun k a b w => hf k (by omega) (by omega) w)
    refine ⟨ws', ?_, by simpa using h2, fun k => ?_⟩
    · simp only [updLoop, Outcome.bind_eq, rd_ok (show i < ws.length by omega), Outcome.bind_ok,
        hf i (by omega) (by omega), wr_ok _ (show i < ws.length by omega), h1]
    · rw [h3, wd_set _ (by omega)]
      by_cases hk : k = i
      · subst hk
        rw [if_neg (by omega), if_pos rfl, if_pos (by omega)]
      · rw [if_neg hk]
        by_cases hc : i + 1 ≤ k ∧ k < i + 1 + n
        · rw [if_pos hc, if_pos (by omega)]
        · rw [if_neg hc, if_neg (by omega)]

theorem upd_ok {ws : List Word} {k : Nat} (f : Word → Word) (h : k < ws.length) :
    ∃ ws', upd ws k f = .ok ws' ∧ ws'.length = ws.length ∧
      ∀ j, wd ws' j = if j = k then f (wd ws j) else wd ws j := by
  obtain ⟨ws', h1, h2, h3⟩ := updLoop_ok (fun _ w => .ok (f w)) (fun _ w => f w) 1 k ws (by omega)
    (fun _ _ _ _ => rfl)
  refine ⟨ws', h1, h2, fun j => ?_⟩
  rw [h3]
  by_cases hj : j = k
  · rw [if_pos (by omega), if_pos hj]
  · rw [if_neg (by omega), if_neg hj]

/-! ## Invariant without the last clause -/

structure Pre (b : BS) : Prop where
  used : b.inUse ≤ b.words.length
  cap : b.inUse ≤ 2 ^ 25
  len : b.words.length ≤ 2 ^ 26
  zero : ∀ k, b.inUse ≤ k → wd b.words k = 0

theorem WF.pre {b : BS} (h : WF b) : Pre b := ⟨h.used, h.cap, h.len, h.zero⟩

theorem recalcFrom_ok (ws : List Word) : ∀ n, n ≤ ws.length → ∃ k, recalcFrom ws n = .ok k ∧ k ≤ n ∧
    (∀ j, k ≤ j → j < n → wd ws j = 0) ∧ (k = 0 ∨ wd ws (k - 1) ≠ 0) := by
  intro n
  induction n with
  | zero => intro _; exact ⟨0, rfl, by omega, fun j _ h => by omega, Or.inl rfl⟩
  | succ n ih =>
    intro hl
    simp only [recalcFrom, Outcome.bind_eq, rd_ok (show n < ws.length by omega), Outcome.bind_ok]
    by_cases hz : wd ws n = 0
    · obtain ⟨k, h1, h2, h3, h4⟩ := ih (by omega)
      refine ⟨k, by rw [if_neg (by simpa using hz)]; exact h1, by omega, fun j hj hn => ?_, h4⟩
      rcases Nat.lt_or_ge j n with h | h
      · exact h3 j hj h
      · rw [show j = n by omega]; exact hz
    · exact ⟨n + 1, by rw [if_pos hz], by omega, fun j _ _ => by omega, Or.inr (by simpa using hz)⟩

theorem recalc_ok {b : BS} (h : Pre b) : ∃ r, recalc b = .ok r ∧ WF r ∧ r.words = b.words ∧ r.sticky = b.sticky := by
  obtain ⟨k, h1, h2, h3, h4⟩ := recalcFrom_ok b.words b.inUse h.used
  refine ⟨{ b with inUse := k }, by simp only [recalc, Outcome.bind_eq, h1, Outcome.bind_ok], ?_, rfl, rfl⟩
  refine ⟨by have := h.used; simp only; omega, by have := h.cap; simp only; omega, h.len, fun j hj => ?_, h4⟩
  simp only at hj
  rcases Nat.lt_or_ge j b.inUse with hlt | hge
  · exact h3 j hj hlt
  · exact h.zero j hge

/-! ## `get` -/

theorem bitmask_bits (i j : Nat) (hj : j < 64) :
    ((1#64) <<< ((i : Int) % (64 : Nat)).toNat).getLsbD j = decide (j = i % 64) := by
  have e : ((i : Int) % (64 : Nat)).toNat = i % 64 := by omega
  rw [e, BitVec.getLsbD_shiftLeft]
  have hi : i % 64 < 64 := Nat.mod_lt _ (by omega)
  simp only [hj, decide_true, Bool.true_and]
  by_cases h : j < i % 64
  · have : ¬ j = i % 64 := by omega
    simp [h, this]
  · rw [BitVec.getLsbD_one]
    by_cases h2 : j = i % 64
    · subst h2; simp
    · have : ¬ j - i % 64 = 0 := by omega
      simp [h2, this]

theorem and_bitmask_ne (w : Word) (i : Nat) :
    (w &&& (1#64) <<< ((i : Int) % (64 : Nat)).toNat != 0) = w.getLsbD (i % 64) := by
  have hi : i % 64 < 64 := Nat.mod_lt _ (by omega)
  cases hb : w.getLsbD (i % 64)
  · rw [bne_eq_false_iff_eq]
    apply BitVec.eq_of_getLsbD_eq
    intro j hj
    rw [BitVec.getLsbD_and, bitmask_bits i j hj]
    by_cases h : j = i % 64
    · subst h; simp [hb]
    · simp [h]
  · rw [bne_iff_ne]
    intro h0
    have := congrArg (fun x : Word => x.getLsbD (i % 64)) h0
    simp only [BitVec.getLsbD_and, bitmask_bits i _ hi, hb] at this
    simp at this

theorem getBit_ok {b : BS} (h : Pre b) (i : Nat) : getBit .wrap b i = .ok (bt b.words i) := by
  unfold getBit
  rw [if_neg (by omega), Int.toNat_natCast]
  by_cases hk : b.inUse ≤ i / 64
  · rw [if_pos hk, bt, h.zero _ hk]; simp
  · rw [if_neg hk]
    have hu := h.used
    simp only [Outcome.bind_eq, rd_ok (show i / 64 < b.words.length by omega), Outcome.bind_ok, shl_wrap,
      and_bitmask_ne, bt]

theorem members_iff {b : BS} {s : IdxSet} : Members b s ↔ WF b ∧ ∀ i, bt b.words i = s i := by
  constructor
  · rintro ⟨h, hs⟩
    refine ⟨h, fun i => ?_⟩
    have := hs i
    rw [getBit_ok h.pre] at this
    simpa using this
  · rintro ⟨h, hs⟩
    exact ⟨h, fun i => by rw [getBit_ok h.pre, hs]⟩

/-- Same bits, same words. -/
theorem wd_eq_of_bt {a b : List Word} (h : ∀ i, bt a i = bt b i) (k : Nat) : wd a k = wd b k := by
  apply BitVec.eq_of_getLsbD_eq
  intro j hj
  have := h (k * 64 + j)
  unfold bt at this
  rwa [show (k * 64 + j) / 64 = k by omega, show (k * 64 + j) % 64 = j by omega] at this

/-- Words compared bit by bit. -/
theorem bt_of_wd {a : List Word} {s : IdxSet} (h : ∀ k j, j < 64 → (wd a k).getLsbD j = s (k * 64 + j)) (i : Nat) :
    bt a i = s i := by
  unfold bt
  rw [h _ _ (Nat.mod_lt _ (by omega))]
  congr 1; omega

/-! ## Growing -/

theorem wd_copyOf (ws : List Word) (n k : Nat) : wd (copyOf ws n) k = if k < n then wd ws k else 0 := by
  unfold wd copyOf
  rw [List.getD_eq_getElem?_getD, List.getD_eq_getElem?_getD, List.getElem?_append, List.length_take]
  by_cases h1 : k < min n ws.length
  · rw [if_pos h1, if_pos (by omega), List.getElem?_take, if_pos (by omega)]
  · rw [if_neg h1, List.getElem?_replicate]
    by_cases h2 : k < n
    · rw [if_pos h2, if_pos (by omega), List.getElem?_eq_none (by omega)]; rfl
    · rw [if_neg h2, if_neg (by omega)]; rfl

theorem length_copyOf (ws : List Word) (n : Nat) : (copyOf ws n).length = n := by
  unfold copyOf; simp; omega

theorem ensureCapacity_ok {b : BS} (h : Pre b) {req : Nat} (hr : req ≤ 2 ^ 25) :
    (ensureCapacity b req).inUse = b.inUse ∧ req ≤ (ensureCapacity b req).words.length ∧
    b.words.length ≤ (ensureCapacity b req).words.length ∧
    (ensureCapacity b req).words.length ≤ 2 ^ 26 ∧ ∀ k, wd (ensureCapacity b req).words k = wd b.words k := by
  unfold ensureCapacity
  by_cases hq : req ≤ b.words.length
  · rw [if_pos hq]
    exact ⟨rfl, hq, Nat.le_refl _, h.len, fun _ => rfl⟩
  · rw [if_neg hq]
    refine ⟨rfl, ?_, ?_, ?_, fun k => ?_⟩
    · simp only [length_copyOf]; omega
    · simp only [length_copyOf]; omega
    · simp only [length_copyOf]; omega
    · simp only [wd_copyOf]
      split
      · rfl
      · rw [wd_ge]; omega

theorem expandTo_ok {b : BS} (h : Pre b) {w : Nat} (hw : w < 2 ^ 25) :
    Pre (expandTo b w) ∧ w < (expandTo b w).inUse ∧ (∀ k, wd (expandTo b w).words k = wd b.words k) ∧
    ((expandTo b w).inUse = b.inUse ∨ (expandTo b w).inUse = w + 1) := by
  unfold expandTo
  by_cases hi : b.inUse < w + 1
  · rw [if_pos hi]
    obtain ⟨e1, e2, e3, e4, e5⟩ := ensureCapacity_ok h (req := w + 1) (by omega)
    refine ⟨⟨e2, by simp only; omega, e4, fun k hk => ?_⟩, by simp only; omega, e5, Or.inr rfl⟩
    simp only at hk ⊢
    rw [e5, h.zero k (by omega)]
  · rw [if_neg hi]
    exact ⟨h, by omega, fun _ => rfl, Or.inl rfl⟩

/-- Replacing words inside the used area. -/
theorem Pre.words {b : BS} (h : Pre b) {ws : List Word} (hl : ws.length = b.words.length)
    (hz : ∀ k, b.inUse ≤ k → wd ws k = wd b.words k) : Pre { b with words := ws } :=
  ⟨by rw [show ({ b with words := ws } : BS).words = ws from rfl, hl]; exact h.used, h.cap,
   by rw [show ({ b with words := ws } : BS).words = ws from rfl, hl]; exact h.len,
   fun k hk => by rw [show ({ b with words := ws } : BS).words = ws from rfl, hz k hk]; exact h.zero k hk⟩

theorem WF.of_pre {b : BS} (h : Pre b) (ht : b.inUse = 0 ∨ wd b.words (b.inUse - 1) ≠ 0) : WF b :=
  ⟨h.used, h.cap, h.len, h.zero, ht⟩

/-! ## Ranges -/

theorem firstMask_bits (f : Nat) : ∃ fm, firstMask .wrap f = .ok fm ∧
    ∀ j, j < 64 → fm.getLsbD j = decide (f % 64 ≤ j) := by
  refine ⟨_, shl_wrap _ _, fun j hj => ?_⟩
  have e : ((f : Int) % (64 : Nat)).toNat = f % 64 := by omega
  rw [e, BitVec.getLsbD_shiftLeft]
  have : WORD_MASK = BitVec.allOnes 64 := by decide
  rw [this, BitVec.getLsbD_allOnes]
  simp only [hj, decide_true, Bool.true_and]
  by_cases h : f % 64 ≤ j
  · have h2 : j - f % 64 < 64 := by omega
    simp [h, h2]
  · simp [h]

theorem lastMask_bits (t : Nat) : ∃ lm, lastMask .wrap t = .ok lm ∧
    ∀ j, j < 64 → lm.getLsbD j = decide (j ≤ (t + 63) % 64) := by
  refine ⟨_, shr_wrap _ _, fun j hj => ?_⟩
  have e : ((-(t : Int) % 64) % (64 : Nat)).toNat = 63 - (t + 63) % 64 := by omega
  rw [e, BitVec.getLsbD_ushiftRight]
  have : WORD_MASK = BitVec.allOnes 64 := by decide
  rw [this, BitVec.getLsbD_allOnes]
  by_cases h : j ≤ (t + 63) % 64
  · have h2 : 63 - (t + 63) % 64 + j < 64 := by omega
    simp [h, h2]
  · have h2 : ¬ 63 - (t + 63) % 64 + j < 64 := by omega
    simp [h, h2]

/-- The three range loops, given what the compound assignment does to one bit
(`β`): exactly the bits from `f` to `t` are affected. -/
theorem rangeWords_ok (op : Word → Word → Word) (mid : Word → Word) (β : Bool → Bool)
    (hop : ∀ w k j, j < 64 → (op w k).getLsbD j = if k.getLsbD j then β (w.getLsbD j) else w.getLsbD j)
    (hmid : ∀ w j, j < 64 → (mid w).getLsbD j = β (w.getLsbD j))
    (f t e : Nat) (fm lm : Word) (ws : List Word)
    (hfm : ∀ j, j < 64 → fm.getLsbD j = decide (f % 64 ≤ j))
    (hlm : ∀ j, j < 64 → lm.getLsbD j = decide (j ≤ (t - 1) % 64))
    (he : e = (t - 1) / 64) (ht : 0 < t) (hse : f / 64 ≤ e) (hl : e < ws.length) :
    ∃ ws', rangeWords op mid fm lm (f / 64) e ws = .ok ws' ∧ ws'.length = ws.length ∧
      (∀ k, k < f / 64 ∨ e < k → wd ws' k = wd ws k) ∧
      ∀ i, bt ws' i = if f ≤ i ∧ i < t then β (bt ws i) else bt ws i := by
  unfold rangeWords
  by_cases hs : f / 64 = e
  · rw [if_pos hs]
    obtain ⟨ws', h1, h2, h3⟩ := upd_ok (op · (fm &&& lm)) (show f / 64 < ws.length by omega)
    refine ⟨ws', h1, h2, fun k hk => by rw [h3, if_neg (by omega)], fun i => ?_⟩
    unfold bt
    rw [h3]
    have hj : i % 64 < 64 := Nat.mod_lt _ (by omega)
    by_cases hi : i / 64 = f / 64
    · rw [if_pos hi, hop _ _ _ hj, BitVec.getLsbD_and, hfm _ hj, hlm _ hj]
      by_cases hc : f ≤ i ∧ i < t
      · rw [if_pos hc, if_pos]
        have : f % 64 ≤ i % 64 := by omega
        have : i % 64 ≤ (t - 1) % 64 := by omega
        simp_all
      · rw [if_neg hc, if_neg]
        simp only [Bool.and_eq_true, decide_eq_true_eq]
        omega
    · rw [if_neg hi, if_neg (by omega)]
  · rw [if_neg hs]
    obtain ⟨w1, a1, a2, a3⟩ := upd_ok (op · fm) (show f / 64 < ws.length by omega)
    obtain ⟨w2, b1, b2, b3⟩ := updLoop_ok (fun _ w => .ok (mid w)) (fun _ w => mid w) (e - (f / 64 + 1)) (f / 64 + 1) w1
      (by omega) (fun _ _ _ _ => rfl)
    obtain ⟨w3, c1, c2, c3⟩ := upd_ok (op · lm) (show e < w2.length by omega)
    refine ⟨w3, by simp only [Outcome.bind_eq, a1, Outcome.bind_ok, b1, c1], by omega, fun k hk => ?_, fun i => ?_⟩
    · rw [c3, if_neg (by omega), b3, if_neg (by omega), a3, if_neg (by omega)]
    · unfold bt
      have hj : i % 64 < 64 := Nat.mod_lt _ (by omega)
      rw [c3, b3, a3]
      by_cases hi1 : i / 64 = e
      · rw [if_pos hi1, if_neg (by omega), if_neg (by omega), hop _ _ _ hj, hlm _ hj]
        by_cases hc : f ≤ i ∧ i < t
        · rw [if_pos hc, if_pos (by simp only [decide_eq_true_eq]; omega)]
        · rw [if_neg hc, if_neg (by simp only [decide_eq_true_eq]; omega)]
      · rw [if_neg hi1]
        by_cases hi2 : f / 64 + 1 ≤ i / 64 ∧ i / 64 < f / 64 + 1 + (e - (f / 64 + 1))
        · rw [if_pos hi2, if_neg (by omega), hmid _ _ hj, if_pos (by omega)]
        · rw [if_neg hi2]
          by_cases hi3 : i / 64 = f / 64
          · rw [if_pos hi3, hop _ _ _ hj, hfm _ hj]
            by_cases hc : f ≤ i ∧ i < t
            · rw [if_pos hc, if_pos (by simp only [decide_eq_true_eq]; omega)]
            · rw [if_neg hc, if_neg (by simp only [decide_eq_true_eq]; omega)]
          · rw [if_neg hi3, if_neg (by omega)]

theorem op_or (w k : Word) (j : Nat) (_ : j < 64) :
    (w ||| k).getLsbD j = if k.getLsbD j then true else w.getLsbD j := by
  rw [BitVec.getLsbD_or]; cases w.getLsbD j <;> cases k.getLsbD j <;> rfl
theorem op_xor (w k : Word) (j : Nat) (_ : j < 64) :
    (w ^^^ k).getLsbD j = if k.getLsbD j then !(w.getLsbD j) else w.getLsbD j := by
  rw [BitVec.getLsbD_xor]; cases w.getLsbD j <;> cases k.getLsbD j <;> rfl
theorem op_andnot (w k : Word) (j : Nat) (hj : j < 64) :
    (w &&& ~~~k).getLsbD j = if k.getLsbD j then false else w.getLsbD j := by
  rw [BitVec.getLsbD_and, BitVec.getLsbD_not]; simp only [hj, decide_true, Bool.true_and]
  cases w.getLsbD j <;> cases k.getLsbD j <;> rfl

theorem wmask_bits (j : Nat) (hj : j < 64) : WORD_MASK.getLsbD j = true := by
  have : WORD_MASK = BitVec.allOnes 64 := by decide
  rw [this, BitVec.getLsbD_allOnes]; simp [hj]

/-! ## Highest bits and `length` -/

theorem length_ok {b : BS} (h : WF b) :
    (b.inUse = 0 ∧ length b = .ok 0) ∨
    ∃ k : Nat, b.inUse = k + 1 ∧ ∃ j : Nat, j < 64 ∧ IsHighest (wd b.words k) j ∧
      length b = chk32 (((64 * k + j + 1 : Nat)) : Int) := by
  by_cases h0 : b.inUse = 0
  · left; exact ⟨h0, by simp [length, h0]⟩
  · right
    have hu := h.used
    have ht : wd b.words (b.inUse - 1) ≠ 0 := by
      rcases h.top with h' | h'
      · exact absurd h' h0
      · exact h'
    obtain ⟨j, e1, e2⟩ := (C15_numberOfLeadingZeros (wd b.words (b.inUse - 1))).2 ht
    have hj : j < 64 := by
      rcases Nat.lt_or_ge j 64 with h' | h'
      · exact h'
      · have := e2.1; rw [BitVec.getLsbD_of_ge _ _ h'] at this; cases this
    refine ⟨b.inUse - 1, by omega, j, hj, e2, ?_⟩
    unfold length
    rw [if_neg h0]
    simp only [Outcome.bind_eq, rd_ok (show b.inUse - 1 < b.words.length by omega), Outcome.bind_ok, e1]
    congr 1
    push_cast
    omega

/-- No member at or above `64 * inUse`. -/
theorem bt_zero {b : BS} (h : Pre b) {i : Nat} (hi : b.inUse ≤ i / 64) : bt b.words i = false := by
  unfold bt; rw [h.zero _ hi]; simp

theorem isLength_of_highest {b : BS} (h : Pre b) {k j : Nat} (hk : b.inUse = k + 1) (hj : j < 64)
    (hh : IsHighest (wd b.words k) j) : IsLength (bt b.words) (64 * k + j + 1) := by
  constructor
  · intro i hi
    by_cases hik : b.inUse ≤ i / 64
    · exact bt_zero h hik
    · unfold bt
      have : i / 64 = k := by omega
      rw [this]
      exact hh.2 _ (by omega)
  · right
    unfold bt
    rw [show (64 * k + j + 1 - 1) / 64 = k by omega, show (64 * k + j + 1 - 1) % 64 = j by omega]
    exact hh.1

end Verif.BitSet
