import Verif.BitSet.Lemmas
/-! # Each operation, in terms of members -/
namespace Verif.BitSet
open Verif.CInt Verif.Bits

theorem bt_replicate (n i : Nat) : bt (List.replicate n (0 : Word)) i = false := by
  have : wd (List.replicate n (0 : Word)) (i / 64) = 0 := by
    unfold wd; rw [List.getD_eq_getElem?_getD, List.getElem?_replicate]; split <;> rfl
  unfold bt; rw [this]; simp

theorem wd_replicate (n k : Nat) : wd (List.replicate n (0 : Word)) k = 0 := by
  unfold wd; rw [List.getD_eq_getElem?_getD, List.getElem?_replicate]; split <;> rfl

theorem initWords_WF {n : Int} (h0 : 0 ≤ n) (h1 : n ≤ INT_MAX) (st : Bool) :
    Members ⟨initWords n, 0, st⟩ (fun _ => false) := by
  unfold INT_MAX at h1
  rw [members_iff]
  refine ⟨⟨Nat.zero_le _, Nat.zero_le _, ?_, fun k _ => wd_replicate _ k, Or.inl rfl⟩, fun i => bt_replicate _ i⟩
  simp only [initWords, List.length_replicate]
  omega

/-! ## Single bits -/

theorem mask_not (i : Nat) (w : Word) (j : Nat) (hj : j < 64) :
    (w &&& ~~~((1#64) <<< ((i : Int) % (64 : Nat)).toNat)).getLsbD j =
      if j = i % 64 then false else w.getLsbD j := by
  rw [op_andnot _ _ _ hj, bitmask_bits i j hj]; simp only [decide_eq_true_eq]

theorem div_mod_eq {i n : Nat} : n / 64 = i / 64 ∧ n % 64 = i % 64 ↔ n = i := by
  constructor
  · rintro ⟨h1, h2⟩; omega
  · rintro rfl; exact ⟨rfl, rfl⟩

theorem clearBitAt_ok {b : BS} (h : WF b) (i : Nat) :
    ∃ r, clearBitAt .wrap b i = .ok r ∧ WF r ∧ ∀ n, bt r.words n = if n = i then false else bt b.words n := by
  unfold clearBitAt
  by_cases hk : b.inUse ≤ i / 64
  · rw [if_pos hk]
    refine ⟨b, rfl, h, fun n => ?_⟩
    split
    · next e => subst e; exact bt_zero h.pre hk
    · rfl
  · rw [if_neg hk]
    have hu := h.used
    obtain ⟨ws, e1, e2, e3⟩ := upd_ok (· &&& ~~~((1#64) <<< ((i : Int) % (64 : Nat)).toNat))
      (show i / 64 < b.words.length by omega)
    obtain ⟨r, r1, r2, r3, _⟩ := recalc_ok (h.pre.words e2 (fun k hk' => by rw [e3, if_neg (by omega)]))
    refine ⟨r, by simp only [Outcome.bind_eq, shl_wrap, Outcome.bind_ok, e1, r1], r2, fun n => ?_⟩
    rw [r3]
    unfold bt
    simp only [e3]
    have hj : n % 64 < 64 := Nat.mod_lt _ (by omega)
    by_cases hn : n / 64 = i / 64
    · rw [if_pos hn, mask_not _ _ _ hj]
      by_cases hm : n % 64 = i % 64
      · rw [if_pos hm, if_pos (div_mod_eq.mp ⟨hn, hm⟩)]
      · rw [if_neg hm, if_neg (fun h => hm (by rw [h]))]
    · rw [if_neg hn, if_neg (fun h => hn (by rw [h]))]

theorem idx_word {i : Nat} (h : (i : Int) ≤ INT_MAX) : i / 64 < 2 ^ 25 := by
  unfold INT_MAX at h; omega

theorem flipBitAt_ok {b : BS} (h : WF b) (i : Nat) (hi : (i : Int) ≤ INT_MAX) :
    ∃ r, flipBitAt .wrap b i = .ok r ∧ WF r ∧ ∀ n, bt r.words n = if n = i then !bt b.words n else bt b.words n := by
  obtain ⟨p, hw, hwd, _⟩ := expandTo_ok h.pre (idx_word hi)
  have hu := p.used
  obtain ⟨ws, e1, e2, e3⟩ := upd_ok (· ^^^ ((1#64) <<< ((i : Int) % (64 : Nat)).toNat))
    (show i / 64 < (expandTo b (i / 64)).words.length by omega)
  obtain ⟨r, r1, r2, r3, _⟩ := recalc_ok (p.words e2 (fun k hk' => by rw [e3, if_neg (by omega)]))
  refine ⟨r, by simp only [flipBitAt, Outcome.bind_eq, shl_wrap, Outcome.bind_ok, e1, r1], r2, fun n => ?_⟩
  rw [r3]
  unfold bt
  simp only [e3]
  have hj : n % 64 < 64 := Nat.mod_lt _ (by omega)
  rw [hwd]
  by_cases hn : n / 64 = i / 64
  · rw [if_pos hn, op_xor _ _ _ hj, bitmask_bits _ _ hj]
    simp only [decide_eq_true_eq]
    by_cases hm : n % 64 = i % 64
    · rw [if_pos hm, if_pos (div_mod_eq.mp ⟨hn, hm⟩)]
    · rw [if_neg hm, if_neg (fun h => hm (by rw [h]))]
  · rw [if_neg hn, if_neg (fun h => hn (by rw [h]))]

theorem ne_zero_of_bit {w : Word} {j : Nat} (h : w.getLsbD j = true) : w ≠ 0 := by
  rintro rfl; simp at h

theorem setBitAt_ok {b : BS} (h : WF b) (i : Nat) (hi : (i : Int) ≤ INT_MAX) :
    ∃ r, setBitAt .wrap b i = .ok r ∧ WF r ∧ ∀ n, bt r.words n = if n = i then true else bt b.words n := by
  obtain ⟨p, hw, hwd, hin⟩ := expandTo_ok h.pre (idx_word hi)
  have hu := p.used
  obtain ⟨ws, e1, e2, e3⟩ := upd_ok (· ||| ((1#64) <<< ((i : Int) % (64 : Nat)).toNat))
    (show i / 64 < (expandTo b (i / 64)).words.length by omega)
  have hbit : ∀ n, bt ws n = if n = i then true else bt b.words n := by
    intro n
    unfold bt
    simp only [e3]
    have hj : n % 64 < 64 := Nat.mod_lt _ (by omega)
    rw [hwd]
    by_cases hn : n / 64 = i / 64
    · rw [if_pos hn, op_or _ _ _ hj, bitmask_bits _ _ hj]
      simp only [decide_eq_true_eq]
      by_cases hm : n % 64 = i % 64
      · rw [if_pos hm, if_pos (div_mod_eq.mp ⟨hn, hm⟩)]
      · rw [if_neg hm, if_neg (fun h => hm (by rw [h]))]
    · rw [if_neg hn, if_neg (fun h => hn (by rw [h]))]
  refine ⟨_, by simp only [setBitAt, Outcome.bind_eq, shl_wrap, Outcome.bind_ok, e1]; rfl, ?_, hbit⟩
  refine WF.of_pre (p.words e2 (fun k hk' => by rw [e3, if_neg (by omega)])) (Or.inr ?_)
  simp only
  by_cases hl : (expandTo b (i / 64)).inUse - 1 = i / 64
  · rw [hl]
    have := hbit i
    rw [if_pos rfl] at this
    exact ne_zero_of_bit this
  · rw [e3, if_neg hl, hwd]
    have hb : (expandTo b (i / 64)).inUse = b.inUse := by omega
    rw [hb]
    rcases h.top with h' | h'
    · omega
    · exact h'

/-! ## Ranges -/

theorem clearRangeTail_ok {b : BS} (h : WF b) (f t : Nat) (ht : 0 < t) (hf : f / 64 ≤ (t - 1) / 64)
    (hu : (t - 1) / 64 < b.inUse) :
    ∃ r, clearRangeTail .wrap b f t (f / 64) ((t - 1) / 64) = .ok r ∧ WF r ∧
      ∀ n, bt r.words n = if f ≤ n ∧ n < t then false else bt b.words n := by
  obtain ⟨fm, m1, m2⟩ := firstMask_bits f
  obtain ⟨lm, l1, l2⟩ := lastMask_bits t
  have hU := h.used
  obtain ⟨ws, e1, e2, e3, e4⟩ := rangeWords_ok (fun w k => w &&& ~~~k) (fun _ => 0) (fun _ => false)
    (fun w k j hj => op_andnot w k j hj) (fun w j _ => by simp) f t ((t - 1) / 64) fm lm b.words m2
    (fun j hj => by rw [l2 j hj, show (t + 63) % 64 = (t - 1) % 64 by omega]) rfl ht hf (by omega)
  obtain ⟨r, r1, r2, r3, _⟩ := recalc_ok (h.pre.words e2 (fun k hk => e3 k (by omega)))
  exact ⟨r, by simp only [clearRangeTail, Outcome.bind_eq, m1, Outcome.bind_ok, l1, e1, r1], r2, fun n => by rw [r3]; exact e4 n⟩

theorem chk32_nat {n : Nat} (h : n < 2 ^ 31) : chk32 (n : Int) = .ok (n : Int) :=
  chk32_ok (by unfold INT_MIN; omega) (by unfold INT_MAX; omega)

theorem clearRangeAt_ok {b : BS} (h : WF b) (f t : Nat) (hft : f ≤ t) (ht : (t : Int) ≤ INT_MAX) :
    ∃ r, clearRangeAt .wrap b f t = .ok r ∧ WF r ∧
      ∀ n, bt r.words n = if f ≤ n ∧ n < t then false else bt b.words n := by
  unfold clearRangeAt
  unfold INT_MAX at ht
  by_cases h1 : f = t
  · rw [if_pos h1]
    exact ⟨b, rfl, h, fun n => by rw [if_neg (by omega)]⟩
  · rw [if_neg h1]
    by_cases h2 : b.inUse ≤ f / 64
    · rw [if_pos h2]
      refine ⟨b, rfl, h, fun n => ?_⟩
      split
      · exact bt_zero h.pre (by omega)
      · rfl
    · rw [if_neg h2]
      by_cases h3 : b.inUse ≤ (t - 1) / 64
      · rw [if_pos h3]
        rcases length_ok h with ⟨h0, _⟩ | ⟨k, hk, j, hj, hh, hl⟩
        · omega
        · rw [hl, chk32_nat (by omega)]
          simp only [Outcome.bind_eq, Outcome.bind_ok, Int.toNat_natCast]
          have hL := isLength_of_highest h.pre hk hj hh
          obtain ⟨r, r1, r2, r3⟩ := clearRangeTail_ok h f (64 * k + j + 1) (by omega) (by omega) (by omega)
          rw [show b.inUse - 1 = (64 * k + j + 1 - 1) / 64 by omega]
          refine ⟨r, r1, r2, fun n => ?_⟩
          rw [r3]
          by_cases hc : f ≤ n ∧ n < 64 * k + j + 1
          · rw [if_pos hc, if_pos (by omega)]
          · rw [if_neg hc]
            split
            · exact hL.1 n (by omega)
            · rfl
      · rw [if_neg h3]
        exact clearRangeTail_ok h f t (by omega) (by omega) (by omega)

/-- `flip(from, to)` toggles up to the end of the word of `to` when `to` is a
multiple of 64. -/
def flipEnd (t : Nat) : Nat := if t % 64 = 0 then t + 64 else t

theorem flipRangeAt_ok {b : BS} (h : WF b) (f t : Nat) (hft : f < t) (ht : (t : Int) ≤ INT_MAX) :
    ∃ r, flipRangeAt .wrap b f t = .ok r ∧ WF r ∧
      ∀ n, bt r.words n = if f ≤ n ∧ n < flipEnd t then !bt b.words n else bt b.words n := by
  unfold flipRangeAt
  rw [if_neg (by omega)]
  have hfe : flipEnd t = if t % 64 = 0 then t + 64 else t := rfl
  have e1 : t / 64 = (flipEnd t - 1) / 64 := by rw [hfe]; split <;> omega
  have e2 : (t + 63) % 64 = (flipEnd t - 1) % 64 := by rw [hfe]; split <;> omega
  have e3 : t ≤ flipEnd t := by rw [hfe]; split <;> omega
  obtain ⟨p, hw, hwd, _⟩ := expandTo_ok h.pre (idx_word ht)
  have hu := p.used
  obtain ⟨fm, m1, m2⟩ := firstMask_bits f
  obtain ⟨lm, l1, l2⟩ := lastMask_bits t
  obtain ⟨ws, g1, g2, g3, g4⟩ := rangeWords_ok (· ^^^ ·) (· ^^^ WORD_MASK) (fun x => !x)
    (fun w k j hj => op_xor w k j hj) (fun w j hj => by rw [op_xor _ _ _ hj, wmask_bits j hj, if_pos rfl])
    f (flipEnd t) (t / 64) fm lm (expandTo b (t / 64)).words m2
    (fun j hj => by rw [l2 j hj, e2]) e1 (by omega) (by omega) (by omega)
  obtain ⟨r, r1, r2, r3, _⟩ := recalc_ok (p.words g2 (fun k hk => g3 k (by omega)))
  refine ⟨r, by simp only [Outcome.bind_eq, m1, Outcome.bind_ok, l1, g1, r1], r2, fun n => ?_⟩
  rw [r3]
  simp only [g4]
  have : bt (expandTo b (t / 64)).words n = bt b.words n := by unfold bt; rw [hwd]
  rw [this]

theorem setRangeAt_ok {b : BS} (h : WF b) (f t : Nat) (hft : f ≤ t) (ht : (t : Int) ≤ INT_MAX) :
    ∃ r, setRangeAt .wrap b f t = .ok r ∧ WF r ∧
      ∀ n, bt r.words n = if f ≤ n ∧ n < t then true else bt b.words n := by
  unfold setRangeAt
  by_cases h1 : f = t
  · rw [if_pos h1]
    exact ⟨b, rfl, h, fun n => by rw [if_neg (by omega)]⟩
  · rw [if_neg h1]
    unfold INT_MAX at ht
    obtain ⟨p, hw, hwd, hin⟩ := expandTo_ok h.pre (show (t - 1) / 64 < 2 ^ 25 by omega)
    have hu := p.used
    obtain ⟨fm, m1, m2⟩ := firstMask_bits f
    obtain ⟨lm, l1, l2⟩ := lastMask_bits t
    obtain ⟨ws, g1, g2, g3, g4⟩ := rangeWords_ok (· ||| ·) (fun _ => WORD_MASK) (fun _ => true)
      (fun w k j hj => op_or w k j hj) (fun w j hj => wmask_bits j hj)
      f t ((t - 1) / 64) fm lm (expandTo b ((t - 1) / 64)).words m2
      (fun j hj => by rw [l2 j hj, show (t + 63) % 64 = (t - 1) % 64 by omega]) rfl (by omega) (by omega) (by omega)
    have hbit : ∀ n, bt ws n = if f ≤ n ∧ n < t then true else bt b.words n := by
      intro n
      rw [g4]
      have : bt (expandTo b ((t - 1) / 64)).words n = bt b.words n := by unfold bt; rw [hwd]
      rw [this]
    refine ⟨_, by simp only [Outcome.bind_eq, m1, Outcome.bind_ok, l1, g1]; rfl, ?_, hbit⟩
    refine WF.of_pre (p.words g2 (fun k hk => g3 k (by omega))) (Or.inr ?_)
    simp only
    by_cases hl : (expandTo b ((t - 1) / 64)).inUse - 1 = (t - 1) / 64
    · rw [hl]
      have := hbit (t - 1)
      rw [if_pos (by omega)] at this
      exact ne_zero_of_bit this
    · rw [g3 _ (by omega), hwd]
      have hb : (expandTo b ((t - 1) / 64)).inUse = b.inUse := by omega
      rw [hb]
      rcases h.top with h' | h'
      · omega
      · exact h'

/-! ## Equality -/

theorem eqLoop_ok (a b : List Word) : ∀ (n k : Nat), k + n ≤ a.length → k + n ≤ b.length →
    ∃ r, eqLoop a b k n = .ok r ∧ (r = true ↔ ∀ j, k ≤ j → j < k + n → wd a j = wd b j) := by
  intro n
  induction n with
  | zero => intro k _ _; exact ⟨true, rfl, by simp; intro j h1 h2; omega⟩
  | succ n ih =>
    intro k ha hb
    simp only [eqLoop, Outcome.bind_eq, rd_ok (show k < a.length by omega), rd_ok (show k < b.length by omega),
      Outcome.bind_ok]
    by_cases hx : wd a k = wd b k
    · rw [if_neg (by simpa using hx)]
      obtain ⟨r, h1, h2⟩ := ih (k + 1) (by omega) (by omega)
      refine ⟨r, h1, h2.trans ⟨fun h j hj hj' => ?_, fun h j hj hj' => h j (by omega) (by omega)⟩⟩
      by_cases hk : j = k
      · subst hk; exact hx
      · exact h j (by omega) (by omega)
    · rw [if_pos hx]
      refine ⟨false, rfl, by simp; exact ⟨k, by omega, by omega, hx⟩⟩

theorem equals_ok {a b : BS} (ha : WF a) (hb : WF b) :
    ∃ r, equals a b = .ok r ∧ (r = true ↔ ∀ i, bt a.words i = bt b.words i) := by
  unfold equals
  have hau := ha.used
  have hbu := hb.used
  by_cases h : a.inUse = b.inUse
  · rw [if_neg (by simpa using h)]
    obtain ⟨r, h1, h2⟩ := eqLoop_ok a.words b.words a.inUse 0 (by omega) (by omega)
    refine ⟨r, h1, h2.trans ⟨fun hj i => ?_, fun hi j _ _ => wd_eq_of_bt hi j⟩⟩
    unfold bt
    rcases Nat.lt_or_ge (i / 64) a.inUse with hlt | hge
    · rw [hj _ (by omega) (by omega)]
    · rw [ha.pre.zero _ hge, hb.pre.zero _ (by omega)]
  · rw [if_pos h]
    refine ⟨false, rfl, ?_⟩
    simp only [Bool.false_eq_true, false_iff]
    intro hi
    rcases Nat.lt_or_ge a.inUse b.inUse with hlt | hge
    · rcases hb.top with h0 | h0
      · omega
      · apply h0
        have := wd_eq_of_bt hi (b.inUse - 1)
        rw [ha.pre.zero _ (by omega)] at this
        exact this.symm
    · rcases ha.top with h0 | h0
      · omega
      · apply h0
        have := wd_eq_of_bt hi (a.inUse - 1)
        rw [hb.pre.zero _ (by omega)] at this
        exact this

/-! ## Logical operations -/

theorem shrinkTo_ok (n : Nat) : ∀ (k : Nat) (ws : List Word), k ≤ ws.length →
    ∃ ws', shrinkTo n k ws = .ok ws' ∧ ws'.length = ws.length ∧
      ∀ j, wd ws' j = if n ≤ j ∧ j < k then 0 else wd ws j := by
  intro k
  induction k with
  | zero => intro ws _; exact ⟨ws, rfl, rfl, fun j => by rw [if_neg (by omega)]⟩
  | succ k ih =>
    intro ws hl
    unfold shrinkTo
    by_cases h : k + 1 > n
    · rw [if_pos h]
      obtain ⟨ws', h1, h2, h3⟩ := ih (ws.set k 0) (by simp; omega)
      refine ⟨ws', by simp only [Outcome.bind_eq, wr_ok _ (show k < ws.length by omega), Outcome.bind_ok, h1], by simpa using h2, fun j => ?_⟩
      rw [h3, wd_set _ (by omega)]
      by_cases hj : j = k
      · subst hj; rw [if_neg (by omega), if_pos rfl, if_pos (by omega)]
      · rw [if_neg hj]
        by_cases hc : n ≤ j ∧ j < k
        · rw [if_pos hc, if_pos (by omega)]
        · rw [if_neg hc, if_neg (by omega)]
    · rw [if_neg h]
      exact ⟨ws, rfl, rfl, fun j => by rw [if_neg (by omega)]⟩

theorem bitAnd_ok {a s : BS} (ha : WF a) (hs : WF s) :
    ∃ r, bitAnd a s = .ok r ∧ WF r ∧ ∀ i, bt r.words i = (bt a.words i && bt s.words i) := by
  obtain ⟨e, e1, e2⟩ := equals_ok ha hs
  unfold bitAnd
  simp only [Outcome.bind_eq, e1, Outcome.bind_ok]
  cases e with
  | true =>
    simp only [if_true]
    exact ⟨a, rfl, ha, fun i => by rw [← e2.mp rfl i]; simp⟩
  | false =>
    simp only [Bool.false_eq_true, if_false]
    have hau := ha.used
    have hsu := hs.used
    obtain ⟨w1, a1, a2, a3⟩ := shrinkTo_ok s.inUse a.inUse a.words hau
    obtain ⟨w2, b1, b2, b3⟩ := updLoop_ok (fun k w => (rd s.words k).bind fun v => .ok (w &&& v))
      (fun k w => w &&& wd s.words k) (min a.inUse s.inUse) 0 w1 (by omega)
      (fun k _ hk w => by rw [rd_ok (by omega)]; rfl)
    have hwd : ∀ k, wd w2 k = wd a.words k &&& wd s.words k := by
      intro k
      rw [b3]
      by_cases hk : 0 ≤ k ∧ k < 0 + min a.inUse s.inUse
      · rw [if_pos hk, a3, if_neg (by omega)]
      · rw [if_neg hk, a3]
        by_cases hk2 : s.inUse ≤ k
        · rw [hs.pre.zero k hk2]
          split
          · simp
          · rw [ha.pre.zero k (by omega)]; simp
        · rw [if_neg (by omega), ha.pre.zero k (by omega)]; simp
    have hpre : Pre { a with words := w2, inUse := min a.inUse s.inUse } := by
      refine ⟨by simp only; omega, by have := ha.cap; simp only; omega, by have := ha.len; simp only; omega, fun k hk => ?_⟩
      simp only at hk ⊢
      rw [hwd]
      rcases Nat.lt_or_ge k a.inUse with h1 | h1
      · rw [hs.pre.zero k (by omega)]; simp
      · rw [ha.pre.zero k h1]; simp
    obtain ⟨r, r1, r2, r3, _⟩ := recalc_ok hpre
    refine ⟨r, by simp only [bitAndTail, Outcome.bind_eq, a1, Outcome.bind_ok, b1, r1], r2, fun i => ?_⟩
    rw [r3]
    unfold bt
    simp only [hwd, BitVec.getLsbD_and]

theorem mergeWords_ok (op : Word → Word → Word) (h0 : ∀ w, op w 0 = w) (h1 : ∀ w, op 0 w = w)
    {a s : BS} (ha : WF a) (hs : WF s) :
    ∃ r, mergeWords op a s = .ok r ∧ Pre r ∧ r.inUse = max a.inUse s.inUse ∧
      ∀ k, wd r.words k = op (wd a.words k) (wd s.words k) := by
  have hau := ha.used
  have hsu := hs.used
  unfold mergeWords
  have key : ∃ a', (if a.inUse < s.inUse then { ensureCapacity a s.inUse with inUse := s.inUse } else a) = a' ∧
      Pre a' ∧ a'.inUse = max a.inUse s.inUse ∧ ∀ k, wd a'.words k = wd a.words k := by
    refine ⟨_, rfl, ?_⟩
    by_cases hlt : a.inUse < s.inUse
    · rw [if_pos hlt]
      obtain ⟨e1, e2, e3, e4, e5⟩ := ensureCapacity_ok ha.pre hs.cap
      refine ⟨⟨e2, hs.cap, e4, fun k hk => ?_⟩, by simp only; omega, e5⟩
      simp only at hk ⊢
      rw [e5, ha.pre.zero k (by omega)]
    · rw [if_neg hlt]
      exact ⟨ha.pre, by omega, fun _ => rfl⟩
  obtain ⟨a', e, p, hin, hwd⟩ := key
  rw [e]
  have pu := p.used
  obtain ⟨w1, a1, a2, a3⟩ := updLoop_ok (fun k w => (rd s.words k).bind fun v => .ok (op w v))
      (fun k w => op w (wd s.words k)) (min a.inUse s.inUse) 0 a'.words (by omega)
      (fun k _ hk w => by rw [rd_ok (by omega)]; rfl)
  obtain ⟨w2, b1, b2, b3⟩ := updLoop_ok (fun k _ => rd s.words k) (fun k _ => wd s.words k)
      (s.inUse - min a.inUse s.inUse) (min a.inUse s.inUse) w1 (by omega)
      (fun k _ hk w => by rw [rd_ok (by omega)])
  have hall : ∀ k, wd w2 k = op (wd a.words k) (wd s.words k) := by
    intro k
    rw [b3]
    by_cases hk : min a.inUse s.inUse ≤ k ∧ k < min a.inUse s.inUse + (s.inUse - min a.inUse s.inUse)
    · rw [if_pos hk, ha.pre.zero k (by omega), h1]
    · rw [if_neg hk, a3, hwd]
      by_cases hk2 : 0 ≤ k ∧ k < 0 + min a.inUse s.inUse
      · rw [if_pos hk2]
      · rw [if_neg hk2, hs.pre.zero k (by omega), h0]
  refine ⟨{ a' with words := w2 }, by simp only [Outcome.bind_eq, a1, Outcome.bind_ok, b1], ?_, hin, hall⟩
  refine p.words (by omega) (fun k hk => ?_)
  rw [hall, hwd, hs.pre.zero k (by omega), h0]

theorem bitOr_ok {a s : BS} (ha : WF a) (hs : WF s) :
    ∃ r, bitOr a s = .ok r ∧ WF r ∧ ∀ i, bt r.words i = (bt a.words i || bt s.words i) := by
  obtain ⟨e, e1, e2⟩ := equals_ok ha hs
  unfold bitOr
  simp only [Outcome.bind_eq, e1, Outcome.bind_ok]
  cases e with
  | true =>
    simp only [if_true]
    exact ⟨a, rfl, ha, fun i => by rw [← e2.mp rfl i]; simp⟩
  | false =>
    simp only [Bool.false_eq_true, if_false]
    obtain ⟨r, r1, r2, r3, r4⟩ := mergeWords_ok (· ||| ·) (by simp) (by simp) ha hs
    refine ⟨r, r1, WF.of_pre r2 ?_, fun i => ?_⟩
    · by_cases h0 : r.inUse = 0
      · exact Or.inl h0
      · right
        rw [r4]
        intro hz
        have hz2 : ∀ j, (wd a.words (r.inUse - 1)).getLsbD j = false ∧ (wd s.words (r.inUse - 1)).getLsbD j = false := by
          intro j
          have := congrArg (fun x : Word => x.getLsbD j) hz
          simpa using this
        have za : wd a.words (r.inUse - 1) = 0 := by
          apply BitVec.eq_of_getLsbD_eq; intro j _; rw [(hz2 j).1]; simp
        have zs : wd s.words (r.inUse - 1) = 0 := by
          apply BitVec.eq_of_getLsbD_eq; intro j _; rw [(hz2 j).2]; simp
        rcases Nat.lt_or_ge a.inUse s.inUse with hlt | hge
        · rcases hs.top with h' | h'
          · omega
          · exact h' (by rw [show s.inUse = r.inUse by omega]; exact zs)
        · rcases ha.top with h' | h'
          · omega
          · exact h' (by rw [show a.inUse = r.inUse by omega]; exact za)
    · unfold bt; rw [r4, BitVec.getLsbD_or]

theorem bitXor_ok {a s : BS} (ha : WF a) (hs : WF s) :
    ∃ r, bitXor a s = .ok r ∧ WF r ∧ ∀ i, bt r.words i = (bt a.words i ^^ bt s.words i) := by
  obtain ⟨r, r1, r2, r3, r4⟩ := mergeWords_ok (· ^^^ ·) (by simp) (by simp) ha hs
  obtain ⟨q, q1, q2, q3, _⟩ := recalc_ok r2
  refine ⟨q, by simp only [bitXor, Outcome.bind_eq, r1, Outcome.bind_ok, q1], q2, fun i => ?_⟩
  rw [q3]; unfold bt; rw [r4, BitVec.getLsbD_xor]

theorem andNot_ok {a s : BS} (ha : WF a) (hs : WF s) :
    ∃ r, andNot a s = .ok r ∧ WF r ∧ ∀ i, bt r.words i = (bt a.words i && !bt s.words i) := by
  have hau := ha.used
  have hsu := hs.used
  obtain ⟨w, a1, a2, a3⟩ := updLoop_ok (fun k w => (rd s.words k).bind fun v => .ok (w &&& ~~~v))
      (fun k w => w &&& ~~~(wd s.words k)) (min a.inUse s.inUse) 0 a.words (by omega)
      (fun k _ hk w => by rw [rd_ok (by omega)]; rfl)
  obtain ⟨r, r1, r2, r3, _⟩ := recalc_ok (ha.pre.words a2 (fun k hk => by rw [a3, if_neg (by omega)]))
  refine ⟨r, by simp only [andNot, Outcome.bind_eq, a1, Outcome.bind_ok, r1], r2, fun i => ?_⟩
  rw [r3]
  unfold bt
  simp only [a3]
  have hj : i % 64 < 64 := Nat.mod_lt _ (by omega)
  by_cases hk : 0 ≤ i / 64 ∧ i / 64 < 0 + min a.inUse s.inUse
  · rw [if_pos hk, BitVec.getLsbD_and, BitVec.getLsbD_not]; simp [hj]
  · rw [if_neg hk]
    rcases Nat.lt_or_ge (i / 64) s.inUse with h1 | h1
    · rw [ha.pre.zero _ (by omega)]; simp
    · rw [hs.pre.zero _ h1]; simp

theorem clearAll_ok {a : BS} (ha : WF a) :
    ∃ r, clearAll a = .ok r ∧ WF r ∧ ∀ i, bt r.words i = false := by
  obtain ⟨w, h1, h2, h3⟩ := shrinkTo_ok 0 a.inUse a.words ha.used
  have hz : ∀ k, wd w k = 0 := by
    intro k
    rw [h3]
    split
    · rfl
    · exact ha.pre.zero k (by omega)
  refine ⟨⟨w, 0, a.sticky⟩, by simp only [clearAll, Outcome.bind_eq, h1, Outcome.bind_ok], ?_, fun i => ?_⟩
  · exact ⟨by simp, by simp, by have := ha.len; simp only; omega, fun k _ => hz k, Or.inl rfl⟩
  · unfold bt; rw [hz]; simp

theorem copyOf_self (ws : List Word) : copyOf ws ws.length = ws := by
  unfold copyOf; simp

theorem copy_eq (b : BS) : copy b = b := by
  unfold copy; rw [copyOf_self]

theorem trim_ok {b : BS} (h : WF b) : WF (trimToSize b) ∧ ∀ i, bt (trimToSize b).words i = bt b.words i := by
  unfold trimToSize
  have hu := h.used
  by_cases he : b.inUse ≠ b.words.length
  · rw [if_pos he]
    have hw : ∀ k, wd (copyOf b.words b.inUse) k = wd b.words k := by
      intro k
      rw [wd_copyOf]
      split
      · rfl
      · rw [h.pre.zero k (by omega)]
    refine ⟨⟨by simp only [length_copyOf]; omega, h.cap, by have := h.cap; simp only [length_copyOf]; omega, fun k hk => ?_, ?_⟩, fun i => ?_⟩
    · show wd (copyOf b.words b.inUse) k = 0
      rw [hw]; exact h.pre.zero k hk
    · rcases h.top with h' | h'
      · exact Or.inl h'
      · right
        show wd (copyOf b.words b.inUse) (b.inUse - 1) ≠ 0
        rw [hw]; exact h'
    · unfold bt; simp only [hw]
  · rw [if_neg he]; exact ⟨h, fun _ => rfl⟩

theorem clone_ok {b : BS} (h : WF b) :
    (clone b).1 = (clone b).2 ∧ WF (clone b).2 ∧ ∀ i, bt (clone b).2.words i = bt b.words i := by
  unfold clone
  simp only [copyOf_self]
  by_cases hs : b.sticky = true
  · rw [if_pos hs]; exact ⟨trivial, h, fun _ => rfl⟩
  · rw [if_neg hs]; exact ⟨trivial, (trim_ok h).1, (trim_ok h).2⟩

/-! ## `get(from, to)` -/

theorem join_bits (lo hi : Word) (f : Nat) : ∃ w, joinWords .wrap lo hi f = .ok w ∧
    ∀ j, j < 64 → w.getLsbD j = (lo.getLsbD (f % 64 + j) || (decide ((64 - f % 64) % 64 ≤ j) && hi.getLsbD (j - (64 - f % 64) % 64))) := by
  refine ⟨_, by simp only [joinWords, shr_wrap, shl_wrap, Outcome.bind_eq, Outcome.bind_ok]; rfl, fun j hj => ?_⟩
  have e1 : ((f : Int) % (64 : Nat)).toNat = f % 64 := by omega
  have e2 : ((-(f : Int) % 64) % (64 : Nat)).toNat = (64 - f % 64) % 64 := by omega
  rw [e1, e2, BitVec.getLsbD_or, BitVec.getLsbD_ushiftRight, BitVec.getLsbD_shiftLeft]
  congr 1
  simp only [hj, decide_true, Bool.true_and]
  by_cases h : (64 - f % 64) % 64 ≤ j
  · simp [h]
  · simp [h]

theorem getWord_ok {ws : List Word} (f src : Nat) (h : src + (if f % 64 = 0 then 0 else 1) < ws.length) :
    ∃ w, getWord .wrap ws f src = .ok w ∧ ∀ j, j < 64 → w.getLsbD j = bt ws (src * 64 + f % 64 + j) := by
  unfold getWord
  have hs : src < ws.length := by split at h <;> omega
  simp only [Outcome.bind_eq, rd_ok hs, Outcome.bind_ok]
  by_cases hf : f % 64 = 0
  · rw [if_pos hf]
    refine ⟨_, rfl, fun j hj => ?_⟩
    unfold bt
    rw [show (src * 64 + f % 64 + j) / 64 = src by omega, show (src * 64 + f % 64 + j) % 64 = j by omega]
  · rw [if_neg hf] at h
    rw [if_neg hf, rd_ok h]
    simp only [Outcome.bind_ok]
    obtain ⟨w, w1, w2⟩ := join_bits (wd ws src) (wd ws (src + 1)) f
    refine ⟨w, w1, fun j hj => ?_⟩
    rw [w2 j hj]
    unfold bt
    by_cases hc : f % 64 + j < 64
    · rw [show (src * 64 + f % 64 + j) / 64 = src by omega, show (src * 64 + f % 64 + j) % 64 = f % 64 + j by omega]
      have : ¬ (64 - f % 64) % 64 ≤ j := by omega
      simp [this]
    · rw [show (src * 64 + f % 64 + j) / 64 = src + 1 by omega, BitVec.getLsbD_of_ge _ _ (by omega : 64 ≤ f % 64 + j),
        show (src * 64 + f % 64 + j) % 64 = j - (64 - f % 64) % 64 by omega]
      have : (64 - f % 64) % 64 ≤ j := by omega
      simp [this]

theorem getLastWord_ok {ws : List Word} (f t src : Nat) (hft : f < t) (hsrc : src = f / 64 + (t - f - 1) / 64)
    (h : (t - 1) / 64 < ws.length) :
    ∃ w, getLastWord .wrap ws f t src = .ok w ∧
      ∀ j, j < 64 → w.getLsbD j = (decide (src * 64 + f % 64 + j < t) && bt ws (src * 64 + f % 64 + j)) := by
  unfold getLastWord
  obtain ⟨lm, l1, l2⟩ := lastMask_bits t
  have em : (t + 63) % 64 = (t - 1) % 64 := by omega
  have hs : src < ws.length := by omega
  simp only [Outcome.bind_eq, l1, rd_ok hs, Outcome.bind_ok]
  by_cases hc : (t - 1) % 64 < f % 64
  · rw [if_pos hc]
    have hs1 : src + 1 = (t - 1) / 64 := by omega
    rw [rd_ok (show src + 1 < ws.length by omega)]
    simp only [Outcome.bind_ok]
    obtain ⟨w, w1, w2⟩ := join_bits (wd ws src) (wd ws (src + 1) &&& lm) f
    refine ⟨w, w1, fun j hj => ?_⟩
    rw [w2 j hj]
    unfold bt
    by_cases hc2 : f % 64 + j < 64
    · rw [show (src * 64 + f % 64 + j) / 64 = src by omega, show (src * 64 + f % 64 + j) % 64 = f % 64 + j by omega]
      have h1 : ¬ (64 - f % 64) % 64 ≤ j := by omega
      have h2 : src * 64 + f % 64 + j < t := by omega
      simp [h1, h2]
    · rw [show (src * 64 + f % 64 + j) / 64 = src + 1 by omega, BitVec.getLsbD_of_ge _ _ (by omega : 64 ≤ f % 64 + j),
        show (src * 64 + f % 64 + j) % 64 = j - (64 - f % 64) % 64 by omega]
      have h1 : (64 - f % 64) % 64 ≤ j := by omega
      rw [BitVec.getLsbD_and, l2 _ (by omega), em]
      have h2 : (j - (64 - f % 64) % 64 ≤ (t - 1) % 64) ↔ src * 64 + f % 64 + j < t := by omega
      simp only [h1, h2, decide_true, Bool.true_and, Bool.false_or]
      rw [Bool.and_comm]
  · rw [if_neg hc, shr_wrap]
    have hs1 : src = (t - 1) / 64 := by omega
    refine ⟨_, rfl, fun j hj => ?_⟩
    have e1 : ((f : Int) % (64 : Nat)).toNat = f % 64 := by omega
    rw [e1, BitVec.getLsbD_ushiftRight, BitVec.getLsbD_and]
    by_cases hc2 : f % 64 + j < 64
    · rw [l2 _ hc2, em]
      unfold bt
      rw [show (src * 64 + f % 64 + j) / 64 = src by omega, show (src * 64 + f % 64 + j) % 64 = f % 64 + j by omega]
      have h2 : (f % 64 + j ≤ (t - 1) % 64) ↔ src * 64 + f % 64 + j < t := by omega
      simp only [h2]
      rw [Bool.and_comm]
    · rw [BitVec.getLsbD_of_ge _ _ (by omega : 64 ≤ f % 64 + j)]
      have h2 : ¬ src * 64 + f % 64 + j < t := by omega
      simp [h2]

theorem getRangeTail_ok {b : BS} (h : WF b) (f t : Nat) (hft : f < t) (ht : (t - 1) / 64 < b.inUse)
    (hti : (t : Int) ≤ INT_MAX) :
    ∃ r, getRangeTail .wrap b f t = .ok r ∧ WF r ∧
      ∀ n, bt r.words n = (decide (f + n < t) && bt b.words (f + n)) := by
  unfold INT_MAX at hti
  have hu := h.used
  have htw : ((t - f : Nat) : Int) = (t : Int) - f := by omega
  have hlen : (initWords ((t - f : Nat) : Int)).length = (t - f - 1) / 64 + 1 := by
    simp only [initWords, List.length_replicate]; omega
  have hgw : ∀ k, k < (t - f - 1) / 64 → f / 64 + k + (if f % 64 = 0 then 0 else 1) < b.words.length := by
    intro k hk; split <;> omega
  have hex : ∀ k : Nat, ∃ w : Word, k < (t - f - 1) / 64 → getWord .wrap b.words f (f / 64 + k) = .ok w ∧
      ∀ j, j < 64 → w.getLsbD j = bt b.words ((f / 64 + k) * 64 + f % 64 + j) := by
    intro k
    by_cases hk : k < (t - f - 1) / 64
    · obtain ⟨w, w1, w2⟩ := getWord_ok f (f / 64 + k) (hgw k hk)
      exact ⟨w, fun _ => ⟨w1, w2⟩⟩
    · exact ⟨0, fun h => absurd h hk⟩
  obtain ⟨g, hg⟩ := Classical.axiomOfChoice hex
  obtain ⟨ws, a1, a2, a3⟩ := updLoop_ok (fun k _ => getWord .wrap b.words f (f / 64 + k)) (fun k _ => g k)
    ((t - f - 1) / 64) 0 (initWords ((t - f : Nat) : Int)) (by omega)
    (fun k _ hk w => (hg k (by omega)).1)
  obtain ⟨last, b1, b2⟩ := getLastWord_ok f t (f / 64 + (t - f - 1) / 64) hft rfl (show (t - 1) / 64 < b.words.length by omega)
  have hwd : ∀ k, wd (ws.set ((t - f - 1) / 64) last) k =
      if k = (t - f - 1) / 64 then last else if k < (t - f - 1) / 64 then g k else 0 := by
    intro k
    rw [wd_set _ (by omega), a3]
    by_cases hk : k = (t - f - 1) / 64
    · rw [if_pos hk, if_pos hk]
    · rw [if_neg hk, if_neg hk]
      by_cases hk2 : k < (t - f - 1) / 64
      · rw [if_pos (by omega), if_pos hk2]
      · rw [if_neg (by omega), if_neg hk2]; exact wd_replicate _ _
  have hpre : Pre ⟨ws.set ((t - f - 1) / 64) last, (t - f - 1) / 64 + 1, true⟩ := by
    refine ⟨by simp only [List.length_set]; omega, by simp only; omega, by simp only [List.length_set]; omega, fun k hk => ?_⟩
    simp only at hk ⊢
    rw [hwd, if_neg (by omega), if_neg (by omega)]
  obtain ⟨r, r1, r2, r3, _⟩ := recalc_ok hpre
  refine ⟨r, ?_, r2, fun n => ?_⟩
  · unfold getRangeTail
    simp only [Outcome.bind_eq, Nat.add_sub_cancel, a1, Outcome.bind_ok, b1, wr_ok _ (show (t - f - 1) / 64 < ws.length by omega), r1]
  · rw [r3]
    have hj : n % 64 < 64 := Nat.mod_lt _ (by omega)
    show (wd _ (n / 64)).getLsbD (n % 64) = _
    rw [hwd]
    by_cases hk : n / 64 = (t - f - 1) / 64
    · rw [if_pos hk, b2 _ hj]
      rw [show (f / 64 + (t - f - 1) / 64) * 64 + f % 64 + n % 64 = f + n by omega]
    · rw [if_neg hk]
      by_cases hk2 : n / 64 < (t - f - 1) / 64
      · rw [if_pos hk2, (hg _ hk2).2 _ hj]
        rw [show (f / 64 + n / 64) * 64 + f % 64 + n % 64 = f + n by omega]
        have : f + n < t := by omega
        simp [this]
      · rw [if_neg hk2]
        have : ¬ f + n < t := by omega
        simp [this]

end Verif.BitSet
