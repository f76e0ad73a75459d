import Verif.BitSet.Ops
/-! # Queries, conversions and the cached text -/
namespace Verif.BitSet
open Verif.CInt Verif.Bits

/-! ## cardinality -/

/-- The members below `n`, in order. -/
def below (ws : List Word) (n : Nat) : List Nat := (List.range n).filter fun i => bt ws i

theorem below_word (ws : List Word) (k : Nat) :
    (below ws (64 * (k + 1))).length = (below ws (64 * k)).length + popcount (wd ws k) := by
  unfold below popcount
  rw [show 64 * (k + 1) = 64 * k + 64 by omega, List.range_add, List.filter_append, List.length_append,
    List.filter_map, List.length_map]
  congr 2
  apply List.filter_congr
  intro j hj
  have hj : j < 64 := by simpa using hj
  simp only [Function.comp_apply, bt]
  rw [show (64 * k + j) / 64 = k by omega, show (64 * k + j) % 64 = j by omega]

theorem below_mono (ws : List Word) (k d : Nat) :
    (below ws (64 * k)).length ≤ (below ws (64 * (k + d))).length := by
  induction d with
  | zero => exact Nat.le_refl _
  | succ d ih => rw [show k + (d + 1) = (k + d) + 1 by omega, below_word]; omega

theorem cardLoop_ok (ws : List Word) : ∀ (n k : Nat), k + n ≤ ws.length →
    ((below ws (64 * k)).length : Int) ≤ INT_MAX →
    cardLoop .wrap ws k n (below ws (64 * k)).length =
      if ((below ws (64 * (k + n))).length : Int) ≤ INT_MAX then .ok ((below ws (64 * (k + n))).length : Int) else .ub := by
  intro n
  induction n with
  | zero => intro k _ hm; rw [Nat.add_zero, if_pos hm]; rfl
  | succ n ih =>
    intro k hl hm
    simp only [cardLoop, Outcome.bind_eq, rd_ok (show k < ws.length by omega), Outcome.bind_ok, longBitCount_wrap]
    have e : ((below ws (64 * k)).length : Int) + (popcount (wd ws k) : Int) = ((below ws (64 * (k + 1))).length : Int) := by
      rw [below_word]; push_cast; rfl
    rw [e]
    by_cases hc : ((below ws (64 * (k + 1))).length : Int) ≤ INT_MAX
    · rw [chk32_ok (by unfold INT_MIN; omega) hc, Outcome.bind_ok, ih (k + 1) (by omega) hc]
      rw [show k + 1 + n = k + (n + 1) by omega]
    · have hmono := below_mono ws (k + 1) n
      rw [show k + 1 + n = k + (n + 1) by omega] at hmono
      rw [if_neg (by omega)]
      have : chk32 ((below ws (64 * (k + 1))).length : Int) = .ub := by
        unfold chk32; rw [if_neg (fun h => hc h.2)]
      rw [this, Outcome.bind_ub]

theorem below_lists {b : BS} (h : Pre b) : Lists (below b.words (64 * b.inUse)) (bt b.words) := by
  constructor
  · exact List.Pairwise.filter _ List.pairwise_lt_range
  · intro i
    unfold below
    rw [List.mem_filter, List.mem_range]
    constructor
    · exact fun h => h.2
    · intro hi
      refine ⟨?_, hi⟩
      rcases Nat.lt_or_ge i (64 * b.inUse) with h' | h'
      · exact h'
      · rw [bt_zero h (by omega)] at hi; cases hi

/-- A sorted list is determined by its elements. -/
theorem lists_unique : ∀ {l l' : List Nat} {s : IdxSet}, Lists l s → Lists l' s → l = l' := by
  have key : ∀ (l l' : List Nat), l.Pairwise (· < ·) → l'.Pairwise (· < ·) → (∀ i, i ∈ l ↔ i ∈ l') → l = l' := by
    intro l
    induction l with
    | nil =>
      intro l' _ _ h
      cases l' with
      | nil => rfl
      | cons a t => exact absurd ((h a).mpr (by simp)) (by simp)
    | cons a t ih =>
      intro l' h1 h2 h
      cases l' with
      | nil => exact absurd ((h a).mp (by simp)) (by simp)
      | cons b u =>
        have g1 := List.pairwise_cons.mp h1
        have g2 := List.pairwise_cons.mp h2
        have hab : a = b := by
          have ha := (h a).mp (by simp)
          have hb := (h b).mpr (by simp)
          rcases List.mem_cons.mp ha with e | e
          · exact e
          · rcases List.mem_cons.mp hb with e' | e'
            · exact e'.symm
            · have := g1.1 _ e'; have := g2.1 _ e; omega
        subst hab
        congr 1
        refine ih u g1.2 g2.2 (fun i => ?_)
        constructor
        · intro hi
          rcases List.mem_cons.mp ((h i).mp (List.mem_cons_of_mem _ hi)) with e | e
          · have := g1.1 _ hi; omega
          · exact e
        · intro hi
          rcases List.mem_cons.mp ((h i).mpr (List.mem_cons_of_mem _ hi)) with e | e
          · have := g2.1 _ hi; omega
          · exact e
  intro l l' s h1 h2
  exact key l l' h1.1 h2.1 (fun i => (h1.2 i).trans (h2.2 i).symm)

theorem cardinality_ok {b : BS} (h : WF b) :
    cardinality .wrap b = if ((below b.words (64 * b.inUse)).length : Int) ≤ INT_MAX
      then .ok ((below b.words (64 * b.inUse)).length : Int) else .ub := by
  have := cardLoop_ok b.words b.inUse 0 (by have := h.used; omega) (by unfold INT_MAX; simp [below])
  rw [Nat.zero_add] at this
  exact this

/-! ## Scans -/

theorem scanUp_ok (b : BS) (hp : Pre b) (neg : Bool) (atEnd : Outcome Int) (P : Nat → Bool) :
    ∀ (fuel k : Nat) (word : Word), b.inUse - k < fuel → k < b.inUse →
      (∀ j, j < 64 → word.getLsbD j = P (64 * k + j)) →
      (∀ k', k < k' → k' < b.inUse → ∀ j, j < 64 →
        (if neg then ~~~(wd b.words k') else wd b.words k').getLsbD j = P (64 * k' + j)) →
      (∃ n : Nat, scanUp b neg atEnd fuel k word = .ok (n : Int) ∧ P n = true ∧ 64 * k ≤ n ∧ n < 64 * b.inUse ∧
        ∀ j, 64 * k ≤ j → j < n → P j = false) ∨
      (scanUp b neg atEnd fuel k word = atEnd ∧ ∀ j, 64 * k ≤ j → j < 64 * b.inUse → P j = false) := by
  intro fuel
  have hu := hp.used
  have hc := hp.cap
  induction fuel with
  | zero => intro k _ h; omega
  | succ n ih =>
    intro k word hf hk hw hr
    unfold scanUp
    rw [if_neg (by omega)]
    by_cases hz : word = 0
    · rw [if_neg (by simpa using hz)]
      have hzero : ∀ j, 64 * k ≤ j → j < 64 * (k + 1) → P j = false := by
        intro j h1 h2
        have := hw (j - 64 * k) (by omega)
        rw [hz] at this
        rw [show 64 * k + (j - 64 * k) = j by omega] at this
        rw [← this]; simp
      by_cases he : k + 1 = b.inUse
      · rw [if_pos he]
        right
        exact ⟨rfl, fun j h1 h2 => hzero j h1 (by omega)⟩
      · rw [if_neg he, Outcome.bind_eq, rd_ok (show k + 1 < b.words.length by omega), Outcome.bind_ok]
        rcases ih (k + 1) (if neg then ~~~(wd b.words (k + 1)) else wd b.words (k + 1)) (by omega) (by omega)
          (fun j hj => hr (k + 1) (by omega) (by omega) j hj)
          (fun k' h1 h2 => hr k' (by omega) h2) with ⟨m, e1, e2, e3, e4, e5⟩ | ⟨e1, e2⟩
        · left
          refine ⟨m, e1, e2, by omega, e4, fun j h1 h2 => ?_⟩
          rcases Nat.lt_or_ge j (64 * (k + 1)) with h | h
          · exact hzero j h1 h
          · exact e5 j h h2
        · right
          refine ⟨e1, fun j h1 h2 => ?_⟩
          rcases Nat.lt_or_ge j (64 * (k + 1)) with h | h
          · exact hzero j h1 h
          · exact e2 j h h2
    · rw [if_pos hz]
      left
      obtain ⟨l, h1, h2⟩ := (C15_numberOfTrailingZeros word).2 hz
      have hl : l < 64 := by
        rcases Nat.lt_or_ge l 64 with h' | h'
        · exact h'
        · have := h2.1; rw [BitVec.getLsbD_of_ge _ _ h'] at this; cases this
      refine ⟨64 * k + l, ?_, ?_, by omega, by omega, fun j hj1 hj2 => ?_⟩
      · rw [h1, show ((k : Int) * 64 + (l : Int)) = ((64 * k + l : Nat) : Int) by push_cast; omega]
        exact chk32_nat (by omega)
      · rw [← hw l hl]; exact h2.1
      · have := hw (j - 64 * k) (by omega)
        rw [show 64 * k + (j - 64 * k) = j by omega] at this
        rw [← this]
        exact h2.2 _ (by omega)

theorem nextSetBitAt_ok {b : BS} (h : Pre b) (f : Nat) :
    ∃ r, nextSetBitAt .wrap b f = .ok r ∧ LeastFrom (bt b.words) f r := by
  unfold nextSetBitAt
  by_cases hk : b.inUse ≤ f / 64
  · rw [if_pos hk]
    exact ⟨-1, rfl, Or.inr ⟨rfl, fun j hj => bt_zero h (by omega)⟩⟩
  · rw [if_neg hk]
    have hu := h.used
    obtain ⟨fm, m1, m2⟩ := firstMask_bits f
    simp only [Outcome.bind_eq, rd_ok (show f / 64 < b.words.length by omega), Outcome.bind_ok, m1]
    have hbits : ∀ k j, j < 64 → (wd b.words k).getLsbD j = bt b.words (64 * k + j) := by
      intro k j hj; unfold bt
      rw [show (64 * k + j) / 64 = k by omega, show (64 * k + j) % 64 = j by omega]
    rcases scanUp_ok b h false (.ok (-1)) (fun i => decide (f ≤ i) && bt b.words i) (b.inUse + 1) (f / 64)
      (wd b.words (f / 64) &&& fm) (by omega) (by omega)
      (fun j hj => by
        rw [BitVec.getLsbD_and, m2 j hj, hbits _ j hj, Bool.and_comm]
        congr 1
        apply decide_eq_decide.mpr; omega)
      (fun k' h1 _ j hj => by
        have : f ≤ 64 * k' + j := by omega
        simp only [Bool.false_eq_true, if_false, hbits _ j hj, this, decide_true, Bool.true_and]) with
      ⟨n, e1, e2, e3, e4, e5⟩ | ⟨e1, e2⟩
    · refine ⟨n, e1, Or.inl ⟨n, rfl, ?_, ?_, fun j h1 h2 => ?_⟩⟩
      · simp only [Bool.and_eq_true, decide_eq_true_eq] at e2; exact e2.1
      · simp only [Bool.and_eq_true, decide_eq_true_eq] at e2; exact e2.2
      · have := e5 j (by omega) h2
        simpa [h1] using this
    · refine ⟨-1, e1, Or.inr ⟨rfl, fun j h1 => ?_⟩⟩
      rcases Nat.lt_or_ge j (64 * b.inUse) with h' | h'
      · have := e2 j (by omega) h'
        simpa [h1] using this
      · exact bt_zero h (by omega)

theorem nextClearBitAt_ok {b : BS} (h : Pre b) (f : Nat) :
    (∃ n : Nat, nextClearBitAt .wrap b f = chk32 (n : Int) ∧ f ≤ n ∧ bt b.words n = false ∧
      ∀ j, f ≤ j → j < n → bt b.words j = true) ∨
    (nextClearBitAt .wrap b f = .ok (f : Int) ∧ bt b.words f = false) := by
  unfold nextClearBitAt
  by_cases hk : b.inUse ≤ f / 64
  · rw [if_pos hk]
    exact Or.inr ⟨rfl, bt_zero h hk⟩
  · rw [if_neg hk]
    have hu := h.used
    have hc := h.cap
    obtain ⟨fm, m1, m2⟩ := firstMask_bits f
    simp only [Outcome.bind_eq, rd_ok (show f / 64 < b.words.length by omega), Outcome.bind_ok, m1]
    have hbits : ∀ k j, j < 64 → (~~~(wd b.words k)).getLsbD j = !bt b.words (64 * k + j) := by
      intro k j hj; unfold bt
      rw [show (64 * k + j) / 64 = k by omega, show (64 * k + j) % 64 = j by omega, BitVec.getLsbD_not]
      simp [hj]
    left
    rcases scanUp_ok b h true (chk32 (b.inUse * 64)) (fun i => decide (f ≤ i) && !bt b.words i) (b.inUse + 1) (f / 64)
      (~~~(wd b.words (f / 64)) &&& fm) (by omega) (by omega)
      (fun j hj => by
        rw [BitVec.getLsbD_and, m2 j hj, hbits _ j hj, Bool.and_comm]
        congr 1
        apply decide_eq_decide.mpr; omega)
      (fun k' h1 _ j hj => by
        have : f ≤ 64 * k' + j := by omega
        simp only [if_true, hbits _ j hj, this, decide_true, Bool.true_and]) with
      ⟨n, e1, e2, e3, e4, e5⟩ | ⟨e1, e2⟩
    · simp only [Bool.and_eq_true, decide_eq_true_eq, Bool.not_eq_true'] at e2
      refine ⟨n, ?_, e2.1, e2.2, fun j h1 h2 => ?_⟩
      · rw [e1, chk32_nat (by omega)]
      · have := e5 j (by omega) h2
        simpa [h1] using this
    · refine ⟨64 * b.inUse, ?_, by omega, bt_zero h (by omega), fun j h1 h2 => ?_⟩
      · rw [e1]; congr 1; push_cast; omega
      · have := e2 j (by omega) h2
        simpa [h1] using this

theorem scanDown_ok (ws : List Word) (neg : Bool) (P : Nat → Bool) :
    ∀ (k : Nat) (word : Word), k < ws.length → k + 1 < 2 ^ 25 →
      (∀ j, j < 64 → word.getLsbD j = P (64 * k + j)) →
      (∀ k', k' < k → ∀ j, j < 64 → (if neg then ~~~(wd ws k') else wd ws k').getLsbD j = P (64 * k' + j)) →
      ∃ r, scanDown ws neg k word = .ok r ∧
       ((∃ n : Nat, r = n ∧ P n = true ∧ n < 64 * (k + 1) ∧ ∀ j, n < j → j < 64 * (k + 1) → P j = false) ∨
        (r = -1 ∧ ∀ j, j < 64 * (k + 1) → P j = false)) := by
  have found : ∀ (k : Nat) (word : Word), word ≠ 0 → (∀ j, j < 64 → word.getLsbD j = P (64 * k + j)) →
      ∃ h : Nat, longNumberOfLeadingZeros word = 63 - h ∧ h < 64 ∧ P (64 * k + h) = true ∧
        ∀ j, 64 * k + h < j → j < 64 * (k + 1) → P j = false := by
    intro k word hz hw
    obtain ⟨l, h1, h2⟩ := (C15_numberOfLeadingZeros word).2 hz
    have hl : l < 64 := by
      rcases Nat.lt_or_ge l 64 with h' | h'
      · exact h'
      · have := h2.1; rw [BitVec.getLsbD_of_ge _ _ h'] at this; cases this
    refine ⟨l, h1, hl, by rw [← hw l hl]; exact h2.1, fun j h3 h4 => ?_⟩
    have := hw (j - 64 * k) (by omega)
    rw [show 64 * k + (j - 64 * k) = j by omega] at this
    rw [← this]
    exact h2.2 _ (by omega)
  have none : ∀ (k : Nat) (word : Word), word = 0 → (∀ j, j < 64 → word.getLsbD j = P (64 * k + j)) →
      ∀ j, 64 * k ≤ j → j < 64 * (k + 1) → P j = false := by
    intro k word hz hw j h1 h2
    have := hw (j - 64 * k) (by omega)
    rw [show 64 * k + (j - 64 * k) = j by omega, hz] at this
    rw [← this]; simp
  intro k
  induction k with
  | zero =>
    intro word hl hk hw hr
    unfold scanDown
    by_cases hz : word = 0
    · rw [if_neg (by simpa using hz)]
      exact ⟨-1, rfl, Or.inr ⟨rfl, fun j hj => none 0 word hz hw j (by omega) hj⟩⟩
    · rw [if_pos hz]
      obtain ⟨h, e1, e2, e3, e4⟩ := found 0 word hz hw
      rw [e1]
      rw [show 64 * 0 + h = h by omega] at e3 e4
      exact ⟨_, rfl, Or.inl ⟨h, by omega, e3, by omega, e4⟩⟩
  | succ k ih =>
    intro word hl hk hw hr
    unfold scanDown
    by_cases hz : word = 0
    · rw [if_neg (by simpa using hz)]
      simp only [Outcome.bind_eq, rd_ok (show k < ws.length by omega), Outcome.bind_ok]
      have hn := none (k + 1) word hz hw
      obtain ⟨r, e1, e2⟩ := ih (if neg then ~~~(wd ws k) else wd ws k) (by omega) (by omega)
        (fun j hj => hr k (by omega) j hj) (fun k' h1 => hr k' (by omega))
      refine ⟨r, e1, ?_⟩
      rcases e2 with ⟨n, a1, a2, a3, a4⟩ | ⟨a1, a2⟩
      · refine Or.inl ⟨n, a1, a2, by omega, fun j h1 h2 => ?_⟩
        rcases Nat.lt_or_ge j (64 * (k + 1)) with h | h
        · exact a4 j h1 h
        · exact hn j h h2
      · refine Or.inr ⟨a1, fun j h2 => ?_⟩
        rcases Nat.lt_or_ge j (64 * (k + 1)) with h | h
        · exact a2 j h
        · exact hn j h h2
    · rw [if_pos hz]
      obtain ⟨h, e1, e2, e3, e4⟩ := found (k + 1) word hz hw
      rw [show ((k : Int) + 2) * 64 = ((64 * (k + 2) : Nat) : Int) by push_cast; omega, chk32_nat (by omega)]
      simp only [Outcome.bind_eq, Outcome.bind_ok, e1]
      exact ⟨_, rfl, Or.inl ⟨64 * (k + 1) + h, by push_cast; omega, e3, by omega, e4⟩⟩

theorem previousBitAt_ok {b : BS} (h : Pre b) (neg : Bool) (f : Nat) (hf : f < 2 ^ 31 - 64) (hk : f / 64 < b.inUse) :
    ∃ r, previousBitAt .wrap b neg f = .ok r ∧ GreatestUpTo (fun i => neg ^^ bt b.words i) f r := by
  have hu := h.used
  obtain ⟨lm, l1, l2⟩ := lastMask_bits (f + 1)
  unfold previousBitAt
  simp only [Outcome.bind_eq, rd_ok (show f / 64 < b.words.length by omega), Outcome.bind_ok]
  rw [show ((f : Int) + 1) = ((f + 1 : Nat) : Int) by push_cast; rfl, chk32_nat (by omega)]
  simp only [Outcome.bind_ok, Int.toNat_natCast, l1]
  have hbits : ∀ k j, j < 64 → (if neg then ~~~(wd b.words k) else wd b.words k).getLsbD j = (neg ^^ bt b.words (64 * k + j)) := by
    intro k j hj
    unfold bt
    rw [show (64 * k + j) / 64 = k by omega, show (64 * k + j) % 64 = j by omega]
    cases neg with
    | true => simp [BitVec.getLsbD_not, hj]
    | false => simp
  obtain ⟨r, e1, e2⟩ := scanDown_ok b.words neg (fun i => decide (i ≤ f) && (neg ^^ bt b.words i)) (f / 64)
    ((if neg then ~~~(wd b.words (f / 64)) else wd b.words (f / 64)) &&& lm) (by omega) (by omega)
    (fun j hj => by
      rw [BitVec.getLsbD_and, hbits _ j hj, l2 j hj, Bool.and_comm]
      congr 1
      apply decide_eq_decide.mpr; omega)
    (fun k' h1 j hj => by
      have : 64 * k' + j ≤ f := by omega
      rw [hbits _ j hj]; simp [this])
  refine ⟨r, e1, ?_⟩
  rcases e2 with ⟨n, a1, a2, a3, a4⟩ | ⟨a1, a2⟩
  · simp only [Bool.and_eq_true, decide_eq_true_eq] at a2
    refine Or.inl ⟨n, a1, a2.1, a2.2, fun j h1 h2 => ?_⟩
    have := a4 j h1 (by omega)
    simpa [h2] using this
  · refine Or.inr ⟨a1, fun j h2 => ?_⟩
    have := a2 j (by omega)
    simpa [h2] using this

/-! ## intersects -/

theorem and_ne_zero (x y : Word) : x &&& y ≠ 0 ↔ ∃ j, j < 64 ∧ x.getLsbD j = true ∧ y.getLsbD j = true := by
  constructor
  · intro h
    obtain ⟨l, hl⟩ : ∃ l : Nat, l < 64 ∧ (x &&& y).getLsbD l = true := by
      apply Classical.byContradiction
      intro hc
      apply h
      apply BitVec.eq_of_getLsbD_eq
      intro j hj
      cases hb : (x &&& y).getLsbD j
      · simp
      · exact absurd ⟨j, hj, hb⟩ hc
    refine ⟨l, hl.1, ?_⟩
    have := hl.2
    rw [BitVec.getLsbD_and, Bool.and_eq_true] at this
    exact this
  · rintro ⟨j, _, h1, h2⟩ h0
    have := congrArg (fun z : Word => z.getLsbD j) h0
    simp [BitVec.getLsbD_and, h1, h2] at this

/-- Meeting point of the loop: a common bit in the words scanned gives true;
otherwise the scan ends normally or runs off one of the arrays. -/
theorem intersectsLoop_ok (a b : List Word) : ∀ (n k : Nat),
    ((∃ j, k ≤ j ∧ j < k + n ∧ j < a.length ∧ j < b.length ∧ wd a j &&& wd b j ≠ 0) → intersectsLoop a b k n = .ok true) ∧
    ((∀ j, k ≤ j → j < k + n → wd a j &&& wd b j = 0) → k ≤ a.length → k ≤ b.length →
      intersectsLoop a b k n = if k + n ≤ a.length ∧ k + n ≤ b.length then .ok false else .throw .outOfRange) := by
  intro n
  induction n with
  | zero =>
    intro k
    refine ⟨fun ⟨j, h1, h2, _⟩ => by omega, fun _ h1 h2 => ?_⟩
    rw [if_pos (by omega)]; rfl
  | succ n ih =>
    intro k
    constructor
    · rintro ⟨j, h1, h2, h3, h4, h5⟩
      simp only [intersectsLoop, Outcome.bind_eq, rd_ok (show k < a.length by omega), rd_ok (show k < b.length by omega),
        Outcome.bind_ok]
      by_cases hz : wd a k &&& wd b k = 0
      · rw [if_neg (by simpa using hz)]
        have : j ≠ k := by rintro rfl; exact h5 hz
        exact (ih (k + 1)).1 ⟨j, by omega, by omega, h3, h4, h5⟩
      · rw [if_pos hz]
    · intro hz h1 h2
      by_cases ha : k < a.length
      · by_cases hb : k < b.length
        · simp only [intersectsLoop, Outcome.bind_eq, rd_ok ha, rd_ok hb, Outcome.bind_ok]
          rw [if_neg (by simpa using hz k (by omega) (by omega)),
            (ih (k + 1)).2 (fun j g1 g2 => hz j (by omega) (by omega)) (by omega) (by omega)]
          rw [show k + 1 + n = k + (n + 1) by omega]
        · have e : rd b k = .throw .outOfRange := Arr.get_nat_ge (by omega)
          simp only [intersectsLoop, Outcome.bind_eq, rd_ok ha, e, Outcome.bind_ok, Outcome.bind_throw]
          rw [if_neg (by omega)]
      · have e : rd a k = .throw .outOfRange := Arr.get_nat_ge (by omega)
        simp only [intersectsLoop, Outcome.bind_eq, e, Outcome.bind_throw]
        rw [if_neg (by omega)]

/-! ## hashCode -/

theorem hashLoop_skip (ws : List Word) : ∀ (d k : Nat) (h : Word), k + d ≤ ws.length →
    (∀ j, k ≤ j → wd ws j = 0) → hashLoop .wrap ws (k + d) h = hashLoop .wrap ws k h := by
  intro d
  induction d with
  | zero => intros; rfl
  | succ d ih =>
    intro k h hl hz
    rw [show k + (d + 1) = (k + d) + 1 by omega]
    rw [hashLoop]
    simp only [Outcome.bind_eq, rd_ok (show k + d < ws.length by omega), Outcome.bind_ok, mul_wrap, hz (k + d) (by omega)]
    rw [← ih k h (by omega) hz]
    congr 1
    simp

theorem hashLoop_congr (a b : List Word) : ∀ (k : Nat) (h : Word), k ≤ a.length → k ≤ b.length →
    (∀ j, wd a j = wd b j) → hashLoop .wrap a k h = hashLoop .wrap b k h := by
  intro k
  induction k with
  | zero => intros; rfl
  | succ k ih =>
    intro h ha hb hw
    simp only [hashLoop, Outcome.bind_eq, rd_ok (show k < a.length by omega), rd_ok (show k < b.length by omega),
      Outcome.bind_ok, mul_wrap, hw k]
    exact ih _ (by omega) (by omega) hw

theorem hashLoop_ok (a : List Word) : ∀ (k : Nat) (h : Word), k ≤ a.length → ∃ r, hashLoop .wrap a k h = .ok r := by
  intro k
  induction k with
  | zero => intro h _; exact ⟨h, rfl⟩
  | succ k ih =>
    intro h ha
    simp only [hashLoop, Outcome.bind_eq, rd_ok (show k < a.length by omega), Outcome.bind_ok, mul_wrap]
    exact ih _ (by omega)

/-- Equal used-word counts follow from equal members. -/
theorem inUse_eq {a b : BS} (ha : WF a) (hb : WF b) (h : ∀ i, bt a.words i = bt b.words i) : a.inUse = b.inUse := by
  obtain ⟨r, r1, r2⟩ := equals_ok ha hb
  have hr := r2.mpr h
  subst hr
  unfold equals at r1
  by_cases he : a.inUse = b.inUse
  · exact he
  · rw [if_pos he] at r1; cases r1

theorem hashCode_congr {a b : BS} (ha : WF a) (hb : WF b) (h : ∀ i, bt a.words i = bt b.words i) :
    ∃ c, hashCode .wrap a = .ok c ∧ hashCode .wrap b = .ok c := by
  have hau := ha.used
  have hbu := hb.used
  have hin := inUse_eq ha hb h
  have e1 := hashLoop_skip a.words (a.words.length - a.inUse) a.inUse 1234#64 (by omega) ha.pre.zero
  have e2 := hashLoop_skip b.words (b.words.length - b.inUse) b.inUse 1234#64 (by omega) hb.pre.zero
  rw [show a.inUse + (a.words.length - a.inUse) = a.words.length by omega] at e1
  rw [show b.inUse + (b.words.length - b.inUse) = b.words.length by omega] at e2
  have e3 := hashLoop_congr a.words b.words a.inUse 1234#64 (by omega) (by omega) (wd_eq_of_bt h)
  obtain ⟨r, hr⟩ := hashLoop_ok a.words a.inUse 1234#64 (by omega)
  refine ⟨(r.sshiftRight 32 ^^^ r).setWidth 32, ?_, ?_⟩
  · unfold hashCode; rw [e1, hr]; rfl
  · unfold hashCode; rw [e2, ← hin, ← e3, hr]; rfl

/-! ## Arrays of words and bytes -/

theorem headLen_ok {n : Nat} (l : List (BitVec n)) : ∀ k, headLen l k ≤ k ∧
    (∀ j, headLen l k ≤ j → j < k → l.getD j 0 = 0) ∧ (headLen l k = 0 ∨ l.getD (headLen l k - 1) 0 ≠ 0) := by
  intro k
  induction k with
  | zero => exact ⟨Nat.le_refl _, fun j _ h => by omega, Or.inl rfl⟩
  | succ k ih =>
    unfold headLen
    by_cases hz : l.getD k 0 = 0
    · rw [if_neg (by simpa using hz)]
      refine ⟨by omega, fun j h1 h2 => ?_, ih.2.2⟩
      rcases Nat.lt_or_ge j k with h | h
      · exact ih.2.1 j h1 h
      · rw [show j = k by omega]; exact hz
    · rw [if_pos hz]
      exact ⟨Nat.le_refl _, fun j h1 h2 => by omega, Or.inr (by simpa using hz)⟩

theorem bitOf_words (ws : List Word) (i : Nat) : bitOf ws i = bt ws i := rfl

theorem valueOfLongs_ok (ls : List Word) (hl : ls.length ≤ 2 ^ 25) : Members (valueOfLongs ls) (bitOf ls) := by
  rw [members_iff]
  obtain ⟨h1, h2, h3⟩ := headLen_ok ls ls.length
  have hw : ∀ k, wd (copyOf ls (headLen ls ls.length)) k = wd ls k := by
    intro k
    rw [wd_copyOf]
    split
    · rfl
    · rcases Nat.lt_or_ge k ls.length with h | h
      · exact (h2 k (by omega) h).symm
      · rw [wd_ge h]
  unfold valueOfLongs mkWords
  refine ⟨⟨Nat.le_refl _, ?_, ?_, fun k hk => ?_, ?_⟩, fun i => ?_⟩
  · simp only [length_copyOf]; omega
  · simp only [length_copyOf]; omega
  · exact wd_ge hk
  · simp only [length_copyOf]
    rcases h3 with h3 | h3
    · exact Or.inl h3
    · right
      show wd (copyOf ls (headLen ls ls.length)) _ ≠ 0
      rw [hw]; exact h3
  · show bt (copyOf ls (headLen ls ls.length)) i = bt ls i
    unfold bt; rw [hw]

theorem toLongArray_ok {b : BS} (h : WF b) : (toLongArray b).length = b.inUse ∧
    ∀ i, bitOf (toLongArray b) i = bt b.words i := by
  refine ⟨length_copyOf _ _, fun i => ?_⟩
  show bt (copyOf b.words b.inUse) i = _
  unfold bt
  rw [wd_copyOf]
  split
  · rfl
  · rw [h.pre.zero _ (by omega)]

theorem bytesOf_length (w : Word) : (bytesOf w).length = 8 := by simp [bytesOf]

theorem bytesOf_getD (w : Word) (k : Nat) (hk : k < 8) : (bytesOf w).getD k 0 = (w >>> (8 * k)).setWidth 8 := by
  unfold bytesOf
  rw [List.getD_eq_getElem?_getD, List.getElem?_map, List.getElem?_range hk]; rfl

theorem bytesOf_bit (w : Word) (k j : Nat) (hk : k < 8) (hj : j < 8) :
    ((bytesOf w).getD k 0).getLsbD j = w.getLsbD (8 * k + j) := by
  rw [bytesOf_getD w k hk, BitVec.getLsbD_setWidth, BitVec.getLsbD_ushiftRight]; simp [hj]

theorem bytesLoop_ok (ws : List Word) : ∀ n, n ≤ ws.length → ∃ l, bytesLoop ws n = .ok l ∧ l.length = 8 * n ∧
    ∀ q j, q < 8 * n → j < 8 → (l.getD q 0).getLsbD j = bt ws (8 * q + j) := by
  intro n
  induction n with
  | zero => intro _; exact ⟨[], rfl, rfl, fun q j h => by omega⟩
  | succ n ih =>
    intro hl
    obtain ⟨l, h1, h2, h3⟩ := ih (by omega)
    refine ⟨l ++ bytesOf (wd ws n), ?_, ?_, fun q j hq hj => ?_⟩
    · simp only [bytesLoop, Outcome.bind_eq, h1, Outcome.bind_ok, rd_ok (show n < ws.length by omega)]
    · rw [List.length_append, h2, bytesOf_length]; omega
    · rw [List.getD_eq_getElem?_getD, List.getElem?_append]
      by_cases hc : q < l.length
      · rw [if_pos hc, ← List.getD_eq_getElem?_getD]
        exact h3 q j (by omega) hj
      · rw [if_neg hc, ← List.getD_eq_getElem?_getD, bytesOf_bit _ _ _ (by omega) hj]
        unfold bt
        rw [show (8 * q + j) / 64 = n by omega]
        congr 1; omega

theorem toByteArray_ok {b : BS} (h : WF b) : ∃ l, toByteArray b = .ok l ∧
    (∀ i, bitOf l i = bt b.words i) ∧ (l = [] ∨ l.getD (l.length - 1) 0 ≠ 0) ∧ l.length ≤ 8 * b.inUse := by
  unfold toByteArray
  by_cases h0 : b.inUse = 0
  · rw [if_pos h0]
    refine ⟨[], rfl, fun i => ?_, Or.inl rfl, by simp⟩
    rw [bt_zero h.pre (by omega)]; simp [bitOf]
  · rw [if_neg h0]
    have hu := h.used
    obtain ⟨l, h1, h2, h3⟩ := bytesLoop_ok b.words (b.inUse - 1) (by omega)
    simp only [Outcome.bind_eq, h1, Outcome.bind_ok, rd_ok (show b.inUse - 1 < b.words.length by omega)]
    obtain ⟨w, hw⟩ : ∃ w, wd b.words (b.inUse - 1) = w := ⟨_, rfl⟩
    rw [hw]
    have ht : w ≠ 0 := by
      rcases h.top with h' | h'
      · exact absurd h' h0
      · rw [← hw]; exact h'
    obtain ⟨g1, g2, g3⟩ := headLen_ok (bytesOf w) 8
    have g4 : headLen (bytesOf w) 8 ≠ 0 := by
      intro hz
      apply ht
      apply BitVec.eq_of_getLsbD_eq
      intro j hj
      have := g2 (j / 8) (by omega) (by omega)
      have hb := bytesOf_bit w (j / 8) (j % 8) (by omega) (by omega)
      rw [this, show 8 * (j / 8) + j % 8 = j by omega] at hb
      rw [← hb]; simp
    have hlen : (l ++ (bytesOf w).take (headLen (bytesOf w) 8)).length = 8 * (b.inUse - 1) + headLen (bytesOf w) 8 := by
      rw [List.length_append, h2, List.length_take, bytesOf_length]; omega
    refine ⟨_, rfl, fun i => ?_, Or.inr ?_, by omega⟩
    · unfold bitOf
      have hj : i % 8 < 8 := Nat.mod_lt _ (by omega)
      rw [List.getD_eq_getElem?_getD, List.getElem?_append]
      by_cases hc : i / 8 < l.length
      · rw [if_pos hc, ← List.getD_eq_getElem?_getD, h3 _ _ (by omega) hj]
        congr 1; omega
      · rw [if_neg hc, List.getElem?_take]
        by_cases hd : i / 8 - l.length < headLen (bytesOf w) 8
        · rw [if_pos hd, ← List.getD_eq_getElem?_getD, bytesOf_bit _ _ _ (by omega) hj]
          unfold bt
          rw [show i / 64 = b.inUse - 1 by omega, hw]
          congr 1; omega
        · rw [if_neg hd]
          by_cases he : i / 64 = b.inUse - 1
          · unfold bt
            rw [he, hw]
            have := bytesOf_bit w (i / 8 - l.length) (i % 8) (by omega) hj
            rw [g2 _ (by omega) (by omega)] at this
            rw [show i % 64 = 8 * (i / 8 - l.length) + i % 8 by omega, ← this]
            simp
          · rw [bt_zero h.pre (by omega)]; simp
    · rw [hlen, List.getD_eq_getElem?_getD, List.getElem?_append, if_neg (by omega), h2, List.getElem?_take,
        if_pos (by omega), ← List.getD_eq_getElem?_getD]
      rw [show 8 * (b.inUse - 1) + headLen (bytesOf w) 8 - 1 - 8 * (b.inUse - 1) = headLen (bytesOf w) 8 - 1 by omega]
      rcases g3 with g3 | g3
      · exact absurd g3 g4
      · exact g3

theorem putByte_bit (w : Word) (k : Nat) (v : Byte) (hk : k < 8) (j : Nat) (hj : j < 64) :
    (putByte w k v).getLsbD j = if j / 8 = k then v.getLsbD (j % 8) else w.getLsbD j := by
  unfold putByte
  rw [BitVec.getLsbD_or, BitVec.getLsbD_and, BitVec.getLsbD_not, BitVec.getLsbD_shiftLeft, BitVec.getLsbD_shiftLeft,
    BitVec.getLsbD_setWidth]
  have hff : ∀ x, x < 64 → (0xff#64).getLsbD x = decide (x < 8) := by decide
  by_cases h : j / 8 = k
  · rw [if_pos h]
    have a1 : ¬ j < 8 * k := by omega
    have a2 : j - 8 * k < 64 := by omega
    have a3 : j - 8 * k < 8 := by omega
    rw [hff _ a2, show j % 8 = j - 8 * k by omega]
    simp [hj, a1, a2, a3]
  · rw [if_neg h]
    by_cases a1 : j < 8 * k
    · simp [hj, a1]
    · have a2 : j - 8 * k < 64 := by omega
      have a3 : ¬ j - 8 * k < 8 := by omega
      rw [hff _ a2, BitVec.getLsbD_of_ge v _ (by omega : 8 ≤ j - 8 * k)]
      simp [hj, a1, a2, a3]

theorem storeBytes_ok (bs : List Byte) : ∀ (n i : Nat) (ws : List Word), i + n ≤ bs.length →
    i + n ≤ 8 * ws.length → (∀ x, bt ws x = if x / 8 < i then bitOf bs x else false) →
    ∃ ws', storeBytes bs i n ws = .ok ws' ∧ ws'.length = ws.length ∧
      ∀ x, bt ws' x = if x / 8 < i + n then bitOf bs x else false := by
  intro n
  induction n with
  | zero => intro i ws _ _ h; exact ⟨ws, rfl, rfl, h⟩
  | succ n ih =>
    intro i ws h1 h2 h3
    obtain ⟨w1, a1, a2, a3⟩ := upd_ok (putByte · (i % 8) (bs.getD i 0)) (show i / 8 < ws.length by omega)
    have hg : Arr.get bs (i : Int) = .ok (bs.getD i 0) := by
      rw [Arr.get_nat (show i < bs.length by omega)]
      have hlt : i < bs.length := by omega
      simp [hlt]
    have hinv : ∀ x, bt w1 x = if x / 8 < i + 1 then bitOf bs x else false := by
      intro x
      have hj : x % 64 < 64 := Nat.mod_lt _ (by omega)
      have h3x := h3 x
      unfold bt at h3x ⊢
      rw [a3]
      by_cases hx : x / 64 = i / 8
      · rw [if_pos hx, putByte_bit _ _ _ (Nat.mod_lt _ (by omega)) _ hj]
        by_cases hb : x % 64 / 8 = i % 8
        · rw [if_pos hb, if_pos (by omega)]
          unfold bitOf
          rw [show x / 8 = i by omega, show x % 64 % 8 = x % 8 by omega]
        · rw [if_neg hb, h3x]
          by_cases hc : x / 8 < i
          · rw [if_pos hc, if_pos (by omega)]
          · rw [if_neg hc, if_neg (by omega)]
      · rw [if_neg hx, h3x]
        by_cases hc : x / 8 < i
        · rw [if_pos hc, if_pos (by omega)]
        · rw [if_neg hc, if_neg (by omega)]
    obtain ⟨w2, b1, b2, b3⟩ := ih (i + 1) w1 (by omega) (by omega) hinv
    refine ⟨w2, ?_, by omega, fun x => by rw [b3, show i + 1 + n = i + (n + 1) by omega]⟩
    simp only [storeBytes, Outcome.bind_eq, hg, Outcome.bind_ok, a1, b1]

theorem valueOfBytes_ok (bs : List Byte) (hl : bs.length ≤ 2 ^ 28) :
    ∃ b, valueOfBytes bs = .ok b ∧ Members b (bitOf bs) := by
  obtain ⟨h1, h2, h3⟩ := headLen_ok bs bs.length
  obtain ⟨n, hn⟩ : ∃ n, headLen bs bs.length = n := ⟨_, rfl⟩
  rw [hn] at h1 h2 h3
  obtain ⟨ws, a1, a2, a3⟩ := storeBytes_ok bs n 0 (List.replicate ((n + 7) / 8) 0) (by omega)
    (by rw [List.length_replicate]; omega) (fun x => by rw [if_neg (by omega), bt_replicate])
  rw [List.length_replicate] at a2
  have hb : ∀ x, bt ws x = bitOf bs x := by
    intro x
    rw [a3]
    split
    · rfl
    · unfold bitOf
      rcases Nat.lt_or_ge (x / 8) bs.length with h | h
      · rw [h2 _ (by omega) h]; simp
      · have : bs.getD (x / 8) 0 = 0 := by simp [h]
        rw [this]; simp
  refine ⟨mkWords ws, by simp only [valueOfBytes, hn, Outcome.bind_eq, a1, Outcome.bind_ok], ?_⟩
  rw [members_iff]
  refine ⟨⟨Nat.le_refl _, ?_, ?_, fun k hk => wd_ge hk, ?_⟩, hb⟩
  · show ws.length ≤ _; omega
  · show ws.length ≤ _; omega
  · rcases h3 with h3 | h3
    · left; show ws.length = 0; omega
    · by_cases hz : n = 0
      · left; show ws.length = 0; omega
      · right
        show wd ws (ws.length - 1) ≠ 0
        intro h0
        apply h3
        apply BitVec.eq_of_getLsbD_eq
        intro j hj
        have := hb (8 * (n - 1) + j)
        unfold bitOf at this
        rw [show (8 * (n - 1) + j) / 8 = n - 1 by omega, show (8 * (n - 1) + j) % 8 = j by omega] at this
        rw [← this]
        unfold bt
        rw [show (8 * (n - 1) + j) / 64 = ws.length - 1 by omega, h0]; simp

/-! ## toString -/

theorem textLoop_ok {b : BS} (h : Pre b) (hmax : bt b.words INT_MAX.toNat = false) :
    ∀ (fuel i : Nat) (acc : List Byte), bt b.words i = true → 64 * b.inUse - i < fuel →
      ∃ l : List Nat, l.Pairwise (· < ·) ∧ (∀ j, j ∈ l ↔ bt b.words j = true ∧ i < j) ∧
        textLoop .wrap b fuel i acc = .ok (acc ++ NumText.digits 10 64 i ++ renderTail l) := by
  have hlt : ∀ i, bt b.words i = true → i < 64 * b.inUse := by
    intro i hi
    rcases Nat.lt_or_ge i (64 * b.inUse) with h' | h'
    · exact h'
    · rw [bt_zero h (by omega)] at hi; cases hi
  intro fuel
  induction fuel with
  | zero => intro i acc _ h; omega
  | succ n ih =>
    intro i acc hi hf
    have hi64 := hlt i hi
    have hcap := h.cap
    have hne : (i : Int) ≠ INT_MAX := by
      intro he
      rw [← he, Int.toNat_natCast] at hmax
      rw [hmax] at hi; cases hi
    unfold INT_MAX at hne
    unfold textLoop
    rw [if_neg (by omega), show (i : Int) + 1 = ((i + 1 : Nat) : Int) by push_cast; rfl]
    simp only [Outcome.bind_eq, Int.toNat_natCast, chk32_nat (show i + 1 < 2 ^ 31 by omega), Outcome.bind_ok, nextSetBit,
      if_neg (show ¬ ((i + 1 : Nat) : Int) < 0 by omega)]
    obtain ⟨r, r1, r2⟩ := nextSetBitAt_ok h (i + 1)
    rw [r1, Outcome.bind_ok]
    rcases r2 with ⟨m, e1, e2, e3, e4⟩ | ⟨e1, e2⟩
    · subst e1
      rw [if_neg (by omega)]
      have := hlt m e3
      obtain ⟨l, l1, l2, l3⟩ := ih m (acc ++ NumText.digits 10 64 i ++ txt ", ") e3 (by omega)
      refine ⟨m :: l, ?_, fun j => ?_, ?_⟩
      · refine List.pairwise_cons.mpr ⟨fun j hj => ((l2 j).mp hj).2, l1⟩
      · rw [List.mem_cons, l2]
        constructor
        · rintro (rfl | ⟨h1, h2⟩)
          · exact ⟨e3, by omega⟩
          · exact ⟨h1, by omega⟩
        · rintro ⟨h1, h2⟩
          by_cases hjm : j = m
          · exact Or.inl hjm
          · right
            refine ⟨h1, ?_⟩
            rcases Nat.lt_or_ge m j with h' | h'
            · exact h'
            · rw [e4 j (by omega) (by omega)] at h1; cases h1
      · rw [l3]
        simp only [renderTail, List.append_assoc]
    · subst e1
      rw [if_pos rfl]
      refine ⟨[], List.Pairwise.nil, fun j => ?_, by simp [renderTail]⟩
      constructor
      · intro hj; cases hj
      · rintro ⟨h1, h2⟩
        rw [e2 j (by omega)] at h1; cases h1

theorem toText_ok {b : BS} (h : WF b) (hmax : bt b.words INT_MAX.toNat = false)
    (hcard : 6 * ((below b.words (64 * b.inUse)).length : Int) + 2 ≤ INT_MAX) :
    toText .wrap b = .ok (render (below b.words (64 * b.inUse))) := by
  have hcap : ∃ c, textCapacity .wrap b = .ok c := by
    unfold textCapacity
    by_cases h1 : 128 < b.inUse
    · rw [if_pos h1, cardinality_ok h, if_pos (by unfold INT_MAX at hcard ⊢; omega)]
      refine ⟨6 * ((below b.words (64 * b.inUse)).length : Int) + 2, ?_⟩
      simp only [Outcome.bind_eq, Outcome.bind_ok]
      exact chk32_ok (by unfold INT_MIN; omega) hcard
    · rw [if_neg h1]
      rw [show (b.inUse : Int) * 64 = ((b.inUse * 64 : Nat) : Int) by push_cast; rfl, chk32_nat (by omega)]
      refine ⟨6 * ((b.inUse * 64 : Nat) : Int) + 2, ?_⟩
      simp only [Outcome.bind_eq, Outcome.bind_ok]
      exact chk32_ok (by unfold INT_MIN; omega) (by unfold INT_MAX; omega)
  obtain ⟨c, hc⟩ := hcap
  have hL := below_lists h.pre
  unfold toText
  simp only [Outcome.bind_eq, hc, Outcome.bind_ok, nextSetBit, if_neg (show ¬ (0 : Int) < 0 by omega), Int.toNat_zero]
  obtain ⟨r, r1, r2⟩ := nextSetBitAt_ok h.pre 0
  rw [r1, Outcome.bind_ok]
  rcases r2 with ⟨m, e1, e2, e3, e4⟩ | ⟨e1, e2⟩
  · subst e1
    obtain ⟨l, l1, l2, l3⟩ := textLoop_ok h.pre hmax (64 * b.inUse + 1) m (txt "{") e3 (by omega)
    have : below b.words (64 * b.inUse) = m :: l := by
      refine lists_unique hL ⟨List.pairwise_cons.mpr ⟨fun j hj => ((l2 j).mp hj).2, l1⟩, fun j => ?_⟩
      rw [List.mem_cons, l2]
      constructor
      · rintro (rfl | ⟨h1, h2⟩)
        · exact e3
        · exact h1
      · intro h1
        by_cases hjm : j = m
        · exact Or.inl hjm
        · right
          refine ⟨h1, ?_⟩
          rcases Nat.lt_or_ge m j with h' | h'
          · exact h'
          · rw [e4 j (by omega) (by omega)] at h1; cases h1
    rw [this, l3, Outcome.bind_ok]
    simp only [render, List.append_assoc]
  · subst e1
    have : below b.words (64 * b.inUse) = [] := by
      refine lists_unique hL ⟨List.Pairwise.nil, fun j => ?_⟩
      rw [e2 j (by omega)]; simp
    rw [this]
    unfold textLoop
    rw [if_pos rfl]; rfl

/-- With the member `INT_MAX` the loop computes `INT_MAX + 1`. -/
theorem textLoop_max {b : BS} (h : Pre b) (hmax : bt b.words INT_MAX.toNat = true) :
    ∀ (fuel i : Nat) (acc : List Byte), bt b.words i = true → 64 * b.inUse - i < fuel →
      textLoop .wrap b fuel i acc = .ub := by
  have hlt : ∀ i, bt b.words i = true → i < 64 * b.inUse := by
    intro i hi
    rcases Nat.lt_or_ge i (64 * b.inUse) with h' | h'
    · exact h'
    · rw [bt_zero h (by omega)] at hi; cases hi
  have hmt : INT_MAX.toNat = 2147483647 := rfl
  intro fuel
  induction fuel with
  | zero => intro i acc _ h; omega
  | succ n ih =>
    intro i acc hi hf
    have hi64 := hlt i hi
    have hcap := h.cap
    unfold textLoop
    rw [if_neg (by omega), show (i : Int) + 1 = ((i + 1 : Nat) : Int) by push_cast; rfl]
    by_cases he : i = 2147483647
    · subst he
      rfl
    · simp only [Outcome.bind_eq, Int.toNat_natCast, chk32_nat (show i + 1 < 2 ^ 31 by omega), Outcome.bind_ok, nextSetBit,
        if_neg (show ¬ ((i + 1 : Nat) : Int) < 0 by omega)]
      obtain ⟨r, r1, r2⟩ := nextSetBitAt_ok h (i + 1)
      rw [r1, Outcome.bind_ok]
      rcases r2 with ⟨m, e1, e2, e3, e4⟩ | ⟨e1, e2⟩
      · subst e1
        rw [if_neg (by omega)]
        have := hlt m e3
        exact ih m _ e3 (by omega)
      · rw [e2 _ (by omega)] at hmax; cases hmax

theorem textCapacity_total {b : BS} (h : WF b) :
    textCapacity .wrap b = .ub ∨ ∃ c, textCapacity .wrap b = .ok c := by
  unfold textCapacity
  by_cases h1 : 128 < b.inUse
  · rw [if_pos h1, cardinality_ok h]
    split
    · simp only [Outcome.bind_eq, Outcome.bind_ok]
      unfold chk32
      split
      · exact .inr ⟨_, rfl⟩
      · exact .inl rfl
    · exact .inl rfl
  · rw [if_neg h1]
    rw [show (b.inUse : Int) * 64 = ((b.inUse * 64 : Nat) : Int) by push_cast; rfl, chk32_nat (by omega)]
    simp only [Outcome.bind_eq, Outcome.bind_ok]
    exact .inr ⟨_, chk32_ok (by unfold INT_MIN; omega) (by unfold INT_MAX; omega)⟩

theorem toText_max {b : BS} (h : WF b) (hmax : bt b.words INT_MAX.toNat = true) : toText .wrap b = .ub := by
  rcases textCapacity_total h with hc | ⟨c, hc⟩
  · unfold toText
    rw [hc]; rfl
  · unfold toText
    simp only [Outcome.bind_eq, hc, Outcome.bind_ok, nextSetBit, if_neg (show ¬ (0 : Int) < 0 by omega), Int.toNat_zero]
    obtain ⟨r, r1, r2⟩ := nextSetBitAt_ok h.pre 0
    rw [r1, Outcome.bind_ok]
    rcases r2 with ⟨m, e1, e2, e3, e4⟩ | ⟨e1, e2⟩
    · subst e1
      rw [textLoop_max h.pre hmax (64 * b.inUse + 1) m (txt "{") e3 (by omega)]
      rfl
    · rw [e2 _ (by omega)] at hmax; cases hmax

theorem toText_many {b : BS} (h : WF b) (hcard : INT_MAX < 6 * ((below b.words (64 * b.inUse)).length : Int) + 2) :
    toText .wrap b = .ub := by
  have hle : (below b.words (64 * b.inUse)).length ≤ 64 * b.inUse := by
    unfold below
    exact Nat.le_trans (List.length_filter_le _ _) (by rw [List.length_range]; omega)
  have h1 : 128 < b.inUse := by unfold INT_MAX at hcard; omega
  have hc : textCapacity .wrap b = .ub := by
    unfold textCapacity
    rw [if_pos h1, cardinality_ok h]
    split
    · simp only [Outcome.bind_eq, Outcome.bind_ok]
      unfold chk32
      rw [if_neg (by omega)]
    · rfl
  unfold toText
  rw [hc]; rfl

/-! ## The cached text -/

theorem life_dangling (us : List Use) :
    (us.foldlM useStep Backup.dangling >>= cleanUp) = (Outcome.ub : Outcome Backup) := by
  cases us with
  | nil => rfl
  | cons u us => cases u <;> rfl

theorem life_owned (us : List Use) :
    (us.foldlM useStep Backup.owned >>= cleanUp) = if Use.assign ∈ us then (Outcome.ub : Outcome Backup) else .ok .dangling := by
  induction us with
  | nil => rfl
  | cons u us ih =>
    cases u with
    | toString =>
      show (us.foldlM useStep Backup.owned >>= cleanUp) = _
      rw [ih]; simp
    | assign =>
      show (us.foldlM useStep Backup.dangling >>= cleanUp) = _
      rw [life_dangling]; simp

end Verif.BitSet
