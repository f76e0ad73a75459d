import Verif.JString.Lemmas
/-! # Property theorems C32-C37, C58, C59 (java.lang.String) -/
namespace Verif.JString

/-! ## C32 search -/

/-- `indexOf(p)` for a non-empty `p`: the least occurrence, or -1. The full
claim fails for the empty pattern (`C32_indexOf_empty_wrong`). -/
theorem C32_indexOf_partial (s p : Str) (hp : p ≠ []) : IsFirst s p 0 (indexOf s p) := by
  unfold indexOf
  by_cases h : s.length = 0
  · rw [if_pos (Or.inl h)]
    right
    refine ⟨rfl, ?_⟩
    intro j _ hocc
    have := hocc.le
    have := List.length_pos_iff.mpr hp
    omega
  · rw [if_neg (fun h' => h'.elim h hp)]
    exact posOrNeg_find s p 0

theorem C32_indexOf_empty_wrong : indexOf (txt "abc") [] = -1 ∧ OccursAt (txt "abc") [] 0 :=
  ⟨by decide, ⟨[], txt "abc", by decide, rfl⟩⟩

/-- `indexOf(p, from)` for non-empty `p`, every `from`. -/
theorem C32_indexOfFrom_partial (s p : Str) (hp : p ≠ []) (frm : Int) :
    ∃ r, indexOfFrom s p frm = .ok r ∧ IsFirst s p frm.toNat r := by
  have hpl := List.length_pos_iff.mpr hp
  unfold indexOfFrom
  by_cases h0 : frm < 0
  · rw [if_pos h0]
    have e : frm.toNat = 0 := by omega
    rw [e]
    exact ⟨_, rfl, C32_indexOf_partial s p hp⟩
  · rw [if_neg h0]
    by_cases h1 : s.length = 0
    · rw [if_pos (Or.inl h1)]
      refine ⟨_, rfl, Or.inr ⟨rfl, ?_⟩⟩
      intro j _ hocc; have := hocc.le; omega
    · rw [if_neg (fun h' => h'.elim h1 hp)]
      by_cases h2 : pastEnd s frm = true ∨ s.length < p.length
      · rw [if_pos h2]
        refine ⟨_, rfl, Or.inr ⟨rfl, ?_⟩⟩
        intro j hj hocc
        have := hocc.le
        simp [pastEnd] at h2
        omega
      · rw [if_neg h2]
        have hle : frm.toNat < s.length := by
          have hp2 : ¬ (pastEnd s frm = true) := fun h => h2 (Or.inl h)
          unfold pastEnd at hp2
          simp only [ne_eq, h1, not_false_eq_true, decide_true, Bool.true_and, decide_eq_true_eq] at hp2
          omega
        have hsub : substr s frm.toNat s.length = .ok (s.drop frm.toNat) := by
          unfold substr; rw [if_pos (by omega), List.take_of_length_le (by simp)]
        simp only [hsub, Outcome.bind_eq, Outcome.bind_ok]
        have key := posOrNeg_find (s.drop frm.toNat) p 0
        cases hf : find (s.drop frm.toNat) p 0 with
        | none =>
          refine ⟨-1, rfl, Or.inr ⟨rfl, ?_⟩⟩
          intro j hj hocc
          apply find_none hf (j - frm.toNat) (by omega)
          rw [occursAt_drop _ _ _ _ (by omega)]
          have e : frm.toNat + (j - frm.toNat) = j := by omega
          rwa [e]
        | some i =>
          obtain ⟨_, h4, h5⟩ := find_some hf
          rw [occursAt_drop _ _ _ _ (by omega)] at h4
          refine ⟨(i : Int) + frm, rfl, Or.inl ⟨frm.toNat + i, by omega, by omega, h4, ?_⟩⟩
          intro j hj hji hocc
          apply h5 (j - frm.toNat) (by omega) (by omega)
          rw [occursAt_drop _ _ _ _ (by omega)]
          have e : frm.toNat + (j - frm.toNat) = j := by omega
          rwa [e]

/-- `contains(String)`: true exactly when the argument occurs. -/
theorem C32_contains (s p : Str) : contains s p = true ↔ ∃ i, OccursAt s p i := by
  unfold contains; rw [find_isSome_iff]; simp

/-- `contains(CharSequence)` agrees on NUL-free arguments; with a NUL only the
part before it is looked for. -/
theorem C32_containsSeq_partial (s p : Str) (h : 0 ∉ p) : containsSeq s p = true ↔ ∃ i, OccursAt s p i := by
  unfold containsSeq; rw [cstr_eq_self h, find_isSome_iff]; simp
theorem C32_containsSeq_wrong : containsSeq (txt "ab") [97, 0, 99] = true ∧ ¬ ∃ i, OccursAt (txt "ab") [97, 0, 99] i := by
  refine ⟨by decide, ?_⟩
  rintro ⟨i, h⟩
  have := h.le
  simp [txt] at this

theorem C32_startsWith (s p : Str) : ∃ b, startsWith s p = .ok b ∧ (b = true ↔ OccursAt s p 0) := by
  unfold startsWith
  by_cases h : s.length < p.length
  · rw [if_pos h]
    refine ⟨false, rfl, ?_⟩
    simp; intro hocc; have := hocc.le; omega
  · rw [if_neg h]
    obtain ⟨b, hb, hq⟩ := allM_spec (fun i => do
      let a ← Str.at s i
      let b ← Str.at p i
      .ok (a == b)) (fun i => ∀ hi : i < p.length, p[i] = s[i]'(by omega)) p.length 0 (by
        intro i _ hi
        rw [Str.at_getElem (by omega : i < s.length), Str.at_getElem (by omega : i < p.length)]
        refine ⟨_, rfl, ?_⟩
        simp only [beq_iff_eq]
        exact ⟨fun h _ => h.symm, fun h => (h (by omega)).symm⟩)
    refine ⟨b, hb, hq.trans ?_⟩
    rw [take_len_eq (by omega)]
    simp only [Nat.zero_add]
    exact ⟨fun h k hk => h k (by omega) (by omega) hk, fun h k _ _ hk => h k hk⟩

theorem C32_startsWithAt (s p : Str) (off : Int) :
    ∃ b, startsWithAt s p off = .ok b ∧ (b = true ↔ 0 ≤ off ∧ OccursAt s p off.toNat) := by
  unfold startsWithAt
  by_cases h0 : off < 0
  · rw [if_pos h0]; exact ⟨false, rfl, by simp; omega⟩
  · rw [if_neg h0]
    by_cases h : s.length < p.length ∨ off > (s.length : Int) - p.length
    · rw [if_pos h]
      refine ⟨false, rfl, ?_⟩
      simp; intro _ hocc; have := hocc.le; omega
    · rw [if_neg h]
      obtain ⟨b, hb, hq⟩ := allM_spec (fun i => do
        let a ← Str.at p i
        let b ← Str.at s (off.toNat + i)
        .ok (a == b)) (fun i => ∀ hi : i < p.length, p[i] = s[off.toNat + i]'(by omega)) p.length 0 (by
          intro i _ hi
          rw [Str.at_getElem (by omega : i < p.length), Str.at_getElem (by omega : off.toNat + i < s.length)]
          refine ⟨_, rfl, ?_⟩
          simp only [beq_iff_eq]
          exact ⟨fun h _ => h, fun h => (h (by omega))⟩)
      refine ⟨b, hb, hq.trans ?_⟩
      rw [take_len_eq (by omega)]
      exact ⟨fun h => ⟨by omega, fun k hk => h k (by omega) (by omega) hk⟩, fun h k _ _ hk => h.2 k hk⟩

theorem C32_endsWith (s p : Str) :
    ∃ b, endsWith s p = .ok b ∧ (b = true ↔ ∃ a, s = a ++ p) := by
  have hsp : (∃ a, s = a ++ p) ↔ p.length ≤ s.length ∧ OccursAt s p (s.length - p.length) := by
    constructor
    · rintro ⟨a, rfl⟩; exact ⟨by simp, a, [], by simp, by simp⟩
    · rintro ⟨hl, a, b, h1, h2⟩
      have hlen := congrArg List.length h1
      simp at hlen
      have : b = [] := List.length_eq_zero_iff.mp (by omega)
      subst this
      exact ⟨a, by simpa using h1⟩
  unfold endsWith
  by_cases h : s.length < p.length
  · rw [if_pos h]
    refine ⟨false, rfl, ?_⟩
    simp; rintro x rfl; simp at h; omega
  · rw [if_neg h]
    obtain ⟨b, hb, hq⟩ := allM_spec (fun i => do
      let a ← Str.at p (p.length - 1 - i)
      let b ← Str.at s (s.length - p.length + (p.length - 1 - i))
      .ok (a == b)) (fun i => ∀ hi : i < p.length, p[p.length - 1 - i]'(by omega) =
        s[s.length - p.length + (p.length - 1 - i)]'(by omega)) p.length 0 (by
        intro i _ hi
        rw [Str.at_getElem (by omega : p.length - 1 - i < p.length),
          Str.at_getElem (by omega : s.length - p.length + (p.length - 1 - i) < s.length)]
        refine ⟨_, rfl, ?_⟩
        simp only [beq_iff_eq]
        exact ⟨fun h _ => h, fun h => (h (by omega))⟩)
    refine ⟨b, hb, hq.trans ?_⟩
    rw [hsp, take_len_eq (by omega)]
    constructor
    · intro h
      refine ⟨by omega, ?_⟩
      intro k hk
      have := h (p.length - 1 - k) (by omega) (by omega) (by omega)
      have e : p.length - 1 - (p.length - 1 - k) = k := by omega
      simpa only [e] using this
    · intro h k _ _ hk
      exact h.2 (p.length - 1 - k) (by omega)

/-- `lastIndexOf(p)`: the greatest occurrence, or -1; every `p`. -/
theorem C32_lastIndexOf (s p : Str) : IsLast s p s.length (lastIndexOf s p) := by
  unfold lastIndexOf
  have back : ∀ j, OccursAt s p j → OccursAt s.reverse p.reverse (s.length - p.length - j) :=
    fun j h => (occursAt_reverse s p j h.le).mpr h
  cases hf : find s.reverse p.reverse 0 with
  | none =>
    right
    refine ⟨rfl, ?_⟩
    intro j _ hocc
    exact find_none hf _ (by omega) (back j hocc)
  | some f =>
    left
    obtain ⟨_, h2, h3⟩ := find_some hf
    have hle := h2.le
    simp at hle
    have e : f = s.length - p.length - (s.length - (f + p.length)) := by omega
    refine ⟨s.length - (f + p.length), by show (s.length : Int) - (f + p.length) = _; omega, by omega, ?_, ?_⟩
    · rw [← occursAt_reverse s p _ (by omega), ← e]; exact h2
    · intro j hj hjl hocc
      have := hocc.le
      exact h3 _ (by omega) (by omega) (back j hocc)

/-- `lastIndexOf(p, from)` when the pattern placed at `from` still fits:
greatest occurrence `≤ from`. Otherwise the call wrongly gives up
(`C32_lastIndexOfFrom_wrong`). -/
theorem C32_lastIndexOfFrom_partial (s p : Str) (frm : Nat) (hz : 0 ∉ p)
    (hfit : frm + p.length ≤ s.length ∨ s.length ≤ frm ∧ s ≠ []) :
    ∃ r, lastIndexOfFrom s p frm = .ok r ∧ IsLast s p frm r := by
  unfold lastIndexOfFrom
  rw [if_neg (by omega)]
  by_cases hpe : pastEnd s frm = true
  · rw [if_pos hpe]
    simp [pastEnd] at hpe
    refine ⟨_, rfl, ?_⟩
    rcases C32_lastIndexOf s p with ⟨i, h1, h2, h3, h4⟩ | ⟨h1, h2⟩
    · left
      refine ⟨i, h1, by omega, h3, ?_⟩
      intro j hj _ hocc
      exact h4 j hj (by have := hocc.le; omega) hocc
    · right
      refine ⟨h1, ?_⟩
      intro j _ hocc
      exact h2 j (by have := hocc.le; omega) hocc
  · rw [if_neg hpe]
    have hfit' : frm + p.length ≤ s.length := by
      rcases hfit with h | ⟨h1, h2⟩
      · exact h
      · exfalso; apply hpe
        have := List.length_pos_iff.mpr h2
        simp [pastEnd, h2]; omega
    rw [if_neg (by omega)]
    have eidx : ((s.length : Int) - (frm : Int) - (p.length : Int)).toNat = s.length - (frm + p.length) := by omega
    have hsub : substr s.reverse ((s.length : Int) - (frm : Int) - (p.length : Int)).toNat s.length =
        .ok (s.take (frm + p.length)).reverse := by
      rw [eidx]
      unfold substr
      rw [if_pos (by simp), List.take_of_length_le (by simp)]
      rw [List.drop_reverse]
      congr 2
      rw [show s.length - (s.length - (frm + p.length)) = frm + p.length by omega]
    simp only [hsub, Outcome.bind_eq, Outcome.bind_ok, cstr_eq_self hz]
    have hlen : (s.take (frm + p.length)).length = frm + p.length := by simp; omega
    have hocc : ∀ j, j ≤ frm → (OccursAt (s.take (frm + p.length)) p j ↔ OccursAt s p j) := by
      intro j hj
      rw [take_len_eq (by omega), take_len_eq (by omega)]
      simp only [List.getElem_take]
    cases hf : find (s.take (frm + p.length)).reverse p.reverse 0 with
    | none =>
      refine ⟨-1, rfl, Or.inr ⟨rfl, ?_⟩⟩
      intro j hj h
      have h' := (hocc j hj).mpr h
      exact find_none hf _ (by omega) ((occursAt_reverse _ p j h'.le).mpr h')
    | some f =>
      obtain ⟨_, h2, h3⟩ := find_some hf
      have hle := h2.le
      simp only [List.length_reverse, hlen] at hle
      refine ⟨(frm : Int) - f, rfl, Or.inl ⟨frm - f, by omega, by omega, ?_, ?_⟩⟩
      · rw [← hocc _ (by omega), ← occursAt_reverse _ p _ (by omega), hlen]
        have e : frm + p.length - p.length - (frm - f) = f := by omega
        rw [e]; exact h2
      · intro j hj hjl h
        have h' := (hocc j hjl).mpr h
        apply h3 _ (by omega) _ ((occursAt_reverse _ p j h'.le).mpr h')
        rw [hlen]; omega

theorem C32_lastIndexOfFrom_wrong : lastIndexOfFrom (txt "abcabc") (txt "abc") 4 = .ok (-1) ∧
    OccursAt (txt "abcabc") (txt "abc") 3 :=
  ⟨by decide, ⟨txt "abc", [], by decide, by decide⟩⟩

/-- `indexOf(c)` for a character other than NUL. -/
theorem C32_indexOfChar_partial (s : Str) (c : BitVec 32) (hc : c.setWidth 8 ≠ (0 : Byte)) :
    IsFirst s [c.setWidth 8] 0 (indexOfChar s c) := by
  unfold indexOfChar
  simp only [hc, if_false]
  exact posOrNeg_find _ _ 0

theorem C32_indexOfChar_nul_wrong : indexOfChar (txt "abc") 0 = 0 ∧ (txt "abc")[0]? = some 97 := by decide

/-- `indexOf(c, from)`, non-negative `from`, any character. -/
theorem C32_indexOfCharFrom (s : Str) (c : BitVec 32) (frm : Nat) :
    ∃ r, indexOfCharFrom s c frm = .ok r ∧ IsFirst s [c.setWidth 8] frm r := by
  unfold indexOfCharFrom
  by_cases h : (frm : Int) > s.length
  · rw [if_pos h]
    refine ⟨-1, rfl, Or.inr ⟨rfl, ?_⟩⟩
    intro j hj hocc; have := hocc.le; omega
  · rw [if_neg h, if_neg (by omega)]
    simp only [Int.toNat_natCast]
    obtain ⟨r, hr, hspec⟩ := firstM_spec (fun i => do
      let a ← Str.at s i
      .ok (a == c.setWidth 8)) (fun i => s[i]? = some (c.setWidth 8)) (s.length - frm) frm (by
        intro i h1 h2
        rw [Str.at_getElem (by omega : i < s.length)]
        refine ⟨_, rfl, ?_⟩
        rw [List.getElem?_eq_getElem (by omega)]; simp)
    refine ⟨r, hr, ?_⟩
    rcases hspec with ⟨i, rfl, h1, h2, h3, h4⟩ | ⟨rfl, h1⟩
    · left
      refine ⟨i, rfl, h1, (occursAt_single _ _ _).mpr h3, ?_⟩
      intro j hj hji; rw [occursAt_single]; exact h4 j hj hji
    · right
      refine ⟨rfl, ?_⟩
      intro j hj hocc
      have := hocc.le
      simp at this
      rw [occursAt_single] at hocc
      exact h1 j hj (by omega) hocc

theorem lastChar_aux (s : Str) (c : Byte) (n : Nat) (hn : n ≤ s.length) :
    ∃ r, lastM (fun i => do
      let a ← charAt s i
      .ok (a == c)) n = .ok r ∧
      ((∃ i : Nat, r = i ∧ i < n ∧ s[i]? = some c ∧ ∀ j, i < j → j < n → s[j]? ≠ some c) ∨
       (r = -1 ∧ ∀ j, j < n → s[j]? ≠ some c)) := by
  apply lastM_spec _ (fun i => s[i]? = some c)
  intro i hi
  rw [charAt_lt (by omega : i < s.length)]
  refine ⟨_, rfl, ?_⟩
  rw [List.getElem?_eq_getElem (by omega)]; simp

/-- `lastIndexOf(c)`. -/
theorem C32_lastIndexOfChar (s : Str) (c : BitVec 32) :
    ∃ r, lastIndexOfChar s c = .ok r ∧ IsLast s [c.setWidth 8] s.length r := by
  obtain ⟨r, hr, h⟩ := lastChar_aux s (c.setWidth 8) s.length (Nat.le_refl _)
  refine ⟨r, hr, ?_⟩
  have hlt : ∀ j, OccursAt s [c.setWidth 8] j → j < s.length := fun j h => by have := h.le; simp at this; omega
  rcases h with ⟨i, rfl, h1, h2, h3⟩ | ⟨rfl, h1⟩
  · left
    refine ⟨i, rfl, by omega, (occursAt_single _ _ _).mpr h2, ?_⟩
    intro j hj _ hocc
    exact h3 j hj (hlt j hocc) ((occursAt_single _ _ _).mp hocc)
  · right
    refine ⟨rfl, fun j _ hocc => h1 j (hlt j hocc) ((occursAt_single _ _ _).mp hocc)⟩

/-- `lastIndexOf(c, from)` inside the string searches the positions *below*
`from`, not up to it: the documented claim fails exactly when `s[from] = c`
(`C32_lastIndexOfCharFrom_wrong`). -/
theorem C32_lastIndexOfCharFrom_partial (s : Str) (c : BitVec 32) (frm : Nat) (hf : frm < s.length)
    (hne : s[frm]? ≠ some (c.setWidth 8)) :
    ∃ r, lastIndexOfCharFrom s c frm = .ok r ∧ IsLast s [c.setWidth 8] frm r := by
  unfold lastIndexOfCharFrom
  rw [if_neg (by omega), if_neg (by simp [pastEnd]; omega)]
  simp only [Int.toNat_natCast]
  obtain ⟨r, hr, h⟩ := lastChar_aux s (c.setWidth 8) frm (by omega)
  refine ⟨r, hr, ?_⟩
  have hlt : ∀ j, j ≤ frm → OccursAt s [c.setWidth 8] j → j < frm := by
    intro j hj hocc
    rw [occursAt_single] at hocc
    rcases Nat.lt_or_ge j frm with h | h
    · exact h
    · exfalso; have : j = frm := by omega
      subst this; exact hne hocc
  rcases h with ⟨i, rfl, h1, h2, h3⟩ | ⟨rfl, h1⟩
  · left
    refine ⟨i, rfl, by omega, (occursAt_single _ _ _).mpr h2, ?_⟩
    intro j hj hjl hocc
    exact h3 j hj (hlt j hjl hocc) ((occursAt_single _ _ _).mp hocc)
  · right
    exact ⟨rfl, fun j hj hocc => h1 j (hlt j hj hocc) ((occursAt_single _ _ _).mp hocc)⟩

theorem C32_lastIndexOfCharFrom_wrong : lastIndexOfCharFrom (txt "abc") 98 1 = .ok (-1) ∧
    (txt "abc")[1]? = some 98 := by decide

/-- `regionMatches` with both regions inside their strings and no NUL bytes. -/
theorem strcmpL_zero (a b : Str) : strcmpL a b = 0 ↔ a = b := by
  induction a generalizing b with
  | nil => cases b <;> simp [strcmpL]
  | cons x a ih =>
    cases b with
    | nil => simp [strcmpL]
    | cons y b =>
      simp only [strcmpL]
      by_cases h : x = y
      · simp [h, ih]
      · rw [if_neg h]
        constructor
        · intro h'; split at h' <;> omega
        · intro h'; simp at h'; exact absurd h'.1 h

theorem C32_regionMatches_partial (s t : Str) (off toff len : Nat) (h1 : off + len ≤ s.length)
    (h2 : toff + len ≤ t.length) (h3 : (s.length : Int) ≤ INT_MAX) (h4 : (t.length : Int) ≤ INT_MAX)
    (hz : 0 ∉ s) (hz' : 0 ∉ t) :
    ∃ b, regionMatches false s off t toff len = .ok b ∧
      (b = true ↔ (s.drop off).take len = (t.drop toff).take len) := by
  have sub : ∀ (u : Str) (o : Nat), o + len ≤ u.length → subString u (o : Int) ((o : Int) + (len : Int)) =
      .ok ((u.drop o).take len) := by
    intro u o h
    unfold subString
    rw [if_neg (by omega)]
    unfold substr
    rw [if_pos (by omega)]
    congr 3
    omega
  have nz : ∀ (u : Str) (o : Nat), 0 ∉ u → cstr ((u.drop o).take len) = (u.drop o).take len := by
    intro u o h
    apply cstr_eq_self
    intro hm; exact h (List.mem_of_mem_drop (List.mem_of_mem_take hm))
  have c1 : chk32 ((off : Int) + (len : Int)) = .ok ((off : Int) + (len : Int)) :=
    chk32_ok (by unfold INT_MIN; omega) (by omega)
  have c2 : chk32 ((toff : Int) + (len : Int)) = .ok ((toff : Int) + (len : Int)) :=
    chk32_ok (by unfold INT_MIN; omega) (by omega)
  simp only [regionMatches, c1, c2, Outcome.bind_eq, Outcome.bind_ok, sub s off h1, sub t toff h2]
  refine ⟨_, rfl, ?_⟩
  unfold strcmp
  rw [nz s off hz, nz t toff hz', beq_iff_eq, strcmpL_zero]

/-- Regions outside both strings "match". -/
theorem C32_regionMatches_wrong : regionMatches false (txt "abc") 10 (txt "xyz") 20 5 = .ok true := by decide

example : indexOf (txt "banana") (txt "ana") = 1 ∧ lastIndexOf (txt "banana") (txt "ana") = 3 ∧
    indexOfFrom (txt "banana") (txt "ana") 2 = .ok 3 ∧
    lastIndexOfFrom (txt "banana") (txt "ana") 2 = .ok 1 := by decide

/-! ## C33 split and join -/

theorem split_iter (s d : Str) (hd : d ≠ []) : ∀ (fuel : Nat) (k : Nat) (out : List Str),
    k ≤ s.length → s.length - k < fuel →
    ∃ ps, iter (splitBody s d) fuel ⟨k, k, out⟩ = .ok (out ++ ps) ∧ Pieces d (s.drop k) ps := by
  have hdl := List.length_pos_iff.mpr hd
  intro fuel
  induction fuel with
  | zero => intro k out _ h; omega
  | succ n ih =>
    intro k out hk hn
    cases hf : find s d k with
    | none =>
      refine ⟨[slice s k s.length], by simp [iter, splitBody, hf], ?_⟩
      have e : slice s k s.length = s.drop k := by simp [slice]
      rw [e]
      apply Pieces.last
      intro i hocc
      rw [occursAt_drop _ _ _ _ hk] at hocc
      exact find_none hf _ (by omega) hocc
    | some pos =>
      obtain ⟨h1, h2, h3⟩ := find_some hf
      have hle := h2.le
      have emax : max k pos = pos := by omega
      obtain ⟨ps, hps, hP⟩ := ih (pos + d.length) (out ++ [slice s k pos]) hle (by omega)
      refine ⟨slice s k pos :: ps, ?_, ?_⟩
      · simp only [iter, splitBody, hf, emax, hps]; simp
      · obtain ⟨a, b, hs, ha⟩ := h2
        have e1 : slice s k pos = a.drop k := by
          rw [slice, hs, List.append_assoc, List.take_append_of_le_length (by omega), ← ha, List.take_length]
        have e2 : s.drop (pos + d.length) = b := by rw [hs]; simp [← ha]
        have e3 : s.drop k = a.drop k ++ d ++ b := by
          rw [hs, List.append_assoc, List.drop_append_of_le_length (by omega), List.append_assoc]
        rw [e1]; rw [e2] at hP
        have hmin : ∀ i, i < (a.drop k).length → ¬ OccursAt (a.drop k ++ d ++ b) d i := by
          intro i hi
          rw [← e3, occursAt_drop _ _ _ _ hk]
          simp at hi
          exact h3 _ (by omega) (by omega)
        rw [e3]
        exact Pieces.cut hmin hP

theorem pieces_join {d s : List Byte} {ps : List (List Byte)} (h : Pieces d s ps) : join d ps = s ∧ ps ≠ [] := by
  induction h with
  | last _ => exact ⟨rfl, by simp⟩
  | @cut p t ps _ _ ih =>
    refine ⟨?_, by simp⟩
    obtain ⟨ih1, ih2⟩ := ih
    cases ps with
    | nil => simp at ih2
    | cons q qs =>
      unfold join at *
      rw [joinFrom, ih1]
      simp

theorem pieces_free {d s : List Byte} {ps : List (List Byte)} (hd : d ≠ []) (h : Pieces d s ps) :
    ∀ p ∈ ps, ∀ i, ¬ OccursAt p d i := by
  induction h with
  | last h => simpa using h
  | @cut p t ps hmin _ ih =>
    intro q hq i hocc
    rcases List.mem_cons.mp hq with rfl | hq
    · have hle := hocc.le
      have hdl := List.length_pos_iff.mpr hd
      apply hmin i (by omega)
      obtain ⟨a, b, h1, h2⟩ := hocc
      exact ⟨a, b ++ d ++ t, by rw [h1]; simp, h2⟩
    · exact ih q hq i hocc

/-- Splitting at a non-empty delimiter terminates, cuts at the leftmost
occurrences, joining restores the text, and no piece contains the delimiter.
The number of turns is bounded by the length, whatever the text. -/
theorem C33_split_join_partial (s d : Str) (hd : d ≠ []) (fuel : Nat) (hf : s.length < fuel) :
    ∃ ps, split fuel s d = .ok ps ∧ Pieces d s ps ∧ join d ps = s ∧ (∀ p ∈ ps, ∀ i, ¬ OccursAt p d i) := by
  obtain ⟨ps, h1, h2⟩ := split_iter s d hd fuel 0 [] (by omega) (by omega)
  simp at h2
  exact ⟨ps, by simpa [split] using h1, h2, (pieces_join h2).1, pieces_free hd h2⟩

/-- Number of non-overlapping leftmost occurrences, as seen by `Pieces`. -/
theorem C33_pieces_unique {d s : List Byte} {ps qs : List (List Byte)} (h : Pieces d s ps) (h' : Pieces d s qs) :
    ps = qs := by
  induction h generalizing qs with
  | @last s hn =>
    generalize hs : s = u at h'
    cases h' with
    | last _ => rfl
    | cut _ _ => exfalso; subst hs; exact hn _ ⟨_, _, rfl, rfl⟩
  | @cut p t ps hmin hp ih =>
    generalize hs : p ++ d ++ t = u at h'
    cases h' with
    | last hn => exfalso; subst hs; exact hn _ ⟨_, _, rfl, rfl⟩
    | @cut p' t' ps' hmin' hp' =>
      have hl : p.length = p'.length := by
        rcases Nat.lt_trichotomy p.length p'.length with h | h | h
        · exfalso; apply hmin' _ h; rw [← hs]; exact ⟨_, _, rfl, rfl⟩
        · exact h
        · exfalso; apply hmin _ h; rw [hs]; exact ⟨_, _, rfl, rfl⟩
      rw [List.append_assoc, List.append_assoc] at hs
      obtain ⟨e1, e2⟩ := List.append_inj hs hl
      have e3 := List.append_cancel_left e2
      subst e1; subst e3
      rw [ih hp']

/-- Splitting at the empty delimiter never terminates. -/
theorem C33_split_empty_diverges (s : Str) : ∀ fuel, split fuel s [] = .diverge := by
  have key : ∀ fuel out, iter (splitBody s []) fuel ⟨0, 0, out⟩ = .diverge := by
    intro fuel
    induction fuel with
    | zero => intro out; rfl
    | succ n ih =>
      intro out
      have hf : find s [] 0 = some 0 := by
        unfold find; cases s <;> simp [findAux, prefixB]
      simp only [iter, splitBody, hf]
      exact ih _
  intro fuel; exact key fuel []

example : split 9 (txt "a,b,,c") (txt ",") = .ok [txt "a", txt "b", [], txt "c"] := by decide

/-! ## C59 split with a limit -/

theorem joinFrom_cons {d p : Str} {ps : List Str} (h : ps ≠ []) : joinFrom d (p :: ps) = p ++ d ++ joinFrom d ps := by
  cases ps with
  | nil => simp at h
  | cons q qs => rfl

theorem joinFrom_split (d : Str) (ps : List Str) (k : Nat) (hk : k < ps.length) :
    joinFrom d (ps.take k ++ [joinFrom d (ps.drop k)]) = joinFrom d ps := by
  induction k generalizing ps with
  | zero => simp [joinFrom]
  | succ k ih =>
    cases ps with
    | nil => simp at hk
    | cons p ps =>
      simp at hk
      have h1 : ps ≠ [] := by rintro rfl; simp at hk
      simp only [List.take_succ_cons, List.drop_succ_cons, List.cons_append]
      rw [joinFrom_cons (by simp), ih ps hk, joinFrom_cons h1]

theorem support_last (d : Str) (l : List Str) (h : l ≠ []) :
    ((l.take (l.length - 1)).map (· ++ d)).flatten ++ l.getLast h = joinFrom d l := by
  induction l with
  | nil => simp at h
  | cons p l ih =>
    by_cases hl : l = []
    · subst hl; simp [joinFrom]
    · rw [joinFrom_cons hl, ← ih hl, List.getLast_cons hl]
      have e : (p :: l).length - 1 = (l.length - 1) + 1 := by
        have := List.length_pos_iff.mpr hl; simp; omega
      rw [e, List.take_succ_cons]
      simp

/-- `split(d, limit)`: at most `limit` pieces when `limit > 0`, and joining
them with `d` still restores the text. -/
theorem C59_split_limit (s d : Str) (hd : d ≠ []) (limit : Int) (fuel : Nat) (hf : s.length < fuel) :
    ∃ ps, splitLimit fuel s d limit = .ok ps ∧ join d ps = s ∧ (0 < limit → (ps.length : Int) ≤ limit) := by
  obtain ⟨ps, h1, h2, h3, _⟩ := C33_split_join_partial s d hd fuel hf
  have hne := (pieces_join h2).2
  have hpos := List.length_pos_iff.mpr hne
  simp only [splitLimit, h1, Outcome.bind_eq, Outcome.bind_ok]
  by_cases hl1 : limit = 1
  · rw [if_pos hl1]; exact ⟨_, rfl, rfl, by simp; omega⟩
  · rw [if_neg hl1]
    by_cases hl2 : limit > ps.length ∨ limit ≤ 0
    · rw [if_pos hl2]; exact ⟨_, rfl, h3, by omega⟩
    · rw [if_neg hl2]
      have eg : Arr.get ps ((ps.length : Int) - 1) = .ok (ps.getLast hne) := by
        rw [show ((ps.length : Int) - 1) = ((ps.length - 1 : Nat) : Int) by omega, Arr.get_nat (by omega)]
        rw [List.getLast_eq_getElem]
      simp only [eg, Outcome.bind_ok]
      refine ⟨_, rfl, ?_, ?_⟩
      · have hk : limit.toNat - 1 < ps.length := by omega
        have hdn : ps.drop (limit.toNat - 1) ≠ [] := by
          intro h; have := congrArg List.length h; simp at this; omega
        have hg : ps.getLast hne = (ps.drop (limit.toNat - 1)).getLast hdn := by
          rw [List.getLast_drop]
        rw [hg, support_last d _ hdn]
        unfold join at *
        rw [joinFrom_split d ps _ hk, h3]
      · intro _; simp; omega

example : splitLimit 9 (txt "a,b,c") (txt ",") 2 = .ok [txt "a", txt "b,c"] := by decide

/-! ## C34 replace -/

theorem repl_iter (s a b : Str) (ha : a ≠ []) : ∀ (fuel : Nat) (k : Nat) (out : Str),
    k ≤ s.length → s.length - k < fuel →
    ∃ r, iter (replBody s a b) fuel ⟨k, k, out⟩ = .ok (out ++ r) ∧ Replaced a b (s.drop k) r := by
  have hdl := List.length_pos_iff.mpr ha
  intro fuel
  induction fuel with
  | zero => intro k out _ h; omega
  | succ n ih =>
    intro k out hk hn
    cases hf : find s a k with
    | none =>
      refine ⟨slice s k s.length, by simp [iter, replBody, hf], ?_⟩
      have e : slice s k s.length = s.drop k := by simp [slice]
      rw [e]
      apply Replaced.rest
      intro i hocc
      rw [occursAt_drop _ _ _ _ hk] at hocc
      exact find_none hf _ (by omega) hocc
    | some pos =>
      obtain ⟨h1, h2, h3⟩ := find_some hf
      have hle := h2.le
      have emax : max k pos = pos := by omega
      obtain ⟨r, hr, hP⟩ := ih (pos + a.length) (out ++ slice s k pos ++ b) hle (by omega)
      refine ⟨slice s k pos ++ b ++ r, ?_, ?_⟩
      · simp only [iter, replBody, hf, emax, hr]; simp
      · obtain ⟨x, y, hs, hx⟩ := h2
        have e1 : slice s k pos = x.drop k := by
          rw [slice, hs, List.append_assoc, List.take_append_of_le_length (by omega), ← hx, List.take_length]
        have e2 : s.drop (pos + a.length) = y := by rw [hs]; simp [← hx]
        have e3 : s.drop k = x.drop k ++ a ++ y := by
          rw [hs, List.append_assoc, List.drop_append_of_le_length (by omega), List.append_assoc]
        rw [e1]; rw [e2] at hP
        have hmin : ∀ i, i < (x.drop k).length → ¬ OccursAt (x.drop k ++ a ++ y) a i := by
          intro i hi
          rw [← e3, occursAt_drop _ _ _ _ hk]
          simp at hi
          exact h3 _ (by omega) (by omega)
        rw [e3]
        exact Replaced.sub hmin hP

/-- `replace(a, b)` for a non-empty `a`: terminates and replaces exactly the
leftmost non-overlapping occurrences. -/
theorem C34_replace_partial (s a b : Str) (ha : a ≠ []) (fuel : Nat) (hf : s.length < fuel) :
    ∃ r, replace fuel s a b = .ok r ∧ Replaced a b s r := by
  obtain ⟨r, h1, h2⟩ := repl_iter s a b ha fuel 0 [] (by omega) (by omega)
  simp at h2
  exact ⟨r, by simpa [replace] using h1, h2⟩

/-- The result is determined by the specification. -/
theorem C34_replaced_unique {a b s r r' : List Byte} (h : Replaced a b s r) (h' : Replaced a b s r') : r = r' := by
  induction h generalizing r' with
  | @rest s hn =>
    generalize hs : s = u at h'
    cases h' with
    | rest _ => rfl
    | sub _ _ => exfalso; subst hs; exact hn _ ⟨_, _, rfl, rfl⟩
  | @sub p t r hmin hp ih =>
    generalize hs : p ++ a ++ t = u at h'
    cases h' with
    | rest hn => exfalso; subst hs; exact hn _ ⟨_, _, rfl, rfl⟩
    | @sub p' t' q hmin' hp' =>
      have hl : p.length = p'.length := by
        rcases Nat.lt_trichotomy p.length p'.length with h | h | h
        · exfalso; apply hmin' _ h; rw [← hs]; exact ⟨_, _, rfl, rfl⟩
        · exact h
        · exfalso; apply hmin _ h; rw [hs]; exact ⟨_, _, rfl, rfl⟩
      rw [List.append_assoc, List.append_assoc] at hs
      obtain ⟨e1, e2⟩ := List.append_inj hs hl
      have e3 := List.append_cancel_left e2
      subst e1; subst e3
      rw [ih hp']

theorem C34_replace_empty_diverges (s b : Str) : ∀ fuel, replace fuel s [] b = .diverge := by
  have key : ∀ fuel out, iter (replBody s [] b) fuel ⟨0, 0, out⟩ = .diverge := by
    intro fuel
    induction fuel with
    | zero => intro out; rfl
    | succ n ih =>
      intro out
      have hf : find s [] 0 = some 0 := by
        unfold find; cases s <;> simp [findAux, prefixB]
      simp only [iter, replBody, hf]
      exact ih _
  intro fuel; exact key fuel []

theorem C34_replaceChar (s : Str) (o n : Byte) : (replaceChar s o n).length = s.length ∧
    ∀ i : Nat, (replaceChar s o n)[i]? = if s[i]? = some o then some n else s[i]? := by
  refine ⟨by simp [replaceChar], ?_⟩
  intro i
  simp only [replaceChar, List.getElem?_map]
  cases h : s[i]? with
  | none => simp
  | some c => by_cases hc : c = o <;> simp [hc]

example : replace 9 (txt "aaab") (txt "aa") (txt "X") = .ok (txt "Xab") := by decide

/-! ## C58 replaceFirst -/

theorem replace_one (p a b : Str) (ha : a ≠ []) (hmin : ∀ i, i < p.length → ¬ OccursAt (p ++ a) a i)
    (fuel : Nat) (hf : (p ++ a).length < fuel) : replace fuel (p ++ a) a b = .ok (p ++ b) := by
  obtain ⟨r, h1, h2⟩ := C34_replace_partial (p ++ a) a b ha fuel hf
  have h3 : Replaced a b (p ++ a ++ []) (p ++ b ++ []) := by
    apply Replaced.sub
    · simpa using hmin
    · apply Replaced.rest
      intro i hocc
      have := hocc.le
      have := List.length_pos_iff.mpr ha
      simp only [List.length_nil] at *; omega
  simp at h3
  rw [h1, C34_replaced_unique h2 h3]

/-- `replaceFirst(a, b)` replaces the first occurrence when it does not reach
the end of the string.  In the two other cases (no occurrence, or the first
occurrence ends the string) the call fails or changes nothing reliable:
see `C58_replaceFirst_wrong`. -/
theorem C58_replaceFirst_partial (p t a b : Str) (ha : a ≠ []) (ht : t ≠ [])
    (hmin : ∀ i, i < p.length → ¬ OccursAt (p ++ a ++ t) a i) (fuel : Nat)
    (hf : (p ++ a ++ t).length < fuel) :
    replaceFirst fuel (p ++ a ++ t) a b = .ok (p ++ b ++ t) := by
  have hal := List.length_pos_iff.mpr ha
  have htl := List.length_pos_iff.mpr ht
  have hidx : indexOf (p ++ a ++ t) a = p.length := by
    rcases C32_indexOf_partial (p ++ a ++ t) a ha with ⟨i, h1, _, h3, h4⟩ | ⟨_, h2⟩
    · rw [h1]
      rcases Nat.lt_trichotomy i p.length with h | h | h
      · exact absurd h3 (hmin i h)
      · rw [h]
      · exact absurd ⟨p, t, rfl, rfl⟩ (h4 p.length (by omega) h)
    · exact absurd ⟨p, t, rfl, rfl⟩ (h2 p.length (by omega))
  have hsub : subString (p ++ a ++ t) 0 ((p.length : Int) + a.length) = .ok (p ++ a) := by
    unfold subString
    rw [if_neg (by simp; omega)]
    simp only [substr, Int.toNat_zero, List.drop_zero]
    rw [if_pos (by omega)]
    congr 1
    rw [show ((p.length : Int) + (a.length : Int) - 0).toNat = (p ++ a).length by simp; omega]
    rw [List.take_left']
    rfl
  have hrest : getStringFromIndex (p ++ a ++ t) ((p.length : Int) + a.length) = .ok t := by
    unfold getStringFromIndex
    rw [if_neg (by simp only [pastEnd, List.length_append]; simp; omega)]
    unfold substr
    rw [show ((p.length : Int) + (a.length : Int)).toNat = (p ++ a).length by simp; omega]
    rw [if_pos (by simp), List.drop_left' rfl, List.take_of_length_le (by simp; omega)]
  have hone : replace fuel (p ++ a) a b = .ok (p ++ b) := by
    apply replace_one p a b ha
    · intro i hi hocc
      apply hmin i hi
      obtain ⟨x, y, h1, h2⟩ := hocc
      exact ⟨x, y ++ t, by rw [h1]; simp, h2⟩
    · simp at *; omega
  simp only [replaceFirst, hidx, hsub, hrest, hone, Outcome.bind_eq, Outcome.bind_ok]

theorem C58_replaceFirst_wrong :
    replaceFirst 9 (txt "xab") (txt "ab") (txt "Y") = .throw .stringIndexOutOfBounds ∧
    replaceFirst 9 (txt "x") (txt "ab") (txt "Y") = .throw .stringIndexOutOfBounds := by decide

example : replaceFirst 12 (txt "one two two") (txt "two") (txt "2") = .ok (txt "one 2 two") := by decide

/-! ## C35 ordering and equality -/

theorem C35_equals (a b : Str) : equals a b = true ↔ a = b := by simp [equals]

theorem strcmpL_lt (a b : Str) : strcmpL a b < 0 ↔ Lex a b := by
  induction a generalizing b with
  | nil =>
    cases b with
    | nil => simp [strcmpL]; intro h; cases h
    | cons y b => simp [strcmpL]; exact Lex.nil
  | cons x a ih =>
    cases b with
    | nil => simp [strcmpL]; intro h; cases h
    | cons y b =>
      simp only [strcmpL]
      by_cases h : x = y
      · subst h
        simp only [if_true, ih]
        constructor
        · exact Lex.tail
        · intro h; cases h with
          | head h => omega
          | tail h => exact h
      · rw [if_neg h]
        by_cases hlt : x.toNat < y.toNat
        · rw [if_pos hlt]; simp; exact Lex.head hlt
        · rw [if_neg hlt]; simp
          intro h'; cases h' with
          | head h' => exact hlt h'
          | tail _ => exact h rfl

theorem strcmpL_anti (a b : Str) : strcmpL b a = - strcmpL a b := by
  induction a generalizing b with
  | nil => cases b <;> simp [strcmpL]
  | cons x a ih =>
    cases b with
    | nil => simp [strcmpL]
    | cons y b =>
      simp only [strcmpL]
      by_cases h : x = y
      · subst h; simp [ih]
      · have hn : x.toNat ≠ y.toNat := fun h' => h (BitVec.toNat_inj.mp h')
        rw [if_neg h, if_neg (Ne.symm h)]
        by_cases hlt : x.toNat < y.toNat
        · rw [if_pos hlt, if_neg (by omega)]; rfl
        · rw [if_neg hlt, if_pos (by omega)]

/-- On strings without NUL bytes `compareTo` is negative/zero/positive exactly
as the lexicographic order of the bytes says. -/
theorem C35_compareTo_partial (a b : Str) (ha : 0 ∉ a) (hb : 0 ∉ b) :
    (compareTo a b < 0 ↔ Lex a b) ∧ (compareTo a b = 0 ↔ a = b) ∧ (0 < compareTo a b ↔ Lex b a) := by
  unfold compareTo strcmp
  rw [cstr_eq_self ha, cstr_eq_self hb]
  refine ⟨strcmpL_lt a b, strcmpL_zero a b, ?_⟩
  rw [← strcmpL_lt b a, strcmpL_anti a b]; omega

theorem lex_trans {a b c : List Byte} (h1 : Lex a b) (h2 : Lex b c) : Lex a c := by
  induction h1 generalizing c with
  | nil => cases h2 <;> exact Lex.nil
  | head h =>
    cases h2 with
    | head h' => exact Lex.head (by omega)
    | tail _ => exact Lex.head h
  | tail h ih =>
    cases h2 with
    | head h' => exact Lex.head h'
    | tail h' => exact Lex.tail (ih h')

/-- For all strings, NULs included, `compareTo` is antisymmetric and
transitive (a total preorder); it sees only the text before the first NUL. -/
theorem C35_compareTo_preorder (a b c : Str) :
    compareTo b a = - compareTo a b ∧
    (compareTo a b < 0 → compareTo b c < 0 → compareTo a c < 0) ∧
    (compareTo a b = 0 ↔ cstr a = cstr b) := by
  refine ⟨strcmpL_anti _ _, ?_, strcmpL_zero _ _⟩
  unfold compareTo strcmp
  rw [strcmpL_lt, strcmpL_lt, strcmpL_lt]
  exact lex_trans

/-- So it is not consistent with `equals`. -/
theorem C35_compareTo_not_consistent : compareTo [97, 0, 98] [97] = 0 ∧ equals [97, 0, 98] [97] = false := by decide

theorem C35_equalsIgnoreCase_partial (a b : Str) (ha : 0 ∉ a) (hb : 0 ∉ b) :
    equalsIgnoreCase a b = true ↔ a.map toLowerB = b.map toLowerB := by
  unfold equalsIgnoreCase strcasecmp
  rw [cstr_eq_self ha, cstr_eq_self hb, beq_iff_eq, strcmpL_zero]

example : compareTo (txt "apple") (txt "banana") = -1 ∧ (0 : Byte) ∉ txt "apple" := by decide

/-! ## C36 hash -/

theorem hashLoop_wrap (s : Str) (h : BitVec 32) :
    hashLoop .wrap h s = .ok (s.foldl (fun h c => h * 31 + c.signExtend 32) h) := by
  induction s generalizing h with
  | nil => rfl
  | cons c s ih =>
    have e : BitVec.ofInt 32 (31 * h.toInt + c.toInt) = h * 31 + c.signExtend 32 := by
      rw [BitVec.ofInt_add, BitVec.ofInt_mul, BitVec.ofInt_toInt, BitVec.mul_comm]
      rfl
    simp only [hashLoop, List.foldl_cons, reduceCtorEq, false_and, if_false]
    rw [e, ih]

theorem polyHash_cons (c : Byte) (s : Str) : polyHash (c :: s) = c.toInt * 31 ^ s.length + polyHash s := by
  unfold polyHash
  simp only [List.length_cons]
  rw [List.range_succ_eq_map, List.map_cons, List.sum_cons, List.map_map]
  congr 1
  congr 1
  apply List.map_congr_left
  intro i hi
  simp only [Function.comp, List.getD_cons_succ]
  congr 2
  omega

theorem foldl_poly (s : Str) (h : BitVec 32) :
    s.foldl (fun h c => h * 31 + c.signExtend 32) h = BitVec.ofInt 32 (h.toInt * 31 ^ s.length + polyHash s) := by
  induction s generalizing h with
  | nil => simp [polyHash]
  | cons c s ih =>
    rw [List.foldl_cons, ih, polyHash_cons]
    simp only [BitVec.ofInt_add, BitVec.ofInt_mul, BitVec.ofInt_toInt, List.length_cons, Int.pow_succ]
    have e : BitVec.ofInt 32 c.toInt = c.signExtend 32 := rfl
    have e31 : BitVec.ofInt 32 31 = 31 := rfl
    rw [e, e31, BitVec.add_mul, BitVec.add_assoc, BitVec.mul_assoc, BitVec.mul_comm 31]

/-- A string built by any sequence of mutations, whose hash has not been asked
for before, has the polynomial hash of its contents in 32-bit arithmetic; and
asking again gives the same answer. -/
theorem C36_hash_partial (s0 : Str) (ops : List HOp) (hno : ∀ o ∈ ops, o ≠ .hash) (s : HStr)
    (hrun : ops.foldlM (fun st o => HOp.run .wrap st o) (HStr.new s0) = .ok s) :
    ∃ s', hashCode .wrap s = .ok (BitVec.ofInt 32 (polyHash s.original), s') ∧ s'.original = s.original ∧
      hashCode .wrap s' = .ok (BitVec.ofInt 32 (polyHash s.original), s') := by
  have hz : s.hash = 0 := by
    have gen : ∀ (ops : List HOp) (st st' : HStr), (∀ o ∈ ops, o ≠ .hash) → st.hash = 0 →
        ops.foldlM (fun st o => HOp.run .wrap st o) st = .ok st' → st'.hash = 0 := by
      intro ops
      induction ops with
      | nil => intro st st' _ h0 h; simp at h; rw [← h]; exact h0
      | cons o ops ih =>
        intro st st' hn h0 h
        simp only [List.foldlM_cons, Outcome.bind_eq] at h
        cases ho : HOp.run .wrap st o with
        | ok st1 =>
          rw [ho, Outcome.bind_ok] at h
          refine ih st1 st' (fun o h => hn o (List.mem_cons_of_mem _ h)) ?_ h
          cases o with
          | append t => simp [HOp.run] at ho; rw [← ho]; exact h0
          | assign t => simp [HOp.run] at ho; rw [← ho]; exact h0
          | poke i c =>
            simp only [HOp.run] at ho
            split at ho
            · simp at ho; rw [← ho]; exact h0
            · simp at ho
          | hash => exact absurd rfl (hn _ (by simp))
        | throw e => rw [ho] at h; simp at h
        | ub => rw [ho] at h; simp at h
        | diverge => rw [ho] at h; simp at h
    exact gen ops _ s hno rfl hrun
  have hl : hashLoop .wrap 0 s.original = .ok (BitVec.ofInt 32 (polyHash s.original)) := by
    rw [hashLoop_wrap, foldl_poly]; simp
  by_cases hlen : s.original.length > 0
  · have h1 : hashCode .wrap s = .ok (BitVec.ofInt 32 (polyHash s.original),
        { s with hash := BitVec.ofInt 32 (polyHash s.original) }) := by
      simp only [hashCode, hz, hlen, and_self, if_true, hl, Outcome.bind_eq, Outcome.bind_ok]
    refine ⟨_, h1, rfl, ?_⟩
    by_cases h0 : BitVec.ofInt 32 (polyHash s.original) = 0
    · simp only [hashCode, h0, hlen, and_self, if_true, hl, Outcome.bind_eq, Outcome.bind_ok]
    · simp only [hashCode, h0, false_and, if_false]
  · have he : s.original = [] := List.length_eq_zero_iff.mp (by omega)
    have hp : BitVec.ofInt 32 (polyHash s.original) = 0 := by rw [he]; decide
    rw [hp]
    have : hashCode .wrap s = .ok (0, s) := by simp [hashCode, he, hz]
    exact ⟨s, this, rfl, this⟩

/-- Two strings with the same contents, hashes not asked for before, have the
same hash. -/
theorem C36_equal_hash (a b : Str) (h : a = b) :
    (hashCode .wrap (HStr.new a)) = (hashCode .wrap (HStr.new b)) := by rw [h]

/-- The cache is not reset by `+=`, `=` or `operator[]`: equal strings with
different hash codes. -/
theorem C36_stale_cache :
    (do let s ← HOp.run .wrap (HStr.new (txt "a")) .hash
        let t ← HOp.run .wrap s (.append (txt "b"))
        let r ← hashCode .wrap t
        .ok (t.original, r.1)) = Outcome.ok (txt "ab", 97) ∧
    (do let r ← hashCode .wrap (HStr.new (txt "ab")); .ok r.1) = Outcome.ok 3105 := by decide

/-- Under ISO C++ the hash of moderately long texts overflows `int`. -/
theorem C36_strict_overflow : hashCode .strict (HStr.new (txt "overflow")) = .ub := by decide

example : ([HOp.append (txt "b"), .poke 0 99].foldlM (fun st o => HOp.run .wrap st o) (HStr.new (txt "a"))) =
    .ok ⟨txt "cb", 0⟩ := by decide

/-! ## C37 slicing -/

/-- Valid slices are exact; invalid ones return the empty string instead of
raising (`C37_subString_invalid`). -/
theorem C37_subString_partial (s : Str) (b e : Nat) (h1 : b ≤ e) (h2 : e ≤ s.length) :
    ∃ r, subString s b e = .ok r ∧ r.length = e - b ∧ ∀ i, i < e - b → r[i]? = s[b + i]? := by
  refine ⟨(s.drop b).take (e - b), ?_, by simp; omega, ?_⟩
  · unfold subString
    rw [if_neg (by omega)]
    simp only [substr, Int.toNat_natCast]
    rw [if_pos (by omega)]
    congr 2; omega
  · intro i hi
    rw [List.getElem?_take_of_lt hi, List.getElem?_drop]

theorem C37_subString_invalid (s : Str) (b e : Int) (h : b > e ∨ b < 0 ∨ b > s.length ∨ e < 0 ∨ e > s.length) :
    subString s b e = .ok [] := by simp only [subString, h, if_true]

/-- `charAt` on a non-empty string: the character, or
StringIndexOutOfBoundsException. On the empty string the check is vacuous. -/
theorem C37_charAt_partial (s : Str) (hs : s ≠ []) (i : Int) :
    (∀ c, 0 ≤ i → s[i.toNat]? = some c → charAt s i = .ok c) ∧
    (i < 0 ∨ i ≥ s.length → charAt s i = .throw .stringIndexOutOfBounds) := by
  have hl := List.length_pos_iff.mpr hs
  constructor
  · intro c h0 h
    have hlt : i.toNat < s.length := by
      rcases Nat.lt_or_ge i.toNat s.length with h' | h'
      · exact h'
      · rw [List.getElem?_eq_none h'] at h; simp at h
    unfold charAt
    rw [if_neg (by simp [pastEnd]; omega)]
    exact Str.at_lt h
  · intro h
    unfold charAt
    rw [if_pos]
    rcases h with h | h
    · exact Or.inl h
    · right; simp [pastEnd, hs]; omega

theorem C37_charAt_empty : charAt [] 0 = .ok 0 ∧ charAt [] 1 = .ub := by decide

theorem findIdx_append_spaces (l : Str) (n : Nat) (x : Byte) (t : Str) (hx : x ≠ chr ' ') :
    (List.replicate n (chr ' ') ++ x :: t).findIdx (· ≠ chr ' ') = n := by
  induction n with
  | zero => simp [List.findIdx_cons, hx]
  | succ n ih =>
    rw [List.replicate_succ, List.cons_append, List.findIdx_cons, ih]
    simp

/-- `trim` removes exactly the leading and trailing spaces (only the space
character, not other white space). -/
theorem C37_trim (n m : Nat) (t : Str) (hh : t.head? ≠ some (chr ' ')) (hl : t.getLast? ≠ some (chr ' ')) :
    trim (List.replicate n (chr ' ') ++ t ++ List.replicate m (chr ' ')) = .ok t := by
  cases t with
  | nil =>
    unfold trim
    have : (List.replicate n (chr ' ') ++ [] ++ List.replicate m (chr ' ')).findIdx? (· ≠ chr ' ') = none := by
      rw [List.findIdx?_eq_none_iff]
      intro x hx
      have : x = chr ' ' := by
        rw [List.append_nil, List.mem_append, List.mem_replicate, List.mem_replicate] at hx
        exact hx.elim (·.2) (·.2)
      simp [this]
    rw [this]
  | cons x t =>
    have hx : x ≠ chr ' ' := by simpa using hh
    obtain ⟨u, y, hu⟩ : ∃ u y, x :: t = u ++ [y] := by
      refine ⟨(x :: t).dropLast, (x :: t).getLast (by simp), ?_⟩
      rw [List.dropLast_concat_getLast]
    have hy : y ≠ chr ' ' := by rw [hu] at hl; simpa using hl
    have h1 : (List.replicate n (chr ' ') ++ (x :: t) ++ List.replicate m (chr ' ')).findIdx? (· ≠ chr ' ') = some n := by
      rw [List.findIdx?_eq_some_iff_findIdx_eq]
      refine ⟨by simp, ?_⟩
      rw [List.append_assoc, List.cons_append]
      exact findIdx_append_spaces [] n x _ hx
    have h2 : (List.replicate n (chr ' ') ++ (x :: t) ++ List.replicate m (chr ' ')).reverse.findIdx (· ≠ chr ' ') = m := by
      rw [hu]
      simp only [List.reverse_append, List.reverse_replicate, List.reverse_cons, List.reverse_nil, List.nil_append,
        List.cons_append]
      exact findIdx_append_spaces [] m y _ hy
    unfold trim
    rw [h1]
    simp only [h2]
    unfold substr
    rw [if_pos (by simp)]
    congr 1
    have hlen : (List.replicate n (chr ' ') ++ (x :: t) ++ List.replicate m (chr ' ')).length - 1 - m - n + 1 =
        (x :: t).length := by simp; omega
    rw [hlen, List.append_assoc, List.drop_left' (by simp), List.take_left' rfl]

/-- Case mapping of an ASCII text: position by position. -/
theorem C37_case_partial (s : Str) (hz : 0 ∉ s) :
    toLowerCase s = s.map toLowerB ∧ toUpperCase s = s.map toUpperB := by
  simp [toLowerCase, toUpperCase, cstr_eq_self hz]

theorem C37_concat (s t : Str) (i : Nat) : (concat s t)[i]? = if i < s.length then s[i]? else t[i - s.length]? := by
  unfold concat
  by_cases h : i < s.length
  · rw [if_pos h, List.getElem?_append_left h]
  · rw [if_neg h, List.getElem?_append_right (by omega)]

theorem C37_ofSlice (a : List Byte) (off len : Int) :
    (0 ≤ off → 0 ≤ len → off + len ≤ a.length → ofSlice a off len = .ok ((a.drop off.toNat).take len.toNat)) ∧
    (off < 0 ∨ len < 0 ∨ off + len > a.length → ofSlice a off len = .throw .stringIndexOutOfBounds) := by
  constructor
  · intro h1 h2 h3
    unfold ofSlice
    rw [if_neg (by omega), if_neg (by omega), if_neg (by omega)]
  · intro h
    unfold ofSlice
    by_cases h1 : off < 0
    · rw [if_pos h1]
    · rw [if_neg h1]
      by_cases h2 : len < 0
      · rw [if_pos h2]
      · rw [if_neg h2, if_pos (by omega)]

example : subString (txt "hello") 1 3 = .ok (txt "el") ∧ trim (txt "  a b ") = .ok (txt "a b") ∧
    charAt (txt "hi") 2 = .throw .stringIndexOutOfBounds := by decide

end Verif.JString
