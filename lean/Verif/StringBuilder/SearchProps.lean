import Verif.StringBuilder.Props
import Verif.StringBuilder.SearchLemmas
/-! # C39: searching in a `StringBuilder` -/
namespace Verif.StringBuilder

theorem toString_ok {s : SB} {t : List Byte} (h : Holds s t) (h0 : 0 ∉ t) (hlen : t.length < 2 ^ 30) : toString s = .ret s t := by
  unfold toString
  simp only [OM.bind_eq, OM.bind_read]
  have hl := h.1
  rw [chk32_ok (by unfold INT_MIN; omega) (by unfold INT_MAX; omega), OM.lift_ok, OM.bind_ret, load_all h, OM.lift_ok, OM.bind_ret,
    cstr_eq_self h0]; rfl

theorem indexOfFrom_eq {s : SB} {t : List Byte} (h : Holds s t) (h0 : 0 ∉ t) (hlen : t.length < 2 ^ 30) (p : List Byte) (i : Int)
    {r : Int} (hr : stringMatches t p i = .ok r) : indexOfFrom p i s = .ret s r := by
  unfold indexOfFrom
  rw [OM.bind_eq, OM.bind_of_ret (toString_ok h h0 hlen), hr]; rfl

theorem lastIndexOfFrom_eq {s : SB} {t : List Byte} (h : Holds s t) (h0 : 0 ∉ t) (hlen : t.length < 2 ^ 30) (p : List Byte) (i : Int) :
    lastIndexOfFrom p i s = OM.lift (stringMatchesReverse t p i) s := by
  unfold lastIndexOfFrom
  rw [OM.bind_eq, OM.bind_of_ret (toString_ok h h0 hlen)]

theorem lastIndexOf_eq {s : SB} {t : List Byte} (h : Holds s t) (h0 : 0 ∉ t) (hlen : t.length < 2 ^ 30) (p : List Byte) :
    lastIndexOf p s = OM.lift (stringMatchesReverse t p t.length) s := by
  unfold lastIndexOf
  rw [OM.bind_eq, OM.bind_of_ret (toString_ok h h0 hlen), OM.bind_eq, OM.bind_read, h.1]

/-- The start position the forward search uses. -/
theorem start_nat (i : Int) : (if i < 0 then 0 else i) = ((i.toNat : Nat) : Int) := by split <;> omega

/-- C39. indexOf ends for every text, pattern and start, reads only characters of the text and the pattern, leaves the builder
unchanged, and answers -1 or a position at or after the start where the pattern fits. -/
theorem C39_indexOf_safe (s : SB) (t p : List Byte) (i : Int) (h : Holds s t) (h0 : 0 ∉ t) (hlen : t.length < 2 ^ 30) :
    ∃ r, indexOfFrom p i s = .ret s r ∧ (r = -1 ∨ ∃ k : Nat, r = k ∧ min i.toNat t.length ≤ k ∧ k + p.length ≤ t.length) := by
  suffices hs : ∃ r, stringMatches t p i = .ok r ∧ (r = -1 ∨ ∃ k : Nat, r = k ∧ min i.toNat t.length ≤ k ∧ k + p.length ≤ t.length) by
    obtain ⟨r, h1, h2⟩ := hs
    exact ⟨r, indexOfFrom_eq h h0 hlen p i h1, h2⟩
  unfold stringMatches
  by_cases hi : i > t.length
  · rw [if_pos hi]
    refine ⟨_, rfl, ?_⟩
    by_cases hp : p.length = 0
    · rw [if_pos hp]; exact .inr ⟨t.length, rfl, by omega, by omega⟩
    · rw [if_neg hp]; exact .inl rfl
  · rw [if_neg hi]
    simp only [start_nat]
    by_cases hp : p.length = 0
    · rw [if_pos hp]; exact ⟨_, rfl, .inr ⟨i.toNat, rfl, by omega, by omega⟩⟩
    · rw [if_neg hp]
      by_cases ht : t.length = 0
      · rw [if_pos ht]; exact ⟨_, rfl, .inl rfl⟩
      · rw [if_neg ht]
        obtain ⟨tab, h1, h2, _⟩ := nextTable_ok t (by rintro rfl; exact ht rfl) 0 (fun j _ h _ => by omega)
        simp only [Outcome.bind_eq]
        rw [h1, Outcome.bind_ok]
        obtain ⟨r, h3, h4⟩ := matches_safe t p (by rintro rfl; exact hp rfl) tab h2 i.toNat (by omega)
        refine ⟨r, h3, ?_⟩
        rcases h4 with h4 | ⟨k, h5, h6, h7⟩
        · exact .inl h4
        · exact .inr ⟨k, h5, by omega, h7⟩

/-- C39, `_partial`: indexOf(p, from) is the least position at or after `from` where `p` occurs, or -1, when neither the text nor
the pattern repeats its first character among its positions 1 … |p| - 2; so for every pattern of one or two characters in every
text. What is missing: other patterns, for which the answer can be wrong both ways (`C39_indexOf_misses`, `C39_indexOf_invents`). -/
theorem C39_indexOf_partial (s : SB) (t p : List Byte) (i : Int) (h : Holds s t) (h0 : 0 ∉ t) (hlen : t.length < 2 ^ 30) (hp : p ≠ [])
    (hpp : ∀ j, 1 ≤ j → j + 1 < p.length → p[j]? ≠ p[0]?)
    (hpt : ∀ j, 1 ≤ j → j + 1 < p.length → j < t.length → t[j]? ≠ t[0]?) :
    ∃ r, indexOfFrom p i s = .ret s r ∧ IsFirst p t i.toNat r := by
  suffices hs : ∃ r, stringMatches t p i = .ok r ∧ IsFirst p t i.toNat r by
    obtain ⟨r, h1, h2⟩ := hs
    exact ⟨r, indexOfFrom_eq h h0 hlen p i h1, h2⟩
  have hpl : 0 < p.length := List.length_pos_iff.mpr hp
  unfold stringMatches
  by_cases hi : i > t.length
  · rw [if_pos hi, if_neg (by omega)]
    refine ⟨_, rfl, .inr ⟨rfl, fun j hj ho => ?_⟩⟩
    have := ho.1
    omega
  · rw [if_neg hi]
    simp only [start_nat]
    rw [if_neg (by omega)]
    by_cases ht : t.length = 0
    · rw [if_pos ht]
      refine ⟨_, rfl, .inr ⟨rfl, fun j hj ho => ?_⟩⟩
      have := ho.1
      omega
    · rw [if_neg ht]
      obtain ⟨tab, h1, h2, h3⟩ := nextTable_ok t (by rintro rfl; exact ht rfl) p.length hpt
      simp only [Outcome.bind_eq]
      rw [h1, Outcome.bind_ok]
      exact matches_exact t p hp tab h2 h3 hpp i.toNat (by omega)

/-- C39. Patterns of one or two characters are found exactly, in every text. -/
theorem C39_indexOf_short (s : SB) (t p : List Byte) (i : Int) (h : Holds s t) (h0 : 0 ∉ t) (hlen : t.length < 2 ^ 30) (hp : p ≠ [])
    (h2 : p.length ≤ 2) : ∃ r, indexOfFrom p i s = .ret s r ∧ IsFirst p t i.toNat r :=
  C39_indexOf_partial s t p i h h0 hlen hp (fun j h1 h3 => by omega) (fun j h1 h3 => by omega)

/-- C39. The empty pattern is found at the start position, clipped to the text. -/
theorem C39_indexOf_empty (s : SB) (t : List Byte) (i : Int) (h : Holds s t) (h0 : 0 ∉ t) (hlen : t.length < 2 ^ 30) :
    indexOfFrom [] i s = .ret s (max 0 (min i t.length)) := by
  apply indexOfFrom_eq h h0 hlen
  unfold stringMatches
  by_cases hi : i > t.length
  · rw [if_pos hi, if_pos List.length_nil]
    congr 1; omega
  · rw [if_neg hi]
    simp only [start_nat]
    rw [if_pos List.length_nil]
    congr 1; omega

/-- C39. indexOf(p) is indexOf(p, 0). -/
theorem C39_indexOf_zero (p : List Byte) (s : SB) : indexOf p s = indexOfFrom p 0 s := rfl

/-- C39 is false: `aab` is not found in `aaab`, for every two different characters. -/
theorem C39_indexOf_misses (s : SB) (a b : Byte) (hab : a ≠ b) (ha : a ≠ 0) (hb : b ≠ 0) (h : Holds s [a, a, a, b]) :
    indexOf [a, a, b] s = .ret s (-1) ∧ OccursAt [a, a, b] [a, a, a, b] 1 := by
  refine ⟨?_, ⟨by simp, rfl⟩⟩
  rw [C39_indexOf_zero]
  refine indexOfFrom_eq h ?_ (by simp) _ _ ?_
  · simp only [List.mem_cons, List.not_mem_nil, or_false, not_or]
    exact ⟨fun e => ha e.symm, fun e => ha e.symm, fun e => ha e.symm, fun e => hb e.symm⟩
  · have hba : b ≠ a := fun e => hab e.symm
    simp [stringMatches, nextTable, iter, nextBody, matchBody, tabWr, tabRd, ch, Str.at, hab, hba]

/-- C39 is false: `aaa` is found in `aabaa`, where it does not occur, for every two different characters. -/
theorem C39_indexOf_invents (s : SB) (a b : Byte) (hab : a ≠ b) (ha : a ≠ 0) (hb : b ≠ 0) (h : Holds s [a, a, b, a, a]) :
    indexOf [a, a, a] s = .ret s 2 ∧ ∀ k, ¬OccursAt [a, a, a] [a, a, b, a, a] k := by
  have hba : b ≠ a := fun e => hab e.symm
  constructor
  · rw [C39_indexOf_zero]
    refine indexOfFrom_eq h ?_ (by simp) _ _ ?_
    · simp only [List.mem_cons, List.not_mem_nil, or_false, not_or]
      exact ⟨fun e => ha e.symm, fun e => ha e.symm, fun e => hb e.symm, fun e => ha e.symm, fun e => ha e.symm⟩
    · simp [stringMatches, nextTable, iter, nextBody, matchBody, tabWr, tabRd, ch, Str.at, hab, hba]
  · intro k ho
    have h1 := ho.1
    simp at h1
    match k, h1 with
    | 0, _ => have := ho.2; simp at this; exact hba this
    | 1, _ => have := ho.2; simp at this; exact hba this
    | 2, _ => have := ho.2; simp at this; exact hba this

/-- C39, `_partial`: lastIndexOf(p) is the greatest position where `p` occurs, or -1, when the pattern has no NUL and repeats
neither its first nor its last character among its inner characters; so for every pattern of one or two characters.  What is
missing: other patterns (`C39_lastIndexOf_misses`) and the form with a start (`C39_lastIndexOf_from_ignored`). -/
theorem C39_lastIndexOf_partial (s : SB) (t p : List Byte) (h : Holds s t) (h0 : 0 ∉ t) (hlen : t.length < 2 ^ 30) (hp : p ≠ [])
    (hp0 : 0 ∉ p) (hpp : ∀ j, 1 ≤ j → j + 1 < p.length → p[j]? ≠ p[0]? ∧ p[j]? ≠ p[p.length - 1]?) :
    ∃ r, lastIndexOf p s = .ret s r ∧ IsLast p t t.length r := by
  have hpl : 0 < p.length := List.length_pos_iff.mpr hp
  obtain ⟨tab, h1, h2, h3⟩ := nextTable_ok p hp p.length (fun j a b _ => (hpp j a b).1)
  obtain ⟨r, h4, h5⟩ := rev_exact t p hp tab h2 (fun j a b => h3 j a b b) (fun j a b e => by
    refine (hpp (p.length - 1 - j) (by omega) (by omega)).2 ?_
    rw [List.getElem?_eq_getElem (by omega), List.getElem?_eq_getElem (by omega), e]) t.length (Nat.le_refl _)
  refine ⟨r, ?_, ?_⟩
  · rw [lastIndexOf_eq h h0 hlen]
    have : stringMatchesReverse t p t.length = .ok r := by
      unfold stringMatchesReverse
      rw [if_neg (by omega)]
      simp only
      rw [if_neg (by omega : ¬(t.length : Int) < t.length - p.length), if_neg (by omega), Outcome.bind_eq, h1, Outcome.bind_ok,
        Int.toNat_natCast]
      exact h4
    rw [this]; rfl
  · rcases h5 with ⟨e, hr, he, hE, hno⟩ | ⟨hr, hno⟩
    · have hge := hE.1
      have hre : e = (r.toNat : Int) + p.length - 1 := by omega
      rw [hre] at hE
      rw [endsAt_iff p t hp hp0] at hE
      have hfit := hE.1
      refine .inl ⟨r.toNat, by omega, by omega, hE, fun j hj1 hj2 ho => ?_⟩
      have hfit' := ho.1
      exact hno (j + p.length - 1) (by omega) (by omega) ((endsAt_iff p t hp hp0 j).mpr ho)
    · refine .inr ⟨hr, fun j hj ho => ?_⟩
      have hfit' := ho.1
      exact hno (j + p.length - 1) (by omega) ((endsAt_iff p t hp hp0 j).mpr ho)

/-- C39 is false: `abb` is not found from the end of `abbb`, for every two different characters. -/
theorem C39_lastIndexOf_misses (s : SB) (a b : Byte) (hab : a ≠ b) (ha : a ≠ 0) (hb : b ≠ 0) (h : Holds s [a, b, b, b]) :
    lastIndexOf [a, b, b] s = .ret s (-1) ∧ OccursAt [a, b, b] [a, b, b, b] 0 := by
  have hba : b ≠ a := fun e => hab e.symm
  refine ⟨?_, ⟨by simp, rfl⟩⟩
  rw [lastIndexOf_eq h ?_ (by simp)]
  · have : stringMatchesReverse [a, b, b, b] [a, b, b] ([a, b, b, b].length : Nat) = .ok (-1) := by
      have hb' : b ≠ 0#8 := hb
      simp [stringMatchesReverse, nextTable, iter, nextBody, revBody, tabWr, tabRd, ch, Str.at, hab, hba, hb']
    rw [this]; rfl
  · simp only [List.mem_cons, List.not_mem_nil, or_false, not_or]
    exact ⟨fun e => ha e.symm, fun e => hb e.symm, fun e => hb e.symm, fun e => hb e.symm⟩

/-- C39 is false for lastIndexOf(p, from): every start from 0 up to |t| - |p| gives the same answer, as if it were |t| - |p|, and
that is a position where a match may end, not begin. -/
theorem C39_lastIndexOf_from_ignored (s : SB) (t p : List Byte) (i : Int) (h : Holds s t) (h0 : 0 ∉ t) (hlen : t.length < 2 ^ 30)
    (hi : 0 ≤ i ∧ i + p.length ≤ t.length) : lastIndexOfFrom p i s = lastIndexOfFrom p (t.length - p.length) s := by
  rw [lastIndexOfFrom_eq h h0 hlen, lastIndexOfFrom_eq h h0 hlen]
  congr 1
  unfold stringMatchesReverse
  rw [if_neg (show ¬i < 0 by omega), if_neg (show ¬(t.length : Int) - p.length < 0 by omega)]
  have : (if i < (t.length : Int) - p.length then (t.length : Int) - p.length else i) = (t.length : Int) - p.length := by split <;> omega
  simp only [this, if_neg (by omega : ¬((t.length : Int) - p.length < t.length - p.length))]

/-- C39 is false for lastIndexOf(p, from): in every text `a…a` the last `a` is reported for every start. -/
theorem C39_lastIndexOf_from_wrong (s : SB) (a : Byte) (u : List Byte) (i : Int) (ha : a ≠ 0) (h0 : 0 ∉ u)
    (h : Holds s (u ++ [a])) (hlen : u.length + 1 < 2 ^ 30) (hi : 0 ≤ i ∧ i < u.length) :
    lastIndexOfFrom [a] i s = .ret s u.length ∧ ¬IsLast [a] (u ++ [a]) i.toNat u.length := by
  constructor
  · rw [lastIndexOfFrom_eq h (by
      simp only [List.mem_append, List.mem_singleton, not_or]; exact ⟨h0, fun e => ha e.symm⟩) (by simpa using hlen)]
    have : stringMatchesReverse (u ++ [a]) [a] i = .ok u.length := by
      unfold stringMatchesReverse
      rw [if_neg (by omega)]
      simp only [List.length_append, List.length_singleton]
      rw [if_pos (show i < ((u.length + 1 : Nat) : Int) - ((1 : Nat) : Int) by omega), if_neg (show ¬(1 = 0) by omega), Outcome.bind_eq]
      obtain ⟨tab, h1, h2, _⟩ := nextTable_ok [a] (by simp) 0 (fun j _ h _ => by omega)
      rw [h1, Outcome.bind_ok, show ((u.length + 1 : Nat) : Int) - ((1 : Nat) : Int) = ((u.length : Nat) : Int) by omega]
      unfold iter revBody
      simp only [Outcome.bind_eq, List.length_singleton]
      have hc : ch (u ++ [a]) ((u.length : Int) - 0) = .ok a := by
        have := ch_nat (l := u ++ [a]) (i := u.length) (by simp)
        rw [show (u.length : Int) - 0 = u.length by omega, this]
        congr 1
        simp
      have hc2 : ch [a] (((1 : Nat) : Int) - 0 - 1) = .ok a := rfl
      rw [if_pos (by omega), hc2, Outcome.bind_ok, hc, Outcome.bind_ok, if_pos rfl, if_pos (by omega)]
      simp only
      congr 1; omega
    rw [this]; rfl
  · rintro (⟨k, hk1, hk2, _⟩ | ⟨hk, _⟩) <;> omega

/-- C39 is false for lastIndexOf(p, from): a start beyond the end of the text reads outside it, for every non-empty pattern. -/
theorem C39_lastIndexOf_unsafe (s : SB) (t p : List Byte) (i : Int) (h : Holds s t) (h0 : 0 ∉ t) (hlen : t.length < 2 ^ 30) (hp : p ≠ [])
    (hi : i > t.length) : lastIndexOfFrom p i s = .ub := by
  have hpl : 0 < p.length := List.length_pos_iff.mpr hp
  rw [lastIndexOfFrom_eq h h0 hlen]
  have : stringMatchesReverse t p i = .ub := by
    unfold stringMatchesReverse
    rw [if_neg (by omega)]
    simp only
    rw [if_neg (by omega), if_neg (by omega), Outcome.bind_eq]
    obtain ⟨tab, h1, h2, _⟩ := nextTable_ok p hp 0 (fun j _ h _ => by omega)
    rw [h1, Outcome.bind_ok]
    have hc : ch t (i - 0) = .ub := by
      unfold ch Str.at
      rw [if_neg (by omega), List.getElem?_eq_none (by omega)]
      simp only
      rw [if_neg (by omega)]
    have hc2 := ch_nat (l := p) (i := p.length - 1) (by omega)
    rw [show ((p.length - 1 : Nat) : Int) = (p.length : Int) - 0 - 1 by omega] at hc2
    unfold iter revBody
    simp only [Outcome.bind_eq]
    rw [if_pos (by omega), hc2, Outcome.bind_ok, hc, Outcome.bind_ub]
  rw [this]; rfl

/-- C39. lastIndexOf(p) and lastIndexOf(p, from) with a start inside the text end and read only inside the texts. -/
theorem C39_lastIndexOf_safe (s : SB) (t p : List Byte) (i : Int) (h : Holds s t) (h0 : 0 ∉ t) (hlen : t.length < 2 ^ 30)
    (hi : i ≤ t.length) : ∃ r, lastIndexOfFrom p i s = .ret s r ∧ (r = -1 ∨ 0 ≤ r ∧ r + p.length ≤ t.length + 1) := by
  suffices hs : ∃ r, stringMatchesReverse t p i = .ok r ∧ (r = -1 ∨ 0 ≤ r ∧ r + p.length ≤ t.length + 1) by
    obtain ⟨r, h1, h2⟩ := hs
    refine ⟨r, ?_, h2⟩
    rw [lastIndexOfFrom_eq h h0 hlen, h1]; rfl
  unfold stringMatchesReverse
  by_cases hneg : i < 0
  · rw [if_pos hneg]; exact ⟨_, rfl, .inl rfl⟩
  · rw [if_neg hneg]
    simp only
    have hst : ∃ a : Nat, (if i < (t.length : Int) - p.length then (t.length : Int) - p.length else i) = a ∧ a ≤ t.length :=
      ⟨(if i < (t.length : Int) - p.length then (t.length : Int) - p.length else i).toNat, by split <;> omega, by split <;> omega⟩
    obtain ⟨a, ha, hat⟩ := hst
    rw [ha]
    by_cases hp : p.length = 0
    · rw [if_pos hp]; exact ⟨_, rfl, .inr ⟨by omega, by omega⟩⟩
    · rw [if_neg hp, Outcome.bind_eq]
      have hpn : p ≠ [] := by rintro rfl; exact hp rfl
      obtain ⟨tab, h1, h2, _⟩ := nextTable_ok p hpn 0 (fun j _ h _ => by omega)
      rw [h1, Outcome.bind_ok, Int.toNat_natCast]
      exact rev_safe t p hpn tab h2 a hat

/-- A pattern and a text with repeated inner characters meet the hypotheses of `C39_indexOf_partial` and
`C39_lastIndexOf_partial`. -/
example : (∀ j, 1 ≤ j → j + 1 < (txt "needle").length → (txt "needle")[j]? ≠ (txt "needle")[0]?) ∧
    (∀ j, 1 ≤ j → j + 1 < (txt "needle").length → j < (txt "haystack needles").length → (txt "haystack needles")[j]? ≠ (txt "haystack needles")[0]?) := by
  constructor
  · intro j h1 h2
    have : j < 6 := by simp [txt] at h2; omega
    match j, h1, this with
    | 1, _, _ | 2, _, _ | 3, _, _ | 4, _, _ | 5, _, _ => decide
  · intro j h1 h2 _
    have : j < 6 := by simp [txt] at h2; omega
    match j, h1, this with
    | 1, _, _ | 2, _, _ | 3, _, _ | 4, _, _ | 5, _, _ => decide

example : ∃ s, ofText (txt "haystack needles") = .ret s () ∧ Holds s (txt "haystack needles") := C38_ofText _ (by decide)
example : stringMatches (txt "haystack needles") (txt "needle") 2 = .ok 9 := by decide
example : stringMatchesReverse (txt "abcabc") (txt "bca") 6 = .ok 1 := by decide

end Verif.StringBuilder
