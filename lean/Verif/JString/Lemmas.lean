import Verif.JString.Model
import Verif.JString.Spec
namespace Verif.JString

theorem prefixB_iff (p s : Str) : prefixB p s = true ↔ ∃ b, s = p ++ b := by
  induction p generalizing s with
  | nil => simp [prefixB]
  | cons a p ih =>
    cases s with
    | nil => simp [prefixB]
    | cons c s =>
      simp only [prefixB, Bool.and_eq_true, beq_iff_eq, ih, List.cons_append, List.cons.injEq]
      constructor
      · rintro ⟨rfl, b, rfl⟩; exact ⟨b, rfl, rfl⟩
      · rintro ⟨b, rfl, rfl⟩; exact ⟨rfl, b, rfl⟩

theorem occursAt_iff (s p : Str) (i : Nat) : OccursAt s p i ↔ i ≤ s.length ∧ ∃ b, s.drop i = p ++ b := by
  constructor
  · rintro ⟨a, b, rfl, rfl⟩
    exact ⟨by simp, b, by simp⟩
  · rintro ⟨h, b, hb⟩
    exact ⟨s.take i, b, by rw [List.append_assoc, ← hb, List.take_append_drop], by simp [h]⟩

theorem OccursAt.le {s p : Str} {i : Nat} (h : OccursAt s p i) : i + p.length ≤ s.length := by
  obtain ⟨a, b, rfl, rfl⟩ := h; simp

theorem occursAt_nil (s : Str) (i : Nat) (h : i ≤ s.length) : OccursAt s [] i :=
  (occursAt_iff s [] i).mpr ⟨h, s.drop i, rfl⟩

theorem occursAt_drop (s p : Str) (k i : Nat) (hk : k ≤ s.length) :
    OccursAt (s.drop k) p i ↔ OccursAt s p (k + i) := by
  rw [occursAt_iff, occursAt_iff, List.drop_drop, List.length_drop]
  constructor <;> rintro ⟨h, hb⟩ <;> exact ⟨by omega, hb⟩

theorem occursAt_cons_succ (c : Byte) (s p : Str) (i : Nat) :
    OccursAt (c :: s) p (i + 1) ↔ OccursAt s p i := by
  rw [occursAt_iff, occursAt_iff]; simp

theorem occursAt_single (s : Str) (c : Byte) (i : Nat) : OccursAt s [c] i ↔ s[i]? = some c := by
  constructor
  · rintro ⟨a, b, rfl, rfl⟩; simp
  · intro h
    rw [occursAt_iff]
    have hl : i < s.length := by
      rcases Nat.lt_or_ge i s.length with h' | h'
      · exact h'
      · rw [List.getElem?_eq_none h'] at h; simp at h
    refine ⟨by omega, s.drop (i + 1), ?_⟩
    rw [List.drop_eq_getElem_cons hl]
    rw [List.getElem?_eq_getElem hl] at h
    simp at h
    simp [h]

theorem findAux_spec (p : Str) : ∀ (s : Str) (k : Nat),
    (∀ i, findAux p s k = some i → k ≤ i ∧ OccursAt s p (i - k) ∧ ∀ j, j < i - k → ¬ OccursAt s p j) ∧
    (findAux p s k = none → ∀ j, ¬ OccursAt s p j) := by
  intro s
  induction s with
  | nil =>
    intro k
    unfold findAux
    by_cases h : prefixB p [] = true
    · rw [if_pos h]
      obtain ⟨b, hb⟩ := (prefixB_iff _ _).mp h
      refine ⟨?_, by simp⟩
      intro i hi
      simp at hi; subst hi
      refine ⟨Nat.le_refl _, ?_, by omega⟩
      rw [Nat.sub_self, occursAt_iff]; exact ⟨by simp, b, by simpa using hb⟩
    · rw [if_neg h]
      refine ⟨by simp, ?_⟩
      intro _ j hj
      apply h
      rw [occursAt_iff] at hj
      obtain ⟨hj, b, hb⟩ := hj
      rw [prefixB_iff]; exact ⟨b, by simpa using hb⟩
  | cons c s ih =>
    intro k
    unfold findAux
    by_cases h : prefixB p (c :: s) = true
    · rw [if_pos h]
      obtain ⟨b, hb⟩ := (prefixB_iff _ _).mp h
      refine ⟨?_, by simp⟩
      intro i hi
      simp at hi; subst hi
      refine ⟨Nat.le_refl _, ?_, by omega⟩
      rw [Nat.sub_self, occursAt_iff]; exact ⟨by simp, b, by simpa using hb⟩
    · rw [if_neg h]
      have h0 : ¬ OccursAt (c :: s) p 0 := by
        intro hj; apply h
        rw [occursAt_iff] at hj
        obtain ⟨hj, b, hb⟩ := hj
        rw [prefixB_iff]; exact ⟨b, by simpa using hb⟩
      obtain ⟨ih1, ih2⟩ := ih (k + 1)
      constructor
      · intro i hi
        obtain ⟨hki, hocc, hlt⟩ := ih1 i hi
        have e : i - k = (i - (k + 1)) + 1 := by omega
        refine ⟨by omega, ?_, ?_⟩
        · rw [e, occursAt_cons_succ]; exact hocc
        · intro j hj
          cases j with
          | zero => exact h0
          | succ j => rw [occursAt_cons_succ]; exact hlt j (by omega)
      · intro hn j
        cases j with
        | zero => exact h0
        | succ j => rw [occursAt_cons_succ]; exact ih2 hn j

theorem find_some {s p : Str} {pos i : Nat} (h : find s p pos = some i) :
    pos ≤ i ∧ OccursAt s p i ∧ ∀ j, pos ≤ j → j < i → ¬ OccursAt s p j := by
  unfold find at h
  by_cases hp : pos ≤ s.length
  · rw [if_pos hp] at h
    obtain ⟨h1, h2, h3⟩ := (findAux_spec p (s.drop pos) pos).1 i h
    rw [occursAt_drop _ _ _ _ hp] at h2
    have e : pos + (i - pos) = i := by omega
    rw [e] at h2
    refine ⟨h1, h2, ?_⟩
    intro j hj hji
    have := h3 (j - pos) (by omega)
    rw [occursAt_drop _ _ _ _ hp] at this
    have e : pos + (j - pos) = j := by omega
    rwa [e] at this
  · rw [if_neg hp] at h; simp at h

theorem find_none {s p : Str} {pos : Nat} (h : find s p pos = none) :
    ∀ j, pos ≤ j → ¬ OccursAt s p j := by
  intro j hj hocc
  unfold find at h
  by_cases hp : pos ≤ s.length
  · rw [if_pos hp] at h
    apply (findAux_spec p (s.drop pos) pos).2 h (j - pos)
    rw [occursAt_drop _ _ _ _ hp]
    have e : pos + (j - pos) = j := by omega
    rwa [e]
  · have := hocc.le; omega

theorem find_isSome_iff (s p : Str) (pos : Nat) :
    (find s p pos).isSome = true ↔ ∃ i, pos ≤ i ∧ OccursAt s p i := by
  cases h : find s p pos with
  | none =>
    simp
    intro i hi; exact find_none h i hi
  | some i =>
    simp
    obtain ⟨h1, h2, _⟩ := find_some h
    exact ⟨i, h1, h2⟩

theorem posOrNeg_find (s p : Str) (pos : Nat) : IsFirst s p pos (posOrNeg (find s p pos)) := by
  cases h : find s p pos with
  | none => right; exact ⟨rfl, find_none h⟩
  | some i => left; obtain ⟨h1, h2, h3⟩ := find_some h; exact ⟨i, rfl, h1, h2, h3⟩

theorem occursAt_reverse (s p : Str) (i : Nat) (hi : i + p.length ≤ s.length) :
    OccursAt s.reverse p.reverse (s.length - p.length - i) ↔ OccursAt s p i := by
  constructor
  · rintro ⟨a, b, h, ha⟩
    have h' := congrArg List.reverse h
    simp only [List.reverse_reverse, List.reverse_append, ← List.append_assoc] at h'
    refine ⟨b.reverse, a.reverse, h', ?_⟩
    have hl := congrArg List.length h'
    simp at hl ⊢
    omega
  · rintro ⟨a, b, rfl, rfl⟩
    refine ⟨b.reverse, a.reverse, by simp, ?_⟩
    simp; omega

/-! ### Loops -/

theorem allM_spec (P : Nat → Outcome Bool) (Q : Nat → Prop) (n : Nat) : ∀ start,
    (∀ i, start ≤ i → i < start + n → ∃ b, P i = .ok b ∧ (b = true ↔ Q i)) →
    ∃ b, allM P start n = .ok b ∧ (b = true ↔ ∀ i, start ≤ i → i < start + n → Q i) := by
  induction n with
  | zero => intro start _; exact ⟨true, rfl, by simp; intro i h1 h2; omega⟩
  | succ n ih =>
    intro start h
    obtain ⟨b, hb, hq⟩ := h start (by omega) (by omega)
    obtain ⟨c, hc, hr⟩ := ih (start + 1) (fun i h1 h2 => h i (by omega) (by omega))
    simp only [allM, hb, Outcome.bind_eq, Outcome.bind_ok]
    cases b with
    | true =>
      refine ⟨c, by simpa using hc, hr.trans ?_⟩
      constructor
      · intro hA i h1 h2
        rcases Nat.eq_or_lt_of_le h1 with rfl | h1
        · exact hq.mp rfl
        · exact hA i (by omega) (by omega)
      · intro hA i h1 h2; exact hA i (by omega) (by omega)
    | false =>
      refine ⟨false, by simp, ?_⟩
      constructor
      · intro h; simp at h
      · intro hA; exact hq.mpr (hA start (by omega) (by omega))

theorem firstM_spec (P : Nat → Outcome Bool) (Q : Nat → Prop) (n : Nat) : ∀ start,
    (∀ i, start ≤ i → i < start + n → ∃ b, P i = .ok b ∧ (b = true ↔ Q i)) →
    ∃ r, firstM P start n = .ok r ∧
      ((∃ i : Nat, r = i ∧ start ≤ i ∧ i < start + n ∧ Q i ∧ ∀ j, start ≤ j → j < i → ¬ Q j) ∨
       (r = -1 ∧ ∀ j, start ≤ j → j < start + n → ¬ Q j)) := by
  induction n with
  | zero => intro start _; exact ⟨-1, rfl, Or.inr ⟨rfl, by intro j h1 h2; omega⟩⟩
  | succ n ih =>
    intro start h
    obtain ⟨b, hb, hq⟩ := h start (by omega) (by omega)
    obtain ⟨c, hc, hr⟩ := ih (start + 1) (fun i h1 h2 => h i (by omega) (by omega))
    simp only [firstM, hb, Outcome.bind_eq, Outcome.bind_ok]
    cases b with
    | true => exact ⟨start, by simp, Or.inl ⟨start, rfl, by omega, by omega, hq.mp rfl, by intro j h1 h2; omega⟩⟩
    | false =>
      have hnq : ¬ Q start := fun h => by simpa using hq.mpr h
      refine ⟨c, by simpa using hc, ?_⟩
      rcases hr with ⟨i, rfl, h1, h2, h3, h4⟩ | ⟨rfl, h1⟩
      · left
        refine ⟨i, rfl, by omega, by omega, h3, ?_⟩
        intro j hj hji
        rcases Nat.eq_or_lt_of_le hj with rfl | hj
        · exact hnq
        · exact h4 j (by omega) hji
      · right
        refine ⟨rfl, ?_⟩
        intro j hj hji
        rcases Nat.eq_or_lt_of_le hj with rfl | hj
        · exact hnq
        · exact h1 j (by omega) (by omega)

theorem lastM_spec (P : Nat → Outcome Bool) (Q : Nat → Prop) (n : Nat) 
    (h : ∀ i, i < n → ∃ b, P i = .ok b ∧ (b = true ↔ Q i)) :
    ∃ r, lastM P n = .ok r ∧
      ((∃ i : Nat, r = i ∧ i < n ∧ Q i ∧ ∀ j, i < j → j < n → ¬ Q j) ∨
       (r = -1 ∧ ∀ j, j < n → ¬ Q j)) := by
  induction n with
  | zero => exact ⟨-1, rfl, Or.inr ⟨rfl, by intro j h1; omega⟩⟩
  | succ n ih =>
    obtain ⟨b, hb, hq⟩ := h n (by omega)
    obtain ⟨c, hc, hr⟩ := ih (fun i h1 => h i (by omega))
    simp only [lastM, hb, Outcome.bind_eq, Outcome.bind_ok]
    cases b with
    | true => exact ⟨n, by simp, Or.inl ⟨n, rfl, by omega, hq.mp rfl, by intro j h1 h2; omega⟩⟩
    | false =>
      have hnq : ¬ Q n := fun h => by simpa using hq.mpr h
      refine ⟨c, by simpa using hc, ?_⟩
      rcases hr with ⟨i, rfl, h1, h2, h3⟩ | ⟨rfl, h1⟩
      · left
        refine ⟨i, rfl, by omega, h2, ?_⟩
        intro j hj hjn
        by_cases hjn' : j = n
        · subst hjn'; exact hnq
        · exact h3 j hj (by omega)
      · right
        refine ⟨rfl, ?_⟩
        intro j hj
        by_cases hjn' : j = n
        · subst hjn'; exact hnq
        · exact h1 j (by omega)

theorem Str.at_getElem {s : Str} {i : Nat} (h : i < s.length) : Str.at s i = .ok s[i] :=
  Str.at_lt (List.getElem?_eq_getElem h)

theorem charAt_lt {s : Str} {i : Nat} (h : i < s.length) : charAt s i = .ok s[i] := by
  unfold charAt
  rw [if_neg]
  · simpa using Str.at_getElem h
  · simp [pastEnd]; omega

theorem take_len_eq {s p : Str} {i : Nat} (hi : i + p.length ≤ s.length) :
    OccursAt s p i ↔ ∀ k, (h : k < p.length) → p[k] = s[i + k]'(by omega) := by
  constructor
  · rintro ⟨a, b, rfl, rfl⟩ k hk
    simp [hk]
  · intro h
    rw [occursAt_iff]
    refine ⟨by omega, s.drop (i + p.length), ?_⟩
    apply List.ext_getElem
    · simp; omega
    · intro k h1 h2
      simp only [List.getElem_drop, List.getElem_append]
      by_cases hk : k < p.length
      · simp only [hk, dite_true]; exact (h k hk).symm
      · simp only [hk, dite_false]
        congr 1; omega

end Verif.JString
