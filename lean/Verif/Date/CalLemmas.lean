import Verif.Date.CalSpec
/-! # The formulas of the calendar are right -/
namespace Verif.Date

theorem leap_iff (y : Int) : leap y = true ↔ y % 4 = 0 ∧ (y % 100 ≠ 0 ∨ y % 400 = 0) := by simp [leap]

theorem leap_not (y : Int) : leap y = false ↔ ¬ (y % 4 = 0 ∧ (y % 100 ≠ 0 ∨ y % 400 = 0)) := by
  rw [← leap_iff]; cases leap y <;> simp

theorem yearStart_succ (y : Int) : yearStart (y + 1) = yearStart y + if leap y then 366 else 365 := by
  unfold yearStart leaps
  cases h : leap y with
  | true => rw [leap_iff] at h; simp only [if_true]; omega
  | false => rw [leap_not] at h; simp only [Bool.false_eq_true, if_false]; omega

theorem yearStart_lt {y z : Int} (h : y < z) : yearStart y + 365 ≤ yearStart z := by
  unfold yearStart leaps; omega

theorem yearOf_spec (n : Int) : yearStart (yearOf n) ≤ n ∧ n < yearStart (yearOf n + 1) := by
  unfold yearOf
  simp only
  generalize hq : (n + 719162) / 146097 = q
  generalize hr : (n + 719162) % 146097 = r
  have e : n + 719162 = 146097 * q + r := by omega
  have hr0 : 0 ≤ r := by omega
  have hr1 : r < 146097 := by omega
  clear hq hr
  generalize hk : r / 365 = k
  have hk0 : 0 ≤ k := by omega
  have hk1 : k ≤ 400 := by omega
  have hs : ∀ j : Int, yearStart (400 * q + j + 1) = 146097 * q - 719162 + 365 * j + (j / 4 - j / 100 + j / 400) := by
    intro j; unfold yearStart leaps; omega
  have h0 := hs k
  have h1 := hs (k - 1)
  have h2 := hs (k + 1)
  rw [show 400 * q + (k - 1) + 1 = 400 * q + k + 1 - 1 by omega] at h1
  rw [show 400 * q + (k + 1) + 1 = 400 * q + k + 1 + 1 by omega] at h2
  split
  · rw [show 400 * q + k + 1 - 1 + 1 = 400 * q + k + 1 by omega]
    constructor
    · rw [h1]; omega
    · assumption
  · constructor
    · omega
    · rw [h2]; omega

theorem yearOf_eq {n y : Int} (h1 : yearStart y ≤ n) (h2 : n < yearStart (y + 1)) : yearOf n = y := by
  have ⟨h3, h4⟩ := yearOf_spec n
  rcases Int.lt_trichotomy (yearOf n) y with h | h | h
  · have := yearStart_lt (y := yearOf n + 1) (z := y)
    by_cases e : yearOf n + 1 = y
    · rw [e] at h4; omega
    · have := this (by omega); omega
  · exact h
  · have := yearStart_lt (y := y + 1) (z := yearOf n)
    by_cases e : y + 1 = yearOf n
    · rw [e] at h2; omega
    · have := this (by omega); omega

/-! ## Months -/

theorem monthLength_eq (y m : Int) (h0 : 0 ≤ m) (h1 : m ≤ 11) :
    monthLength y m = (if m = 11 then (if leap y then 366 else 365) else monthStart (leap y) (m + 1)) - monthStart (leap y) m := by
  have hb : monthLength y 1 = if leap y then 29 else 28 := by
    unfold monthLength
    cases h : leap y with
    | true => rw [leap_iff] at h; simp only [if_true]; repeat' split
              all_goals omega
    | false => rw [leap_not] at h; simp only [Bool.false_eq_true, if_true, if_false]; repeat' split
               all_goals omega
  have : m = 0 ∨ m = 1 ∨ m = 2 ∨ m = 3 ∨ m = 4 ∨ m = 5 ∨ m = 6 ∨ m = 7 ∨ m = 8 ∨ m = 9 ∨ m = 10 ∨ m = 11 := by omega
  rcases this with rfl | rfl | rfl | rfl | rfl | rfl | rfl | rfl | rfl | rfl | rfl | rfl
  rotate_left
  · rw [hb]; cases leap y <;> decide
  all_goals
    · cases leap y <;> simp [monthLength, monthStart]

/-- Days of a month `m` of a year, counted from the beginning of the year. -/
def InMonth (lp : Bool) (m yd : Int) : Prop :=
  monthStart lp m ≤ yd ∧ yd < if m = 11 then (if lp then 366 else 365) else monthStart lp (m + 1)

instance (lp : Bool) (m yd : Int) : Decidable (InMonth lp m yd) := by unfold InMonth; infer_instance

theorem monthOf_table : ∀ (lp : Bool) (yd : Fin 366), (yd.val < if lp then 366 else 365) →
    0 ≤ monthOf lp yd.val ∧ monthOf lp yd.val ≤ 11 ∧ InMonth lp (monthOf lp yd.val) yd.val := by decide +kernel

theorem monthOf_spec (lp : Bool) (yd : Int) (h0 : 0 ≤ yd) (h1 : yd < if lp then 366 else 365) :
    0 ≤ monthOf lp yd ∧ monthOf lp yd ≤ 11 ∧ InMonth lp (monthOf lp yd) yd := by
  have hk : yd = (yd.toNat : Int) := by omega
  have hl : yd.toNat < 366 := by cases lp <;> simp at h1 <;> omega
  have := monthOf_table lp ⟨yd.toNat, hl⟩ (by cases lp <;> simp at h1 ⊢ <;> omega)
  simp only at this
  rw [hk]; exact this

theorem month_cases (m : Int) (h0 : 0 ≤ m) (h1 : m ≤ 11) : ∃ k : Fin 12, m = (k.val : Int) :=
  ⟨⟨m.toNat, by omega⟩, by simp only; omega⟩

theorem monthStart_table : ∀ (lp : Bool) (m k : Fin 12), (0 : Int) ≤ monthStart lp m.val ∧
    (if (m.val : Int) = 11 then (if lp then (366 : Int) else 365) else monthStart lp (m.val + 1)) ≤ (if lp then 366 else 365) ∧
    (m.val < k.val → monthStart lp (m.val + 1) ≤ monthStart lp k.val ∧ m.val ≠ 11) := by decide +kernel

theorem inMonth_bounds {lp : Bool} {m yd : Int} (h0 : 0 ≤ m) (h1 : m ≤ 11) (h : InMonth lp m yd) : 0 ≤ yd ∧ yd < if lp then 366 else 365 := by
  obtain ⟨k, rfl⟩ := month_cases m h0 h1
  have := monthStart_table lp k 0
  unfold InMonth at h
  omega

theorem inMonth_unique {lp : Bool} {m k yd : Int} (h0 : 0 ≤ m) (h1 : m ≤ 11) (h2 : 0 ≤ k) (h3 : k ≤ 11) (hm : InMonth lp m yd) (hk : InMonth lp k yd) : m = k := by
  obtain ⟨a, rfl⟩ := month_cases m h0 h1
  obtain ⟨b, rfl⟩ := month_cases k h2 h3
  have t1 := (monthStart_table lp a b).2.2
  have t2 := (monthStart_table lp b a).2.2
  unfold InMonth at hm hk
  rcases Nat.lt_trichotomy a.val b.val with h | h | h
  · have ⟨u, v⟩ := t1 h
    rw [if_neg (by omega)] at hm
    omega
  · rw [h]
  · have ⟨u, v⟩ := t2 h
    rw [if_neg (c := (b.val : Int) = 11) (by omega)] at hk
    omega

theorem monthOf_eq {lp : Bool} {yd m : Int} (h0 : 0 ≤ m) (h1 : m ≤ 11) (h : InMonth lp m yd) : monthOf lp yd = m := by
  have ⟨a, b⟩ := inMonth_bounds h0 h1 h
  have ⟨c, d, e⟩ := monthOf_spec lp yd a b
  exact inMonth_unique c d h0 h1 e h

/-! ## Days -/

theorem civil_spec (n : Int) : (civil n).Valid ∧ dayNumber (civil n).year (civil n).month (civil n).day = n := by
  have ⟨h1, h2⟩ := yearOf_spec n
  rw [yearStart_succ] at h2
  have hm := monthOf_spec (leap (yearOf n)) (n - yearStart (yearOf n)) (by omega) (by omega)
  unfold civil Day.Valid dayNumber
  simp only
  generalize monthOf (leap (yearOf n)) (n - yearStart (yearOf n)) = m at hm ⊢
  obtain ⟨a, b, c, d⟩ := hm
  rw [monthLength_eq _ _ a b]
  have e1 : m / 12 = 0 := by omega
  have e2 : m % 12 = m := by omega
  rw [e1, e2, Int.add_zero]
  refine ⟨⟨a, b, by omega, ?_⟩, by omega⟩
  omega

theorem civil_dayNumber (d : Day) (h : d.Valid) : civil (dayNumber d.year d.month d.day) = d := by
  obtain ⟨y, m, d⟩ := d
  obtain ⟨a, b, c, e⟩ := h
  simp only at a b c e ⊢
  rw [monthLength_eq _ _ a b] at e
  have e1 : m / 12 = 0 := by omega
  have e2 : m % 12 = m := by omega
  have hn : dayNumber y m d = yearStart y + monthStart (leap y) m + (d - 1) := by
    unfold dayNumber; simp only [e1, e2, Int.add_zero]
  have hi : InMonth (leap y) m (dayNumber y m d - yearStart y) := by
    unfold InMonth; rw [hn]; omega
  have ⟨h0, hl⟩ := inMonth_bounds a b hi
  have hy : yearOf (dayNumber y m d) = y := by
    apply yearOf_eq
    · omega
    · rw [yearStart_succ]; omega
  have hm : monthOf (leap y) (dayNumber y m d - yearStart y) = m := by
    exact monthOf_eq a b hi
  unfold civil
  simp only [hy, hm]
  rw [hn]
  congr 1
  omega

theorem dayNumber_next (d : Day) (h : d.Valid) : dayNumber d.next.year d.next.month d.next.day = dayNumber d.year d.month d.day + 1 ∧ d.next.Valid := by
  obtain ⟨y, m, d⟩ := d
  obtain ⟨a, b, c, e⟩ := h
  simp only at a b c e ⊢
  have hf : ∀ y m d, 0 ≤ m → m ≤ 11 → dayNumber y m d = yearStart y + monthStart (leap y) m + (d - 1) := by
    intro y m d a b
    have e1 : m / 12 = 0 := by omega
    have e2 : m % 12 = m := by omega
    unfold dayNumber; simp only [e1, e2, Int.add_zero]
  have hpos : ∀ y m, 28 ≤ monthLength y m := by
    intro y m; unfold monthLength; repeat' split
    all_goals omega
  unfold Day.next
  simp only
  split
  · rename_i hlt
    refine ⟨?_, a, b, ?_, ?_⟩
    · simp only; rw [hf _ _ _ a b, hf _ _ _ a b]; omega
    · simp only; omega
    · simp only; omega
  · rename_i hlt
    have hd : d = monthLength y m := by omega
    rw [monthLength_eq _ _ a b] at hd
    split
    · refine ⟨?_, ?_, ?_, ?_, ?_⟩
      · simp only
        rw [hf _ _ _ (by omega) (by omega), hf _ _ _ a b]
        rw [if_neg (by omega)] at hd
        omega
      · simp only; omega
      · simp only; omega
      · simp only; omega
      · simp only; have := hpos y (m + 1); omega
    · have hm : m = 11 := by omega
      subst hm
      refine ⟨?_, ?_, ?_, ?_, ?_⟩
      · simp only
        rw [hf _ _ _ (by omega) (by omega), hf _ _ _ a b, yearStart_succ]
        rw [if_pos rfl] at hd
        have : ∀ lp, monthStart lp 0 = 0 := fun lp => rfl
        rw [this]
        omega
      · simp only; omega
      · simp only; omega
      · simp only; omega
      · simp only; have := hpos (y + 1) 0; omega

/-- Each day follows the one before. -/
theorem civil_succ (n : Int) : civil (n + 1) = (civil n).next := by
  have ⟨h1, h2⟩ := civil_spec n
  have ⟨h3, h4⟩ := dayNumber_next _ h1
  rw [h2] at h3
  rw [← h3]
  exact civil_dayNumber _ h4

theorem civil_zero : civil 0 = epoch := by decide

theorem after_civil (n : Int) (k : Nat) : (civil n).after k = civil (n + k) := by
  induction k with
  | zero => rw [Int.natCast_zero, Int.add_zero]; rfl
  | succ k ih =>
    rw [Day.after, ih, ← civil_succ]
    congr 1
    omega

/-- The day of every number. -/
theorem civil_isDay (n : Int) : IsDay n (civil n) := by
  refine ⟨(civil_spec n).1, ?_⟩
  rcases Int.le_total 0 n with h | h
  · left
    refine ⟨n.toNat, by omega, ?_⟩
    rw [← civil_zero, after_civil]
    congr 1; omega
  · right
    refine ⟨(-n).toNat, by omega, ?_⟩
    rw [← civil_zero, after_civil]
    congr 1; omega

/-- Days have one number. -/
theorem isDay_iff (n : Int) (d : Day) : IsDay n d ↔ d = civil n := by
  constructor
  · rintro ⟨hv, h | h⟩
    · obtain ⟨k, rfl, rfl⟩ := h
      rw [← civil_zero, after_civil, Int.zero_add]
    · obtain ⟨k, rfl, h⟩ := h
      have hd := civil_dayNumber d hv
      rw [← hd, after_civil, ← civil_zero] at h
      have h1 := (civil_spec (dayNumber d.year d.month d.day + k)).2
      have h2 := (civil_spec 0).2
      rw [h] at h1
      have : dayNumber d.year d.month d.day = -k := by omega
      rw [← this, hd]
  · rintro rfl; exact civil_isDay n

theorem isDay_dayNumber (d : Day) (h : d.Valid) : IsDay (dayNumber d.year d.month d.day) d :=
  (isDay_iff _ _).mpr (civil_dayNumber d h).symm

end Verif.Date
