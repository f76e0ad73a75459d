import Verif.FloatText.Lemmas
/-!
# The value nearest to a fraction
-/
namespace Verif.FloatText
open Verif.Floats

/-- The exponent of the place that is rounded. -/
def place (f : Fmt) (a b : Nat) : Nat := (a * 2 ^ f.unit / b).log2 - f.p

theorem place_lt {f : Fmt} {a b : Nat} (hb : 0 < b) :
    a * 2 ^ f.unit < 2 ^ (f.p + 1) * (b * 2 ^ place f a b) := by
  have h1 : a * 2 ^ f.unit / b < 2 ^ ((a * 2 ^ f.unit / b).log2 + 1) := Nat.lt_log2_self
  have h2 : 2 ^ ((a * 2 ^ f.unit / b).log2 + 1) ≤ 2 ^ (f.p + 1 + place f a b) :=
    Nat.pow_le_pow_right (by decide) (by unfold place; omega)
  have h3 := (Nat.div_lt_iff_lt_mul hb).1 (Nat.lt_of_lt_of_le h1 h2)
  rw [Nat.pow_add, Nat.mul_assoc, Nat.mul_comm _ b] at h3
  exact h3

theorem place_le {f : Fmt} {a b : Nat} (hb : 0 < b) (he : place f a b ≠ 0) :
    2 ^ f.p * (b * 2 ^ place f a b) ≤ a * 2 ^ f.unit := by
  have h0 : a * 2 ^ f.unit / b ≠ 0 := by
    intro h; apply he; unfold place; rw [h, Nat.log2_zero, Nat.zero_sub]
  have h1 := Nat.log2_self_le h0
  have h2 : (a * 2 ^ f.unit / b).log2 = f.p + place f a b := by unfold place at he ⊢; omega
  rw [h2] at h1
  have h3 := (Nat.le_div_iff_mul_le hb).1 h1
  rw [Nat.pow_add, Nat.mul_assoc, Nat.mul_comm _ b] at h3
  exact h3

theorem place_eq {f : Fmt} {a b e : Nat} (hb : 0 < b)
    (h1 : a * 2 ^ f.unit < 2 ^ (f.p + 1) * (b * 2 ^ e))
    (h2 : e = 0 ∨ 2 ^ f.p * (b * 2 ^ e) ≤ a * 2 ^ f.unit) : place f a b = e := by
  have e1 : 2 ^ (f.p + 1) * (b * 2 ^ e) = 2 ^ (f.p + e + 1) * b := by
    rw [show f.p + e + 1 = f.p + 1 + e by omega, Nat.pow_add 2 (f.p + 1) e, Nat.mul_assoc, Nat.mul_comm b]
  have e2 : 2 ^ f.p * (b * 2 ^ e) = 2 ^ (f.p + e) * b := by
    rw [Nat.pow_add 2 f.p e, Nat.mul_assoc, Nat.mul_comm b]
  rw [e1] at h1
  rw [e2] at h2
  have h3 := (Nat.div_lt_iff_lt_mul hb).2 h1
  unfold place
  by_cases h0 : a * 2 ^ f.unit / b = 0
  · rw [h0, Nat.log2_zero]
    rcases h2 with h2 | h2
    · omega
    · have := (Nat.le_div_iff_mul_le hb).2 h2
      have := Nat.two_pow_pos (f.p + e)
      omega
  · have h4 := (Nat.log2_lt h0).2 h3
    rcases h2 with h2 | h2
    · omega
    · have := (Nat.le_log2 h0).2 ((Nat.le_div_iff_mul_le hb).2 h2)
      omega

/-- A value with a number of even last bit, if `ev`. -/
def Bits (f : Fmt) (ev : Prop) (x : Flt) : Prop :=
  ∃ b, (ev → b % 2 = 0) ∧ b < 2 ^ (f.p + f.w + 1) ∧ ieee f b = x

theorem bits_mag {f : Fmt} {e m : Nat} {ev : Prop} (neg : Bool) (hp0 : 0 < f.p) (he : e < 2 ^ f.w - 1)
    (hm : m < 2 ^ f.p) (hev : ev → m % 2 = 0) : Bits f ev (.fin neg (mag f e m)) := by
  have hlt : e * 2 ^ f.p + m < 2 ^ f.last := by
    have : (e + 1) * 2 ^ f.p ≤ 2 ^ f.w * 2 ^ f.p := Nat.mul_le_mul_right _ (by omega)
    rw [Nat.add_mul, Nat.one_mul, ← Nat.pow_add, Nat.add_comm f.w] at this
    have hl : f.last = f.p + f.w := rfl
    rw [hl]; omega
  have hp := ieee_pos (f := f) (e := e) (m := m) (by omega) hm
  rw [if_neg (by omega)] at hp
  have e2 : 2 ^ (f.p + f.w + 1) = 2 ^ f.last * 2 := Nat.pow_succ ..
  have h2 : 2 ∣ 2 ^ f.p := by
    obtain ⟨c, hc⟩ : ∃ c, f.p = c + 1 := ⟨f.p - 1, by omega⟩
    rw [hc, Nat.pow_succ]; exact Nat.dvd_mul_left ..
  have h3 : 2 ∣ e * 2 ^ f.p := Nat.dvd_trans h2 (Nat.dvd_mul_left ..)
  have h4 : 2 ∣ 2 ^ f.last := by
    have : f.last = f.p + f.w := rfl
    rw [this, Nat.pow_add]; exact Nat.dvd_trans h2 (Nat.dvd_mul_right ..)
  cases neg
  · exact ⟨_, fun h => by have := hev h; omega, by omega, hp⟩
  · exact ⟨e * 2 ^ f.p + m + 2 ^ f.last, fun h => by have := hev h; omega, by omega,
      by rw [ieee_opp hlt, hp]; rfl⟩

/-- Which numbers of units are values. -/
theorem bits_of {f : Fmt} {q e : Nat} (neg : Bool) (hp0 : 0 < f.p) (hq : q ≤ 2 ^ (f.p + 1))
    (h : e = 0 ∨ 2 ^ f.p ≤ q) (hw : 4 ≤ 2 ^ f.w) (hl : q * 2 ^ e ≤ largest f) :
    Bits f (q % 2 = 0) (.fin neg (q * 2 ^ e)) := by
  have hP := Nat.two_pow_pos f.p
  have e0 : 2 ^ (f.p + 1) = 2 ^ f.p * 2 := Nat.pow_succ ..
  have h22 : 2 ^ f.p % 2 = 0 := by
    obtain ⟨c, hc⟩ : ∃ c, f.p = c + 1 := ⟨f.p - 1, by omega⟩
    rw [hc, Nat.pow_succ]; omega
  have hlarge : largest f < 2 ^ (f.p + 1 + (2 ^ f.w - 3)) := by
    unfold largest
    rw [Nat.pow_add 2 (f.p + 1)]
    exact Nat.mul_lt_mul_of_pos_right (by omega) (Nat.two_pow_pos _)
  have hexp : ∀ j, 2 ^ (f.p + j) ≤ q * 2 ^ e → j ≤ 2 ^ f.w - 3 := by
    intro j hj
    have := Nat.lt_of_le_of_lt (Nat.le_trans hj hl) hlarge
    have := (Nat.pow_lt_pow_iff_right (a := 2) (by decide)).1 this
    omega
  by_cases h1 : q < 2 ^ f.p
  · have he : e = 0 := by omega
    subst he
    have := bits_mag (f := f) (e := 0) (m := q) (ev := q % 2 = 0) neg hp0 (by omega) h1 id
    unfold mag at this
    rw [if_pos rfl] at this
    rw [Nat.pow_zero, Nat.mul_one]
    exact this
  · by_cases h2 : q = 2 ^ (f.p + 1)
    · have hj := hexp (e + 1) (by rw [h2, ← Nat.pow_add]; apply Nat.pow_le_pow_right (by decide); omega)
      have := bits_mag (f := f) (e := e + 2) (m := 0) (ev := q % 2 = 0) neg hp0 (by omega) hP
        (fun _ => rfl)
      unfold mag at this
      rw [if_neg (by omega), Nat.add_zero, show e + 2 - 1 = e + 1 by omega] at this
      have e3 : 2 ^ f.p * 2 ^ (e + 1) = q * 2 ^ e := by rw [h2, ← Nat.pow_add, ← Nat.pow_add]; congr 1; omega
      rw [e3] at this
      exact this
    · have hj := hexp e (by rw [Nat.pow_add]; exact Nat.mul_le_mul_right _ (by omega))
      have := bits_mag (f := f) (e := e + 1) (m := q - 2 ^ f.p) (ev := q % 2 = 0) neg hp0 (by omega)
        (by omega) (by omega)
      unfold mag at this
      rw [if_neg (by omega), show e + 1 - 1 = e by omega, show 2 ^ f.p + (q - 2 ^ f.p) = q by omega] at this
      exact this

theorem largest_top {f : Fmt} (b : Nat) :
    (2 * largest f + 2 ^ (2 ^ f.w - 3)) * b = (2 * (2 ^ (f.p + 1) - 1) + 1) * (b * 2 ^ (2 ^ f.w - 3)) := by
  unfold largest
  grind

/-- `nearest` rounds as IEEE 754 does. -/
theorem nearest_rounded {f : Fmt} (hp0 : 0 < f.p) (hw : 4 ≤ 2 ^ f.w) (neg : Bool) {a b : Nat} (hb : 0 < b) :
    Rounded f neg a b (nearest f neg a b) := by
  have hP := Nat.two_pow_pos f.p
  have e0 : 2 ^ (f.p + 1) = 2 ^ f.p * 2 := Nat.pow_succ ..
  have hlt := place_lt (f := f) (a := a) hb
  have hle := place_le (f := f) (a := a) hb
  have hE := largest_top (f := f) b
  have hdef : nearest f neg a b =
      if largest f < divEven (a * 2 ^ f.unit) (b * 2 ^ place f a b) * 2 ^ place f a b then .inf neg
      else .fin neg (divEven (a * 2 ^ f.unit) (b * 2 ^ place f a b) * 2 ^ place f a b) := rfl
  have hvals : ∀ l, (∃ a', IsValue f (.fin a' l)) → (∃ m, l = m * 2 ^ place f a b) ∨
      (place f a b ≠ 0 ∧ l ≤ 2 ^ f.p * 2 ^ place f a b) := by
    rintro l ⟨a', hl⟩
    rcases value_cases hl with h | ⟨_, h⟩ | ⟨_, e, m, he, hm, h⟩
    · cases h
    · cases h
    · injection h with _ h
      by_cases h1 : place f a b ≤ e - 1
      · left
        have : ∃ c, e - 1 = place f a b + c := ⟨e - 1 - place f a b, by omega⟩
        obtain ⟨c, hc⟩ := this
        rw [h]
        unfold mag
        split
        · have : place f a b = 0 := by omega
          rw [this]; exact ⟨m, by rw [Nat.pow_zero, Nat.mul_one]⟩
        · rw [hc, Nat.pow_add]
          exact ⟨(2 ^ f.p + m) * 2 ^ c, by rw [Nat.mul_comm (2 ^ place f a b), Nat.mul_assoc]⟩
      · right
        refine ⟨by omega, ?_⟩
        rw [h, ← Nat.pow_add]
        exact Nat.le_of_lt (Nat.lt_of_lt_of_le (mag_lt_pow hm)
          (Nat.pow_le_pow_right (by decide) (by omega)))
  unfold Rounded
  rw [hE, hdef]
  generalize place f a b = e at *
  unfold gap
  generalize a * 2 ^ f.unit = u at *
  have hB : 0 < b * 2 ^ e := Nat.mul_pos hb (Nat.two_pow_pos _)
  have hbest := divEven_best (a := u) hB
  have hq1 : divEven u (b * 2 ^ e) ≤ 2 ^ (f.p + 1) :=
    divEven_le hB (by rw [Nat.add_mul, Nat.one_mul, Nat.mul_assoc]; omega)
  have hq2 : e = 0 ∨ 2 ^ f.p ≤ divEven u (b * 2 ^ e) := by
    by_cases h : e = 0
    · exact .inl h
    · exact .inr (le_divEven hB (hle h))
  generalize hE' : 2 ^ f.w - 3 = E
  have hlargest : largest f = (2 ^ (f.p + 1) - 1) * 2 ^ E := by unfold largest; rw [hE']
  have hBE : ∀ x y : Nat, x ≤ y → b * 2 ^ x ≤ b * 2 ^ y := fun x y h =>
    Nat.mul_le_mul_left _ (Nat.pow_le_pow_right (by decide) h)
  by_cases hbig : (2 * (2 ^ (f.p + 1) - 1) + 1) * (b * 2 ^ E) ≤ 2 * u
  · rw [if_pos hbig, if_pos]
    -- the place is at least that of the largest
    have hEe : E ≤ e := by
      rcases Nat.lt_or_ge e E with h | h
      · exfalso
        have h1 : 2 * (b * 2 ^ e) ≤ b * 2 ^ E := by
          have := hBE (e + 1) E h
          rw [Nat.pow_succ] at this
          grind
        have h2 : 2 ^ (f.p + 1) * (2 * (b * 2 ^ e)) ≤ 2 ^ (f.p + 1) * (b * 2 ^ E) :=
          Nat.mul_le_mul_left _ h1
        have h3 : 2 ^ (f.p + 1) * (b * 2 ^ E) ≤ (2 * (2 ^ (f.p + 1) - 1) + 1) * (b * 2 ^ E) :=
          Nat.mul_le_mul_right _ (by omega)
        have h4 : 2 ^ (f.p + 1) * (2 * (b * 2 ^ e)) = 2 * (2 ^ (f.p + 1) * (b * 2 ^ e)) := by grind
        omega
      · exact h
    rw [hlargest]
    rcases Nat.eq_or_lt_of_le hEe with h | h
    · subst h
      have := divEven_odd hB (m := 2 ^ (f.p + 1) - 1) (by omega) hbig
      exact Nat.mul_lt_mul_of_pos_right (by omega) (Nat.two_pow_pos _)
    · have h1 : 2 ^ f.p ≤ divEven u (b * 2 ^ e) := by omega
      have h2 : 2 ^ f.p * 2 ^ e ≤ divEven u (b * 2 ^ e) * 2 ^ e := Nat.mul_le_mul_right _ h1
      have h3 : 2 ^ (f.p + 1) * 2 ^ E ≤ 2 ^ f.p * 2 ^ e := by
        rw [← Nat.pow_add, ← Nat.pow_add]; exact Nat.pow_le_pow_right (by decide) (by omega)
      have h4 : (2 ^ (f.p + 1) - 1) * 2 ^ E < 2 ^ (f.p + 1) * 2 ^ E :=
        Nat.mul_lt_mul_of_pos_right (by omega) (Nat.two_pow_pos _)
      omega
  · rw [if_neg hbig]
    have heE : e ≤ E := by
      rcases Nat.lt_or_ge E e with h | h
      · exfalso
        have h1 : 2 * (b * 2 ^ E) ≤ b * 2 ^ e := by
          have := hBE (E + 1) e h
          rw [Nat.pow_succ] at this
          grind
        have h2 : 2 ^ f.p * (2 * (b * 2 ^ E)) ≤ 2 ^ f.p * (b * 2 ^ e) := Nat.mul_le_mul_left _ h1
        have h3 := hle (by omega)
        have h4 : (2 * (2 ^ (f.p + 1) - 1) + 1) * (b * 2 ^ E) ≤ (2 ^ f.p * 4) * (b * 2 ^ E) :=
          Nat.mul_le_mul_right _ (by omega)
        have h5 : (2 ^ f.p * 4) * (b * 2 ^ E) = 2 * (2 ^ f.p * (2 * (b * 2 ^ E))) := by grind
        omega
      · exact h
    have hk : divEven u (b * 2 ^ e) * 2 ^ e ≤ largest f := by
      rw [hlargest]
      rcases Nat.eq_or_lt_of_le heE with h | h
      · subst h
        exact Nat.mul_le_mul_right _ (divEven_le hB (by omega))
      · have h1 : divEven u (b * 2 ^ e) * 2 ^ e ≤ 2 ^ (f.p + 1) * 2 ^ e := Nat.mul_le_mul_right _ hq1
        have h2 : 2 ^ (f.p + 1) * 2 ^ e ≤ 2 ^ f.p * 2 ^ E := by
          rw [← Nat.pow_add, ← Nat.pow_add]; exact Nat.pow_le_pow_right (by decide) (by omega)
        have h3 : 2 ^ f.p * 2 ^ E ≤ (2 ^ (f.p + 1) - 1) * 2 ^ E := Nat.mul_le_mul_right _ (by omega)
        omega
    rw [if_neg (by omega)]
    obtain ⟨bits, hev, hbits, hval⟩ := bits_of neg hp0 hq1 hq2 hw hk
    have h22 : 2 ^ f.p % 2 = 0 := by
      obtain ⟨c, hc⟩ : ∃ c, f.p = c + 1 := ⟨f.p - 1, by omega⟩
      rw [hc, Nat.pow_succ]; omega
    have htie := fun m h ho => divEven_tie (a := u) (m := m) hB h ho
    refine ⟨_, rfl, ⟨bits, hbits, hval⟩, ?_⟩
    intro a' l hl
    rcases Nat.mod_two_eq_zero_or_one (divEven u (b * 2 ^ e)) with hmod | hmod
    case' inl => refine ⟨?_, fun _ => .inr ⟨bits, hev hmod, hbits, hval⟩⟩
    have ek : divEven u (b * 2 ^ e) * 2 ^ e * b = divEven u (b * 2 ^ e) * (b * 2 ^ e) := by grind
    rw [ek]
    rcases hvals l ⟨a', hl⟩ with ⟨m, rfl⟩ | ⟨h1, h2⟩
    · have := hbest m
      have em : m * 2 ^ e * b = m * (b * 2 ^ e) := by grind
      rw [em]
      exact this
    · have h3 := hbest (2 ^ f.p)
      have h4 := hle h1
      have h5 : l * b ≤ 2 ^ f.p * 2 ^ e * b := Nat.mul_le_mul_right _ h2
      have e5 : 2 ^ f.p * 2 ^ e * b = 2 ^ f.p * (b * 2 ^ e) := by grind
      rw [e5] at h5
      generalize 2 ^ f.p * (b * 2 ^ e) = x at *
      generalize l * b = y at *
      generalize divEven u (b * 2 ^ e) * (b * 2 ^ e) = z at *
      omega
    case inr =>
      have ek : divEven u (b * 2 ^ e) * 2 ^ e * b = divEven u (b * 2 ^ e) * (b * 2 ^ e) := by grind
      rw [ek]
      rcases hvals l ⟨a', hl⟩ with ⟨m, rfl⟩ | ⟨h1, h2⟩
      · have em : m * 2 ^ e * b = m * (b * 2 ^ e) := by grind
        rw [em]
        by_cases h : m = divEven u (b * 2 ^ e)
        · subst h
          exact ⟨Nat.le_refl _, fun _ => .inl rfl⟩
        · have := htie m h hmod
          exact ⟨Nat.le_of_lt this, fun h => absurd h (Nat.ne_of_lt this)⟩
      · have h3 := htie (2 ^ f.p) (by intro h; rw [h] at h22; omega) hmod
        have h4 := hle h1
        have h5 : l * b ≤ 2 ^ f.p * 2 ^ e * b := Nat.mul_le_mul_right _ h2
        have e5 : 2 ^ f.p * 2 ^ e * b = 2 ^ f.p * (b * 2 ^ e) := by grind
        rw [e5] at h5
        generalize 2 ^ f.p * (b * 2 ^ e) = x at *
        generalize l * b = y at *
        generalize divEven u (b * 2 ^ e) * (b * 2 ^ e) = z at *
        omega

/-- A fraction close enough to a value is rounded to it. -/
theorem nearest_close {f : Fmt} (neg : Bool) {a b s e : Nat} (hb : 0 < b) (hs : s < 2 ^ (f.p + 1))
    (h1 : 2 * (a * 2 ^ f.unit) < (2 * s + 1) * (b * 2 ^ e))
    (h2 : 2 * s * (b * 2 ^ e) < 2 * (a * 2 ^ f.unit) + b * 2 ^ e)
    (h3 : e = 0 ∨ 2 ^ f.p < s ∨ (s = 2 ^ f.p ∧ s * (b * 2 ^ e) ≤ a * 2 ^ f.unit))
    (hl : s * 2 ^ e ≤ largest f) : nearest f neg a b = .fin neg (s * 2 ^ e) := by
  have hpl : place f a b = e := by
    refine place_eq hb ?_ ?_
    · have h4 : (2 * s + 1) * (b * 2 ^ e) ≤ (2 * 2 ^ (f.p + 1)) * (b * 2 ^ e) :=
        Nat.mul_le_mul_right _ (by omega)
      have h5 : (2 * 2 ^ (f.p + 1)) * (b * 2 ^ e) = 2 * (2 ^ (f.p + 1) * (b * 2 ^ e)) := by grind
      omega
    · rcases h3 with h3 | h3 | ⟨rfl, h3⟩
      · exact .inl h3
      · right
        have h4 : (2 * (2 ^ f.p) + 1) * (b * 2 ^ e) ≤ (2 * s - 1) * (b * 2 ^ e) :=
          Nat.mul_le_mul_right _ (by omega)
        have h5 : (2 * s - 1) * (b * 2 ^ e) + b * 2 ^ e = 2 * s * (b * 2 ^ e) := by
          rw [Nat.sub_mul, Nat.one_mul]
          have : 1 * (b * 2 ^ e) ≤ 2 * s * (b * 2 ^ e) := Nat.mul_le_mul_right _ (by omega)
          omega
        have h6 : (2 * (2 ^ f.p) + 1) * (b * 2 ^ e) = 2 * (2 ^ f.p * (b * 2 ^ e)) + b * 2 ^ e := by grind
        omega
      · exact .inr h3
  have hdef : nearest f neg a b =
      if largest f < divEven (a * 2 ^ f.unit) (b * 2 ^ place f a b) * 2 ^ place f a b then .inf neg
      else .fin neg (divEven (a * 2 ^ f.unit) (b * 2 ^ place f a b) * 2 ^ place f a b) := rfl
  rw [hdef, hpl, divEven_eq h1 h2, if_neg (by omega)]

/-- A fraction that is a value is that value. -/
theorem nearest_exact {f : Fmt} (F : f.Fits) (neg : Bool) {a b k : Nat} (hb : 0 < b)
    (hk : IsValue f (.fin neg k)) (h : a * 2 ^ f.unit = k * b) : nearest f neg a b = .fin neg k := by
  have hw := F.hw
  have hP := Nat.two_pow_pos f.p
  have e0 : 2 ^ (f.p + 1) = 2 ^ f.p * 2 := Nat.pow_succ ..
  rcases value_cases hk with h' | ⟨_, h'⟩ | ⟨_, e, m, he, hm, h'⟩
  · cases h'
  · cases h'
  · injection h' with _ h'
    have key : ∀ s e, s < 2 ^ (f.p + 1) → e ≤ 2 ^ f.w - 3 → (e = 0 ∨ 2 ^ f.p ≤ s) → k = s * 2 ^ e →
        nearest f neg a b = .fin neg k := by
      intro s e hs he h0 hk
      have hB : 0 < b * 2 ^ e := Nat.mul_pos hb (Nat.two_pow_pos _)
      have e1 : k * b = s * (b * 2 ^ e) := by rw [hk]; grind
      rw [e1] at h
      rw [hk]
      refine nearest_close neg hb hs ?_ ?_ ?_ ?_
      · rw [h, Nat.add_mul, Nat.mul_assoc]; omega
      · rw [h, Nat.mul_assoc]; omega
      · rcases h0 with h0 | h0
        · exact .inl h0
        · rcases Nat.eq_or_lt_of_le h0 with h0 | h0
          · exact .inr (.inr ⟨h0.symm, by omega⟩)
          · exact .inr (.inl h0)
      · unfold largest
        exact Nat.mul_le_mul (by omega) (Nat.pow_le_pow_right (by decide) he)
    unfold mag at h'
    split at h'
    · exact key m 0 (by omega) (by omega) (.inl rfl) (by rw [h', Nat.pow_zero, Nat.mul_one])
    · exact key _ (e - 1) (by omega) (by omega) (.inr (by omega)) h'

end Verif.FloatText
