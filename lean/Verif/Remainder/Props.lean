import Verif.Remainder.Lemmas
/-!
# `Math.IEEERemainder`
-/
namespace Verif.Remainder
open Verif.Floats Verif.FloatText

/-- The `double` of a whole number. -/
@[irreducible] def whole (s : Bool) (a : Nat) : Flt := .fin s (a * 2 ^ f64.unit)

theorem whole_value (s : Bool) {a : Nat} (h : a < 2 ^ 53) : IsValue f64 (whole s a) := by
  unfold whole
  exact isValue_scaled f64_fits s h (by decide)

theorem remainder_whole (s t : Bool) {a b h : Nat} (ha : a < 2 ^ 52) (hb : b < 2 ^ 52) (hb0 : 0 < b) (h1 : 2 * h * b ≤ 2 * a + b) (h2 : 2 * a < (2 * h + 1) * b)
    (hz : a ≠ h * b) : ieeeRemainder f64 (whole s a) (whole t b) =
      whole (decide ((if s then (h * b : Int) else a) < (if s then (a : Int) else h * b))) ((a : Int) - h * b).natAbs := by
  unfold whole
  rw [remainder_scaled f64_fits s t ha hb hb0 (by decide) h1 h2, if_neg hz]

/-- Not the remainder of IEEE 754: of 1.0 and 2.0 it gives -1.0; the nearest whole numbers to the quotient are 0 and 1, and the
even one is 0. -/
theorem C229_half_wrong : ¬ ∀ x y, IsValue f64 x → IsValue f64 y → IsRemainder x y (ieeeRemainder f64 x y) := by
  intro h
  have h1 := h (whole false 1) (whole false 2) (whole_value _ (by decide)) (whole_value _ (by decide))
  have h2 : ieeeRemainder f64 (whole false 1) (whole false 2) = whole true 1 := by
    rw [remainder_whole false false (h := 1) (by decide) (by decide) (by decide) (by decide) (by decide) (by decide)]
    rfl
  rw [h2] at h1
  unfold IsRemainder whole at h1
  dsimp only at h1
  have hU : (2 ^ f64.unit : Nat) ≠ 0 := Nat.ne_of_gt (Nat.two_pow_pos _)
  rw [if_neg (by omega)] at h1
  obtain ⟨c, m, n, e1, e2, _, e4, _⟩ := h1
  injection e1 with ec em
  subst ec
  subst em
  have hn := e4 (by omega)
  have e2 : -((1 * 2 ^ f64.unit : Nat) : Int) = ((1 * 2 ^ f64.unit : Nat) : Int) - n * ((2 * 2 ^ f64.unit : Nat) : Int) := e2
  generalize hV : 2 ^ f64.unit = V at *
  have e3 : n * ((2 * V : Nat) : Int) = 2 * (n * (V : Int)) := by push_cast; rw [Int.mul_left_comm]
  have e5 : (n - 1) * (V : Int) = 0 := by rw [Int.sub_mul]; omega
  rcases Int.mul_eq_zero.mp e5 with h | h <;> omega

/-- Not even below the divisor: of 72057594037927296 and 7 it gives -8. -/
theorem C229_size_wrong : ieeeRemainder f64 (whole false 72057594037927296) (whole false 7) = whole true 8 := by decide +kernel

/-- And of 2^60 and 3 it gives 0, though the remainder is 1. -/
theorem C229_large_wrong : ieeeRemainder f64 (whole false (2 ^ 60)) (whole false 3) = .fin false 0 ∧ 2 ^ 60 = 384307168202282325 * 3 + 1 := by decide +kernel

/-- For an infinite divisor it gives NaN, whatever the dividend; IEEE 754 gives the dividend. -/
theorem C229_infinite_wrong (s t : Bool) (k : Nat) : ieeeRemainder f64 (.fin s k) (.inf t) = .nan := by
  have hz : roundF f64 (.fin (s != t) 0) = .fin (s != t) 0 := by
    cases s <;> cases t <;> decide +kernel
  show subF f64 (.fin s k) (mulF f64 (roundF f64 (.fin (s != t) 0)) (.inf t)) = .nan
  rw [hz]
  rfl

/-- Of -2.0 and 1.0 it gives 0.0 instead of -0.0. -/
theorem C229_sign_wrong : ieeeRemainder f64 (whole true 2) (whole false 1) = .fin false 0 := by decide +kernel

/-- NaN where IEEE 754 has NaN: for an argument that is NaN, an infinite dividend, a divisor that is zero. -/
theorem C229_nan_partial (f : Fmt) (x y : Flt) (h : x = .nan ∨ y = .nan ∨ (∃ s, x = .inf s) ∨ ∃ t, y = .fin t 0) : ieeeRemainder f x y = .nan := by
  rcases h with rfl | rfl | ⟨s, rfl⟩ | ⟨t, rfl⟩
  · rfl
  · cases x <;> rfl
  · cases y with
    | nan => rfl
    | inf t => rfl
    | fin t l =>
      show subF f (.inf s) (if l = 0 then .nan else .inf ((s != t) != t)) = .nan
      by_cases hl : l = 0
      · rw [if_pos hl]; rfl
      · rw [if_neg hl]
        cases s <;> cases t <;> rfl
  · cases x with
    | nan => rfl
    | inf s => rfl
    | fin s k =>
      show subF f (.fin s k) (mulF f (roundF f (if k = 0 then .nan else .inf (s != t))) (.fin t 0)) = .nan
      by_cases hk : k = 0
      · rw [if_pos hk]; rfl
      · rw [if_neg hk]; rfl

/-- The remainder of IEEE 754 for values that are whole multiples, below 2^52, of one power of two (whole numbers below 2^52
among them), unless the quotient lies half way above an even number or the remainder of a negative value is zero. -/
theorem C229_remainder_partial (s t : Bool) {a b e : Nat} (ha : a < 2 ^ 52) (hb : b < 2 ^ 52) (hb0 : 0 < b) (he : e ≤ 2045)
    (hhalf : 2 * (a % b) = b → a / b % 2 = 1) (hzero : s = true → a % b ≠ 0) :
    IsRemainder (.fin s (a * 2 ^ e)) (.fin t (b * 2 ^ e)) (ieeeRemainder f64 (.fin s (a * 2 ^ e)) (.fin t (b * 2 ^ e))) := by
  have hep := Nat.two_pow_pos e
  have hdm := Nat.div_add_mod a b
  have hml := Nat.mod_lt a hb0
  -- the whole number nearest to the quotient
  obtain ⟨h, h1, h2, h3⟩ : ∃ h : Nat, 2 * h * b ≤ 2 * a + b ∧ 2 * a < (2 * h + 1) * b ∧ (2 * h * b = 2 * a + b → h % 2 = 0) ∧ (a = h * b → a % b = 0) := by
    generalize hq : a / b = q at *
    generalize hr : a % b = r at *
    have hm : q * b = b * q := Nat.mul_comm _ _
    by_cases hlt : 2 * r < b
    · refine ⟨q, ?_, ?_, ?_, ?_⟩
      · rw [Nat.mul_assoc]; omega
      · rw [Nat.add_mul, Nat.one_mul, Nat.mul_assoc]; omega
      · rw [Nat.mul_assoc]; omega
      · omega
    · have hm1 : (q + 1) * b = b * q + b := by rw [Nat.add_mul, Nat.one_mul, hm]
      refine ⟨q + 1, ?_, ?_, ?_, ?_⟩
      · rw [Nat.mul_assoc]; omega
      · rw [Nat.add_mul, Nat.one_mul, Nat.mul_assoc]; omega
      · rw [Nat.mul_assoc]; omega
      · omega
  rw [remainder_scaled f64_fits s t ha hb hb0 he h1 h2]
  unfold IsRemainder
  dsimp only
  rw [if_neg (Nat.ne_of_gt (Nat.mul_pos hb0 hep))]
  have hhb : 2 * h * b = 2 * (h * b) := Nat.mul_assoc ..
  have hhb1 : (2 * h + 1) * b = 2 * (h * b) + b := by rw [Nat.add_mul, Nat.one_mul, hhb]
  have hcast : ((h * b : Nat) : Int) = (h : Int) * b := by push_cast; rfl
  by_cases hz : a = h * b
  · rw [if_pos hz]
    have hs : s = false := by
      cases s with
      | false => rfl
      | true => exact absurd (h3.2 hz) (hzero rfl)
    subst hs
    refine ⟨false, 0, if t then -(h : Int) else h, rfl, ?_, Nat.zero_le _, ?_, fun _ => rfl⟩
    · cases t <;> simp [num, hz] <;> grind
    · intro h0
      have := Nat.mul_pos hb0 hep
      omega
  · rw [if_neg hz]
    refine ⟨_, _, if s = t then (h : Int) else -h, rfl, ?_, ?_, ?_, ?_⟩
    · have hnum : ∀ z : Int, num (decide (z < 0)) (z.natAbs * 2 ^ e) = z * 2 ^ e := by
        intro z
        unfold num
        by_cases hn : z < 0
        · rw [if_pos (by simpa using hn)]
          have : ((z.natAbs : Nat) : Int) = -z := by omega
          push_cast
          rw [this]
          grind
        · rw [if_neg (by simpa using hn)]
          have : ((z.natAbs : Nat) : Int) = z := by omega
          push_cast
          rw [this]
      cases s with
      | false =>
        have := hnum ((a : Int) - h * b)
        have hd : decide ((a : Int) < h * b) = decide ((a : Int) - h * b < 0) := by rw [decide_eq_decide]; omega
        simp only [Bool.false_eq_true, if_false]
        rw [hd, this]
        cases t <;> simp [num] <;> grind
      | true =>
        have := hnum (h * b - (a : Int))
        have hd : decide ((h : Int) * b < a) = decide ((h : Int) * b - a < 0) := by rw [decide_eq_decide]; omega
        have ha : ((a : Int) - h * b).natAbs = ((h : Int) * b - a).natAbs := by omega
        simp only [if_true]
        rw [hd, ha, this]
        cases t <;> simp [num] <;> grind
    · have : 2 * ((a : Int) - h * b).natAbs ≤ b := by omega
      calc 2 * (((a : Int) - h * b).natAbs * 2 ^ e) = 2 * ((a : Int) - h * b).natAbs * 2 ^ e := (Nat.mul_assoc ..).symm
        _ ≤ b * 2 ^ e := Nat.mul_le_mul_right _ this
    · intro h0
      rw [← Nat.mul_assoc] at h0
      have h4 := Nat.eq_of_mul_eq_mul_right hep h0
      have h5 : h % 2 = 0 := h3.1 (by omega)
      split <;> omega
    · intro h0
      rcases Nat.mul_eq_zero.mp h0 with h0 | h0 <;> omega

/-- The same for whole numbers below 2^52. -/
theorem C229_whole_partial (s t : Bool) {a b : Nat} (ha : a < 2 ^ 52) (hb : b < 2 ^ 52) (hb0 : 0 < b)
    (hhalf : 2 * (a % b) = b → a / b % 2 = 1) (hzero : s = true → a % b ≠ 0) :
    IsRemainder (whole s a) (whole t b) (ieeeRemainder f64 (whole s a) (whole t b)) := by
  unfold whole
  have h := fun e (he : e ≤ 2045) => C229_remainder_partial s t (e := e) ha hb hb0 he hhalf hzero
  generalize hu : f64.unit = u
  exact h u (by rw [← hu]; decide)

/-- 8.0 and 6.0 (the case of the unit test), and -7 and 2, whose quotient lies half way above an odd number. -/
example : IsRemainder (whole false 8) (whole false 6) (ieeeRemainder f64 (whole false 8) (whole false 6)) :=
  C229_whole_partial false false (by decide) (by decide) (by decide) (by decide) (by decide)
example : IsRemainder (whole true 7) (whole false 2) (ieeeRemainder f64 (whole true 7) (whole false 2)) :=
  C229_whole_partial true false (by decide) (by decide) (by decide) (by decide) (by decide)
/-- The same at every scale: 11 and -3 times any power of two in range. -/
example (e : Nat) (he : e ≤ 2045) : IsRemainder (.fin false (11 * 2 ^ e)) (.fin true (3 * 2 ^ e)) (ieeeRemainder f64 (.fin false (11 * 2 ^ e)) (.fin true (3 * 2 ^ e))) :=
  C229_remainder_partial false true (by decide) (by decide) (by decide) he (by decide) (by decide)
example : IsValue f64 (whole false 72057594037927296) := by
  have h : whole false 72057594037927296 = .fin false (4503599627370456 * 2 ^ (f64.unit + 4)) := by
    unfold whole
    rw [Nat.pow_add]
    generalize 2 ^ f64.unit = V
    congr 1
    omega
  rw [h]
  exact isValue_scaled f64_fits false (by decide) (by decide)
/-- What `C229_size_wrong` gives is no remainder. -/
example : ¬ IsRemainder (whole false 72057594037927296) (whole false 7) (whole true 8) := by
  unfold IsRemainder whole
  dsimp only
  have hU : (2 ^ f64.unit : Nat) ≠ 0 := Nat.ne_of_gt (Nat.two_pow_pos _)
  generalize 2 ^ f64.unit = V at *
  rw [if_neg (by omega)]
  rintro ⟨c, m, n, e1, _, e3, _⟩
  injection e1 with _ em
  omega

end Verif.Remainder
