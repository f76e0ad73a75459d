import Verif.Floats.BitsProps
/-!
# Properties C138 to C144: tests, constants and conversions of `Double` and `Float`, and the
floating point functions of `Math`

`f` is `f64` for `Double` and `f32` for `Float`. Values are given by their bits (`ieee`).
-/
namespace Verif.Floats

/-! ### C138: `isNaN`, `isInfinite`, `isFinite` -/

theorem max_mag {f : Fmt} (F : f.Fits) :
    (2 ^ (f.p + 1) - 1) * 2 ^ (2 ^ f.w - 3) = mag f (2 ^ f.w - 2) (2 ^ f.p - 1) := by
  have := F.hw
  have hP := Nat.two_pow_pos f.p
  unfold mag
  rw [if_neg (by omega), Nat.pow_succ]
  congr 1
  omega

theorem le_max {f : Fmt} (F : f.Fits) {e m : Nat} (he : e < 2 ^ f.w - 1) (hm : m < 2 ^ f.p) :
    mag f e m ≤ (2 ^ (f.p + 1) - 1) * 2 ^ (2 ^ f.w - 3) := by
  have hP := Nat.two_pow_pos f.p
  rw [max_mag F]
  rcases Nat.lt_or_ge (mag f (2 ^ f.w - 2) (2 ^ f.p - 1)) (mag f e m) with h | h
  · rw [mag_lt_iff (by omega) hm] at h
    have := Nat.mul_le_mul_right (2 ^ f.p) (show e ≤ 2 ^ f.w - 2 by omega)
    omega
  · exact h

/-- The three tests tell NaN, infinite and finite patterns apart. -/
theorem C138_classes {f : Fmt} (hf : f = f64 ∨ f = f32) {b : Nat} (hb : b < 2 ^ (f.p + f.w + 1)) :
    (isNaN (ieee f b) = true ↔ b / 2 ^ f.p % 2 ^ f.w = 2 ^ f.w - 1 ∧ b % 2 ^ f.p ≠ 0) ∧
    (isInfinite (ieee f b) = true ↔ b / 2 ^ f.p % 2 ^ f.w = 2 ^ f.w - 1 ∧ b % 2 ^ f.p = 0) ∧
    (isFinite f (ieee f b) = true ↔ b / 2 ^ f.p % 2 ^ f.w ≠ 2 ^ f.w - 1) := by
  have F := fits_of hf
  obtain ⟨a, e, m, he, hm, h1, h2, _, h4⟩ := ieee_cases hb
  rw [h1, h2, h4]
  by_cases hE : e = 2 ^ f.w - 1
  · rw [if_pos hE]
    by_cases hM : m = 0
    · rw [if_pos hM]
      refine ⟨?_, ?_, ?_⟩
      · cases a <;> simp [isNaN, cEq, hM]
      · cases a <;> simp [isInfinite, cEq, hE, hM]
      · simp only [hE, ne_eq, not_true, iff_false]
        cases a <;> simp [isFinite, abs, cLt, cEq, neg, maxValue]
    · rw [if_neg hM]
      refine ⟨?_, ?_, ?_⟩
      · simp [isNaN, cEq, hE, hM]
      · simp [isInfinite, cEq, hM]
      · simp [isFinite, abs, cLt, cEq, hE]
  · rw [if_neg hE]
    have hle := le_max F (e := e) (m := m) (by omega) hm
    refine ⟨?_, ?_, ?_⟩
    · simp [isNaN, cEq, hE]
    · simp [isInfinite, cEq, hE]
    · simp only [ne_eq, hE, not_false_iff, iff_true]
      have hab : ∃ a', abs (.fin a (mag f e m)) = .fin a' (mag f e m) ∧
          (a' = true → mag f e m = 0) := by
        unfold abs cLt signed neg
        cases a
        · refine ⟨false, ?_, fun h => absurd h (by decide)⟩
          simp only [Bool.false_eq_true, if_false]
          rw [if_pos (by simp only [Bool.not_eq_true', decide_eq_false_iff_not]; omega)]
        · by_cases h0 : mag f e m = 0
          · refine ⟨true, ?_, fun _ => h0⟩
            simp [h0]
          · refine ⟨false, ?_, fun h => absurd h (by decide)⟩
            simp only [Bool.false_eq_true, if_false, if_true]
            rw [if_neg (by simp only [Bool.not_eq_true', decide_eq_false_iff_not]; omega)]
            rfl
      obtain ⟨a', h5, h6⟩ := hab
      unfold isFinite
      rw [h5]
      unfold maxValue cLt cEq
      simp only [Bool.or_eq_true, decide_eq_true_eq]
      generalize (2 ^ (f.p + 1) - 1) * 2 ^ (2 ^ f.w - 3) = q at hle
      unfold signed
      cases a'
      · simp only [Bool.false_eq_true, if_false]; omega
      · have := h6 rfl
        simp only [Bool.false_eq_true, if_false, if_true]; omega

example : (0x7ff8000000000000 : Nat) < 2 ^ (f64.p + f64.w + 1) ∧
    ieee f64 0x7ff8000000000000 = .nan := by decide +kernel

/-! ### C139: the constants -/

/-- `MAX_VALUE` is the largest finite value. -/
theorem C139_max_partial {f : Fmt} (hf : f = f64 ∨ f = f32) :
    ∃ k, maxValue f = .fin false k ∧ IsValue f (maxValue f) ∧
      ∀ a l, IsValue f (.fin a l) → l ≤ k := by
  have F := fits_of hf
  have hw := F.hw
  have hP := Nat.two_pow_pos f.p
  refine ⟨_, rfl, ?_, ?_⟩
  · refine ⟨(2 ^ f.w - 2) * 2 ^ f.p + (2 ^ f.p - 1), ?_, ?_⟩
    · rcases hf with rfl | rfl <;> decide +kernel
    · rw [ieee_pos (by omega) (by omega), if_neg (by omega)]
      unfold maxValue
      rw [max_mag F]
  · intro a l h
    rcases value_cases h with h | ⟨_, h⟩ | ⟨a', e, m, he, hm, h⟩
    · cases h
    · cases h
    · injection h with h1 h2
      rw [h2]
      exact le_max F he hm

/-- `MIN_VALUE` is not the smallest value above zero, and `MIN_NORMAL` is not normal: each is
what the other should be. -/
theorem C139_min_wrong {f : Fmt} (hf : f = f64 ∨ f = f32) :
    (∃ x, IsValue f x ∧ Before (.fin false 0) x ∧ Before x (minValue f)) ∧
      minNormal f = ieee f 1 ∧ 1 / 2 ^ f.p % 2 ^ f.w = 0 ∧
      (∀ a l, IsValue f (.fin a l) → l ≠ 0 → ¬ Before (.fin false l) (minNormal f)) ∧
      minValue f = ieee f (2 ^ f.p) ∧ 2 ^ f.p / 2 ^ f.p % 2 ^ f.w = 1 := by
  refine ⟨⟨.fin false 1, ⟨1, ?_, ?_⟩, .inl ?_, .inl ?_⟩, ?_, ?_, ?_, ?_, ?_⟩
  · rcases hf with rfl | rfl <;> decide +kernel
  · rcases hf with rfl | rfl <;> decide +kernel
  · decide
  · rcases hf with rfl | rfl <;> decide +kernel
  · rcases hf with rfl | rfl <;> decide +kernel
  · rcases hf with rfl | rfl <;> decide +kernel
  · intro a l _ hl h
    unfold minNormal Before num at h
    simp only [Bool.false_eq_true, if_false, false_and, and_false, or_false] at h
    omega
  · rcases hf with rfl | rfl <;> decide +kernel
  · rcases hf with rfl | rfl <;> decide +kernel

/-! ### C140: conversions to integers -/

/-- `t` is the number of `k` units with its fraction dropped. -/
def Truncates (f : Fmt) (neg : Bool) (k : Nat) (t : Int) : Prop :=
  ∃ n : Nat, n * 2 ^ f.unit ≤ k ∧ k < (n + 1) * 2 ^ f.unit ∧ t = num neg n

theorem toInteger_iff {f : Fmt} {lo hi : Int} {neg : Bool} {k : Nat} {t : Int} :
    toInteger f lo hi (.fin neg k) = .ok t ↔ Truncates f neg k t ∧ lo ≤ t ∧ t ≤ hi := by
  have hU := Nat.two_pow_pos f.unit
  unfold toInteger
  have htr : Truncates f neg k (num neg (k / 2 ^ f.unit)) := by
    refine ⟨k / 2 ^ f.unit, Nat.div_mul_le_self _ _, ?_, rfl⟩
    have := Nat.lt_div_mul_add (a := k) hU
    rw [Nat.add_mul, Nat.one_mul]; exact this
  have huniq : ∀ t, Truncates f neg k t → t = num neg (k / 2 ^ f.unit) := by
    rintro t ⟨n, h1, h2, rfl⟩
    congr 1
    have h3 : n ≤ k / 2 ^ f.unit := (Nat.le_div_iff_mul_le hU).2 h1
    have h4 : k / 2 ^ f.unit < n + 1 := (Nat.div_lt_iff_lt_mul hU).2 h2
    omega
  show (if lo ≤ num neg (k / 2 ^ f.unit) ∧ num neg (k / 2 ^ f.unit) ≤ hi then
    Outcome.ok (num neg (k / 2 ^ f.unit)) else .ub) = .ok t ↔ _
  constructor
  · intro h
    by_cases hc : lo ≤ num neg (k / 2 ^ f.unit) ∧ num neg (k / 2 ^ f.unit) ≤ hi
    · rw [if_pos hc] at h
      have := Outcome.ok.inj h
      rw [← this]
      exact ⟨htr, hc⟩
    · rw [if_neg hc] at h; cases h
  · rintro ⟨h1, h2⟩
    rw [← huniq t h1, if_pos h2]

/-- The conversions drop the fraction when the result fits the type. Missing: values that do
not fit. -/
theorem C140_fits_partial {f : Fmt} {neg : Bool} {k : Nat} {t : Int} :
    (intValue f (.fin neg k) = .ok t ↔ Truncates f neg k t ∧ -2 ^ 31 ≤ t ∧ t ≤ 2 ^ 31 - 1) ∧
    (longValue f (.fin neg k) = .ok t ↔ Truncates f neg k t ∧ -2 ^ 63 ≤ t ∧ t ≤ 2 ^ 63 - 1) ∧
    (shortValue f (.fin neg k) = .ok t ↔ Truncates f neg k t ∧ -2 ^ 15 ≤ t ∧ t ≤ 2 ^ 15 - 1) ∧
    (byteValue f (.fin neg k) = .ok t ↔ Truncates f neg k t ∧ 0 ≤ t ∧ t ≤ 2 ^ 8 - 1) :=
  ⟨toInteger_iff, toInteger_iff, toInteger_iff, toInteger_iff⟩

-- (int) -2.5 = -2
example : Truncates f64 true (5 * 2 ^ 1073) (-2) :=
  ⟨2, by decide +kernel, by decide +kernel, by decide⟩

theorem toInteger_ub {f : Fmt} {lo hi : Int} {neg : Bool} {k : Nat} {t : Int}
    (h : Truncates f neg k t) (ht : t < lo ∨ hi < t) : toInteger f lo hi (.fin neg k) = .ub := by
  have hU := Nat.two_pow_pos f.unit
  obtain ⟨n, h1, h2, rfl⟩ := h
  have hn : k / 2 ^ f.unit = n := by
    have h3 : n ≤ k / 2 ^ f.unit := (Nat.le_div_iff_mul_le hU).2 h1
    have h4 : k / 2 ^ f.unit < n + 1 := (Nat.div_lt_iff_lt_mul hU).2 h2
    omega
  unfold toInteger
  show (if lo ≤ num neg (k / 2 ^ f.unit) ∧ num neg (k / 2 ^ f.unit) ≤ hi then
    Outcome.ok (num neg (k / 2 ^ f.unit)) else .ub) = .ub
  rw [hn, if_neg (by omega)]

/-- NaN, infinities and what does not fit: undefined behaviour (Java gives 0 or the nearest
number of the type). -/
theorem C140_outside_wrong {f : Fmt} {x : Flt} :
    ((x = .nan ∨ ∃ a, x = .inf a) →
      intValue f x = .ub ∧ longValue f x = .ub ∧ shortValue f x = .ub ∧ byteValue f x = .ub) ∧
    ∀ neg k t, x = .fin neg k → Truncates f neg k t →
      (t < -2 ^ 31 ∨ 2 ^ 31 - 1 < t → intValue f x = .ub) ∧
      (t < -2 ^ 63 ∨ 2 ^ 63 - 1 < t → longValue f x = .ub) ∧
      (t < -2 ^ 15 ∨ 2 ^ 15 - 1 < t → shortValue f x = .ub) ∧
      (t < 0 ∨ 2 ^ 8 - 1 < t → byteValue f x = .ub) := by
  constructor
  · rintro (rfl | ⟨a, rfl⟩) <;> exact ⟨rfl, rfl, rfl, rfl⟩
  · rintro neg k t rfl h
    exact ⟨toInteger_ub h, toInteger_ub h, toInteger_ub h, toInteger_ub h⟩

example : IsValue f64 (.fin false (2 ^ 31 * 2 ^ f64.unit)) ∧
    Truncates f64 false (2 ^ 31 * 2 ^ f64.unit) (2 ^ 31) :=
  ⟨⟨1054 * 2 ^ 52, by decide +kernel, by decide +kernel⟩,
    ⟨2 ^ 31, by decide +kernel, by decide +kernel, by decide⟩⟩

/-! ### C141: `abs`, `max`, `min`, `signum` -/

/-- `abs` drops the sign of everything but minus zero. -/
theorem C141_abs_partial {x : Flt} (hx : x ≠ .fin true 0) :
    abs x = match x with
      | .nan => .nan
      | .inf _ => .inf false
      | .fin _ k => .fin false k := by
  cases x with
  | nan => rfl
  | inf a => cases a <;> rfl
  | fin a k =>
    unfold abs cLt signed neg
    cases a
    · simp only [Bool.false_eq_true, if_false]
      rw [if_pos (by simp only [Bool.not_eq_true', decide_eq_false_iff_not]; omega)]
    · have : k ≠ 0 := fun h => hx (by rw [h])
      simp only [Bool.false_eq_true, if_false, if_true]
      rw [if_neg (by simp only [Bool.not_eq_true', decide_eq_false_iff_not]; omega)]
      rfl

example : (Flt.fin true 3) ≠ .fin true 0 := by decide

theorem C141_abs_wrong : abs (.fin true 0) = .fin true 0 := by decide

theorem cLt_iff {x y : Flt} (hx : x ≠ .nan) (hy : y ≠ .nan)
    (hz : ¬ (x = .fin true 0 ∧ y = .fin false 0)) : cLt x y = true ↔ Before x y := by
  cases x with
  | nan => exact absurd rfl hx
  | inf a =>
    cases y with
    | nan => exact absurd rfl hy
    | inf b => cases a <;> cases b <;> simp [cLt, Before]
    | fin b l => cases a <;> simp [cLt, Before]
  | fin a k =>
    cases y with
    | nan => exact absurd rfl hy
    | inf b => cases b <;> simp [cLt, Before]
    | fin b l =>
      have hs : ∀ c n, signed c n = num c n := fun _ _ => rfl
      unfold cLt Before
      simp only [decide_eq_true_eq, hs]
      constructor
      · exact .inl
      · rintro (h | ⟨h1, h2, h3, h4⟩)
        · exact h
        · exact absurd ⟨by rw [h1, h3], by rw [h2, h4]⟩ hz

theorem before_irrefl (x : Flt) : ¬ Before x x := by
  cases x with
  | nan => exact id
  | inf a => cases a <;> simp [Before]
  | fin a k => cases a <;> simp [Before]

theorem before_asymm {x y : Flt} (h : Before x y) : ¬ Before y x := by
  cases x with
  | nan => exact absurd h id
  | inf a =>
    cases y with
    | nan => exact id
    | inf b => cases a <;> cases b <;> simp [Before] at h ⊢
    | fin b l => cases a <;> simp [Before] at h ⊢
  | fin a k =>
    cases y with
    | nan => exact id
    | inf b => cases b <;> simp [Before] at h ⊢
    | fin b l =>
      unfold Before at h ⊢
      unfold num at h ⊢
      cases a <;> cases b <;> simp at h ⊢ <;> omega

/-- `max` is Java's, unless the first is NaN and the second is not, or they are zero and minus
zero. -/
theorem C141_max_partial {x y : Flt} (hn : x = .nan → y = .nan)
    (hz : ¬ (x = .fin false 0 ∧ y = .fin true 0)) : JavaMax x y (fmax x y) := by
  unfold JavaMax fmax
  by_cases h : x = .nan ∨ y = .nan
  · rw [if_pos h]
    have hy : y = .nan := h.elim hn id
    rw [hy]
    cases x <;> rfl
  · rw [if_neg h]
    have hx : x ≠ .nan := fun e => h (.inl e)
    have hy : y ≠ .nan := fun e => h (.inr e)
    have hi := cLt_iff hy hx (fun e => hz ⟨e.2, e.1⟩)
    by_cases hc : cLt y x = true
    · rw [if_pos hc]
      exact ⟨.inl rfl, before_irrefl x, before_asymm (hi.1 hc)⟩
    · rw [if_neg hc]
      exact ⟨.inr rfl, fun hb => hc (hi.2 hb), before_irrefl y⟩

/-- `min` is Java's, unless the first is NaN and the second is not, or they are minus zero and
zero. -/
theorem C141_min_partial {x y : Flt} (hn : x = .nan → y = .nan)
    (hz : ¬ (x = .fin true 0 ∧ y = .fin false 0)) : JavaMin x y (fmin x y) := by
  unfold JavaMin fmin
  by_cases h : x = .nan ∨ y = .nan
  · rw [if_pos h]
    have hy : y = .nan := h.elim hn id
    rw [hy]
    cases x <;> rfl
  · rw [if_neg h]
    have hx : x ≠ .nan := fun e => h (.inl e)
    have hy : y ≠ .nan := fun e => h (.inr e)
    have hi := cLt_iff hx hy hz
    by_cases hc : cLt x y = true
    · rw [if_pos hc]
      exact ⟨.inl rfl, before_irrefl x, before_asymm (hi.1 hc)⟩
    · rw [if_neg hc]
      exact ⟨.inr rfl, fun hb => hc (hi.2 hb), before_irrefl y⟩

example : JavaMax (.fin true 3) (.fin false 2) (fmax (.fin true 3) (.fin false 2)) ∧
    fmax (.fin true 3) (.fin false 2) = .fin false 2 :=
  ⟨C141_max_partial (fun h => by cases h) (by decide), by decide⟩

/-- A first argument of NaN is ignored, and of two zeros the second is returned. -/
theorem C141_max_min_wrong {y : Flt} (hy : y ≠ .nan) :
    fmax .nan y = y ∧ fmin .nan y = y ∧ ¬ JavaMax .nan y (fmax .nan y) ∧
      ¬ JavaMin .nan y (fmin .nan y) ∧
      fmax (.fin false 0) (.fin true 0) = .fin true 0 ∧
      fmin (.fin true 0) (.fin false 0) = .fin false 0 := by
  have h1 : fmax .nan y = y := by unfold fmax; cases y <;> rfl
  have h2 : fmin .nan y = y := by unfold fmin; cases y <;> rfl
  refine ⟨h1, h2, ?_, ?_, by decide, by decide⟩
  · rw [h1]; unfold JavaMax; rw [if_pos (.inl rfl)]; exact hy
  · rw [h2]; unfold JavaMin; rw [if_pos (.inl rfl)]; exact hy

/-- `signum`: NaN and zeros as they are, otherwise 1 with the sign. -/
theorem C141_signum {f : Fmt} (hf : f = f64 ∨ f = f32) {b : Nat} (hb : b < 2 ^ (f.p + f.w + 1)) :
    signum f (ieee f b) = match ieee f b with
      | .nan => .nan
      | .inf a => .fin a (2 ^ f.unit)
      | .fin a k => if k = 0 then .fin a 0 else .fin a (2 ^ f.unit) := by
  cases ieee f b with
  | nan => rfl
  | inf a => cases a <;> rfl
  | fin a k =>
    unfold signum isNaN cEq signed signBit
    by_cases hk : k = 0
    · subst hk
      cases a <;> simp
    · cases a <;> simp [hk]

/-! ### C142: `getExponent` and `ulp` -/

theorem log2_mag {f : Fmt} {e m : Nat} (he : e ≠ 0) (hm : m < 2 ^ f.p) :
    (mag f e m).log2 = f.p + e - 1 := by
  have h := mag_range (f := f) he hm
  have h0 : mag f e m ≠ 0 := by have := Nat.two_pow_pos (f.p + e - 1); omega
  rw [Nat.log2_eq_iff h0]
  have e1 : f.p + e - 1 + 1 = f.p + e := by omega
  rw [e1]
  exact h

/-- What `getExponent` returns for a finite pattern. -/
theorem getExponent_fin {f : Fmt} (F : f.Fits) {a : Bool} {e m : Nat} (hm : m < 2 ^ f.p) :
    getExponent f (.fin a (mag f e m)) =
      if e = 0 ∧ a = true ∧ m ≠ 0 then (m.log2 : Int) - f.unit else (e : Int) - f.bias := by
  have hb := F.hb
  have hun : f.unit = f.bias - 1 + f.p := rfl
  unfold getExponent
  by_cases he : e = 0
  · subst he
    have hmag : mag f 0 m = m := by unfold mag; rw [if_pos rfl]
    simp only [hmag]
    by_cases hm0 : m = 0
    · rw [if_pos hm0, if_neg (fun h => h.2.2 hm0)]; omega
    · rw [if_neg hm0]
      have hlog : m.log2 < f.p := (Nat.log2_lt hm0).2 hm
      cases a
      · rw [if_pos ⟨rfl, by omega⟩, if_neg (fun h => absurd h.2.1 (by decide))]; omega
      · rw [if_neg (fun h => absurd h.1 (by decide)), if_pos ⟨trivial, rfl, hm0⟩]
  · have h0 : mag f e m ≠ 0 := by
      have := (mag_range (f := f) he hm).1
      have := Nat.two_pow_pos (f.p + e - 1); omega
    simp only [if_neg h0, log2_mag he hm]
    rw [if_neg (by omega), if_neg (fun h => he h.1)]
    omega

/-- `getExponent` is Java's, but for negative subnormal values. -/
theorem C142_exponent_partial {f : Fmt} (hf : f = f64 ∨ f = f32) {b : Nat}
    (hb : b < 2 ^ (f.p + f.w + 1))
    (hs : ¬ (2 ^ (f.p + f.w) < b ∧ b / 2 ^ f.p % 2 ^ f.w = 0)) :
    getExponent f (ieee f b) = javaExponent f b := by
  have F := fits_of hf
  have hw := F.hw
  have htw := two_w F
  have hP := Nat.two_pow_pos f.p
  obtain ⟨a, e, m, he, hm, h1, h2, h3, h4⟩ := ieee_cases hb
  unfold javaExponent
  rw [h1] at hs ⊢
  rw [h4]
  by_cases hE : e = 2 ^ f.w - 1
  · rw [if_pos hE]
    have hv : ((e : Nat) : Int) - f.bias = f.bias + 1 := by omega
    rw [hv]
    split <;> rfl
  · rw [if_neg hE, getExponent_fin F hm, if_neg]
    rintro ⟨rfl, rfl, hm0⟩
    apply hs
    have hl : f.last = f.p + f.w := rfl
    simp only [if_true] at h3
    rw [hl, Nat.zero_mul, Nat.zero_add] at h3
    exact ⟨by rw [h3]; exact Nat.lt_add_of_pos_right (Nat.pos_of_ne_zero hm0), rfl⟩

example : (0x3ff8000000000000 : Nat) < 2 ^ (f64.p + f64.w + 1) ∧
    javaExponent f64 0x3ff8000000000000 = 0 ∧ javaExponent f64 1 = -1023 := by decide +kernel

/-- For the others below half the smallest normal value it is too low. -/
theorem C142_exponent_wrong {f : Fmt} (hf : f = f64 ∨ f = f32) {m : Nat} (h0 : m ≠ 0)
    (h : m < 2 ^ (f.p - 1)) :
    ieee f (2 ^ (f.p + f.w) + m) = .fin true m ∧
      getExponent f (.fin true m) < javaExponent f (2 ^ (f.p + f.w) + m) := by
  have F := fits_of hf
  have hp := F.hp
  have hb := F.hb
  have hP := Nat.two_pow_pos f.p
  have hle : 2 ^ (f.p - 1) ≤ 2 ^ f.p := Nat.pow_le_pow_right (by decide) (by omega)
  have hm : m < 2 ^ f.p := by omega
  have hmag : mag f 0 m = m := by unfold mag; rw [if_pos rfl]
  have hw := F.hw
  have hi : ieee f (m + 2 ^ f.last) = .fin true m := by
    have h1 : m < 2 ^ f.last :=
      Nat.lt_of_lt_of_le hm (Nat.pow_le_pow_right (by decide) (by unfold Fmt.last; omega))
    rw [ieee_opp h1]
    have := ieee_pos (f := f) (e := 0) (m := m) (by omega) hm
    rw [Nat.zero_mul, Nat.zero_add, if_neg (by omega), hmag] at this
    rw [this]
    rfl
  have hl : f.last = f.p + f.w := rfl
  rw [hl, Nat.add_comm] at hi
  refine ⟨hi, ?_⟩
  have hg := getExponent_fin F (a := true) (e := 0) hm
  rw [hmag, if_pos ⟨rfl, rfl, h0⟩] at hg
  rw [hg]
  have hexp : (2 ^ (f.p + f.w) + m) / 2 ^ f.p % 2 ^ f.w = 0 := by
    rw [Nat.add_comm, Nat.pow_add, Nat.add_mul_div_left _ _ hP, Nat.div_eq_of_lt hm, Nat.zero_add,
      Nat.mod_self]
  unfold javaExponent
  rw [hexp]
  have := (Nat.log2_lt h0).2 h
  have hun : f.unit = f.bias - 1 + f.p := rfl
  omega

example : (1 : Nat) < 2 ^ (f64.p - 1) := by decide +kernel

theorem maxValue_eq {f : Fmt} (a : Bool) (k : Nat)
    (h : (cEq (.fin a k) (maxValue f) || cEq (.fin a k) (neg (maxValue f))) = true) :
    .fin false k = maxValue f := by
  unfold maxValue at h ⊢
  generalize hq : (2 ^ (f.p + 1) - 1) * 2 ^ (2 ^ f.w - 3) = q at *
  unfold cEq neg signed at h
  have : k = q := by
    cases a <;> simp at h <;> omega
  rw [this]

/-- `ulp(double)` is wrong for every finite value but the largest: undefined behaviour, an
`AssertionError` or another value. -/
theorem C142_ulp_wrong {b : Nat} (hb : b < 2 ^ 64) {a : Bool} {k : Nat} (hx : ieee f64 b = .fin a k)
    (hmax : .fin false k ≠ maxValue f64) :
    ulp64 (ieee f64 b) ≠ .ok (.fin false (javaUlp f64 b)) := by
  obtain ⟨a', e, m, he, hm, h1, h2, h3, h4⟩ := ieee_cases (f := f64) hb
  have hE : ¬ e = 2 ^ f64.w - 1 := by
    intro hE; rw [h4, if_pos hE] at hx; split at hx <;> cases hx
  rw [if_neg hE] at h4
  rw [hx] at h4
  injection h4 with h5 h6
  subst h5
  have he' : e < 2048 := he
  have hE' : e ≠ 2047 := hE
  have hm' : m < 2 ^ 52 := hm
  have hmin : minValue f64 = .fin false (2 ^ 52) := rfl
  have hcmp : (cEq (.fin a k) (maxValue f64) || cEq (.fin a k) (neg (maxValue f64))) = false := by
    rcases hc : (cEq (.fin a k) (maxValue f64) || cEq (.fin a k) (neg (maxValue f64))) with _ | _
    · rfl
    · exact absurd (maxValue_eq a k hc) hmax
  have hg := getExponent_fin f64_fits (a := a) (e := e) hm
  rw [← h6] at hg
  have hbias : f64.bias = 1023 := rfl
  have hunit : f64.unit = 1074 := rfl
  rw [hbias, hunit, show ((1023 : Nat) : Int) = 1023 from rfl,
    show ((1074 : Nat) : Int) = 1074 from rfl] at hg
  rw [hx]
  unfold ulp64 javaUlp
  rw [hcmp, h1]
  simp only [Bool.false_eq_true, if_false, hg]
  by_cases he0 : e = 0
  · rw [if_pos he0]
    by_cases hs : e = 0 ∧ a = true ∧ m ≠ 0
    · rw [if_pos hs]
      have hlog : m.log2 < 52 := (Nat.log2_lt hs.2.2).2 hm'
      rw [if_neg (by omega)]
      split
      · rw [hmin]; intro h; injection h with h; injection h with h h'; exact absurd h' (by decide)
      · rw [if_pos (by omega)]; intro h; cases h
    · rw [if_neg hs, if_neg (by omega), if_pos (by omega), hmin]
      intro h; injection h with h; injection h with h h'; exact absurd h' (by decide)
  · have hs : ¬ (e = 0 ∧ a = true ∧ m ≠ 0) := fun h => he0 h.1
    rw [if_neg he0, if_neg hs, if_neg (by omega), if_neg (by omega), if_neg (by omega)]
    by_cases hbig : (-1022 : Int) ≤ (e : Int) - 1023 - 52
    · rw [if_pos hbig]
      unfold powerOfTwoD
      rw [if_neg (by omega)]
      intro h; cases h
    · rw [if_neg hbig]
      have hs : (e : Int) - 1023 - 52 - (-1022 - 52) = ((e - 1 : Nat) : Int) := by omega
      rw [hs]
      unfold shiftOne
      by_cases h32 : (32 : Int) ≤ ((e - 1 : Nat) : Int)
      · rw [if_pos (.inr h32)]; intro h; cases h
      · rw [if_neg (by omega)]
        by_cases h31 : ((e - 1 : Nat) : Int) = 31
        · rw [if_pos h31, Outcome.bind_ok, ofBits_ok (by decide)]
          unfold compose
          rw [if_neg (by decide), if_pos (by decide)]
          intro h; injection h with h; injection h with h; exact absurd h (by decide)
        · rw [if_neg h31, Outcome.bind_ok, Int.toNat_natCast]
          have hpow : (2 : Nat) ^ (e - 1) ≤ 2 ^ 30 := Nat.pow_le_pow_right (by decide) (by omega)
          have hcast : (2 : Int) ^ (e - 1) = ((2 ^ (e - 1) : Nat) : Int) := by
            rw [Int.natCast_pow]; rfl
          rw [hcast]
          obtain ⟨k', h7, h8, _⟩ := (C137_subnormal_wrong (b := 2 ^ (e - 1)) (by omega)).2
          rw [h7]
          intro h
          have h := Outcome.ok.inj h
          injection h with _ h
          omega

example : ieee f64 0x3ff0000000000000 = .fin false (2 ^ 1074) ∧
    .fin false (2 ^ 1074) ≠ maxValue f64 ∧ javaUlp f64 0x3ff0000000000000 = 2 ^ 1022 := by
  decide +kernel

/-- So is `ulp(float)`. -/
theorem C142_ulp_float_wrong {b : Nat} (hb : b < 2 ^ 32) {a : Bool} {k : Nat}
    (hx : ieee f32 b = .fin a k) (hmax : .fin false k ≠ maxValue f32) :
    ulp32 (ieee f32 b) ≠ .ok (.fin false (javaUlp f32 b)) := by
  obtain ⟨a', e, m, he, hm, h1, h2, h3, h4⟩ := ieee_cases (f := f32) hb
  have hE : ¬ e = 2 ^ f32.w - 1 := by
    intro hE; rw [h4, if_pos hE] at hx; split at hx <;> cases hx
  rw [if_neg hE] at h4
  rw [hx] at h4
  injection h4 with h5 h6
  subst h5
  have he' : e < 256 := he
  have hE' : e ≠ 255 := hE
  have hm' : m < 2 ^ 23 := hm
  have hmin : minValue f32 = .fin false (2 ^ 23) := rfl
  have hcmp : (cEq (.fin a k) (maxValue f32) || cEq (.fin a k) (neg (maxValue f32))) = false := by
    rcases hc : (cEq (.fin a k) (maxValue f32) || cEq (.fin a k) (neg (maxValue f32))) with _ | _
    · rfl
    · exact absurd (maxValue_eq a k hc) hmax
  have hg := getExponent_fin f32_fits (a := a) (e := e) hm
  rw [← h6] at hg
  have hbias : f32.bias = 127 := rfl
  have hunit : f32.unit = 149 := rfl
  rw [hbias, hunit, show ((127 : Nat) : Int) = 127 from rfl,
    show ((149 : Nat) : Int) = 149 from rfl] at hg
  rw [hx]
  unfold ulp32 javaUlp
  rw [hcmp, h1]
  simp only [Bool.false_eq_true, if_false, hg]
  by_cases he0 : e = 0
  · rw [if_pos he0]
    by_cases hs : e = 0 ∧ a = true ∧ m ≠ 0
    · rw [if_pos hs]
      have hlog : m.log2 < 23 := (Nat.log2_lt hs.2.2).2 hm'
      rw [if_neg (by omega)]
      split
      · rw [hmin]; intro h; injection h with h; injection h with h h'; exact absurd h' (by decide)
      · rw [if_pos (by omega)]; intro h; cases h
    · rw [if_neg hs, if_neg (by omega), if_pos (by omega), hmin]
      intro h; injection h with h; injection h with h h'; exact absurd h' (by decide)
  · have hp := Nat.two_pow_pos (e - 1)
    have hs : ¬ (e = 0 ∧ a = true ∧ m ≠ 0) := fun h => he0 h.1
    rw [if_neg he0, if_neg hs, if_neg (by omega), if_neg (by omega), if_neg (by omega)]
    have hz : ∀ n : Nat, n ≠ 0 → (Outcome.ok (Flt.fin false 0)) ≠ .ok (.fin false n) := by
      intro n hn h; injection h with h; injection h with h h'; exact hn h'.symm
    split
    · unfold powerOfTwoF
      rw [if_neg (by omega)]
      exact hz _ (by omega)
    · exact hz _ (by omega)

example : ieee f32 0x3f800000 = .fin false (2 ^ 149) ∧ .fin false (2 ^ 149) ≠ maxValue f32 := by
  decide +kernel

/-- The largest value, infinities and NaN are right. -/
theorem C142_ulp_partial :
    ulp64 (maxValue f64) = .ok (.fin false (javaUlp f64 0x7fefffffffffffff)) ∧
      maxValue f64 = ieee f64 0x7fefffffffffffff ∧
      ulp32 (maxValue f32) = .ok (.fin false (javaUlp f32 0x7f7fffff)) ∧
      maxValue f32 = ieee f32 0x7f7fffff ∧
      (∀ a, ulp64 (.inf a) = .ok (.inf false) ∧ ulp32 (.inf a) = .ok (.inf false)) ∧
      ulp64 .nan = .ok .nan ∧ ulp32 .nan = .ok .nan := by
  refine ⟨by decide +kernel, by decide +kernel, by decide +kernel, by decide +kernel, ?_,
    by decide +kernel, by decide +kernel⟩
  intro a
  cases a <;> exact ⟨by decide +kernel, by decide +kernel⟩

/-! ### C143: `nextDown` -/

/-- `nextDown` is the value just below, if `nexttoward` is, for all but zeros. -/
theorem C143_next_down_partial {f : Fmt} {toward : Flt → Flt}
    (ht : ∀ x, IsValue f x → x ≠ .nan → x ≠ .inf true → JustBelow f (toward x) x) {x : Flt}
    (hx : IsValue f x) (hn : x ≠ .nan) (hi : x ≠ .inf true) (h0 : ∀ a, x ≠ .fin a 0) :
    JustBelow f (nextDown f toward x) x := by
  unfold nextDown
  cases x with
  | nan => exact absurd rfl hn
  | inf a =>
    cases a
    · exact ht _ hx hn hi
    · exact absurd rfl hi
  | fin a k =>
    have hk : k ≠ 0 := fun h => h0 a (by rw [h])
    have h1 : (isNaN (.fin a k) || cEq (.fin a k) (.inf true)) = false := by
      simp [isNaN, cEq]
    have h2 : cEq (.fin a k) (.fin false 0) = false := by
      unfold cEq signed
      cases a <;> simp <;> omega
    rw [h1, h2]
    exact ht _ hx hn hi

/-- Of zero it is the largest negative normal value: whole ranges of values lie between. -/
theorem C143_zero_wrong {f : Fmt} (hf : f = f64 ∨ f = f32) (toward : Flt → Flt) (a : Bool) {k : Nat}
    (h0 : k ≠ 0) (hk : k < 2 ^ f.p) :
    Before (nextDown f toward (.fin a 0)) (.fin true k) ∧ Before (.fin true k) (.fin a 0) ∧
      IsValue f (.fin true k) ∧ ¬ JustBelow f (nextDown f toward (.fin a 0)) (.fin a 0) := by
  have F := fits_of hf
  have hv : IsValue f (.fin true k) := by
    refine ⟨k + 2 ^ f.last, ?_, ?_⟩
    · have hle : 2 ^ f.p ≤ 2 ^ f.last := Nat.pow_le_pow_right (by decide) (by unfold Fmt.last; omega)
      have e : 2 ^ (f.p + f.w + 1) = 2 ^ f.last * 2 := by unfold Fmt.last; exact Nat.pow_succ ..
      omega
    · have hle : 2 ^ f.p ≤ 2 ^ f.last := Nat.pow_le_pow_right (by decide) (by unfold Fmt.last; omega)
      rw [ieee_opp (by omega)]
      have hw := F.hw
      have := ieee_pos (f := f) (e := 0) (m := k) (by omega) hk
      rw [Nat.zero_mul, Nat.zero_add, if_neg (by omega)] at this
      rw [this]
      unfold mag
      rw [if_pos rfl]
      rfl
  have hnd : nextDown f toward (.fin a 0) = .fin true (2 ^ f.p) := by
    cases a <;> rfl
  have hb1 : Before (.fin true (2 ^ f.p)) (.fin true k) := by
    left; unfold num; simp only [if_true]; omega
  have hb2 : Before (.fin true k) (.fin a 0) := by
    left; unfold num; cases a <;> simp <;> omega
  rw [hnd]
  refine ⟨hb1, hb2, hv, ?_⟩
  rintro ⟨_, _, h⟩
  rcases h _ hv hb2 with h | h | ⟨_, _, h, _⟩
  · injection h with _ h; omega
  · exact before_asymm hb1 h
  · injection h with _ h; exact h0 h

example : (1 : Nat) ≠ 0 ∧ 1 < 2 ^ f64.p := by decide

/-! ### C144: `round` -/

theorem ediv_of {x d v : Int} (hd : 0 < d) (h1 : v * d ≤ x) (h2 : x < (v + 1) * d) : x / d = v :=
  Int.le_antisymm (Int.le_of_lt_add_one (Int.ediv_lt_of_lt_mul hd h2)) (Int.le_ediv_of_mul_le hd h1)

theorem roundAway_java {f : Fmt} (F : f.Fits) (neg : Bool) (k : Nat) :
    num neg (roundAway f k) =
      javaRound f neg k - if neg = true ∧ k % 2 ^ f.unit = 2 ^ (f.unit - 1) then 1 else 0 := by
  have hu := unit_le F
  have hH := Nat.two_pow_pos (f.unit - 1)
  have e2 : 2 ^ f.unit = 2 * 2 ^ (f.unit - 1) := by
    rw [Nat.mul_comm, ← Nat.pow_succ]; congr 1; omega
  have e3 : (2 : Int) ^ f.unit = ((2 ^ f.unit : Nat) : Int) := by rw [Int.natCast_pow]; rfl
  unfold roundAway javaRound
  rw [e3, e2]
  generalize 2 ^ (f.unit - 1) = q at *
  have hd := Nat.div_add_mod k (2 * q)
  have hlt := Nat.mod_lt k (show 0 < 2 * q by omega)
  generalize k / (2 * q) = n at *
  generalize k % (2 * q) = r at *
  have hD : (0 : Int) < 2 * ((2 * q : Nat) : Int) := by omega
  have hk : (k : Int) = 2 * ((q : Int) * n) + r := by rw [← hd]; push_cast; grind
  have hT : ∀ v : Int, v * (2 * ((2 * q : Nat) : Int)) = 4 * (q * v) := by intro v; push_cast; grind
  have hA : ∀ v : Int, (q : Int) * (v + 1) = q * v + q := by intro v; grind
  have hB : ∀ v : Int, (q : Int) * (-v) = -(q * v) := by intro v; grind
  have hP : (((2 * k + 2 * q) / (2 * (2 * q)) : Nat) : Int) =
      (2 * (k : Int) + ((2 * q : Nat) : Int)) / (2 * ((2 * q : Nat) : Int)) := by
    rw [Int.natCast_ediv]; push_cast; rfl
  unfold num
  cases neg
  · simp only [Bool.false_eq_true, if_false, false_and, Int.sub_zero]
    exact hP
  · simp only [if_true, true_and]
    rw [hP]
    by_cases h1 : r < q
    · rw [if_neg (by omega), ediv_of (v := n) hD (by rw [hT]; omega) (by rw [hT, hA]; omega),
        ediv_of (v := -n) hD (by rw [hT, hB]; omega) (by rw [hT, hA, hB]; omega)]
      omega
    · rw [ediv_of (v := (n : Int) + 1) hD (by rw [hT, hA]; omega) (by rw [hT, hA, hA]; omega)]
      by_cases h2 : r = q
      · rw [if_pos h2, ediv_of (v := -n) hD (by rw [hT, hB]; omega) (by rw [hT, hA, hB]; omega)]
        omega
      · rw [if_neg h2, ediv_of (v := -((n : Int) + 1)) hD (by rw [hT, hB, hA]; omega)
          (by rw [hT, hA, hB, hA]; omega)]
        omega

/-- `round` is `floor(x + 1/2)` when that fits the type, for numbers that are not negative
halves. Missing: negative halves, NaN, infinities, numbers that do not fit. -/
theorem C144_round_partial {f : Fmt} (hf : f = f64 ∨ f = f32) {lo hi : Int} {neg : Bool} {k : Nat}
    (h : ¬ (neg = true ∧ k % 2 ^ f.unit = 2 ^ (f.unit - 1))) (h1 : lo ≤ javaRound f neg k)
    (h2 : javaRound f neg k ≤ hi) : round f lo hi (.fin neg k) = .ok (javaRound f neg k) := by
  have hr := roundAway_java (fits_of hf) neg k
  rw [if_neg h, Int.sub_zero] at hr
  unfold round
  show (if lo ≤ num neg (roundAway f k) ∧ num neg (roundAway f k) ≤ hi then
    Outcome.ok (num neg (roundAway f k)) else .ub) = _
  rw [hr, if_pos ⟨h1, h2⟩]

-- round(2.5) = 3, round(-2.75) = -3
example : javaRound f64 false (5 * 2 ^ 1073) = 3 ∧ javaRound f64 true (11 * 2 ^ 1072) = -3 ∧
    11 * 2 ^ 1072 % 2 ^ f64.unit ≠ 2 ^ (f64.unit - 1) := by decide +kernel

/-- Negative halves are rounded down: -2.5 to -3, not -2. -/
theorem C144_negative_half_wrong {f : Fmt} (hf : f = f64 ∨ f = f32) {lo hi : Int} {k : Nat}
    (h : k % 2 ^ f.unit = 2 ^ (f.unit - 1)) :
    round f lo hi (.fin true k) ≠ .ok (javaRound f true k) ∧
      (lo < javaRound f true k → javaRound f true k ≤ hi →
        round f lo hi (.fin true k) = .ok (javaRound f true k - 1)) := by
  have hr := roundAway_java (fits_of hf) true k
  rw [if_pos ⟨rfl, h⟩] at hr
  unfold round
  have e : signed true (roundAway f k) = num true (roundAway f k) := rfl
  simp only [e, hr]
  constructor
  · split
    · intro h; have := Outcome.ok.inj h; omega
    · intro h; cases h
  · intro h1 h2
    rw [if_pos (by omega)]

example : IsValue f64 (.fin true (5 * 2 ^ 1073)) ∧ 5 * 2 ^ 1073 % 2 ^ f64.unit = 2 ^ (f64.unit - 1) ∧
    javaRound f64 true (5 * 2 ^ 1073) = -2 :=
  ⟨⟨2 ^ 63 + 1024 * 2 ^ 52 + 2 ^ 50, by decide +kernel, by decide +kernel⟩, by decide +kernel,
    by decide +kernel⟩

/-- NaN, infinities and numbers that round out of the type: undefined behaviour. -/
theorem C144_outside_wrong {f : Fmt} (hf : f = f64 ∨ f = f32) {lo hi : Int} {x : Flt}
    (hx : x = .nan ∨ (∃ a, x = .inf a) ∨
      ∃ a k, x = .fin a k ∧ (javaRound f a k < lo ∨ hi + 1 < javaRound f a k)) :
    round f lo hi x = .ub := by
  rcases hx with rfl | ⟨a, rfl⟩ | ⟨a, k, rfl, h⟩
  · rfl
  · rfl
  · have hr := roundAway_java (fits_of hf) a k
    have e : signed a (roundAway f k) = num a (roundAway f k) := rfl
    unfold round
    simp only [e]
    rw [if_neg]
    split at hr <;> omega

example : javaRound f64 false (2 ^ 70 * 2 ^ 1074) = 2 ^ 70 := by decide +kernel

end Verif.Floats
