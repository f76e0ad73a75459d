import Verif.Floats.Order
/-!
# Properties C134 to C137: the bits of `Double` and `Float`, order and equality

`f` is `f64` for `Double` and `f32` for `Float`. Values are given by their bits (`ieee`).
-/
namespace Verif.Floats

/-! ### C134: the bits of a value -/

/-- `doubleToLongBits`, `floatToIntBits`: the IEEE 754 bits, for the values above zero below 1
that are multiples of `2 ^ -(p + 1)`, and for those from 1 up to `2 ^ 30` whose first binary
place after the point is 0. Missing: all others. -/
theorem C134_bits_partial {f : Fmt} (hf : f = f64 ∨ f = f32) {b k : Nat} (hb : b < 2 ^ (f.p + f.w))
    (hx : ieee f b = .fin false k) (hk : Fine f k) :
    rawBits f (ieee f b) = .ok (asSigned f b) := by
  have F := fits_of hf
  obtain ⟨e, m, rfl, he, hm⟩ := parts (f := f) hb
  rw [ieee_pos he hm] at hx
  have h : ¬ e = 2 ^ f.w - 1 := by
    intro h; rw [if_pos h] at hx; split at hx <;> cases hx
  rw [if_neg h] at hx
  have hk' : mag f e m = k := by injection hx
  rw [ieee_pos he hm, if_neg h, rawBits_fine F false hm (by rw [hk']; exact hk)]
  unfold asSigned
  rw [if_pos hb]
  rfl

-- 0.75 and 5.25
example : ieee f64 (1022 * 2 ^ 52 + 2 ^ 51) = .fin false (3 * 2 ^ 1072) ∧ Fine f64 (3 * 2 ^ 1072) :=
  ⟨by decide +kernel, .inl ⟨by decide +kernel, by decide +kernel⟩⟩
example : ieee f32 (129 * 2 ^ 23 + 5 * 2 ^ 18) = .fin false (37 * 2 ^ 146) := by decide +kernel
example : ieee f32 (129 * 2 ^ 23 + 2 ^ 21 + 2 ^ 19) = .fin false (21 * 2 ^ 147) ∧
    Fine f32 (21 * 2 ^ 147) :=
  ⟨by decide +kernel, .inr ⟨by decide +kernel, by decide +kernel, by decide +kernel⟩⟩

/-- Infinity has its bits, and what NaN is given are bits of a NaN. -/
theorem C134_special_partial {f : Fmt} (hf : f = f64 ∨ f = f32) :
    (∃ b : Nat, b < 2 ^ (f.p + f.w) ∧ rawBits f (.inf false) = .ok (b : Int) ∧ ieee f b = .inf false) ∧
      ∃ b : Nat, b < 2 ^ (f.p + f.w) ∧ rawBits f .nan = .ok (b : Int) ∧ ieee f b = .nan := by
  have F := fits_of hf
  have hw := Nat.two_pow_pos f.w
  have hP := Nat.two_pow_pos f.p
  have hl : f.last = f.p + f.w := rfl
  have e : 2 ^ f.last = 2 ^ f.w * 2 ^ f.p := by
    rw [← Nat.pow_add]; congr 1; unfold Fmt.last; omega
  have h1 : (2 ^ f.w - 1) * 2 ^ f.p = 2 ^ f.w * 2 ^ f.p - 2 ^ f.p := by
    rw [Nat.sub_mul, Nat.one_mul]
  have h2 := Nat.le_mul_of_pos_left (2 ^ f.p) hw
  refine ⟨⟨(2 ^ f.w - 1) * 2 ^ f.p, by rw [← hl]; omega, rawBits_inf F false, ?_⟩,
    ⟨2 ^ f.last - 1, by rw [← hl]; omega, rawBits_nan F, ?_⟩⟩
  · have := ieee_pos (f := f) (e := 2 ^ f.w - 1) (m := 0) (by omega) hP
    rw [if_pos rfl, if_pos rfl, Nat.add_zero] at this
    exact this
  · have h3 : 2 ^ f.last - 1 = (2 ^ f.w - 1) * 2 ^ f.p + (2 ^ f.p - 1) := by omega
    have h4 : 2 ^ 2 ≤ 2 ^ f.p := Nat.pow_le_pow_right (by decide) F.hp
    have := ieee_pos (f := f) (e := 2 ^ f.w - 1) (m := 2 ^ f.p - 1) (by omega) (by omega)
    rw [if_pos rfl, if_neg (by omega)] at this
    rw [h3]
    exact this

/-- Below zero the result is minus the bits of the opposite value: the right number only for
-2. -/
theorem C134_negative_wrong {f : Fmt} (hf : f = f64 ∨ f = f32) {b k : Nat}
    (hb : b < 2 ^ (f.p + f.w)) (hx : ieee f b = .fin false k) (hk : Fine f k) :
    ieee f (b + 2 ^ (f.p + f.w)) = .fin true k ∧
      rawBits f (ieee f (b + 2 ^ (f.p + f.w))) = .ok (-(b : Int)) ∧
      (-(b : Int) = asSigned f (b + 2 ^ (f.p + f.w)) ↔ 2 * b = 2 ^ (f.p + f.w)) := by
  have F := fits_of hf
  have ho := ieee_opp (f := f) (b := b) hb
  have hl : f.last = f.p + f.w := rfl
  rw [hl] at ho
  obtain ⟨e, m, rfl, he, hm⟩ := parts (f := f) hb
  have h : ¬ e = 2 ^ f.w - 1 := by
    intro h; rw [ieee_pos he hm, if_pos h] at hx; split at hx <;> cases hx
  have hx' := hx
  rw [ieee_pos he hm, if_neg h] at hx'
  have hk' : mag f e m = k := by injection hx'
  rw [ho, hx]
  refine ⟨rfl, ?_, ?_⟩
  · show rawBits f (.fin true k) = _
    rw [← hk', rawBits_fine F true hm (by rw [hk']; exact hk)]
    rfl
  · unfold asSigned
    rw [if_neg (by omega)]
    have e2 : (2 : Int) ^ (f.p + f.w + 1) = 2 * ((2 ^ (f.p + f.w) : Nat) : Int) := by
      rw [Int.pow_succ, Int.natCast_pow]; push_cast; omega
    rw [e2]
    generalize 2 ^ (f.p + f.w) = q at *
    omega

-- -1
example : ieee f64 (1023 * 2 ^ 52) = .fin false (2 ^ 1074) ∧ Fine f64 (2 ^ 1074) :=
  ⟨by decide +kernel, .inr ⟨by decide +kernel, by decide +kernel, by decide +kernel⟩⟩

/-- Minus zero is given the bits of zero. -/
theorem C134_minus_zero_wrong {f : Fmt} (hf : f = f64 ∨ f = f32) :
    ieee f (2 ^ (f.p + f.w)) = .fin true 0 ∧ rawBits f (.fin true 0) = .ok 0 ∧
      asSigned f (2 ^ (f.p + f.w)) ≠ 0 := by
  refine ⟨?_, rawBits_zero (fits_of hf) true, ?_⟩ <;> rcases hf with rfl | rfl <;> decide +kernel

/-- A value with a first binary place of 1 after the point has the bits of the value half a
unit below: 1.5 those of 1. -/
theorem C134_half_wrong {f : Fmt} (hf : f = f64 ∨ f = f32) (neg : Bool) {k : Nat}
    (h1 : 2 ^ f.unit ≤ k) (h2 : k < 2 ^ 30 * 2 ^ f.unit) (h3 : k % 2 ^ f.unit < 2 ^ (f.unit - 1)) :
    rawBits f (.fin neg (k + 2 ^ (f.unit - 1))) = rawBits f (.fin neg k) :=
  rawBits_half (fits_of hf) neg h1 h3 h2

example : ieee f64 (1023 * 2 ^ 52 + 2 ^ 51) = .fin false (2 ^ f64.unit + 2 ^ (f64.unit - 1)) ∧
    2 ^ f64.unit ≤ 2 ^ f64.unit ∧ 2 ^ f64.unit < 2 ^ 30 * 2 ^ f64.unit ∧
    2 ^ f64.unit % 2 ^ f64.unit < 2 ^ (f64.unit - 1) := by decide +kernel

/-- A value below `2 ^ -(p + 1)`, other than zero, has the bits of 1 (or minus those). -/
theorem C134_tiny_wrong {f : Fmt} (hf : f = f64 ∨ f = f32) (neg : Bool) {k : Nat} (h0 : k ≠ 0)
    (h : k < 2 ^ (f.unit - (f.p + 1))) :
    ∃ b, ieee f b = .fin false (2 ^ f.unit) ∧
      rawBits f (.fin neg k) = .ok (if neg then -(b : Int) else b) := by
  refine ⟨f.bias * 2 ^ f.p, ?_, rawBits_tiny (fits_of hf) neg h0 h⟩
  rcases hf with rfl | rfl <;> decide +kernel

example : ieee f64 1 = .fin false 1 ∧ (1 : Nat) < 2 ^ (f64.unit - (f64.p + 1)) := by decide +kernel

/-- From `2 ^ 30` on the behaviour is undefined. -/
theorem C134_big_wrong {f : Fmt} (hf : f = f64 ∨ f = f32) (neg : Bool) {k : Nat}
    (h : 2 ^ 30 * 2 ^ f.unit ≤ k) : rawBits f (.fin neg k) = .ub :=
  rawBits_big (fits_of hf) neg h

example : ieee f32 (157 * 2 ^ 23) = .fin false (2 ^ 30 * 2 ^ f32.unit) := by decide +kernel

/-! ### C135: `compare` and the operators -/

/-- `compare` orders fine values as Java does. Missing: the values that are not fine. -/
theorem C135_compare_partial {f : Fmt} (hf : f = f64 ∨ f = f32) {x y : Flt} (hx : FineValue f x)
    (hy : FineValue f y) : ∃ c, compare f x y = .ok c ∧ Compares x y c := by
  have F := fits_of hf
  obtain ⟨a, ha⟩ := fine_rawBits F hx
  obtain ⟨b, hb⟩ := fine_rawBits F hy
  unfold compare
  rw [ha, hb, Outcome.bind_ok, Outcome.bind_ok]
  refine ⟨_, rfl, ?_⟩
  unfold Compares
  rw [before_iff F hx hy ha hb, before_iff F hy hx hb ha]
  by_cases h1 : a = b
  · rw [if_pos h1]; omega
  · rw [if_neg h1]
    by_cases h2 : a < b
    · rw [if_pos h2]; omega
    · rw [if_neg h2]; omega

-- -5.25 and 0.75
example : FineValue f64 (.fin true (21 * 2 ^ 1072)) ∧ FineValue f64 (.fin false (3 * 2 ^ 1072)) :=
  ⟨⟨⟨2 ^ 63 + 1025 * 2 ^ 52 + 2 ^ 50 + 2 ^ 48, by decide +kernel, by decide +kernel⟩,
    .inr ⟨by decide +kernel, by decide +kernel, by decide +kernel⟩, by decide +kernel⟩,
   ⟨⟨1022 * 2 ^ 52 + 2 ^ 51, by decide +kernel, by decide +kernel⟩,
    .inl ⟨by decide +kernel, by decide +kernel⟩, by decide +kernel⟩⟩

/-- The operators agree with the order on fine values. -/
theorem C135_operators_partial {f : Fmt} (hf : f = f64 ∨ f = f32) {x y : Flt} (hx : FineValue f x)
    (hy : FineValue f y) :
    (lt f x y = .ok true ↔ Before x y) ∧ (gt f x y = .ok true ↔ Before y x) ∧
      (le f x y = .ok true ↔ ¬ Before y x) ∧ (ge f x y = .ok true ↔ ¬ Before x y) := by
  have F := fits_of hf
  obtain ⟨a, ha⟩ := fine_rawBits F hx
  obtain ⟨b, hb⟩ := fine_rawBits F hy
  rw [before_iff F hx hy ha hb, before_iff F hy hx hb ha]
  unfold lt gt le ge compare
  simp only [ha, hb, Outcome.bind_ok]
  by_cases h1 : a = b
  · simp [h1]
  · by_cases h2 : a < b
    · simp [h1, h2]; omega
    · simp [h1, h2]; omega

/-- Minus zero is not before zero. -/
theorem C135_zero_wrong {f : Fmt} (hf : f = f64 ∨ f = f32) :
    Before (.fin true 0) (.fin false 0) ∧ compare f (.fin true 0) (.fin false 0) = .ok 0 := by
  have F := fits_of hf
  refine ⟨.inr ⟨rfl, rfl, rfl, rfl⟩, ?_⟩
  unfold compare
  rw [rawBits_zero F, rawBits_zero F]
  rfl

/-- `n + r` and `n + 1/2 + r` compare equal: 1 and 1.5. -/
theorem C135_half_wrong {f : Fmt} (hf : f = f64 ∨ f = f32) {k : Nat} (h1 : 2 ^ f.unit ≤ k)
    (h2 : k < 2 ^ 30 * 2 ^ f.unit) (h3 : k % 2 ^ f.unit < 2 ^ (f.unit - 1)) :
    Before (.fin false k) (.fin false (k + 2 ^ (f.unit - 1))) ∧
      compare f (.fin false (k + 2 ^ (f.unit - 1))) (.fin false k) = .ok 0 := by
  have F := fits_of hf
  refine ⟨.inl ?_, ?_⟩
  · have := Nat.two_pow_pos (f.unit - 1)
    unfold num
    simp only [Bool.false_eq_true, if_false]
    omega
  · unfold compare
    rw [rawBits_half F false h1 h3 h2]
    obtain ⟨c, hc⟩ := small_rawBits F (x := .fin false k) h2
    rw [hc, Outcome.bind_ok, Outcome.bind_ok, if_pos rfl]

/-- `n + 1/2` compares below `n + r`, though `r` is less than `1/2`: 1.5 below 1.25. -/
theorem C135_reversed_wrong {f : Fmt} (hf : f = f64 ∨ f = f32) {n r : Nat} (h1 : 1 ≤ n)
    (h2 : n < 2 ^ 30) (hr : 0 < r) (hr' : r < 2 ^ (f.unit - 1))
    (hv : IsValue f (.fin false (n * 2 ^ f.unit))) (hv' : IsValue f (.fin false (n * 2 ^ f.unit + r))) :
    Before (.fin false (n * 2 ^ f.unit + r)) (.fin false (n * 2 ^ f.unit + 2 ^ (f.unit - 1))) ∧
      compare f (.fin false (n * 2 ^ f.unit + 2 ^ (f.unit - 1)))
        (.fin false (n * 2 ^ f.unit + r)) = .ok (-1) := by
  have F := fits_of hf
  have hU := Nat.two_pow_pos f.unit
  have hH := Nat.two_pow_pos (f.unit - 1)
  have hlow : 2 ^ f.unit ≤ n * 2 ^ f.unit := Nat.le_mul_of_pos_left _ h1
  have hle : 2 ^ (f.unit - 1) ≤ 2 ^ f.unit := Nat.pow_le_pow_right (by decide) (by omega)
  have hup : n * 2 ^ f.unit + 2 ^ f.unit ≤ 2 ^ 30 * 2 ^ f.unit := by
    have := Nat.mul_le_mul_right (2 ^ f.unit) (show n + 1 ≤ 2 ^ 30 from h2)
    rw [Nat.add_mul, Nat.one_mul] at this
    exact this
  have hm0 : n * 2 ^ f.unit % 2 ^ f.unit = 0 := Nat.mul_mod_left ..
  have hm1 : (n * 2 ^ f.unit + r) % 2 ^ f.unit = r := by
    rw [Nat.add_comm, Nat.add_mul_mod_self_right, Nat.mod_eq_of_lt (by omega)]
  have fx : FineValue f (.fin false (n * 2 ^ f.unit)) :=
    ⟨hv, .inr ⟨hlow, by omega, by omega⟩, fun h => absurd h.1 (by decide)⟩
  have fy : FineValue f (.fin false (n * 2 ^ f.unit + r)) :=
    ⟨hv', .inr ⟨by omega, by omega, by omega⟩, fun h => absurd h.1 (by decide)⟩
  obtain ⟨a, ha⟩ := fine_rawBits F fx
  obtain ⟨b, hb⟩ := fine_rawBits F fy
  have hlt : a < b := (before_iff F fx fy ha hb).1 (.inl (by
    unfold num; simp only [Bool.false_eq_true, if_false]; omega))
  refine ⟨.inl (by unfold num; simp only [Bool.false_eq_true, if_false]; omega), ?_⟩
  unfold compare
  rw [rawBits_half F false hlow (by omega) (by omega), ha, hb, Outcome.bind_ok, Outcome.bind_ok,
    if_neg (by omega), if_pos hlt]

example : IsValue f64 (.fin false (1 * 2 ^ f64.unit)) ∧
    IsValue f64 (.fin false (1 * 2 ^ f64.unit + 2 ^ 1072)) ∧ 2 ^ 1072 < 2 ^ (f64.unit - 1) :=
  ⟨⟨1023 * 2 ^ 52, by decide +kernel, by decide +kernel⟩,
    ⟨1023 * 2 ^ 52 + 2 ^ 50, by decide +kernel, by decide +kernel⟩, by decide +kernel⟩

/-- A value below `2 ^ -(p + 1)` compares above every fine value between it and 1. -/
theorem C135_tiny_wrong {f : Fmt} (hf : f = f64 ∨ f = f32) {k l : Nat} (h0 : k ≠ 0)
    (h : k < 2 ^ (f.unit - (f.p + 1))) (hl : FineValue f (.fin false l)) (hl0 : l ≠ 0)
    (hl1 : l < 2 ^ f.unit) :
    Before (.fin false k) (.fin false l) ∧ compare f (.fin false k) (.fin false l) = .ok 1 := by
  have F := fits_of hf
  have hfine : Fine f l := hl.2.1
  have hkl : k < l := by
    rcases hfine with ⟨_, h2⟩ | ⟨h2, _⟩
    · exact Nat.lt_of_lt_of_le h (Nat.le_of_dvd (Nat.pos_of_ne_zero hl0) h2)
    · omega
  refine ⟨.inl (by unfold num; simp only [Bool.false_eq_true, if_false]; omega), ?_⟩
  -- 1 as a value
  have hone : ieee f (f.bias * 2 ^ f.p) = .fin false (2 ^ f.unit) ∧ f.bias * 2 ^ f.p < 2 ^ (f.p + f.w + 1) := by
    rcases hf with rfl | rfl <;> decide +kernel
  have fone : FineValue f (.fin false (2 ^ f.unit)) := by
    refine ⟨⟨_, hone.2, hone.1⟩, .inr ⟨Nat.le_refl _, ?_, ?_⟩, fun h => absurd h.1 (by decide)⟩
    · have := Nat.two_pow_pos f.unit; omega
    · rw [Nat.mod_self]; exact Nat.two_pow_pos _
  obtain ⟨a, ha⟩ := fine_rawBits F hl
  have hb : rawBits f (.fin false (2 ^ f.unit)) = .ok ((f.bias * 2 ^ f.p : Nat) : Int) := by
    rw [← hone.1, C134_bits_partial hf (b := f.bias * 2 ^ f.p) (k := 2 ^ f.unit)
      (by rcases hf with rfl | rfl <;> decide +kernel) hone.1 fone.2.1]
    unfold asSigned
    rw [if_pos (by rcases hf with rfl | rfl <;> decide +kernel)]
  have hlt := (before_iff F hl fone ha hb).1 (.inl (by
    unfold num; simp only [Bool.false_eq_true, if_false]; omega))
  unfold compare
  rw [rawBits_tiny F false h0 h, ha, Outcome.bind_ok, Outcome.bind_ok]
  simp only [Bool.false_eq_true, if_false]
  rw [if_neg (by omega), if_neg (by omega)]

-- 2^-54 and 1/2
example : IsValue f64 (.fin false (2 ^ 1020)) ∧ 2 ^ 1020 < 2 ^ (f64.unit - (f64.p + 1)) ∧
    FineValue f64 (.fin false (2 ^ 1073)) ∧ 2 ^ 1073 < 2 ^ f64.unit :=
  ⟨⟨969 * 2 ^ 52, by decide +kernel, by decide +kernel⟩, by decide +kernel,
    ⟨⟨1022 * 2 ^ 52, by decide +kernel, by decide +kernel⟩, .inl ⟨by decide +kernel, by decide +kernel⟩,
      by decide +kernel⟩, by decide +kernel⟩

/-! ### C136: `equals`, `==` and `hashCode` -/

/-- `equals` is an equivalence on the values below `2 ^ 30`, infinities and NaN; it says the
same as `compare`, and equal values have equal hash codes. Missing: values from `2 ^ 30` on. -/
theorem C136_equals_partial {f : Fmt} (hf : f = f64 ∨ f = f32) {x y z : Flt} (hx : Small f x)
    (hy : Small f y) (hz : Small f z) :
    equals f x x = .ok true ∧ (equals f x y = .ok true → equals f y x = .ok true) ∧
      (equals f x y = .ok true → equals f y z = .ok true → equals f x z = .ok true) ∧
      (equals f x y = .ok true ↔ compare f x y = .ok 0) ∧
      (equals f64 x y = .ok true → ∃ h, hashCode64 x = .ok h ∧ hashCode64 y = .ok h) ∧
      (equals f32 x y = .ok true → ∃ h, hashCode32 x = .ok h ∧ hashCode32 y = .ok h) := by
  have F := fits_of hf
  obtain ⟨a, ha⟩ := small_rawBits F hx
  obtain ⟨b, hb⟩ := small_rawBits F hy
  obtain ⟨c, hc⟩ := small_rawBits F hz
  have hash : ∀ g : Fmt, equals g x y = .ok true → ∃ h, rawBits g x = .ok h ∧ rawBits g y = .ok h := by
    intro g h
    unfold equals at h
    cases h1 : rawBits g y <;> rw [h1] at h <;> try (cases h; done)
    cases h2 : rawBits g x <;> rw [h2] at h <;> try (cases h; done)
    rename_i u v
    have := of_decide_eq_true (Outcome.ok.inj h)
    exact ⟨u, by rw [this], rfl⟩
  refine ⟨?_, ?_, ?_, ?_, ?_, ?_⟩
  · unfold equals; simp [ha]
  · unfold equals
    simp only [ha, hb, Outcome.bind_ok, Outcome.ok.injEq, decide_eq_true_eq]
    exact Eq.symm
  · unfold equals
    simp only [ha, hb, hc, Outcome.bind_ok, Outcome.ok.injEq, decide_eq_true_eq]
    intro h1 h2; rw [h2, h1]
  · unfold equals compare
    simp only [ha, hb, Outcome.bind_ok, Outcome.ok.injEq, decide_eq_true_eq]
    by_cases h : a = b
    · simp [h]
    · by_cases h2 : a < b
      · simp [h, h2]; omega
      · simp [h, h2]; omega
  · intro h
    obtain ⟨u, h1, h2⟩ := hash f64 h
    unfold hashCode64
    rw [h1, h2]
    exact ⟨_, rfl, rfl⟩
  · intro h
    obtain ⟨u, h1, h2⟩ := hash f32 h
    exact ⟨u, h1, h2⟩

example : Small f64 (.fin true (2 ^ 1074)) ∧ Small f64 .nan ∧ Small f64 (.inf true) :=
  ⟨by show 2 ^ 1074 < _; decide +kernel, trivial, trivial⟩

/-- 1 and 1.5 are equal, and so are all such pairs, though the order tells them apart. -/
theorem C136_half_wrong {f : Fmt} (hf : f = f64 ∨ f = f32) {k : Nat} (h1 : 2 ^ f.unit ≤ k)
    (h2 : k < 2 ^ 30 * 2 ^ f.unit) (h3 : k % 2 ^ f.unit < 2 ^ (f.unit - 1)) :
    Before (.fin false k) (.fin false (k + 2 ^ (f.unit - 1))) ∧
      equals f (.fin false k) (.fin false (k + 2 ^ (f.unit - 1))) = .ok true := by
  have F := fits_of hf
  refine ⟨(C135_half_wrong hf h1 h2 h3).1, ?_⟩
  unfold equals
  rw [rawBits_half F false h1 h3 h2]
  obtain ⟨c, hc⟩ := small_rawBits F (x := .fin false k) h2
  rw [hc]
  simp

/-- From `2 ^ 30` on comparing a value with itself is undefined behaviour. -/
theorem C136_big_wrong {f : Fmt} (hf : f = f64 ∨ f = f32) (neg : Bool) {k : Nat}
    (h : 2 ^ 30 * 2 ^ f.unit ≤ k) :
    equals f (.fin neg k) (.fin neg k) = .ub ∧ compare f (.fin neg k) (.fin neg k) = .ub := by
  have := rawBits_big (fits_of hf) neg h
  unfold equals compare
  rw [this]
  exact ⟨rfl, rfl⟩

/-! ### C137: values from bits -/

/-- `longBitsToDouble` of the bits of a normal positive value, or of infinity, is that value.
Missing: zero, subnormal and negative values, NaN. -/
theorem C137_normal_partial {b : Nat} (h1 : 2 ^ 52 ≤ b) (h2 : b ≤ 2047 * 2 ^ 52) :
    ofBits (b : Int) = .ok (ieee f64 b) := by
  have hlt : b < 2 ^ f64.last := Nat.lt_of_le_of_lt h2 (by decide)
  obtain ⟨e, m, rfl, he, hm⟩ := parts hlt
  have he' : e < 2 ^ 11 := he
  have hm' : m < 2 ^ 52 := hm
  have hp : f64.p = 52 := rfl
  rw [hp] at h1 h2 hlt ⊢
  have hl : (2 : Nat) ^ f64.last = 2 ^ 63 := rfl
  rw [ofBits_ok (by rw [Int.natAbs_natCast]; omega), Int.natAbs_natCast]
  have hd : (e * 2 ^ 52 + m) / 2 ^ 52 = e := by omega
  have hr : (e * 2 ^ 52 + m) % 2 ^ 52 = m := by omega
  rw [hd, hr, compose_normal (by omega) hm' he' _ (by omega)]
  rw [if_neg (by simp; omega)]

example : ieee f64 (1023 * 2 ^ 52 + 2 ^ 51) = .fin false (3 * 2 ^ 1073) ∧
    2 ^ 52 ≤ 1023 * 2 ^ 52 + 2 ^ 51 := by decide +kernel

/-- The bits of zero and of a subnormal value give a value near `2 ^ -1023`. -/
theorem C137_subnormal_wrong {b : Nat} (h : b < 2 ^ 52) :
    ieee f64 b = .fin false b ∧ ∃ k, ofBits (b : Int) = .ok (.fin false k) ∧ 2 ^ 51 ≤ k ∧ b < k := by
  have hi := ieee_pos (f := f64) (e := 0) (m := b) (by decide) h
  rw [Nat.zero_mul, Nat.zero_add, if_neg (by decide)] at hi
  refine ⟨hi, halfEven (2 ^ 52 + b), ?_, ?_⟩
  · rw [ofBits_ok (by rw [Int.natAbs_natCast]; omega), Int.natAbs_natCast]
    rw [Nat.div_eq_of_lt h, Nat.mod_eq_of_lt h]
    unfold compose
    rw [if_neg (by decide), if_pos rfl, decide_eq_false (by omega)]
  · unfold halfEven
    split
    · omega
    · split <;> omega

example : ieee f64 0 = .fin false 0 ∧ ofBits 0 = .ok (.fin false (2 ^ 51)) := by decide +kernel

/-- The bits of a NaN give infinity. -/
theorem C137_nan_wrong {b : Nat} (h1 : 2047 * 2 ^ 52 < b) (h2 : b < 2 ^ 63) :
    ieee f64 b = .nan ∧ ofBits (b : Int) = .ok (.inf false) := by
  have hlt : b < 2 ^ f64.last := h2
  obtain ⟨e, m, rfl, he, hm⟩ := parts hlt
  have he' : e < 2 ^ 11 := he
  have hm' : m < 2 ^ 52 := hm
  have hp : f64.p = 52 := rfl
  rw [hp] at h1 h2 hlt
  have he2 : e = 2 ^ f64.w - 1 := by show e = 2047; omega
  constructor
  · rw [ieee_pos he hm, if_pos he2, if_neg (by intro h; rw [h] at h1; have : e = 2047 := he2; omega)]
  · have hd : (e * 2 ^ 52 + m) / 2 ^ 52 = e := by omega
    rw [hp, ofBits_ok (by rw [Int.natAbs_natCast]; omega), Int.natAbs_natCast, hd]
    have he3 : e = 2047 := he2
    unfold compose
    rw [if_pos he3, decide_eq_false (by omega)]

example : 2047 * 2 ^ 52 < 0x7ff8000000000000 ∧ 0x7ff8000000000000 < 2 ^ 63 := by decide

/-- A negative `long` is read as a sign and a magnitude: right only for the bits of -2. -/
theorem C137_negative_wrong {b : Nat} (h1 : 2 ^ 52 ≤ b) (h2 : b ≤ 2047 * 2 ^ 52) :
    ofBits (-(b : Int)) = .ok (ieee f64 (b + 2 ^ 63)) ∧
      (asSigned f64 (b + 2 ^ 63) = -(b : Int) ↔ b = 2 ^ 62) := by
  have hlt : b < 2 ^ f64.last := Nat.lt_of_le_of_lt h2 (by decide)
  have ho : ieee f64 (b + 2 ^ 63) = opposite (ieee f64 b) := ieee_opp hlt
  rw [ho]
  constructor
  · obtain ⟨e, m, rfl, he, hm⟩ := parts hlt
    have he' : e < 2 ^ 11 := he
    have hm' : m < 2 ^ 52 := hm
    have hp : f64.p = 52 := rfl
    rw [hp] at h1 h2 hlt ⊢
    have hl : (2 : Nat) ^ f64.last = 2 ^ 63 := rfl
    rw [ofBits_ok (by rw [Int.natAbs_neg, Int.natAbs_natCast]; omega), Int.natAbs_neg, Int.natAbs_natCast]
    have hd : (e * 2 ^ 52 + m) / 2 ^ 52 = e := by omega
    have hr : (e * 2 ^ 52 + m) % 2 ^ 52 = m := by omega
    rw [hd, hr, compose_normal (by omega) hm' he' _ (by omega)]
    rw [if_pos (by simp only [decide_eq_true_eq]; omega)]
  · unfold asSigned
    have hp : f64.p + f64.w = 63 := rfl
    rw [hp, if_neg (by omega)]
    omega

example : (2 : Nat) ^ 52 ≤ 1023 * 2 ^ 52 := by decide

/-- The bits of minus zero: undefined behaviour. -/
theorem C137_min_wrong : asSigned f64 (2 ^ 63) = -2 ^ 63 ∧ ieee f64 (2 ^ 63) = .fin true 0 ∧
    ofBits (-2 ^ 63) = .ub := by
  refine ⟨by decide +kernel, by decide +kernel, ?_⟩
  unfold ofBits bitsText malloc
  rw [fill_ok _ (by omega), Outcome.bind_ok, show (64 : Int) = ((64 : Nat) : Int) from rfl,
    wr_nat _ (by omega), Outcome.bind_ok, if_pos (by decide), if_pos rfl]
  rfl

/-- `longBitsToDouble(doubleToLongBits(x))` is `x`, for fine values other than zero and NaN, of
either sign. Missing: the others. -/
theorem C137_round_trip_partial {x : Flt} (hx : FineValue f64 x) (h0 : ∀ a, x ≠ .fin a 0)
    (hn : x ≠ .nan) : (rawBits f64 x).bind ofBits = .ok x := by
  rcases fine_key f64_fits hx with ⟨h, _⟩ | ⟨a, rfl, h⟩ | ⟨a, e, m, he, hm, rfl, hz, h⟩
  · exact absurd h hn
  · have hc : (2 ^ f64.w - 1) * 2 ^ f64.p = 2047 * 2 ^ 52 := by decide +kernel
    rw [hc] at h
    rw [h, Outcome.bind_ok]
    cases a
    · rw [if_neg (by decide), C137_normal_partial (b := 2047 * 2 ^ 52) (by decide) (by decide),
        show ieee f64 (2047 * 2 ^ 52) = .inf false by decide +kernel]
    · rw [if_pos rfl, (C137_negative_wrong (b := 2047 * 2 ^ 52) (by decide) (by decide)).1,
        show ieee f64 (2047 * 2 ^ 52 + 2 ^ 63) = .inf true by decide +kernel]
  · rw [h, Outcome.bind_ok]
    have he' : e < 2047 := he
    have hm' : m < 2 ^ 52 := hm
    have he0 : e ≠ 0 := by
      intro h
      have hfine : Fine f64 (mag f64 e m) := hx.2.1
      have hmag : mag f64 e m = m := by unfold mag; rw [if_pos h]
      rw [hmag] at hfine
      have h1 : (2 : Nat) ^ 52 ≤ 2 ^ f64.unit := by decide +kernel
      rcases hfine with ⟨_, h2⟩ | ⟨h2, _⟩
      · rcases Nat.eq_zero_or_pos m with h3 | h3
        · exact h0 a (by rw [hmag, h3])
        · have := Nat.le_of_dvd h3 h2
          have h4 : (2 : Nat) ^ 52 ≤ 2 ^ (f64.unit - (f64.p + 1)) := by decide +kernel
          omega
      · omega
    have hpos : ieee f64 (e * 2 ^ 52 + m) = .fin false (mag f64 e m) := by
      have := ieee_pos (f := f64) (e := e) (m := m) (Nat.lt_of_lt_of_le he (Nat.sub_le _ _)) hm
      rw [if_neg (Nat.ne_of_lt he)] at this
      exact this
    unfold key
    rw [show f64.p = 52 from rfl]
    cases a
    · rw [if_neg (by decide), C137_normal_partial (b := e * 2 ^ 52 + m) (by omega) (by omega), hpos]
    · rw [if_pos rfl, (C137_negative_wrong (b := e * 2 ^ 52 + m) (by omega) (by omega)).1]
      have ho : ieee f64 (e * 2 ^ 52 + m + 2 ^ 63) = opposite (ieee f64 (e * 2 ^ 52 + m)) :=
        ieee_opp (f := f64) (by show _ < 2 ^ 63; omega)
      rw [ho, hpos]
      rfl

example : FineValue f64 (.fin true (21 * 2 ^ 1072)) :=
  ⟨⟨2 ^ 63 + 1025 * 2 ^ 52 + 2 ^ 50 + 2 ^ 48, by decide +kernel, by decide +kernel⟩,
    .inr ⟨by decide +kernel, by decide +kernel, by decide +kernel⟩, by decide +kernel⟩

/-- `intBitsToFloat` is right for every pattern. -/
theorem C137_float_partial {b : Nat} (h : b < 2 ^ 32) : ofBits32 (asSigned f32 b) = ieee f32 b := by
  have hb : (BitVec.ofInt 32 (asSigned f32 b)).toNat = b := by
    rw [BitVec.toNat_ofInt]
    unfold asSigned
    have hp : f32.p + f32.w = 31 := rfl
    rw [hp]
    split
    · rw [Int.emod_eq_of_lt (by omega) (by omega)]; omega
    · have : ((b : Int) - 2 ^ (31 + 1)) % ((2 ^ 32 : Nat) : Int) = b := by omega
      rw [this]; omega
  unfold ofBits32 ieee
  have hp : f32.p = 23 := rfl
  have hw : f32.w = 8 := rfl
  simp only [hb, hp, hw]
  have h1 : (decide (b / 2 ^ 31 = 1)) = (b / 2 ^ (23 + 8) % 2 == 1) := by
    have : b / 2 ^ 31 < 2 := by omega
    have h2 : b / 2 ^ (23 + 8) % 2 = b / 2 ^ 31 := Nat.mod_eq_of_lt this
    rw [h2]
    rfl
  rw [h1]

example : asSigned f32 0xC0A80000 = -1062731776 ∧
    ieee f32 0xC0A80000 = .fin true (21 * 2 ^ 147) := by decide +kernel

end Verif.Floats
