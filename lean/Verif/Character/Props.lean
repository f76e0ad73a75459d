import Verif.Character.Model
import Verif.Character.Spec
/-! # Properties of `Character` -/
namespace Verif.Character

open Verif.CInt Verif.Bits

/-! ## C56 -/

/-- C56: `charCount` is the number of UTF-16 code units of the code point. -/
theorem C56_charCount (cp : Nat) (h : cp ≤ 0x10FFFF) : charCount (BitVec.ofNat 32 cp) = (utf16 cp).length := by
  have h1 : (BitVec.ofNat 32 cp).toInt = cp := by
    rw [BitVec.toInt_eq_toNat_of_lt] <;> simp <;> omega
  have h2 : MIN_SUPPLEMENTARY_CODE_POINT.toInt = 65536 := by decide
  unfold charCount utf16
  rw [h1, h2]
  by_cases hc : cp < 0x10000
  · rw [if_neg (by omega), if_pos hc]; rfl
  · rw [if_pos (by omega), if_neg hc]; rfl

example : charCount (BitVec.ofNat 32 0x1F600) = 2 := C56_charCount 0x1F600 (by omega)

/-- C56 fails: by the C++ standard every call of `toCodePoint` is undefined, because the constant
`MIN_HIGH_SURROGATE << 10` does not fit. -/
theorem C56_toCodePoint_undefined (high low : BitVec 32) : toCodePoint .strict high low = .ub := by
  have hb : shl .strict MIN_HIGH_SURROGATE 10 = .ub := by decide
  unfold toCodePoint
  simp only [Outcome.bind_eq, hb]
  have h1 : shl .strict high 10 = .ub ∨ ∃ a, shl .strict high 10 = .ok a := by
    unfold shl; split
    · exact Or.inl rfl
    · exact Or.inr ⟨_, rfl⟩
  rcases h1 with h1 | ⟨a, h1⟩
  · rw [h1]; rfl
  · rw [h1, Outcome.bind_ok]
    have h2 : add .strict a low = .ub ∨ ∃ b, add .strict a low = .ok b := by
      unfold add; split
      · exact Or.inl rfl
      · exact Or.inr ⟨_, rfl⟩
    rcases h2 with h2 | ⟨b, h2⟩
    · rw [h2]; rfl
    · rw [h2]; rfl

/-- The value with wrap-around arithmetic. -/
theorem toCodePoint_wrap (high low : BitVec 32) :
    toCodePoint .wrap high low = .ok ((high <<< 10 + low) + (0x10000#32 - 0xE0C0C000#32 - 0x0D433030#32)) := by
  have hs : ∀ x : BitVec 32, shl .wrap x 10 = .ok (x <<< 10) := by
    intro x; unfold shl; rw [if_neg (by simp)]; rfl
  unfold toCodePoint
  simp only [Outcome.bind_eq, hs, Outcome.bind_ok, add_wrap, sub_wrap]
  rfl

theorem toCodePoint_aux (q r : Nat) (hq : q < 1024) (hr : r < 1024) :
    BitVec.ofNat 32 (55296 + q) <<< 10 + BitVec.ofNat 32 (56320 + r) + (0x10000#32 - 0xE0C0C000#32 - 0x0D433030#32) ≠
      BitVec.ofNat 32 (65536 + (1024 * q + r)) := by
  intro h
  have h3 : (0x10000#32 - 0xE0C0C000#32 - 0x0D433030#32).toNat = 301797328 := by decide
  have h4 : ((55296 + q) * 1024 + (56320 + r) + 301797328) % 4294967296 = (65536 + (1024 * q + r)) % 4294967296 := by
    have h2 := congrArg BitVec.toNat h
    generalize 0x10000#32 - 0xE0C0C000#32 - 0x0D433030#32 = K at h2 h3
    rw [BitVec.toNat_add, BitVec.toNat_add, BitVec.toNat_shiftLeft, h3, Nat.shiftLeft_eq, BitVec.toNat_ofNat, BitVec.toNat_ofNat,
      BitVec.toNat_ofNat] at h2
    rw [← h2]
    generalize 55296 + q = a
    generalize 56320 + r = b
    simp only [Nat.reducePow, Nat.mod_mul_mod, Nat.add_mod_mod, Nat.mod_add_mod]
  clear h h3
  omega

theorem utf16_aux (q r : Nat) (hq : q < 1024) (hr : r < 1024) :
    utf16 (65536 + (1024 * q + r)) = [55296 + q, 56320 + r] := by
  have e1 : (65536 + (1024 * q + r) - 65536) / 1024 = q := by omega
  have e2 : (65536 + (1024 * q + r) - 65536) % 1024 = r := by omega
  unfold utf16
  rw [if_neg (by omega), e1, e2]

/-- C56 fails: with wrap-around arithmetic `toCodePoint` of the two surrogates of a supplementary code
point is never that code point. -/
theorem C56_toCodePoint_wrong (cp : Nat) (h0 : 0x10000 ≤ cp) (h1 : cp ≤ 0x10FFFF) :
    ∃ high low r, utf16 cp = [high, low] ∧ toCodePoint .wrap (BitVec.ofNat 32 high) (BitVec.ofNat 32 low) = .ok r ∧
      r ≠ BitVec.ofNat 32 cp := by
  obtain ⟨q, r, hq, hr, rfl⟩ : ∃ q r, q < 1024 ∧ r < 1024 ∧ cp = 65536 + (1024 * q + r) :=
    ⟨(cp - 65536) / 1024, (cp - 65536) % 1024, by omega, by omega, by omega⟩
  have h3 := toCodePoint_wrap (BitVec.ofNat 32 (55296 + q)) (BitVec.ofNat 32 (56320 + r))
  have h4 := toCodePoint_aux q r hq hr
  have h5 : utf16 (65536 + (1024 * q + r)) = [55296 + q, 56320 + r] := utf16_aux q r hq hr
  exact ⟨_, _, _, h5, h3, h4⟩

example : utf16 0x1F600 = [0xD83D, 0xDE00] := by decide

/-- C56 fails: no surrogate code unit is recognised. -/
theorem C56_surrogates_wrong (u : Nat) (h : 0xD800 ≤ u ∧ u ≤ 0xDFFF) :
    isHighSurrogate (BitVec.ofNat 32 u) = false ∧ isLowSurrogate (BitVec.ofNat 32 u) = false ∧
      isSurrogate (BitVec.ofNat 32 u) = false := by
  have h1 : (BitVec.ofNat 32 u).toInt = u := by
    rw [BitVec.toInt_eq_toNat_of_lt] <;> simp <;> omega
  have a1 : MIN_HIGH_SURROGATE.toInt = 0x0D383030 := by decide
  have a2 : MIN_LOW_SURROGATE.toInt = 0x0D433030 := by decide
  unfold isHighSurrogate isLowSurrogate isSurrogate MIN_SURROGATE
  rw [h1, a1, a2]
  simp only [decide_eq_false_iff_not]
  omega

example : 0xD800 ≤ 0xD83D ∧ 0xD83D ≤ 0xDFFF := by omega

/-- The ranges the three tests really accept. -/
theorem C56_surrogate_ranges (ch : BitVec 32) :
    (isHighSurrogate ch = true ↔ 0x0D383030 ≤ ch.toInt ∧ ch.toInt ≤ 0x0D424646) ∧
    (isLowSurrogate ch = true ↔ 0x0D433030 ≤ ch.toInt ∧ ch.toInt ≤ 0x0D464646) ∧
    (isSurrogate ch = true ↔ 0x0D383030 ≤ ch.toInt ∧ ch.toInt ≤ 0x0D464646) := by
  have a1 : MIN_HIGH_SURROGATE.toInt = 0x0D383030 := by decide
  have a2 : MIN_LOW_SURROGATE.toInt = 0x0D433030 := by decide
  have a3 : MAX_HIGH_SURROGATE.toInt = 0x0D424646 := by decide
  have a4 : MAX_LOW_SURROGATE.toInt = 0x0D464646 := by decide
  unfold isHighSurrogate isLowSurrogate isSurrogate MIN_SURROGATE MAX_SURROGATE
  rw [a1, a2, a3, a4]
  simp only [decide_eq_true_eq]
  omega

/-- C56: `digit(c, 10)`, and `digit(c, 16)` except for the capital letters. Missing: capital letters, and
every radix other than 10 and 16. -/
theorem C56_digit_partial (c : Int) : digit c 10 = digitIn c 10 ∧ (¬(65 ≤ c ∧ c ≤ 70) → digit c 16 = digitIn c 16) := by
  by_cases hr : 48 ≤ c ∧ c ≤ 102
  · obtain ⟨k, rfl⟩ : ∃ k : Nat, c = (k : Int) := ⟨c.toNat, by omega⟩
    have h : ∀ k : Fin 103, digit (k.val : Int) 10 = digitIn (k.val : Int) 10 ∧
        (¬(65 ≤ (k.val : Int) ∧ (k.val : Int) ≤ 70) → digit (k.val : Int) 16 = digitIn (k.val : Int) 16) := by decide +kernel
    exact h ⟨k, by omega⟩
  · have h1 : ∀ r, digit c r = -1 := by
      intro r
      unfold digit
      have h0 : ∀ k : Int, 48 ≤ k → k ≤ 102 → ¬ c = k := by intro k _ _; omega
      by_cases r10 : r = 10
      · rw [if_pos r10]; repeat rw [if_neg (h0 _ (by decide) (by decide))]
      · rw [if_neg r10]
        by_cases r16 : r = 16
        · rw [if_pos r16]; repeat rw [if_neg (h0 _ (by decide) (by decide))]
        · rw [if_neg r16]
    have h2 : ∀ r, r ≤ 16 → digitIn c r = -1 := by
      intro r hr16
      unfold digitIn digitValue
      rw [if_neg (by omega)]
      by_cases h3 : 97 ≤ c ∧ c ≤ 122
      · rw [if_pos h3]; simp only []; rw [if_neg (by omega)]
      · rw [if_neg h3, if_neg (by omega)]
    exact ⟨by rw [h1, h2 10 (by omega)], fun _ => by rw [h1, h2 16 (by omega)]⟩

example : digit 57 10 = 9 ∧ digit 102 16 = 15 := by decide

/-- C56 fails: in every other radix `digit` finds no digits at all, -/
theorem C56_digit_radix_wrong (c r : Int) (h : r ≠ 10 ∧ r ≠ 16) : digit c r = -1 := by
  unfold digit; rw [if_neg h.1, if_neg h.2]

/-- although there are some, -/
theorem C56_digit_radix_spec (r : Int) (h : 2 ≤ r ∧ r ≤ 36) : digitIn 49 r = 1 := by
  unfold digitIn
  have : digitValue 49 = some 1 := by decide
  rw [this]; simp only []; rw [if_pos (by omega)]

/-- and in radix 16 it does not know the capital letters. -/
theorem C56_digit_capital_wrong (c : Int) (h : 65 ≤ c ∧ c ≤ 70) : digit c 16 = -1 ∧ digitIn c 16 = c - 55 := by
  constructor
  · unfold digit
    rw [if_neg (by decide), if_pos rfl]
    repeat rw [if_neg (by omega)]
  · unfold digitIn digitValue
    rw [if_neg (by omega), if_neg (by omega), if_pos (by omega)]
    simp only []
    rw [if_pos (by omega)]; omega

example : (65 : Int) ≤ 65 ∧ (65 : Int) ≤ 70 := by omega

/-! ## C65: code points of `char` arrays -/

theorem widen_toInt (c : Byte) : (widen c).toInt = c.toInt := BitVec.toInt_signExtend_of_le (by omega)

theorem byte_bounds (c : Byte) : -128 ≤ c.toInt ∧ c.toInt ≤ 127 := by
  have h1 := BitVec.le_two_mul_toInt (x := c)
  have h2 := BitVec.two_mul_toInt_lt (x := c)
  simp at h1 h2; omega

/-- No `char` is taken for a surrogate. -/
theorem C65_no_surrogates (c : Byte) : isHighSurrogate (widen c) = false ∧ isLowSurrogate (widen c) = false ∧
    isSurrogate (widen c) = false := by
  have hb := byte_bounds c
  have hr := C56_surrogate_ranges (widen c)
  rw [widen_toInt] at hr
  refine ⟨Bool.eq_false_iff.mpr fun h => ?_, Bool.eq_false_iff.mpr fun h => ?_, Bool.eq_false_iff.mpr fun h => ?_⟩
  · have := hr.1.mp h; omega
  · have := hr.2.1.mp h; omega
  · have := hr.2.2.mp h; omega

/-- C65: `codePointAt(a, i)` is the (signed) value of the character at `i`, and throws outside the array. -/
theorem C65_codePointAt (m : Sem) (a : List Byte) (i : Int) :
    (∀ h : 0 ≤ i ∧ i < a.length, ∃ r, codePointAt m a i = .ok r ∧ r.toInt = (a[i.toNat]'(by omega)).toInt) ∧
    (¬(0 ≤ i ∧ i < a.length) → codePointAt m a i = .throw .outOfRange) := by
  unfold codePointAt codePointAtImpl
  simp only [Outcome.bind_eq]
  constructor
  · intro h
    rw [Arr.get_lt h.1 h.2, Outcome.bind_ok, (C65_no_surrogates _).1]
    exact ⟨_, rfl, widen_toInt _⟩
  · intro h
    have : Arr.get a i = .throw .outOfRange := by
      by_cases h0 : i < 0
      · unfold Arr.get; rw [if_pos h0]
      · have := Arr.get_nat_ge (l := a) (i := i.toNat) (by omega)
        rwa [show ((i.toNat : Nat) : Int) = i by omega] at this
    rw [this, Outcome.bind_throw]

/-- C65: `codePointBefore(a, i)` is the value of the character before `i`. -/
theorem C65_codePointBefore (m : Sem) (a : List Byte) (i : Int) (h : 1 ≤ i ∧ i ≤ a.length) :
    ∃ r, codePointBefore m a i = .ok r ∧ r.toInt = (a[(i - 1).toNat]'(by omega)).toInt := by
  unfold codePointBefore codePointBeforeImpl
  simp only [Outcome.bind_eq]
  rw [Arr.get_lt (by omega) (by omega), Outcome.bind_ok, (C65_no_surrogates _).2.1, if_neg (by simp)]
  exact ⟨_, rfl, widen_toInt _⟩

/-- C65: with a limit or a start the answer is the same inside the limits and -1 outside. -/
theorem C65_limits (m : Sem) (a : List Byte) (i b : Int) :
    codePointAtLimit m a i b = (if i < b ∧ 0 ≤ b ∧ b ≤ a.length then codePointAt m a i else .ok (-1)) ∧
    codePointBeforeStart m a i b = (if b < i ∧ 0 ≤ b ∧ b < a.length then codePointBefore m a i else .ok (-1)) := by
  constructor
  · unfold codePointAtLimit
    by_cases h : i < b ∧ 0 ≤ b ∧ b ≤ a.length
    · rw [if_neg (by omega), if_pos h]
      unfold codePointAt codePointAtImpl
      simp only [(C65_no_surrogates _).1]
      simp
    · rw [if_pos (by omega), if_neg h]
  · unfold codePointBeforeStart
    by_cases h : b < i ∧ 0 ≤ b ∧ b < a.length
    · rw [if_neg (by omega), if_pos h]
      unfold codePointBefore codePointBeforeImpl
      simp only [(C65_no_surrogates _).2.1]
      simp
    · rw [if_pos (by omega), if_neg h]

/-- C65: `codePointCount(a, offset, count)` is `count` for a range inside the array and -1 otherwise. -/
theorem C65_codePointCount (a : List Byte) (offset count : Int) :
    codePointCount a offset count = .ok (if 0 ≤ offset ∧ 0 ≤ count ∧ offset + count ≤ a.length then count else -1) := by
  unfold codePointCount
  by_cases h : 0 ≤ offset ∧ 0 ≤ count ∧ offset + count ≤ a.length
  · rw [if_neg (by omega), if_pos h]
    unfold codePointCountImpl
    obtain ⟨r, hr, rfl⟩ := iter_ok (body := countBody a (offset + count))
      (fun s => 0 ≤ s.i ∧ s.i ≤ offset + count ∧ s.n = count) (fun r => r = count) (fun s => (offset + count - s.i).toNat)
      (by
        rintro ⟨i, n⟩ ⟨h0, h1, h2⟩
        simp only [] at h0 h1 h2
        subst h2
        unfold countBody
        simp only [Outcome.bind_eq]
        by_cases hi : i < offset + n
        · left
          refine ⟨⟨i + 1, n⟩, ?_, ⟨by simp only []; omega, by simp only []; omega, rfl⟩, by simp only []; omega⟩
          rw [if_pos hi, Arr.get_lt h0 (by omega), Outcome.bind_ok, (C65_no_surrogates _).1]
          rfl
        · right
          exact ⟨n, by rw [if_neg hi], rfl⟩)
      (a.length + 1) ⟨offset, count⟩ ⟨h.1, by simp only []; omega, rfl⟩ (by simp only []; omega)
    exact hr
  · rw [if_pos (by omega), if_neg h]

example : codePointCount [65#8, 200#8, 66#8] 1 2 = .ok 2 := by rw [C65_codePointCount]; rfl

/-- C65: `compare` orders characters as signed values. -/
theorem C65_compare (x y : Byte) : (compare x y < 0 ↔ x.slt y = true) ∧ (compare x y = 0 ↔ x = y) ∧ compare y x = -compare x y := by
  unfold compare
  refine ⟨?_, ?_, by omega⟩
  · rw [BitVec.slt_iff_toInt_lt]; omega
  · constructor
    · intro h; exact BitVec.eq_of_toInt_eq (by omega)
    · rintro rfl; omega

end Verif.Character
