import Verif.NumText.Lemmas
/-!
# Properties of the conversions between int and text (C11, C12, C13, C60)
-/
namespace Verif.NumText
open Verif.JString Verif.CInt Verif.Bits

/-! ## Rendering -/

theorem canonical_zero (b : Nat) (hb : 2 ≤ b) : Canonical b (txt "0") 0 :=
  ⟨.one ⟨by decide, by omega⟩, by decide, by decide⟩

/-- In radix 2, 8, 10 and 16, `toUnsignedString` (hence `toBinaryString`,
`toOctalString`, `toHexString`) is the numeral of the unsigned value without
leading zeros. -/
theorem C11_toUnsignedString (x : BitVec 32) (r : Nat) (hr : r = 2 ∨ r = 8 ∨ r = 10 ∨ r = 16) :
    ∃ t, toUnsignedString x r = .ok t ∧ Canonical r t x.toNat := by
  by_cases hx : x = 0
  · subst hx
    exact ⟨txt "0", by simp [toUnsignedString], canonical_zero r (by omega)⟩
  · have key : ∀ b : Nat, 2 ≤ b → b ≤ 36 → Canonical b (digits b 64 (toUnsignedLong x).toNat) x.toNat := by
      intro b h2 h36
      rw [toUnsignedLong_toNat]
      exact digits_canonical h2 h36 (by have := x.isLt; omega) (by omega)
    rcases hr with rfl | rfl | rfl | rfl
    · obtain ⟨i, hi, h1, h2, h3⟩ := toBinaryString_spec x hx
      refine ⟨_, h1, ?_, ?_, ?_⟩
      · apply (bitString_numeral x).drop_zeros i (by rw [bitString_length]; exact hi)
        intro j hj
        rw [bitString_get _ _ (by omega), bitChar_zero _ _ (h3 j hj)]
      · intro h
        rw [List.head?_drop, bitString_get _ _ hi, (bitChar_one x i).mpr h2] at h
        exact absurd h (by decide)
      · intro c hc
        have := List.mem_of_mem_drop hc
        rw [bitString_eq, List.mem_map] at this
        obtain ⟨k, _, rfl⟩ := this
        unfold bitChar; split <;> decide
    · exact ⟨_, by unfold toUnsignedString; rw [if_neg hx]; rfl, key 8 (by omega) (by omega)⟩
    · exact ⟨_, by unfold toUnsignedString; rw [if_neg hx]; rfl, key 10 (by omega) (by omega)⟩
    · exact ⟨_, by unfold toUnsignedString; rw [if_neg hx]; rfl, key 16 (by omega) (by omega)⟩

/-- Other radices between 2 and 32 are refused; a radix outside is read as 10. -/
theorem C11_toUnsignedString_radix (x : BitVec 32) (hx : x ≠ 0) (r : Int) :
    (2 ≤ r → r ≤ 32 → r ≠ 2 → r ≠ 8 → r ≠ 10 → r ≠ 16 → toUnsignedString x r = .throw .unsupportedOperation) ∧
    (r < 2 ∨ 32 < r → toUnsignedString x r = toUnsignedString x 10) := by
  constructor
  · intro h1 h2 h3 h4 h5 h6
    unfold toUnsignedString
    rw [if_neg hx]
    simp only [show ¬ (r > 32 ∨ r < 2) by omega, if_false, h3, h4, h5, h6]
  · intro h
    unfold toUnsignedString
    simp only [show (r > 32 ∨ r < 2) by omega, if_true]
    rfl

theorem min_neg : -(BitVec.intMin 32) = BitVec.intMin 32 := by decide

theorem neg_toNat (x : BitVec 32) (h : x.toInt < 0) : (-x).toNat = x.toInt.natAbs := by
  rw [BitVec.toNat_neg]
  rw [BitVec.toInt_eq_toNat_cond] at h ⊢
  have := x.isLt
  split at h
  · omega
  · rw [if_neg (by assumption)]; omega

theorem nonneg_toNat {w : Nat} (x : BitVec w) (h : 0 ≤ x.toInt) : x.toNat = x.toInt.natAbs := by
  rw [BitVec.toInt_eq_toNat_cond] at h ⊢
  have := x.isLt
  split
  · omega
  · rename_i hc; rw [if_neg hc] at h; omega

theorem slt_zero_iff (x : BitVec w) : x.slt 0 = true ↔ x.toInt < 0 := by
  rw [BitVec.slt_iff_toInt_lt]; simp

/-- `toString(i, radix)` in radix 2, 8, 10, 16 is the signed numeral of `i`,
for every int including the smallest. -/
theorem C11_toString (x : BitVec 32) (r : Nat) (hr : r = 2 ∨ r = 8 ∨ r = 10 ∨ r = 16) :
    ∃ t, toString .wrap x r = .ok t ∧ SignedCanonical r t x.toInt := by
  unfold toString
  by_cases h : x.toInt < 0
  · rw [if_pos ((slt_zero_iff x).mpr h)]
    obtain ⟨t, h1, h2⟩ := C11_toUnsignedString (-x) r hr
    refine ⟨txt "-" ++ t, by simp [neg_wrap, h1], Or.inr ⟨h, t, rfl, ?_⟩⟩
    rwa [neg_toNat x h] at h2
  · rw [if_neg (fun h' => h ((slt_zero_iff x).mp h'))]
    obtain ⟨t, h1, h2⟩ := C11_toUnsignedString x r hr
    refine ⟨t, h1, Or.inl ⟨by omega, ?_⟩⟩
    rwa [nonneg_toNat x (by omega)] at h2

/-- Under ISO C++ only the smallest int is a problem: its negation overflows. -/
theorem C11_toString_strict (x : BitVec 32) (r : Int) :
    toString .strict x r = if x = BitVec.intMin 32 then .ub else toString .wrap x r := by
  by_cases hx : x = BitVec.intMin 32
  · subst hx; rfl
  · rw [if_neg hx]
    unfold toString
    have : ¬ x.negOverflow = true := by
      rw [BitVec.negOverflow_eq]; simpa using hx
    simp [neg, this]

/-! ## Parsing -/

theorem narrow_ok (r : BitVec 64) (h1 : INT_MIN ≤ r.toInt) (h2 : r.toInt ≤ INT_MAX) :
    ∃ v, narrowInt r = .ok v ∧ v.toInt = r.toInt := by
  refine ⟨r.setWidth 32, ?_, ?_⟩
  · unfold narrowInt; rw [if_neg (by omega)]
  · unfold INT_MIN at h1; unfold INT_MAX at h2
    rw [BitVec.toInt_setWidth, Int.bmod_def]
    rw [BitVec.toInt_eq_toNat_cond] at h1 h2 ⊢
    have := r.isLt
    split at h1 <;> rename_i hc
    · rw [if_pos hc] at h2 ⊢; split <;> omega
    · rw [if_neg hc] at h2 ⊢; split <;> omega

theorem narrow_throw (r : BitVec 64) (h : r.toInt < INT_MIN ∨ INT_MAX < r.toInt) :
    narrowInt r = .throw .numberFormat := by
  unfold narrowInt; rw [if_pos (by omega)]

theorem ofNat64_toInt (n : Nat) (h : n < 2 ^ 64) :
    (BitVec.ofNat 64 n).toInt = if n < 2 ^ 63 then (n : Int) else n - 2 ^ 64 := by
  rw [BitVec.toInt_eq_toNat_cond, BitVec.toNat_ofNat, Nat.mod_eq_of_lt h]
  by_cases h' : n < 2 ^ 63
  · rw [if_pos h', if_pos (by omega)]
  · rw [if_neg h', if_neg (by omega)]; omega

theorem negOfNat64_toInt (n : Nat) (h : n < 2 ^ 64) :
    (-BitVec.ofNat 64 n).toInt = if n ≤ 2 ^ 63 then -(n : Int) else 2 ^ 64 - n := by
  rw [BitVec.toInt_neg, ofNat64_toInt n h]
  by_cases h1 : n < 2 ^ 63
  · rw [if_pos h1, if_pos (by omega), Int.bmod_eq_of_le] <;> omega
  · rw [if_neg h1]
    by_cases h2 : n ≤ 2 ^ 63
    · have : n = 2 ^ 63 := by omega
      subst this; rfl
    · rw [if_neg h2, Int.bmod_eq_of_le] <;> omega

/-- The outcome `parseInt` should have on a text denoting `v`. -/
def Denotes (r : Outcome (BitVec 32)) (v : Int) : Prop :=
  if INT_MIN ≤ v ∧ v ≤ INT_MAX then ∃ i, r = .ok i ∧ i.toInt = v else r = .throw .numberFormat

theorem magnitude_pos {b : Nat} {s : Str} {n : Nat}
    (hs : stoul s b = if n < 2 ^ 64 then .ok (BitVec.ofNat 64 n) else .throw .outOfRange)
    (hn : n < 2 ^ 64 - 2 ^ 31 ∨ 2 ^ 64 ≤ n) : Denotes (parseMagnitude s b false) n := by
  unfold Denotes parseMagnitude stoulCatch
  by_cases h : n < 2 ^ 64
  · rw [hs, if_pos h]
    simp only [Outcome.bind_eq, Outcome.bind_ok, Bool.false_eq_true, if_false]
    have ht := ofNat64_toInt n h
    by_cases hr : INT_MIN ≤ (n : Int) ∧ (n : Int) ≤ INT_MAX
    · rw [if_pos hr]
      unfold INT_MIN INT_MAX at hr
      rw [if_pos (by omega)] at ht
      obtain ⟨v, h1, h2⟩ := narrow_ok (BitVec.ofNat 64 n) (by unfold INT_MIN; omega) (by unfold INT_MAX; omega)
      exact ⟨v, h1, by omega⟩
    · rw [if_neg hr]
      unfold INT_MIN INT_MAX at hr
      apply narrow_throw
      unfold INT_MIN INT_MAX
      split at ht <;> omega
  · rw [hs, if_neg h, if_neg (by unfold INT_MIN INT_MAX; omega)]; rfl

theorem magnitude_neg {b : Nat} {s : Str} {n : Nat}
    (hs : stoul s b = if n < 2 ^ 64 then .ok (BitVec.ofNat 64 n) else .throw .outOfRange)
    (hn : n < 2 ^ 64 - 2 ^ 31 ∨ 2 ^ 64 ≤ n) : Denotes (parseMagnitude s b true) (-n) := by
  unfold Denotes parseMagnitude stoulCatch
  by_cases h : n < 2 ^ 64
  · rw [hs, if_pos h]
    simp only [Outcome.bind_eq, Outcome.bind_ok, if_true]
    have ht := negOfNat64_toInt n h
    by_cases hr : INT_MIN ≤ -(n : Int) ∧ -(n : Int) ≤ INT_MAX
    · rw [if_pos hr]
      unfold INT_MIN INT_MAX at hr
      rw [if_pos (by omega)] at ht
      obtain ⟨v, h1, h2⟩ := narrow_ok (-BitVec.ofNat 64 n) (by unfold INT_MIN; omega) (by unfold INT_MAX; omega)
      exact ⟨v, h1, by omega⟩
    · rw [if_neg hr]
      unfold INT_MIN INT_MAX at hr
      apply narrow_throw
      unfold INT_MIN INT_MAX
      split at ht <;> omega
  · rw [hs, if_neg h, if_neg (by unfold INT_MIN INT_MAX; omega)]; rfl

theorem charAt_zero (c : Byte) (s : Str) : charAt (c :: s) 0 = .ok c := by
  have := charAt_lt (s := c :: s) (i := 0) (by simp)
  simpa using this

theorem from_one (c d : Byte) (s : Str) : getStringFromIndex (c :: d :: s) 1 = .ok (d :: s) := by
  unfold getStringFromIndex
  rw [if_neg]
  · simp [substr, List.take_of_length_le]
  · simp [pastEnd]; omega

theorem from_one' (c : Byte) (t : Str) (h : t ≠ []) : getStringFromIndex (c :: t) 1 = .ok t := by
  obtain ⟨d, s, rfl⟩ := List.exists_cons_of_ne_nil h
  exact from_one c d s

/-- The dispatch of `parseInt` on the first character. -/
theorem parseInt_cons (c : Byte) (s : Str) (r : Nat) (h2 : 2 ≤ r) (h32 : r ≤ 32) :
    parseInt (c :: s) r =
      if c = chr '0' ∧ s = [] then .ok 0
      else if c = chr '-' then (getStringFromIndex (c :: s) 1).bind fun t => parseMagnitude t r true
      else parseMagnitude (c :: s) r false := by
  unfold parseInt
  rw [if_neg (by simp), if_neg (by omega), charAt_zero]
  simp only [Outcome.bind_eq, Outcome.bind_ok, Int.toNat_natCast]
  have e1 : (c = chr '0' ∧ (c :: s).length = 1) ↔ (c = chr '0' ∧ s = []) := by simp
  have e2 : (c = chr '-' ∧ isDigit c = false) ↔ c = chr '-' := by
    constructor
    · exact fun h => h.1
    · rintro rfl; exact ⟨rfl, by decide⟩
  simp only [e1, e2]

theorem denotes_zero : Denotes (.ok 0) ((0 : Nat) : Int) := by
  unfold Denotes; rw [if_pos (by decide)]; exact ⟨0, rfl, rfl⟩

/-- A junk suffix that does not continue the number. -/
theorem follows_of {b : Nat} {rest : Str} (h : ∀ c s, rest = c :: s → (¬ ∃ d, IsDigit b c d) ∧ toLowerB c ≠ chr 'x') :
    Follows b rest := by
  cases rest with
  | nil => exact follows_nil b
  | cons c s =>
    obtain ⟨h1, h2⟩ := h c s rfl
    by_cases h0 : c = 0
    · subst h0; exact ⟨rfl, by simp [cstr]⟩
    · have e : cstr (c :: s) = c :: cstr s := by
        unfold cstr; rw [List.takeWhile_cons_of_pos]; simpa using h0
      constructor
      · rw [e]; simp only [startsDigit, strtoulDigit_eq]
        cases hd : digitVal c with
        | none => rfl
        | some d =>
          simp only [decide_eq_false_iff_not]
          intro hlt; exact h1 ⟨d, hd, hlt⟩
      · intro x s' hs; rw [e] at hs; simp at hs; rw [← hs.1]; exact h2

theorem parseInt_core {b : Nat} (h2 : 2 ≤ b) (h32 : b ≤ 32) {t : Str} {v : Int} (h : SignedNumeral b t v)
    (hv : v.natAbs < 2 ^ 64 - 2 ^ 31 ∨ 2 ^ 64 ≤ v.natAbs) {rest : Str} (hr : Follows b rest) :
    Denotes (parseInt (t ++ rest) b) v := by
  cases h with
  | @plain _ n h =>
    obtain ⟨c, d, s, rfl, hd⟩ := h.cons
    rw [List.cons_append, parseInt_cons _ _ _ h2 h32]
    by_cases h0 : c = chr '0' ∧ s ++ rest = []
    · rw [if_pos h0]
      obtain ⟨rfl, h0⟩ := h0
      obtain ⟨rfl, _⟩ := List.append_eq_nil_iff.mp h0
      rw [h.zero_zero]; exact denotes_zero
    · rw [if_neg h0, if_neg hd.facts.2.2.1]
      exact magnitude_pos (stoul_plain h h32 hr) (by omega)
  | @plus t n h =>
    rw [List.cons_append, parseInt_cons _ _ _ h2 h32, if_neg (by rintro ⟨h, _⟩; exact absurd h (by decide)), if_neg (by decide)]
    exact magnitude_pos (stoul_plus h h32 hr) (by omega)
  | @minus t n h =>
    rw [List.cons_append, parseInt_cons _ _ _ h2 h32, if_neg (by rintro ⟨h, _⟩; exact absurd h (by decide)), if_pos rfl,
      from_one' _ _ (by simp [h.ne_nil]), Outcome.bind_ok]
    exact magnitude_neg (stoul_plain h h32 hr) (by omega)

/-- `parseInt` returns the value of every well-formed text that fits in an
int and throws NumberFormatException when it does not fit, except for
magnitudes in `[2^64 - 2^31, 2^64)`.
(Missing for the full claim: those magnitudes, and every malformed text; both
are refuted below.) -/
theorem C12_parseInt_partial (radix : Nat) (h2 : 2 ≤ radix) (h32 : radix ≤ 32) (t : Str) (v : Int)
    (h : SignedNumeral radix t v) (hv : v.natAbs < 2 ^ 64 - 2 ^ 31 ∨ 2 ^ 64 ≤ v.natAbs) :
    (INT_MIN ≤ v ∧ v ≤ INT_MAX → ∃ i, parseInt t radix = .ok i ∧ i.toInt = v) ∧
    (¬ (INT_MIN ≤ v ∧ v ≤ INT_MAX) → parseInt t radix = .throw .numberFormat) := by
  have := parseInt_core h2 h32 h hv (follows_nil radix)
  rw [List.append_nil] at this
  unfold Denotes at this
  constructor
  · intro hr; rwa [if_pos hr] at this
  · intro hr; rwa [if_neg hr] at this

/-- Texts without a single digit are rejected (a lone minus sign with a
different exception). -/
theorem C12_no_digit (radix : Nat) (h2 : 2 ≤ radix) (h32 : radix ≤ 32) (t : Str) (h : ∀ c ∈ t, ¬ ∃ d, IsDigit radix c d) :
    parseInt t radix = if t = txt "-" then .throw .stringIndexOutOfBounds else .throw .numberFormat := by
  have key : ∀ s : Str, (∀ c ∈ s, ¬ ∃ d, IsDigit radix c d) → ∀ n, parseMagnitude s radix n = .throw .numberFormat := by
    intro s hs n
    have hst : stoul s radix = .throw .invalidArgument := by
      unfold stoul
      have hmem : ∀ c ∈ stripHex radix (stripSign ((cstr s).dropWhile isSpace)).2, c ∈ s := by
        intro c hc
        have h1 : c ∈ (stripSign ((cstr s).dropWhile isSpace)).2 := by
          unfold stripHex at hc
          split at hc
          · rename_i z x s' heq
            rw [heq]
            split at hc
            · simp [hc]
            · exact hc
          · exact hc
        have h2 : c ∈ (cstr s).dropWhile isSpace := by
          unfold stripSign at h1
          split at h1
          · simp at h1
          · rename_i heq
            rw [heq]
            split at h1
            · exact List.mem_cons_of_mem _ h1
            · split at h1
              · exact List.mem_cons_of_mem _ h1
              · exact h1
        have h3 : c ∈ cstr s := (List.dropWhile_sublist _).mem h2
        exact (List.takeWhile_sublist _).mem h3
      have hno : startsDigit radix (stripHex radix (stripSign ((cstr s).dropWhile isSpace)).2) = false := by
        generalize hu : stripHex radix (stripSign ((cstr s).dropWhile isSpace)).2 = u at hmem
        cases u with
        | nil => rfl
        | cons c u =>
          have := hs c (hmem c (by simp))
          simp only [startsDigit, strtoulDigit_eq]
          cases hd : digitVal c with
          | none => rfl
          | some d =>
            simp only [decide_eq_false_iff_not]
            intro hlt; exact this ⟨d, hd, hlt⟩
      simp only [hno]; simp
    unfold parseMagnitude stoulCatch
    rw [hst]; rfl
  cases t with
  | nil => rfl
  | cons c s =>
    rw [parseInt_cons _ _ _ h2 h32, if_neg (by
      rintro ⟨rfl, _⟩
      exact h _ (List.mem_cons_self) ⟨0, by decide, by omega⟩)]
    by_cases hc : c = chr '-'
    · subst hc
      rw [if_pos rfl]
      cases s with
      | nil => rfl
      | cons d s =>
        rw [from_one, Outcome.bind_ok, if_neg (by intro e; have := congrArg List.length e; simp [txt] at this)]
        exact key _ (fun x hx => h x (List.mem_cons_of_mem _ hx)) _
    · rw [if_neg hc, if_neg (by intro e; apply hc; simp [txt] at e; exact e.1)]
      exact key _ h _

/-- Whatever follows the number is ignored: `parseInt("12abc")` is 12. -/
theorem C12_trailing_text_wrong (radix : Nat) (h2 : 2 ≤ radix) (h32 : radix ≤ 32) (t junk : Str) (v : Int)
    (h : SignedNumeral radix t v) (hr : INT_MIN ≤ v ∧ v ≤ INT_MAX)
    (hj : ∀ c s, junk = c :: s → (¬ ∃ d, IsDigit radix c d) ∧ toLowerB c ≠ chr 'x') :
    ∃ i, parseInt (t ++ junk) radix = .ok i ∧ i.toInt = v := by
  have := parseInt_core h2 h32 h (by unfold INT_MIN INT_MAX at hr; omega) (follows_of hj)
  unfold Denotes at this
  rwa [if_pos hr] at this

/-- More malformed texts that are accepted, and a number far out of range. -/
theorem C12_parseInt_wrong :
    parseInt (txt "--5") 10 = .ok 5 ∧ parseInt (txt " 12") 10 = .ok 12 ∧ parseInt (txt "-+7") 10 = .ok (-7) ∧
    parseInt (txt "0x1f") 16 = .ok 31 ∧ parseInt (txt "18446744073709551615") 10 = .ok (-1) ∧
    parseInt (txt "-") 10 = .throw .stringIndexOutOfBounds := by decide +kernel

/-! ## Round trips -/

theorem SignedCanonical.signedNumeral {b : Nat} {t : Str} {v : Int} (h : SignedCanonical b t v) : SignedNumeral b t v := by
  rcases h with ⟨h0, h⟩ | ⟨h0, u, rfl, h⟩
  · have e : v = (v.natAbs : Int) := by omega
    rw [e]; exact .plain h.1
  · have e : v = -(v.natAbs : Int) := by omega
    rw [e]; exact .minus h.1

/-- `parseInt(toString(i)) == i` for every int, in each radix `toString` knows. -/
theorem C11_roundtrip (x : BitVec 32) (r : Nat) (hr : r = 2 ∨ r = 8 ∨ r = 10 ∨ r = 16) :
    ∃ t, toString .wrap x r = .ok t ∧ parseInt t r = .ok x := by
  obtain ⟨t, h1, h2⟩ := C11_toString x r hr
  refine ⟨t, h1, ?_⟩
  have hf := fits_toInt (by omega) x
  unfold Fits at hf
  obtain ⟨i, h3, h4⟩ := (C12_parseInt_partial r (by omega) (by omega) t x.toInt h2.signedNumeral (by omega)).1
    (by unfold INT_MIN INT_MAX; omega)
  rw [h3, BitVec.eq_of_toInt_eq h4]

theorem parseUnsigned_numeral {b : Nat} (h2 : 2 ≤ b) (h32 : b ≤ 32) {t : Str} {n : Nat} (h : Numeral b t n)
    (hn : n < 2 ^ 32) : parseUnsignedInt t b = .ok (BitVec.ofNat 32 n) := by
  have hs := stoul_plain h h32 (follows_nil b)
  rw [List.append_nil, if_pos (by omega)] at hs
  obtain ⟨c, d, s, rfl, hd⟩ := h.cons
  unfold parseUnsignedInt
  rw [if_neg (by simp), if_neg (by omega), charAt_zero]
  simp only [Outcome.bind_eq, Outcome.bind_ok, Int.toNat_natCast]
  by_cases h0 : c = chr '0' ∧ (c :: s).length = 1
  · rw [if_pos h0]
    obtain ⟨rfl, h0⟩ := h0
    have : s = [] := by simpa using h0
    subst this
    rw [h.zero_zero]; rfl
  · rw [if_neg h0, if_neg (by intro h; exact hd.facts.2.2.1 h.2), if_neg (by intro h; exact hd.facts.2.2.2.1 h.2)]
    unfold parseUnsignedTail stoulCatch
    rw [hs]
    simp only [Outcome.bind_eq, Outcome.bind_ok]
    have ht := ofNat64_toInt n (by omega)
    rw [if_pos (by omega)] at ht
    rw [if_neg (by rw [ht]; omega)]
    congr 1
    apply BitVec.eq_of_toNat_eq
    rw [BitVec.toNat_setWidth, BitVec.toNat_ofNat, BitVec.toNat_ofNat]
    omega

/-- Parsing the binary, octal, decimal and hexadecimal unsigned renderings of
`i` gives `i` back. -/
theorem C11_roundtrip_unsigned (x : BitVec 32) (r : Nat) (hr : r = 2 ∨ r = 8 ∨ r = 10 ∨ r = 16) :
    ∃ t, toUnsignedString x r = .ok t ∧ parseUnsignedInt t r = .ok x := by
  obtain ⟨t, h1, h2⟩ := C11_toUnsignedString x r hr
  refine ⟨t, h1, ?_⟩
  rw [parseUnsigned_numeral (by omega) (by omega) h2.1 x.isLt, BitVec.ofNat_toNat, BitVec.setWidth_eq]

example : toString .wrap (BitVec.intMin 32) 10 = .ok (txt "-2147483648") ∧
    parseInt (txt "-2147483648") 10 = .ok (BitVec.intMin 32) ∧
    toHexString (-1) = .ok (txt "ffffffff") ∧ toBinaryString 10 = .ok (txt "1010") ∧
    parseUnsignedInt (txt "ffffffff") 16 = .ok (-1) := by decide +kernel

example : SignedNumeral 10 (txt "-42") (-42) :=
  .minus (n := 42) (.snoc (n := 4) (d := 2) (t := txt "4") (.one ⟨by decide, by decide⟩) ⟨by decide, by decide⟩)

/-! ## The bit counts that go through the binary text (C13) -/

theorem countOnes_eq (s : Str) : ∀ n i acc, i + n = s.length →
    countOnes s i n acc = .ok (acc + ((s.drop i).filter (· = chr '1')).length) := by
  intro n
  induction n with
  | zero => intro i acc h; rw [List.drop_of_length_le (by omega)]; simp [countOnes]
  | succ n ih =>
    intro i acc h
    unfold countOnes
    rw [charAt_lt (by omega)]
    simp only [Outcome.bind_eq, Outcome.bind_ok]
    rw [ih (i + 1) _ (by omega), List.drop_eq_getElem_cons (show i < s.length by omega)]
    by_cases hc : s[i] = chr '1'
    · rw [if_pos hc, List.filter_cons_of_pos (by simpa using hc)]
      simp; omega
    · rw [if_neg hc, List.filter_cons_of_neg (by simpa using hc)]

theorem range_reverse_map (f : Nat → Bool) (n : Nat) :
    ((List.range n).filter fun k => f (n - 1 - k)).length = ((List.range n).filter f).length := by
  have h : (List.range n).map (fun k => n - 1 - k) = (List.range n).reverse := by
    apply List.ext_getElem
    · simp
    · intro i h1 h2; simp
  have e1 : ((List.range n).filter fun k => f (n - 1 - k)).length = (((List.range n).map (fun k => n - 1 - k)).filter f).length := by
    rw [List.filter_map, List.length_map]; rfl
  rw [e1, h, List.filter_reverse, List.length_reverse]

theorem ones_bitString (x : BitVec 32) : ((bitString x).filter (· = chr '1')).length = popcount x := by
  rw [bitString_eq, List.filter_map, List.length_map]
  unfold popcount
  rw [← range_reverse_map (fun j => x.getLsbD j)]
  congr 2
  funext k
  have := bitChar_one x k
  simp only [Function.comp]
  by_cases h : x.getLsbD (31 - k) = true
  · rw [show (32 - 1 - k) = 31 - k by omega, h]; simpa using this.mpr h
  · rw [show (32 - 1 - k) = 31 - k by omega]
    simp only [Bool.not_eq_true] at h
    rw [h]
    simp only [decide_eq_false_iff_not]
    intro h'; rw [this.mp h'] at h; exact absurd h (by decide)

/-- `bitCount(x)` is the number of one-bits. -/
theorem C13_bitCount (x : BitVec 32) : bitCount x = .ok (popcount x : Int) := by
  by_cases hx : x = 0
  · subst hx; decide +kernel
  · obtain ⟨i, hi, h1, h2, h3⟩ := toBinaryString_spec x hx
    unfold bitCount
    rw [h1]
    simp only [Outcome.bind_eq, Outcome.bind_ok]
    rw [countOnes_eq _ _ 0 0 (by omega), List.drop_zero, Int.zero_add]
    have hsplit : bitString x = (bitString x).take i ++ (bitString x).drop i := (List.take_append_drop i _).symm
    have hz : ((bitString x).take i).filter (· = chr '1') = [] := by
      rw [List.filter_eq_nil_iff]
      intro c hc
      obtain ⟨k, hk, rfl⟩ := List.getElem_of_mem hc
      simp at hk
      rw [List.getElem_take]
      have := bitString_get x k (by omega)
      rw [List.getElem?_eq_getElem (by rw [bitString_length]; omega)] at this
      simp only [Option.some.injEq] at this
      rw [this, bitChar_zero _ _ (h3 k (by omega))]; decide
    have := ones_bitString x
    rw [hsplit, List.filter_append, hz] at this
    simp only [List.nil_append] at this
    rw [this]

/-- `numberOfTrailingZeros(x)` is the position of the lowest one-bit, 32 for 0. -/
theorem C13_numberOfTrailingZeros (x : BitVec 32) :
    (x = 0 → numberOfTrailingZeros x = .ok 32) ∧
    (x ≠ 0 → ∃ l : Nat, numberOfTrailingZeros x = .ok (l : Int) ∧ IsLowest x l) := by
  constructor
  · rintro rfl; rfl
  · intro hx
    obtain ⟨i, hi, h1, h2, h3⟩ := toBinaryString_spec x hx
    have hlen : ((bitString x).drop i).length = 32 - i := by simp [bitString_length]
    have hget : ∀ k (h : k < ((bitString x).drop i).length), ((bitString x).drop i)[k] = bitChar x (i + k) := by
      intro k h
      rw [List.getElem_drop]
      have := bitString_get x (i + k) (by omega)
      rw [List.getElem?_eq_getElem (by rw [bitString_length]; omega)] at this
      simpa using this
    obtain ⟨r, hr, hs⟩ := lastM_spec (fun k => do
        let a ← charAt ((bitString x).drop i) k
        .ok (a == (49 : BitVec 32).setWidth 8)) (fun k => x.getLsbD (31 - (i + k)) = true) ((bitString x).drop i).length (by
      intro k hk
      rw [charAt_lt hk]
      refine ⟨_, rfl, ?_⟩
      rw [hget k hk, ← bitChar_one]
      simp; rfl)
    have hcall : numberOfTrailingZeros x = .ok ((((bitString x).drop i).length : Int) - r - 1) := by
      unfold numberOfTrailingZeros
      rw [if_neg hx, h1]
      simp only [Outcome.bind_eq, Outcome.bind_ok]
      unfold lastIndexOfChar
      rw [show lastM _ _ = _ from hr]
      rfl
    rcases hs with ⟨k, rfl, hk, hq, hlast⟩ | ⟨_, hn⟩
    · rw [hlen] at hk hlast
      refine ⟨31 - (i + k), ?_, hq, ?_⟩
      · rw [hcall, hlen]; congr 1; omega
      · intro j hj
        have := hlast (31 - i - j) (by omega) (by omega)
        rw [show 31 - (i + (31 - i - j)) = j by omega] at this
        simpa using this
    · exfalso
      exact hn 0 (by omega) h2

example : bitCount 0xf0f0 = .ok 8 ∧ numberOfTrailingZeros 0xf0f0 = .ok 4 := by decide +kernel

end Verif.NumText
