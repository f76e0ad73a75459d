import Verif.FloatText.Survive
import Verif.FloatText.Spec
/-!
# Properties of the texts of `Double` and `Float` (C145–C152)
-/
namespace Verif.FloatText
open Verif.Floats

attribute [local irreducible] Rounded


/-! ### C145: making, copying and assigning a `Double` is defined for every value -/

/-- Every `double`, infinities and NaN included, can be made, copied, assigned and asked for its
character; the value is kept and the text fits its 1079 characters. -/
theorem C145_defined {x : Flt} (h : IsValue f64 x) :
    (∃ t, ofDouble x = .ok ⟨x, t⟩ ∧ t.length ≤ 326 ∧ (∀ t', copyDouble ⟨x, t'⟩ = .ok ⟨x, t⟩) ∧
      ∀ o t', assignDouble o ⟨x, t'⟩ = .ok ⟨x, t⟩) ∧ ∀ t', ∃ c, charValue ⟨x, t'⟩ = .ok c := by
  refine ⟨⟨fixedText f64 15 x, ofDouble_ok h, ?_, ?_, ?_⟩, ?_⟩
  · cases x with
    | nan => decide
    | inf neg => cases neg <;> decide
    | fin neg k => exact text64_short h
  · intro t'; unfold copyDouble; rw [doubleText_ok h]; rfl
  · intro o t'; unfold assignDouble; rw [doubleText_ok h]; rfl
  · intro t'; unfold charValue; rw [doubleText_ok h]; exact ⟨_, rfl⟩

/-- The largest `double`. -/
example : IsValue f64 (.fin false ((2 ^ 53 - 1) * 2 ^ 2045)) :=
  ⟨2046 * 2 ^ 52 + (2 ^ 52 - 1), by decide +kernel, by decide +kernel⟩

/-! ### C146: the text is the decimal nearest to the value -/

/-- The text of a `Double` made from a finite `double` is a decimal with 15 places that differs
from it by at most half of the last one. -/
theorem C146_double_partial {neg : Bool} {k : Nat} (h : IsValue f64 (.fin neg k)) :
    ∃ t n, ofDouble (.fin neg k) = .ok ⟨.fin neg k, t⟩ ∧ Denotes t neg n (-15) ∧
      2 * ((n * 2 ^ 1074 : Nat) - (k * 10 ^ 15 : Nat) : Int).natAbs ≤ 2 ^ 1074 :=
  ⟨_, _, ofDouble_ok h, fixedText_denotes f64 neg k, by rw [← f64_unit]; exact text_near f64 15 k⟩

/-- The text of a `Float` made from a finite `float` other than zero has its six first digits,
rounded. -/
theorem C146_float_partial {neg : Bool} {k : Nat} (_ : IsValue f32 (.fin neg k)) (hk : k ≠ 0) :
    ∃ n x, Denotes (toText (ofFloat (.fin neg k))) neg n x ∧ SixDigits f32 k n x :=
  short_six neg hk

/-- 0.1f is printed as `0.1`; `0.1` as a `double` with 15 places. -/
example : toText (ofFloat (.fin false (13421773 * 2 ^ 122))) = "0.1".toList ∧
    ofDouble (.fin false (7205759403792794 * 2 ^ 1018)) =
      .ok ⟨.fin false (7205759403792794 * 2 ^ 1018), "0.100000000000000".toList⟩ := by decide +kernel
example : IsValue f32 (.fin false (13421773 * 2 ^ 122)) :=
  ⟨123 * 2 ^ 23 + 5033165, by decide +kernel, by decide +kernel⟩

/-- Infinite values and NaN have texts other than `Infinity`, `-Infinity` and `NaN`; a tiny value
has the text of zero. -/
theorem C146_wrong :
    ofDouble (.inf false) = .ok ⟨.inf false, "inf".toList⟩ ∧
    ofDouble (.inf true) = .ok ⟨.inf true, "-inf".toList⟩ ∧
    ofDouble .nan = .ok ⟨.nan, "nan".toList⟩ ∧
    toText (ofFloat (.inf true)) = "-inf".toList ∧ toText (ofFloat .nan) = "nan".toList ∧
    ∀ k neg, IsValue f64 (.fin neg k) → 2 * (k * 10 ^ 15) < 2 ^ 1074 →
      ofDouble (.fin neg k) = .ok ⟨.fin neg k, (if neg then ['-'] else []) ++ "0.000000000000000".toList⟩ := by
  refine ⟨by decide, by decide, by decide, by decide, by decide, ?_⟩
  intro k neg h hk
  rw [ofDouble_ok h]
  rw [← f64_unit] at hk
  have := fixed_tiny (f := f64) (n := 15) hk
  simp only [fixedText]
  rw [this]
  cases neg <;> rfl
/-- 1e-20, about: far below half a place. -/
example : 2 * (2 ^ 1007 * 10 ^ 15) < 2 ^ 1074 := by decide +kernel
example : IsValue f64 (.fin true (2 ^ 1007)) :=
  ⟨2 ^ 63 + 956 * 2 ^ 52, by decide +kernel, by decide +kernel⟩

/-! ### C147: parsing decimal text -/

/-- `Double.parseDouble` and `Double.valueOf` of decimal text give the nearest `double`, ties to
even; beyond the largest an infinite one. -/
theorem C147_double {t : List Char} {neg : Bool} {n a b : Nat} {x : Int} (h : Denotes t neg n x)
    (hr : Ratio n x a b) : ∃ o, parseDouble t = .ok o ∧ Rounded f64 neg a b o.val := by
  have h2 := parse_rounded f64_fits h hr
  refine ⟨⟨numValue f64 (.dec neg n x), fixedText f64 15 (numValue f64 (.dec neg n x))⟩, ?_, h2.2⟩
  unfold parseDouble
  rw [h2.1]
  exact ofDouble_ok (rounded_value f64_fits h2.2)

/-- `Float.parseFloat` and `Float.valueOf` likewise. -/
theorem C147_float {t : List Char} {neg : Bool} {n a b : Nat} {x : Int} (h : Denotes t neg n x)
    (hr : Ratio n x a b) : ∃ o, parseFloat t = .ok o ∧ Rounded f32 neg a b o.val := by
  have h2 := parse_rounded f32_fits h hr
  refine ⟨ofFloat (numValue f32 (.dec neg n x)), ?_, h2.2⟩
  unfold parseFloat
  rw [h2.1]

/-- `-12.5e-3` is a decimal. -/
example : Denotes "-12.5e-3".toList true 125 (-4) :=
  ⟨['-'], ['1', '2'], ['5'], ['.', '5'], ['e', '-', '3'], -3, .inl ⟨rfl, rfl⟩,
    by unfold Digits; decide, by decide, by unfold Digits; decide, .inl rfl,
    .inr ⟨'e', ['-'], ['3'], true, .inl rfl, .inl ⟨rfl, rfl⟩, by unfold Digits; decide, by decide,
      rfl, by decide⟩, rfl, by decide, by decide⟩
example : Ratio 125 (-4) 125 10000 := .inr ⟨by decide, rfl, rfl⟩

/-! ### C148: a value printed and parsed is the same value -/

/-- Zero, infinite values, NaN, values from 8 on and multiples of `2 ^ -15` are read back. Missing:
other values below 8, which 15 places do not tell apart. -/
theorem C148_double_partial {x : Flt} (h : IsValue f64 x)
    (hx : ∀ neg k, x = .fin neg k → 2 ^ 1077 ≤ k ∨ 2 ^ 1059 ∣ k) :
    ∃ t, ofDouble x = .ok ⟨x, t⟩ ∧ parseDouble t = .ok ⟨x, t⟩ := by
  refine ⟨_, ofDouble_ok h, ?_⟩
  have key : ∀ d, readNum (fixedText f64 15 x) = some d → numValue f64 d = x →
      parseDouble (fixedText f64 15 x) = .ok ⟨x, fixedText f64 15 x⟩ := by
    intro d h1 h2
    unfold parseDouble
    rw [h1]
    simp only
    rw [h2]
    exact ofDouble_ok h
  cases x with
  | nan => exact key .nan (by decide) rfl
  | inf neg => exact key (.inf neg) (by cases neg <;> decide) rfl
  | fin neg k =>
    obtain ⟨h1, h2⟩ := parse_fixed (f := f64) (n := 15) (by decide) neg k
    refine key _ h1 ?_
    rw [h2]
    rcases hx neg k rfl with h3 | ⟨c, h3⟩
    · exact fixed_large h h3
    · exact fixed_multiple h ⟨c, h3⟩

/-- 10.1 and 0.375 are among them. -/
example : IsValue f64 (.fin false (5685794529555251 * 2 ^ 1025)) ∧ 2 ^ 1077 ≤ 5685794529555251 * 2 ^ 1025 :=
  ⟨⟨1026 * 2 ^ 52 + (5685794529555251 - 2 ^ 52), by decide +kernel, by decide +kernel⟩, by decide +kernel⟩
example : IsValue f64 (.fin true (3 * 2 ^ 1071)) ∧ 2 ^ 1059 ∣ 3 * 2 ^ 1071 :=
  ⟨⟨2 ^ 63 + 1021 * 2 ^ 52 + 2 ^ 51, by decide +kernel, by decide +kernel⟩, 3 * 2 ^ 12, by decide +kernel⟩

/-- Every value other than zero below half of the last place is read back as zero. -/
theorem C148_double_wrong {neg : Bool} {k : Nat} (h : IsValue f64 (.fin neg k)) (h0 : k ≠ 0)
    (hk : 2 * (k * 10 ^ 15) < 2 ^ 1074) :
    ∃ t, ofDouble (.fin neg k) = .ok ⟨.fin neg k, t⟩ ∧
      ∃ o, parseDouble t = .ok o ∧ o.val = .fin neg 0 ∧ o.val ≠ .fin neg k := by
  rw [← f64_unit] at hk
  have h3 := fixed_tiny (f := f64) (n := 15) hk
  have h4 := parse_fixed (f := f64) (n := 15) (by decide) neg k
  rw [h3, nearest_zero (f := f64) neg (b := 10 ^ 15) (by decide)] at h4
  refine ⟨fixedText f64 15 (.fin neg k), ofDouble_ok h,
    ⟨.fin neg 0, fixedText f64 15 (.fin neg 0)⟩, ?_, rfl, fun h => ?_⟩
  · unfold parseDouble
    rw [h4.1]
    simp only
    rw [h4.2]
    exact ofDouble_ok (zero_value f64_fits neg)
  · injection h with _ h; exact h0 h.symm

/-- Whole numbers below a million, as `Float`, are read back. Missing: all others with at most six
digits. -/
theorem C148_float_partial {n : Nat} (neg : Bool) (hn : n < 10 ^ 6) (h0 : n ≠ 0) :
    ∃ o, parseFloat (toText (ofFloat (.fin neg (n * 2 ^ 149)))) = .ok o ∧ o.val = .fin neg (n * 2 ^ 149) := by
  have h1 := float_kept neg hn h0
  rw [f32_unit] at h1
  exact h1

example : (123456 : Nat) < 10 ^ 6 ∧ (123456 : Nat) ≠ 0 := by decide

/-- No whole number of seven digits or more that does not end in 0 is read back, although every
one below `2 ^ 24` is a `float`. -/
theorem C148_float_wrong {n : Nat} (neg : Bool) (h1 : 10 ^ 6 ≤ n) (h2 : n < 2 ^ 24) (h3 : n % 10 ≠ 0) :
    IsValue f32 (.fin neg (n * 2 ^ 149)) ∧
    ∃ o, parseFloat (toText (ofFloat (.fin neg (n * 2 ^ 149)))) = .ok o ∧ o.val ≠ .fin neg (n * 2 ^ 149) := by
  have hv := whole_value32 neg (Nat.le_of_lt h2)
  have hl := float_lost (neg := neg) h1 h2 h3
  rw [f32_unit] at hv hl
  exact ⟨hv, lost _ hl⟩

example : (10 : Nat) ^ 6 ≤ 16777215 ∧ 16777215 < 2 ^ 24 ∧ 16777215 % 10 ≠ 0 := by decide

/-! ### C149: equal objects have equal texts and hashes -/

/-- The text of a `Double` depends only on its value, whether it is made, copied or assigned; so
does that of a `Float` made or copied. Missing: `Double()`, assigned `Float`s, equal values that
differ (0.0 and -0.0). -/
theorem C149_same_partial (h : List Char → Nat) {x : Flt} (hx : IsValue f64 x) {o o' o'' p p' : Obj}
    (h1 : ofDouble x = .ok o) (hp : p.val = x) (h2 : copyDouble p = .ok o') (h3 : assignDouble p' p = .ok o'') :
    toText o = toText o' ∧ toText o' = toText o'' ∧ hashOf h o = hashOf h o' ∧ hashOf h o' = hashOf h o'' ∧
    ∀ q : Obj, hashOf h (copyFloat q) = hashOf h (ofFloat q.val) := by
  rw [ofDouble_ok hx] at h1
  unfold copyDouble at h2
  unfold assignDouble at h3
  rw [hp, doubleText_ok hx] at h2 h3
  cases h1
  cases h2
  cases h3
  exact ⟨rfl, rfl, rfl, rfl, fun _ => rfl⟩

/-- -2.0 made and copied. -/
example : IsValue f64 (.fin true (2 ^ 1075)) ∧
    ∃ o, ofDouble (.fin true (2 ^ 1075)) = .ok o ∧ copyDouble o = .ok o := by
  have h : IsValue f64 (.fin true (2 ^ 1075)) :=
    ⟨2 ^ 63 + 1024 * 2 ^ 52, by decide +kernel, by decide +kernel⟩
  refine ⟨h, ⟨_, _⟩, ofDouble_ok h, ?_⟩
  unfold copyDouble
  rw [doubleText_ok h]
  rfl

/-- `Double()` and `Double(0.0)`, `Double(0.0)` and `Double(-0.0)`, `Float(1)` and a `Float` assigned
from it are equal as numbers, but have other texts: a hash that tells the texts apart gives them
other buckets. -/
theorem C149_wrong (h : List Char → Nat) (hinj : ∀ s t, h s = h t → s = t) :
    (∃ o, ofDouble (.fin false 0) = .ok o ∧ o.val = newDouble.val ∧ hashOf h o ≠ hashOf h newDouble) ∧
    (∃ o o', ofDouble (.fin false 0) = .ok o ∧ ofDouble (.fin true 0) = .ok o' ∧ cEq o.val o'.val = true ∧
      hashOf h o ≠ hashOf h o') ∧
    ∃ a b : Obj, a = ofFloat (.fin false (2 ^ 149)) ∧ b = assignFloat newFloat a ∧ a.val = b.val ∧
      hashOf h a ≠ hashOf h b := by
  have hz : ∀ neg, IsValue f64 (.fin neg 0) := by
    intro neg
    exact zero_value f64_fits neg
  refine ⟨⟨_, ofDouble_ok (hz _), rfl, ?_⟩, ⟨_, _, ofDouble_ok (hz _), ofDouble_ok (hz _), by decide, ?_⟩,
    ⟨_, _, rfl, rfl, rfl, ?_⟩⟩
  · intro he; exact absurd (hinj _ _ he) (by decide +kernel)
  · intro he; exact absurd (hinj _ _ he) (by decide +kernel)
  · intro he; exact absurd (hinj _ _ he) (by decide +kernel)

/-! ### C150: compound assignment -/

/-- The result of `a += b` (and of `-=`, `*=`, `/=`) is the value of the operation. Missing: `a`
itself. -/
theorem C150_result_partial (op : Flt → Flt → Flt) (a b : Obj) (h : IsValue f64 (op a.val b.val)) :
    (∃ p, compoundDouble op a b = .ok p ∧ p.2.val = op a.val b.val ∧ binaryDouble op a b = .ok p.2) ∧
    (compoundFloat op a b).2.val = op a.val b.val := by
  refine ⟨⟨(a, ⟨op a.val b.val, fixedText f64 15 (op a.val b.val)⟩), ?_, rfl, ofDouble_ok h⟩, rfl⟩
  unfold compoundDouble
  rw [ofDouble_ok h]
  rfl

/-- An addition of 1.0 and 2.0. -/
example : IsValue f64 ((fun _ _ => .fin false (3 * 2 ^ 1074) : Flt → Flt → Flt)
    (.fin false (2 ^ 1074)) (.fin false (2 ^ 1075))) :=
  ⟨1024 * 2 ^ 52 + 2 ^ 51, by decide +kernel, by decide +kernel⟩

/-- `a += b` never changes `a`. -/
theorem C150_wrong (op : Flt → Flt → Flt) (a b : Obj) (h : IsValue f64 (op a.val b.val))
    (hne : op a.val b.val ≠ a.val) :
    (∃ p, compoundDouble op a b = .ok p ∧ p.1.val ≠ op a.val b.val) ∧
    (compoundFloat op a b).1.val ≠ op a.val b.val := by
  refine ⟨⟨(a, ⟨op a.val b.val, fixedText f64 15 (op a.val b.val)⟩), ?_, fun e => hne e.symm⟩,
    fun e => hne e.symm⟩
  unfold compoundDouble
  rw [ofDouble_ok h]
  rfl

/-! ### C151: text that is no number -/

theorem readDigits_none {c : Char} (l : List Char) (h : isDigit c = false) :
    readDigits 0 0 (c :: l) = (0, 0, c :: l) := by
  unfold readDigits
  rw [h]
  rfl

/-- Text that begins with neither a digit nor a blank, a sign, a point, `i` or `n` is not refused:
an uninitialised variable is read; so is the empty text. -/
theorem C151_wrong (c : Char) (l : List Char) (h1 : isDigit c = false) (h2 : isSpace c = false)
    (h3 : c ∉ ['+', '-', '.', 'i', 'I', 'n', 'N']) :
    parseDouble (c :: l) = .ub ∧ parseFloat (c :: l) = .ub ∧ parseDouble [] = .ub ∧ parseFloat [] = .ub := by
  have key : readNum (c :: l) = none := by
    unfold readNum
    by_cases h0 : c = '\x00'
    · subst h0
      rw [List.takeWhile_cons_of_neg (by decide)]
      rfl
    · rw [List.takeWhile_cons_of_pos (by simpa using h0), List.dropWhile_cons_of_neg (by rw [h2]; decide)]
      have e1 : c ≠ '-' := by rintro rfl; exact h3 (by decide)
      have e2 : c ≠ '+' := by rintro rfl; exact h3 (by decide)
      have e3 : c ≠ '.' := by rintro rfl; exact h3 (by decide)
      have e4 : c.toLower ≠ 'i' ∧ c.toLower ≠ 'n' := by
        have hc : ∀ d : Char, c.toLower = d → c = d ∨ (c.toNat = d.toNat - 32 ∧ 97 ≤ d.toNat) := by
          intro d hd
          unfold Char.toLower at hd
          split at hd
          · right
            rename_i hup
            have hv := congrArg (fun x : Char => x.val.toNat) hd
            have h4 := UInt32.le_iff_toNat_le.1 hup.1
            have h5 := UInt32.le_iff_toNat_le.1 hup.2
            simp only [UInt32.toNat_add] at hv
            change 65 ≤ c.val.toNat at h4
            change c.val.toNat ≤ 90 at h5
            change (c.val.toNat + 32) % 4294967296 = d.val.toNat at hv
            show c.val.toNat = d.val.toNat - 32 ∧ 97 ≤ d.val.toNat
            omega
          · exact .inl hd
        have hI : ∀ m : Char, c.toNat = m.toNat → c = m := fun m h => Char.toNat_inj.1 h
        refine ⟨fun h => ?_, fun h => ?_⟩
        · rcases hc _ h with rfl | ⟨h, _⟩
          · exact h3 (by decide)
          · rw [hI 'I' (by rw [h]; decide)] at h3; exact h3 (by decide)
        · rcases hc _ h with rfl | ⟨h, _⟩
          · exact h3 (by decide)
          · rw [hI 'N' (by rw [h]; decide)] at h3; exact h3 (by decide)
      have hu : ∀ r, readUnsigned false (c :: r) = none := by
        intro r
        unfold readUnsigned
        simp only [List.map_cons, List.take_succ_cons]
        rw [if_neg (by intro h; injection h with h _; exact e4.1 h),
          if_neg (by intro h; injection h with h _; exact e4.2 h), readDigits_none r h1]
        split
        · rename_i heq
          injection heq with _ heq
          injection heq with _ heq
          injection heq with heq _
          exact absurd heq e3
        · rename_i heq
          injection heq with _ heq
          injection heq with heq _
          rw [← heq]
          rfl
      split
      · rename_i heq; injection heq with heq _; exact absurd heq e1
      · rename_i heq; injection heq with heq _; exact absurd heq e2
      · exact hu _
  refine ⟨?_, ?_, by decide, by decide⟩
  · unfold parseDouble; rw [key]
  · unfold parseFloat; rw [key]

example : isDigit 'a' = false ∧ isSpace 'a' = false ∧ 'a' ∉ ['+', '-', '.', 'i', 'I', 'n', 'N'] := by decide

/-- What follows the digits is ignored instead of refused. -/
theorem C151_rest_wrong {d : List Char} (hd : Digits d) (h0 : d ≠ []) (c : Char) (l : List Char)
    (h1 : isDigit c = false) (h2 : c ∉ ['.', 'e', 'E']) :
    parseDouble (d ++ c :: l) = parseDouble d ∧ parseFloat (d ++ c :: l) = parseFloat d := by
  have hnul : ∀ x ∈ d, x ≠ '\x00' := by
    intro x hx h; have := hd x hx; rw [h] at this; revert this; decide
  have key : ∀ r, Stops r → (∀ x y, r = x :: y → x ∉ ['.', 'e', 'E']) →
      (match (d ++ r).dropWhile isSpace with
        | '-' :: l => readUnsigned true l
        | '+' :: l => readUnsigned false l
        | l => readUnsigned false l) = some (.dec false (natOf d) 0) := by
    intro r hr hr2
    obtain ⟨x, d', rfl⟩ := List.exists_cons_of_ne_nil h0
    have hx := hd x (by simp)
    have hs : isSpace x = false := by
      unfold isSpace
      have : ∀ y : Char, y.toNat < 48 → (decide (x = y)) = false := by
        intro y hy; apply decide_eq_false; rintro rfl; omega
      rw [this _ (by decide), this _ (by decide), this _ (by decide), this _ (by decide),
        this _ (by decide), this _ (by decide)]
      rfl
    obtain ⟨n1, n2, n3⟩ := not_sign hx
    rw [List.cons_append, List.dropWhile_cons_of_neg (by rw [hs]; decide)]
    have hu : readUnsigned false (x :: (d' ++ r)) = some (.dec false (natOf (x :: d')) 0) := by
      unfold readUnsigned
      obtain ⟨l1, l2⟩ := lower_digit hx
      simp only [List.map_cons, List.take_succ_cons]
      rw [if_neg (by intro h; injection h with h _; exact l1 h),
        if_neg (by intro h; injection h with h _; exact l2 h), ← List.cons_append,
        readDigits_ok hd hr 0 0]
      rw [Nat.zero_mul, Nat.zero_add, Nat.zero_add]
      split
      · rename_i heq
        injection heq with _ heq
        injection heq with _ heq
        exact absurd (hr2 _ _ heq) (by simp)
      · rename_i heq
        injection heq with e1 heq
        injection heq with e2 e3
        subst e1 e2 e3
        rw [if_neg (by simp)]
        have : readExponent r = 0 := by
          cases r with
          | nil => rfl
          | cons y r' =>
            have := hr2 y r' rfl
            have hne : ¬ (y = 'e' ∨ y = 'E') := by
              rintro (rfl | rfl)
              · exact this (by decide)
              · exact this (by decide)
            show (if y = 'e' ∨ y = 'E' then _ else 0) = (0 : Int)
            exact if_neg hne
        rw [this]
    split
    · rename_i heq; injection heq with heq _; exact absurd heq n1
    · rename_i heq; injection heq with heq _; exact absurd heq n2
    · exact hu
  have e1 : readNum (d ++ c :: l) = some (.dec false (natOf d) 0) := by
    unfold readNum
    rw [List.takeWhile_append_of_pos (by intro x hx; simpa using hnul x hx)]
    refine key _ ?_ ?_
    · intro x y hxy
      rw [List.takeWhile_cons] at hxy
      split at hxy
      · injection hxy with hxy _; rw [← hxy]; exact h1
      · cases hxy
    · intro x y hxy
      rw [List.takeWhile_cons] at hxy
      split at hxy
      · injection hxy with hxy _; rw [← hxy]; exact h2
      · cases hxy
  have e2 : readNum d = some (.dec false (natOf d) 0) := by
    unfold readNum
    rw [takeWhile_all hnul]
    have := key [] stops_nil (fun x y h => by cases h)
    rw [List.append_nil] at this
    exact this
  unfold parseDouble parseFloat
  rw [e1, e2]
  exact ⟨rfl, rfl⟩

/-- `12abc`. -/
example : Digits "12".toList ∧ isDigit 'a' = false ∧ 'a' ∉ ['.', 'e', 'E'] := by
  unfold Digits; decide

/-! ### C152: a short decimal is printed again -/

/-- Decimal text with at most 15 places, below 4.5 (`2 ^ 52` units of the last place), is printed
as the same number. Missing: longer and larger decimals. -/
theorem C152_decimal_partial {t : List Char} {neg : Bool} {n : Nat} {x : Int} (h : Denotes t neg n x)
    (hx : -15 ≤ x) (hn : n * 10 ^ (x + 15).toNat < 2 ^ 52) :
    ∃ o, parseDouble t = .ok o ∧ Denotes (toText o) neg (n * 10 ^ (x + 15).toNat) (-15) := by
  have hr : ∃ a b, Ratio n x a b ∧ a * 10 ^ 15 = n * 10 ^ (x + 15).toNat * b := by
    by_cases h0 : 0 ≤ x
    · refine ⟨_, _, .inl ⟨h0, rfl, rfl⟩, ?_⟩
      rw [Nat.mul_one, show (x + 15).toNat = x.toNat + 15 by omega, Nat.pow_add 10 x.toNat, Nat.mul_assoc]
    · refine ⟨_, _, .inr ⟨by omega, rfl, rfl⟩, ?_⟩
      rw [Nat.mul_assoc, ← Nat.pow_add, show (x + 15).toNat + (-x).toNat = 15 by omega]
  obtain ⟨a, b, hr, hab⟩ := hr
  obtain ⟨h1, hb⟩ := numValue_dec (f := f64) (neg := neg) hr
  obtain ⟨k, hk, hd⟩ := survive64 (neg := neg) hb hn hab
  have h2 := parse_rounded f64_fits h hr
  have hv := rounded_value f64_fits h2.2
  refine ⟨⟨numValue f64 (.dec neg n x), fixedText f64 15 (numValue f64 (.dec neg n x))⟩, ?_, ?_⟩
  · unfold parseDouble
    rw [h2.1]
    exact ofDouble_ok hv
  · unfold toText
    simp only
    rw [h1, hk, ← hd]
    exact fixedText_denotes f64 neg k

/-- `-12.5e-3` again. -/
example : (-15 : Int) ≤ -4 ∧ 125 * 10 ^ ((-4 : Int) + 15).toNat < 2 ^ 52 := by decide

/-- `123.456` is printed as `123.456000000000003`, another number; as a `Float`, `1234567` is
printed as `1.23457e+06`. -/
theorem C152_wrong :
    (∃ o, parseDouble "123.456".toList = .ok o ∧ toText o = "123.456000000000003".toList) ∧
    ∃ o, parseFloat "1234567".toList = .ok o ∧ toText o = "1.23457e+06".toList := by
  have h2 := parse_rounded f64_fits (t := "123.456".toList)
    (⟨[], ['1', '2', '3'], ['4', '5', '6'], ['.', '4', '5', '6'], [], 0, .inr ⟨.inl rfl, rfl⟩,
      by unfold Digits; decide, by decide, by unfold Digits; decide, .inl rfl, .inl ⟨rfl, rfl⟩,
      by decide, rfl, rfl⟩ : Denotes _ false 123456 (-3)) (.inr ⟨by decide, rfl, rfl⟩)
  have hv := rounded_value f64_fits h2.2
  refine ⟨⟨⟨numValue f64 (.dec false 123456 (-3)), fixedText f64 15 (numValue f64 (.dec false 123456 (-3)))⟩,
    ?_, ?_⟩, ⟨_, rfl, ?_⟩⟩
  · unfold parseDouble
    rw [h2.1]
    exact ofDouble_ok hv
  · decide +kernel
  · decide +kernel

end Verif.FloatText
