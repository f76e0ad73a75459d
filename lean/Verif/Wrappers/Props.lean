import Verif.Wrappers.Lemmas
import Verif.NumText.LongProps
/-! # Properties of number objects and Boolean -/
namespace Verif.Wrappers

open Verif.JString Verif.NumText

theorem along_imp {τ : Type u} {ρ : Type v} {o : Type w} (spec : o → τ → τ × Except Exc ρ) {p q : o → τ → Prop} (h : ∀ op t, p op t → q op t) :
    ∀ ops t, Along spec p ops t → Along spec q ops t := by
  intro ops
  induction ops with
  | nil => intro t _; trivial
  | cons op ops ih => intro t ht; exact ⟨h _ _ ht.1, ih _ ht.2⟩

theorem history (c : Cls) (ops : List Op)
    (h : Along (spec c) (fun op t => Has c op ∧ Exact c op t ∧ Answered c op t ∧ (c = .long → Plain op)) ops fun _ => 0) :
    ∃ s, runHist (step c) ops start = .ok (s, (specHist (spec c) ops fun _ => 0).2) := by
  obtain ⟨s, _, hs⟩ := runHist_refines (step c) (spec c) (Match c) _ (fun op s t hm hl => step_spec c op s t hm hl.1 hl.2.1 hl.2.2.1 hl.2.2.2)
    ops start (fun _ => 0) (match_start c) h
  exact ⟨s, hs⟩

/-! ## C55: Bytes and Boolean -/

/-- Every history on `Bytes` variables answers as integers modulo 256 would: zero
divisors throw ArithmeticException and change nothing, texts are decimal. -/
theorem C55_bytes (ops : List Op) (h : Along (spec .bytes) (Exact .bytes) ops fun _ => 0) :
    ∃ s, runHist (step .bytes) ops start = .ok (s, (specHist (spec .bytes) ops fun _ => 0).2) :=
  history .bytes ops (along_imp _ (fun _ _ h => ⟨trivial, h, Or.inl rfl, fun e => by cases e⟩) ops _ h)

/-- The hypotheses of `C55_bytes` in a history with wrapping, aliasing and a zero divisor. -/
example : Along (spec .bytes) (Exact .bytes)
    [.new 0 200, .update .add 0 0, .text 0, .update .div 0 1, .binary .sub 2 1 0, .value 2, .rel .lt 0 2] (fun _ => 0) := by
  refine ⟨⟨by decide, by decide⟩, ?_⟩
  simp [Along, Exact]

example : (specHist (spec .bytes)
    [.new 0 200, .update .add 0 0, .text 0, .update .div 0 1, .binary .sub 2 1 0, .value 2, .rel .lt 0 2] (fun _ => 0)).2 =
    [.ok .done, .ok .done, .ok (.text (decimal 144)), .error .arithmetic, .ok .done, .ok (.int 112), .ok (.bool false)] := rfl

theorem parse_fmt (v : Int) (h : -2147483648 ≤ v ∧ v ≤ 2147483647) : ∃ i, parseInt (fmt v) 10 = .ok i ∧ i.toInt = v :=
  (C12_parseInt_partial 10 (by omega) (by omega) (fmt v) v (digits_signed v (by omega)).signedNumeral (by omega)).1
    (by unfold INT_MIN INT_MAX; omega)

theorem parseBytes_of {s : Str} {r : Int} {i : BitVec 32} (h : parseInt s r = .ok i) :
    parseBytes s r = if i.toInt < 0 ∨ i.toInt > 255 then .throw .numberFormat else .ok i.toInt := by
  unfold parseBytes
  rw [h]; rfl

/-- Every byte survives its text, and the static `toString`. -/
theorem C55_roundtrip (v : Int) (h : 0 ≤ v ∧ v ≤ 255) :
    toString (make v) = decimal v ∧ parseBytes (decimal v) 10 = .ok v ∧ bytesOf (decimal v) 10 = .ok (make v) ∧
    NumText.toString .strict (BitVec.ofInt 32 v) 10 = .ok (decimal v) := by
  have hd : fmt v = decimal v := fmt_decimal v (by omega)
  obtain ⟨i, h1, h2⟩ := parse_fmt v (by omega)
  have hp : parseBytes (decimal v) 10 = .ok v := by
    rw [← hd, parseBytes_of h1, if_neg (by omega), h2]
  refine ⟨toString_fmt (c := .bytes) h, hp, ?_, ?_⟩
  · unfold bytesOf
    rw [hp]; rfl
  · have hs : (BitVec.ofInt 32 v).slt 0 = false := by
      rw [BitVec.slt, BitVec.toInt_ofInt, Int.bmod_eq_of_le (by omega) (by omega)]
      simp; omega
    have hn : (BitVec.ofInt 32 v).toNat = v.natAbs := by
      rw [BitVec.toNat_ofInt]; omega
    unfold NumText.toString
    rw [hs]
    simp only [Bool.false_eq_true, if_false]
    unfold toUnsignedString
    by_cases h0 : v = 0
    · subst h0; decide
    · have hne : BitVec.ofInt 32 v ≠ 0 := by
        intro e
        rw [e] at hn
        simp at hn; omega
      rw [if_neg hne]
      have hu : (Bits.toUnsignedLong (BitVec.ofInt 32 v)).toNat = v.natAbs := by
        have e : BitVec.ofInt 32 v = BitVec.ofNat 32 v.natAbs := by
          apply BitVec.eq_of_toNat_eq
          rw [hn, BitVec.toNat_ofNat]; omega
        have : ∀ n : Fin 256, (Bits.toUnsignedLong (BitVec.ofNat 32 n.val)).toNat = n.val := by decide +kernel
        rw [e]
        exact this ⟨v.natAbs, by omega⟩
      simp only [hu]
      have : digits 10 64 v.natAbs = decimal v := by
        rw [← hd]; unfold fmt; rw [if_neg (by omega)]
      rw [this]
      simp

example : (0 : Int) ≤ 255 ∧ (255 : Int) ≤ 255 ∧ decimal 255 = txt "255" := by decide

/-- `equals`, which goes through the text, compares the values. -/
theorem C55_equals (a b : Int) (hb : 0 ≤ b ∧ b ≤ 255) : bytesEquals (make a) (make b) = .ok (decide (a = b)) := by
  have h := C55_roundtrip b hb
  unfold bytesEquals
  rw [h.1, h.2.1]
  show Outcome.ok (a == b) = _
  congr 1

theorem lower_iff (c : Byte) (k : Nat) (hk : 97 ≤ k ∧ k ≤ 122) : toLowerB c = BitVec.ofNat 8 k ↔ c = BitVec.ofNat 8 k ∨ c = BitVec.ofNat 8 (k - 32) := by
  have : ∀ k : Fin 26, ∀ c : Fin 256, toLowerB (BitVec.ofNat 8 c.val) = BitVec.ofNat 8 (97 + k.val) ↔
      BitVec.ofNat 8 c.val = BitVec.ofNat 8 (97 + k.val) ∨ BitVec.ofNat 8 c.val = BitVec.ofNat 8 (97 + k.val - 32) := by decide +kernel
  have h := this ⟨k - 97, by omega⟩ ⟨c.toNat, c.isLt⟩
  have e : 97 + (k - 97) = k := by omega
  simpa [e] using h

/-- `parseBoolean` (and `getBoolean`, `valueOf`) is true exactly for the
spellings of "true". -/
theorem C55_parseBoolean (s : Str) (hz : (0 : Byte) ∉ s) (_ascii : ∀ c ∈ s, c.toNat < 128) : parseBoolean s = true ↔ SpellsTrue s := by
  unfold parseBoolean equals toLowerCase SpellsTrue
  rw [cstr_eq_self hz, cstr_eq_self hz]
  have e : txt "true" = [chr 't', chr 'r', chr 'u', chr 'e'] := by decide
  rw [e, beq_iff_eq]
  have ht := fun c => lower_iff c 116 (by omega)
  have hr := fun c => lower_iff c 114 (by omega)
  have hu := fun c => lower_iff c 117 (by omega)
  have he := fun c => lower_iff c 101 (by omega)
  constructor
  · intro h
    have hl := congrArg List.length h
    rw [List.length_map] at hl
    rcases s with _ | ⟨a, _ | ⟨b, _ | ⟨c, _ | ⟨d, _ | ⟨e, s⟩⟩⟩⟩⟩
    · simp at hl
    · simp at hl
    · simp at hl
    · simp at hl
    · simp only [List.map_cons, List.map_nil, List.cons.injEq, and_true] at h
      exact ⟨a, b, c, d, rfl, (ht a).mp h.1, (hr b).mp h.2.1, (hu c).mp h.2.2.1, (he d).mp h.2.2.2⟩
    · simp at hl
  · rintro ⟨a, b, c, d, rfl, h1, h2, h3, h4⟩
    simp only [List.map_cons, List.map_nil, List.cons.injEq, and_true]
    exact ⟨(ht a).mpr h1, (hr b).mpr h2, (hu c).mpr h3, (he d).mpr h4⟩

example : SpellsTrue (txt "tRuE") := ⟨_, _, _, _, rfl, by decide, by decide, by decide, by decide⟩
example : (0 : Byte) ∉ txt "yes" ∧ ∀ c ∈ txt "yes", c.toNat < 128 := by decide

/-- Both values survive their text, and `compareTo` orders false before true. -/
theorem C55_boolean_text (a b : Bool) : parseBoolean (booleanText a) = a ∧
    (booleanCompare a b < 0 ↔ a = false ∧ b = true) ∧ (booleanCompare a b = 0 ↔ a = b) ∧ booleanCompare a b = - booleanCompare b a := by
  revert a b; decide

/-! ## C89: Integer -/

/-- Every history on `Integer` variables whose results are ints answers as
integers would: exact results, ArithmeticException for zero divisors without any
change, decimal texts. -/
theorem C89_integer (ops : List Op) (h : Along (spec .integer) (Exact .integer) ops fun _ => 0) :
    ∃ s, runHist (step .integer) ops start = .ok (s, (specHist (spec .integer) ops fun _ => 0).2) :=
  history .integer ops (along_imp _ (fun _ _ h => ⟨trivial, h, Or.inr (Or.inl rfl), fun e => by cases e⟩) ops _ h)

example : Along (spec .integer) (Exact .integer) [.new 0 (-7), .new 1 2, .binary .div 2 0 1, .update .mod 0 1, .text 0, .update .div 0 5] (fun _ => 0) := by
  refine ⟨by constructor <;> decide, by constructor <;> decide, fun _ r hr => ?_, fun _ _ => ?_, trivial, fun _ r hr => ?_, trivial⟩
  · cases hr; constructor <;> decide
  · constructor <;> decide
  · cases hr

/-! ## C90: Long -/

/-- Histories without compound assignments and zero divisors.  (Missing: those.) -/
theorem C90_long_partial (ops : List Op) (h : Along (spec .long) (fun op t => Plain op ∧ Exact .long op t ∧ NonZero op t) ops fun _ => 0) :
    ∃ s, runHist (step .long) ops start = .ok (s, (specHist (spec .long) ops fun _ => 0).2) :=
  history .long ops (along_imp _ (fun _ _ h => ⟨trivial, h.2.1, Or.inr (Or.inr h.2.2), fun _ => h.1⟩) ops _ h)

example : Along (spec .long) (fun op t => Plain op ∧ Exact .long op t ∧ NonZero op t) [.new 0 4294967296, .binary .add 0 0 0, .text 0] (fun _ => 0) := by
  refine ⟨⟨trivial, ?_, trivial⟩, ⟨trivial, fun _ r hr => ?_, trivial⟩, ⟨trivial, trivial, trivial⟩, trivial⟩
  · constructor <;> decide
  · cases hr; constructor <;> decide

/-- `x ∘= y` changes the value of a `Long` but not its text: whatever the
operator and the operands, `toString` goes on showing the old value. -/
theorem C90_long_wrong (v w r : Int) (o : Arith) (hv : Cls.Range .long v) (hw : Cls.Range .long w) (hr : o.exact v w = some r)
    (hf : Fits .long o v w) : ∃ s, runHist (step .long) [.new 0 v, .new 1 w, .update o 0 1, .value 0, .text 0] start =
      .ok (s, [.ok .done, .ok .done, .ok .done, .ok (.int r), .ok (.text (decimal v))]) := by
  have hc := compute_large (Or.inr rfl) o hf
  rw [hr] at hc
  let s2 : Vars := set (set start 0 ⟨v, fmt v⟩) 1 ⟨w, fmt w⟩
  have h3 : step .long (.update o 0 1) s2 = .ret (set s2 0 ⟨r, fmt v⟩) .done := by
    show store s2 0 (compound .long o ⟨v, fmt v⟩ ⟨w, fmt w⟩) = _
    unfold compound
    rw [hc]; rfl
  have h5 : step .long (.text 0) (set s2 0 ⟨r, fmt v⟩) = .ret (set s2 0 ⟨r, fmt v⟩) (.text (decimal v)) := by
    show Res.ret _ (Ans.text (toString ⟨r, fmt v⟩)) = _
    have : toString ⟨r, fmt v⟩ = decimal v := by
      unfold toString
      rw [cstr_eq_self (fmt_nul v (range_natAbs hv)), fmt_decimal v (range_natAbs hv)]
    rw [this]
  have h1 : step .long (.new 0 v) start = .ret (set start 0 ⟨v, fmt v⟩) .done := rfl
  have h2 : step .long (.new 1 w) (set start 0 ⟨v, fmt v⟩) = .ret s2 .done := rfl
  have h4 : step .long (.value 0) (set s2 0 ⟨r, fmt v⟩) = .ret (set s2 0 ⟨r, fmt v⟩) (.int r) := rfl
  refine ⟨set s2 0 ⟨r, fmt v⟩, ?_⟩
  simp only [runHist, h1, h2, h3, h4, h5, Outcome.bind_ok]

theorem numeral_not_minus {t : Str} {n : Nat} (h : Numeral 10 (chr '-' :: t) n) : False := by
  obtain ⟨d, hd⟩ := h.mem (chr '-') (List.mem_cons_self ..)
  exact absurd hd.1 (by
    have : digitVal (chr '-') = none := by decide
    rw [this]; simp)

/-- Different values have different texts. -/
theorem decimal_injective (a b : Int) (ha : Cls.Range .long a) (hb : Cls.Range .long b) (h : decimal a = decimal b) : a = b := by
  have h1 := digits_signed a (range_natAbs ha)
  have h2 := digits_signed b (range_natAbs hb)
  rw [fmt_decimal a (range_natAbs ha)] at h1
  rw [fmt_decimal b (range_natAbs hb), ← h] at h2
  rcases h1 with ⟨p1, c1⟩ | ⟨p1, u1, e1, c1⟩ <;> rcases h2 with ⟨p2, c2⟩ | ⟨p2, u2, e2, c2⟩
  · have := Numeral.unique c1.1 _ c2.1
    omega
  · rw [e2] at c1; exact (numeral_not_minus c1.1).elim
  · rw [e1] at c2; exact (numeral_not_minus c2.1).elim
  · rw [e1] at e2
    cases e2
    have := Numeral.unique c1.1 _ c2.1
    omega

/-- The shown text is wrong unless the operation left the value as it was. -/
theorem C90_text_wrong (v r : Int) (hv : Cls.Range .long v) (hr : Cls.Range .long r) (h : r ≠ v) : decimal v ≠ decimal r :=
  fun e => h (decimal_injective v r hv hr e).symm

example : Cls.Range .long 40 ∧ Cls.Range .long 2 ∧ Arith.exact .add 40 2 = some 42 ∧ Fits .long .add 40 2 :=
  ⟨by constructor <;> decide, by constructor <;> decide, rfl, fun r hr => by cases hr; constructor <;> decide⟩

/-! ## C91: Short -/

/-- Every history on `Short` variables without zero divisors answers as integers
kept modulo 2^16 would. -/
theorem C91_short (ops : List Op) (h : Along (spec .short) (fun op t => Has .short op ∧ Exact .short op t ∧ NonZero op t) ops fun _ => 0) :
    ∃ s, runHist (step .short) ops start = .ok (s, (specHist (spec .short) ops fun _ => 0).2) :=
  history .short ops (along_imp _ (fun _ _ h => ⟨h.1, h.2.1, Or.inr (Or.inr h.2.2), fun e => by cases e⟩) ops _ h)

example : Along (spec .short) (fun op t => Has .short op ∧ Exact .short op t ∧ NonZero op t)
    [.new 0 (-32768), .new 1 (-1), .binary .div 2 0 1, .text 2, .rel .ge 2 0] (fun _ => 0) := by
  refine ⟨⟨trivial, by constructor <;> decide, trivial⟩, ⟨trivial, by constructor <;> decide, trivial⟩, ⟨trivial, ?_, show (-1 : Int) ≠ 0 by decide⟩,
    ⟨trivial, trivial, trivial⟩, ⟨trivial, trivial, trivial⟩, trivial⟩
  rintro (h | h) <;> cases h

/-! ## C92: zero divisors -/

/-- `Bytes` and `Integer` throw, whatever the objects hold, and change nothing. -/
theorem C92_checked (c : Cls) (hc : c = .bytes ∨ c = .integer) (o : Arith) (ho : o = .div ∨ o = .mod) (s : Vars) (i j k : Nat) (hk : (s k).value = 0) :
    step c (.binary o i j k) s = .exc s .arithmetic ∧ step c (.update o i k) s = .exc s .arithmetic := by
  rcases hc with rfl | rfl <;> rcases ho with rfl | rfl <;>
    (constructor
     · show store s i ((operate _ _ (s j) (s k)).bind _) = _
       unfold operate compute
       rw [hk]; rfl
     · show store s i (compound _ _ (s i) (s k)) = _
       unfold compound compute
       rw [hk]; rfl)

/-- `Short` and `Long` divide without a check: undefined for every dividend. -/
theorem C92_unchecked_wrong (c : Cls) (hc : c = .short ∨ c = .long) (o : Arith) (ho : o = .div ∨ o = .mod) (s : Vars) (i j k : Nat) (hk : (s k).value = 0) :
    step c (.binary o i j k) s = .ub ∧ (c = .long → step c (.update o i k) s = .ub) := by
  rcases hc with rfl | rfl <;> rcases ho with rfl | rfl <;>
    (constructor
     · show store s i ((operate _ _ (s j) (s k)).bind _) = _
       unfold operate compute
       rw [hk]; rfl
     · intro _
       show store s i (compound _ _ (s i) (s k)) = _
       unfold compound compute
       rw [hk]; rfl)

example : (start 5).value = 0 := rfl

/-! ## C93: Bytes.valueOf -/

/-- The first call gives the byte. -/
theorem C93_first_partial (v : Int) : runHist valueOfByte [v] .null = .ok (.deleted, [.ok (make v)]) := rfl

/-- The second call uses the deleted cache, whatever bytes are asked for. -/
theorem C93_second_wrong (v w : Int) (rest : List Int) : runHist valueOfByte (v :: w :: rest) .null = .ub := rfl

/-! ## C94: texts to Bytes -/

theorem parseBytes_throw {s : Str} {r : Int} {e : Exc} (h : parseInt s r = .throw e) : parseBytes s r = .throw e := by
  unfold parseBytes
  rw [h]; rfl

/-- A numeral of any radix gives its value when it is a byte and
NumberFormatException otherwise, except for magnitudes in `[2^64 - 2^31, 2^64)`.
(Missing: those, and texts that are not numerals.) -/
theorem C94_parseBytes_partial (radix : Nat) (h2 : 2 ≤ radix) (h32 : radix ≤ 32) (t : Str) (v : Int) (h : SignedNumeral radix t v)
    (hv : v.natAbs < 2 ^ 64 - 2 ^ 31 ∨ 2 ^ 64 ≤ v.natAbs) :
    parseBytes t radix = if 0 ≤ v ∧ v ≤ 255 then .ok v else .throw .numberFormat := by
  have hp := C12_parseInt_partial radix h2 h32 t v h hv
  by_cases hr : INT_MIN ≤ v ∧ v ≤ INT_MAX
  · obtain ⟨i, h1, h3⟩ := hp.1 hr
    rw [parseBytes_of h1, h3]
    by_cases hb : 0 ≤ v ∧ v ≤ 255
    · rw [if_pos hb, if_neg (by omega)]
    · rw [if_neg hb, if_pos (by omega)]
  · rw [parseBytes_throw (hp.2 hr), if_neg (by unfold INT_MIN INT_MAX at hr; omega)]

/-- Text after the numeral is ignored, and a hugely negative number is a byte. -/
theorem C94_parseBytes_wrong : parseBytes (txt "12abc") 10 = .ok 12 ∧ parseBytes (txt "-18446744073709551615") 10 = .ok 1 := by
  decide +kernel

/-- `Bytes.decode` of a literal, decimal, hexadecimal or octal, is its value when it is a byte
and NumberFormatException otherwise. (Missing: literals from 2^64 - 2^31 on, and texts that are not literals.) -/
theorem C94_decodeBytes_partial (m : Sem) (t : Str) (n : Nat) (h : Literal t n) (hn : n < 2 ^ 64 - 2 ^ 31) :
    decodeBytes m t = if n ≤ 255 then .ok (make n) else .throw .numberFormat := by
  unfold decodeBytes
  by_cases hi : (n : Int) ≤ INT_MAX
  · obtain ⟨i, h1, h2⟩ := (C60_decode_partial m t n h hi).1
    rw [h1, Outcome.bind_eq, Outcome.bind_ok, h2]
    by_cases hb : n ≤ 255
    · rw [if_pos hb, if_neg (by omega)]
    · rw [if_neg hb, if_pos (by omega)]
  · rw [C60_decode_range m t n h (by omega) hn, if_neg (by unfold INT_MAX at hi; omega)]
    rfl

example : decodeBytes .wrap (txt "0xff") = .ok (make 255) ∧ decodeBytes .wrap (txt "0400") = .throw .numberFormat := by decide +kernel

example : SignedNumeral 10 (txt "-42") (-42) :=
  .minus (n := 42) (.snoc (n := 4) (d := 2) (t := txt "4") (.one ⟨by decide, by decide⟩) ⟨by decide, by decide⟩)

/-! ## C95: the Boolean constructor -/

theorem strcmpL_zero : ∀ a b : Str, strcmpL a b = 0 ↔ a = b := by
  intro a
  induction a with
  | nil => intro b; cases b <;> simp [strcmpL]
  | cons x a ih =>
    intro b
    cases b with
    | nil => simp [strcmpL]
    | cons y b =>
      unfold strcmpL
      by_cases h : x = y
      · rw [if_pos h, ih]; simp [h]
      · rw [if_neg h]
        split <;> simp [h]

/-- The constructor from a text is true for "True" alone. -/
theorem C95_constructor_partial (s : Str) (hz : (0 : Byte) ∉ s) : booleanOf s = true ↔ s = txt "True" := by
  unfold booleanOf strcmp
  rw [beq_iff_eq, strcmpL_zero, cstr_eq_self hz, cstr_eq_self (by decide)]

/-- So it disagrees with `parseBoolean` on every other spelling, in particular on
the text `toString` gives. -/
theorem C95_constructor_wrong (s : Str) (hz : (0 : Byte) ∉ s) (ha : ∀ c ∈ s, c.toNat < 128) (ht : SpellsTrue s) (h : s ≠ txt "True") :
    parseBoolean s = true ∧ booleanOf s = false := by
  refine ⟨(C55_parseBoolean s hz ha).mpr ht, ?_⟩
  cases hb : booleanOf s with
  | false => rfl
  | true => exact absurd ((C95_constructor_partial s hz).mp hb) h

example : SpellsTrue (booleanText true) ∧ booleanText true ≠ txt "True" :=
  ⟨⟨_, _, _, _, rfl, by decide, by decide, by decide, by decide⟩, by decide⟩

/-! ## C96: parseShort -/

theorem scan_numeral {b : Nat} {t : Str} {n : Nat} (h : Numeral b t n) : scan b 0 t = n := by
  have := scan_append h 0 []
  rw [List.append_nil] at this
  rw [this]
  simp [scan]

theorem scanI_plain (c : Byte) (s : Str) (h : c ≠ chr '0') : scanI (c :: s) = if startsDigit 10 (c :: s) then some (scan 10 0 (c :: s)) else none := if_neg h
theorem scanI_prefix (x : Byte) (s : Str) : scanI (chr '0' :: x :: s) = if toLowerB x = chr 'x' then some (scan 16 0 s) else some (scan 8 0 (x :: s)) := rfl

theorem scanI_literal {t : Str} {n : Nat} (h : Literal t n) : scanI t = some n := by
  cases h with
  | dec h h0 =>
    obtain ⟨c, d, s, rfl, hd⟩ := h.cons
    by_cases hc : c = chr '0'
    · have e := h0 (by rw [hc]; rfl)
      rw [e] at h ⊢
      rw [h.zero_zero]; rfl
    · rw [scanI_plain c s hc, if_pos (startsDigit_cons hd s), scan_numeral h]
  | @hex t n x h hx =>
    have : toLowerB x = chr 'x' := by rcases hx with rfl | rfl <;> decide
    rw [scanI_prefix, if_pos this, scan_numeral h]
  | @oct t n h =>
    obtain ⟨c, d, s, rfl, hd⟩ := h.cons
    rw [scanI_prefix, if_neg (hd.not_x (by omega)), scan_numeral h]

theorem literal_cons {t : Str} {n : Nat} (h : Literal t n) :
    (0 : Byte) ∉ t ∧ ∃ c s, t = c :: s ∧ isSpace c = false ∧ c ≠ chr '-' ∧ c ≠ chr '+' := by
  cases h with
  | dec h _ =>
    refine ⟨h.nul, ?_⟩
    obtain ⟨c, d, s, rfl, hd⟩ := h.cons
    exact ⟨c, s, rfl, hd.facts.2.1, hd.facts.2.2.1, hd.facts.2.2.2.1⟩
  | @hex t n x h hx =>
    refine ⟨?_, _, _, rfl, by decide, by decide, by decide⟩
    intro h0
    rcases List.mem_cons.mp h0 with h0 | h0
    · exact absurd h0 (by decide)
    rcases List.mem_cons.mp h0 with h0 | h0
    · rcases hx with rfl | rfl <;> exact absurd h0 (by decide)
    · exact h.nul h0
  | @oct t n h =>
    refine ⟨?_, _, _, rfl, by decide, by decide, by decide⟩
    intro h0
    rcases List.mem_cons.mp h0 with h0 | h0
    · exact absurd h0 (by decide)
    · exact h.nul h0

theorem sscanf_literal {sg t : Str} {neg : Bool} {n : Nat} (hs : Sign sg neg) (h : Literal t n) :
    sscanfHi (sg ++ t) = some (BitVec.ofInt 16 (saturate (if neg then -(n : Int) else n))).toInt := by
  obtain ⟨hz, c, s, rfl, h1, h2, h3⟩ := literal_cons h
  have hi := scanI_literal h
  have key : stripSign ((cstr (sg ++ c :: s)).dropWhile isSpace) = (neg, c :: s) := by
    cases hs with
    | none =>
      rw [List.nil_append, cstr_eq_self hz]
      simp [List.dropWhile, h1, stripSign, h2, h3]
    | plus =>
      rw [cstr_eq_self (by
        intro h0
        rcases List.mem_cons.mp h0 with h0 | h0
        · exact absurd h0 (by decide)
        · exact hz h0)]
      simp [List.dropWhile, stripSign, show isSpace (chr '+') = false by decide, show ¬ chr '+' = chr '-' by decide]
    | minus =>
      rw [cstr_eq_self (by
        intro h0
        rcases List.mem_cons.mp h0 with h0 | h0
        · exact absurd h0 (by decide)
        · exact hz h0)]
      simp [List.dropWhile, stripSign, show isSpace (chr '-') = false by decide]
  unfold sscanfHi
  rw [key]
  simp only [hi]

/-- A decimal, hexadecimal or octal text with an optional sign: the value when it
is a short.  (Missing: texts that are not numbers of this range.) -/
theorem C96_parseShort_partial (sg t : Str) (neg : Bool) (n : Nat) (hs : Sign sg neg) (h : Literal t n)
    (hr : Cls.Range .short (if neg then -(n : Int) else n)) :
    parseShort (sg ++ t) = .ok (make (if neg then -(n : Int) else n)) := by
  have hr' : -32768 ≤ (if neg then -(n : Int) else n) ∧ (if neg then -(n : Int) else n) ≤ 32767 := hr
  unfold parseShort
  rw [sscanf_literal hs h]
  simp only
  generalize (if neg then -(n : Int) else n) = v at hr'
  have e : saturate v = v := by
    unfold saturate
    rw [if_neg (by omega), if_neg (by omega)]
  rw [e, BitVec.toInt_ofInt, Int.bmod_eq_of_le (by omega) (by omega)]

/-- Every short survives its text. -/
theorem C91_short_text (v : Int) (h : Cls.Range .short v) : toString (make v) = decimal v ∧ parseShort (decimal v) = .ok (make v) := by
  refine ⟨toString_fmt h, ?_⟩
  have h' : -32768 ≤ v ∧ v ≤ 32767 := h
  have hd : fmt v = decimal v := fmt_decimal v (range_natAbs h)
  rw [← hd]
  rcases digits_signed v (range_natAbs h) with ⟨p, c⟩ | ⟨p, u, e, c⟩
  · have e : ((v.natAbs : Nat) : Int) = v := by omega
    have := C96_parseShort_partial [] (fmt v) false v.natAbs .none (.dec c.1 c.2.1) (by simp only [Bool.false_eq_true, if_false, e]; exact h)
    simp only [Bool.false_eq_true, if_false, e] at this
    exact this
  · have e' : -((v.natAbs : Nat) : Int) = v := by omega
    rw [e]
    have := C96_parseShort_partial [chr '-'] u true v.natAbs .minus (.dec c.1 c.2.1) (by simp only [if_true, e']; exact h)
    simp only [if_true, e'] at this
    exact this

example : Cls.Range .short (-32768) ∧ decimal (-32768) = txt "-32768" := ⟨by constructor <;> decide, by decide⟩

example : Literal (txt "0x7f") 127 ∧ Sign (txt "-") true ∧ Cls.Range .short (-127) :=
  ⟨.hex (t := txt "7f") (x := chr 'x') (.snoc (t := txt "7") (n := 7) (d := 15) (.one ⟨by decide, by decide⟩) ⟨by decide, by decide⟩) (Or.inl rfl),
    .minus, by constructor <;> decide⟩

/-- A number that is not a short is not refused: another number comes back. -/
theorem C96_out_of_range_wrong (sg t : Str) (neg : Bool) (n : Nat) (hs : Sign sg neg) (h : Literal t n)
    (hr : ¬ Cls.Range .short (if neg then -(n : Int) else n)) :
    ∃ w, parseShort (sg ++ t) = .ok (make w) ∧ w ≠ (if neg then -(n : Int) else n) := by
  refine ⟨(BitVec.ofInt 16 (saturate (if neg then -(n : Int) else n))).toInt, ?_, ?_⟩
  · unfold parseShort
    rw [sscanf_literal hs h]
  · intro e
    apply hr
    show -32768 ≤ _ ∧ _ ≤ 32767
    rw [← e]
    have h1 := BitVec.le_toInt (BitVec.ofInt 16 (saturate (if neg then -(n : Int) else n)))
    have h2 := BitVec.toInt_lt (x := BitVec.ofInt 16 (saturate (if neg then -(n : Int) else n)))
    omega

/-- A text without digits makes `parseShort` return an uninitialised variable. -/
theorem C96_no_number_wrong (t : Str) (h : ∀ c ∈ t, ¬ ∃ d, IsDigit 10 c d) : parseShort t = .ub := by
  have key : ∀ s : Str, (∀ c ∈ s, c ∈ t) → scanI s = none := by
    intro s hs
    cases s with
    | nil => rfl
    | cons c s =>
      have hc := h c (hs c (List.mem_cons_self ..))
      rw [scanI_plain c s (by rintro rfl; exact hc ⟨0, by decide, by omega⟩)]
      rw [if_neg]
      unfold startsDigit
      simp only [strtoulDigit_eq]
      cases hd : digitVal c with
      | none => simp
      | some d =>
        simp only [decide_eq_true_eq]
        intro hlt
        exact hc ⟨d, hd, hlt⟩
  have hm : ∀ c ∈ (stripSign ((cstr t).dropWhile isSpace)).2, c ∈ t := by
    have h1 : ∀ c ∈ (cstr t).dropWhile isSpace, c ∈ t := by
      intro c hc
      have h2 : c ∈ cstr t := (List.dropWhile_sublist _).subset hc
      exact (List.takeWhile_sublist _).subset h2
    intro c hc
    cases hs : (cstr t).dropWhile isSpace with
    | nil => rw [hs] at hc; simp [stripSign] at hc
    | cons x s =>
      rw [hs] at hc h1
      apply h1
      have hc : c ∈ (if x = chr '-' then (true, s) else if x = chr '+' then (false, s) else (false, x :: s)).2 := hc
      split at hc
      · exact List.mem_cons_of_mem _ hc
      · split at hc
        · exact List.mem_cons_of_mem _ hc
        · exact hc
  unfold parseShort sscanfHi
  have e := key _ hm
  generalize stripSign ((cstr t).dropWhile isSpace) = p at e
  obtain ⟨neg, s⟩ := p
  simp only at e ⊢
  rw [e]

example : ∀ c ∈ txt "abc", ¬ ∃ d, IsDigit 10 c d := by
  intro c hc
  have : ∀ c ∈ txt "abc", ∀ d, digitVal c = some d → ¬ d < 10 := by
    intro c hc d hd
    have hc' : c = chr 'a' ∨ c = chr 'b' ∨ c = chr 'c' := by
      have e : txt "abc" = [chr 'a', chr 'b', chr 'c'] := by decide
      rw [e] at hc
      simpa using hc
    rcases hc' with rfl | rfl | rfl <;> (revert hd; decide +revert)
  rintro ⟨d, h1, h2⟩
  exact this c hc d h1 h2

end Verif.Wrappers
