import Verif.NumText.Props
import Verif.JString.Props
/-!
# Properties of Integer.decode and of Long's conversions (C16, C60, C61)
-/
namespace Verif.NumText
open Verif.JString Verif.CInt Verif.Bits

/-! ## Integer.decode (C60) -/

theorem decodeBase_ten {c : Byte} (s : Str) (h : c ≠ chr '0') : decodeBase (c :: s) = .ok 10 := by
  unfold decodeBase; rw [charAt_zero]; simp [h]

theorem charAt_one (c d : Byte) (s : Str) : charAt (c :: d :: s) 1 = .ok d := by
  have := charAt_lt (s := c :: d :: s) (i := 1) (by simp)
  simpa using this

theorem decodeBase_hex (x : Byte) (s : Str) (h : x = chr 'x' ∨ x = chr 'X') :
    decodeBase (chr '0' :: x :: s) = .ok 16 := by
  unfold decodeBase; rw [charAt_zero]; simp [charAt_one, h]

theorem decodeBase_oct (x : Byte) (s : Str) (h : ¬ (x = chr 'x' ∨ x = chr 'X')) :
    decodeBase (chr '0' :: x :: s) = .ok 8 := by
  unfold decodeBase; rw [charAt_zero]; simp only [Outcome.bind_eq, Outcome.bind_ok, if_true, charAt_one, h, if_false]

theorem decode_cons (m : Sem) (c : Byte) (s : Str) (h : c ≠ chr '0' ∨ s ≠ []) :
    decode m (c :: s) = if c = chr '-' then (getStringFromIndex (c :: s) 1).bind fun t => decodeTail m t true
      else decodeTail m (c :: s) false := by
  unfold decode
  rw [if_neg (by simp), charAt_zero]
  simp only [Outcome.bind_eq, Outcome.bind_ok]
  rw [if_neg (by rintro ⟨h1, h2⟩; simp at h2; exact h.elim (fun h => h h1) (fun h => h h2))]
  have e2 : (c = chr '-' ∧ isDigit c = false) ↔ c = chr '-' := by
    constructor
    · exact fun h => h.1
    · rintro rfl; exact ⟨rfl, by decide⟩
  simp only [e2]

theorem Numeral.zero_cons {b : Nat} (hb : 0 < b) {t : Str} {n : Nat} (h : Numeral b t n) : Numeral b (chr '0' :: t) n := by
  induction h with
  | @one c d h =>
    have := Numeral.snoc (Numeral.one (b := b) (c := chr '0') (d := 0) ⟨by decide, hb⟩) h
    simpa using this
  | snoc _ h ih => exact .snoc ih h

theorem stoul_hex {t : Str} {n : Nat} (h : Numeral 16 t n) (x : Byte) (hx : x = chr 'x' ∨ x = chr 'X') :
    stoul (chr '0' :: x :: t) 16 = if n < 2 ^ 64 then .ok (BitVec.ofNat 64 n) else .throw .outOfRange := by
  have hnul : (0 : Byte) ∉ chr '0' :: x :: t := by
    intro h0
    rcases List.mem_cons.mp h0 with h0 | h0
    · exact absurd h0 (by decide)
    · rcases List.mem_cons.mp h0 with h0 | h0
      · subst h0; exact absurd hx (by decide)
      · exact h.nul h0
  obtain ⟨c, d, s, rfl, hd⟩ := h.cons
  unfold stoul
  rw [cstr_eq_self hnul]
  have e1 : List.dropWhile isSpace (chr '0' :: x :: c :: s) = chr '0' :: x :: c :: s := by
    simp [List.dropWhile, show isSpace (chr '0') = false by decide]
  have e2 : stripSign (chr '0' :: x :: c :: s) = (false, chr '0' :: x :: c :: s) := by
    simp [stripSign, show ¬ chr '0' = chr '-' by decide, show ¬ chr '0' = chr '+' by decide]
  have e3 : stripHex 16 (chr '0' :: x :: c :: s) = c :: s := by
    have : toLowerB x = chr 'x' := by rcases hx with rfl | rfl <;> decide
    simp [stripHex, this, startsDigit_cons hd]
  have e4 : scan 16 0 (c :: s) = n := by
    have := scan_append h 0 []
    rw [List.append_nil] at this
    rw [this]; simp [scan]
  simp only [e1, e2, e3, e4]
  rw [if_pos (startsDigit_cons hd _)]
  simp

theorem denotes_neg {m : Sem} {r : Outcome (BitVec 32)} {n : Nat} (h : Denotes r n) (hn : (n : Int) ≤ INT_MAX) :
    ∃ i, r.bind (fun r => neg m r) = .ok i ∧ i.toInt = -n := by
  unfold Denotes at h
  rw [if_pos ⟨by unfold INT_MIN; omega, hn⟩] at h
  obtain ⟨i, rfl, hi⟩ := h
  have hno : ¬ i.negOverflow = true := by
    intro h'
    simp only [BitVec.negOverflow, beq_iff_eq] at h'
    omega
  refine ⟨-i, ?_, ?_⟩
  · rw [Outcome.bind_ok, neg, if_neg (fun h => hno h.2)]
  · rw [BitVec.toInt_neg_of_not_negOverflow hno, hi]

theorem Literal.ne_nil {t : Str} {n : Nat} (h : Literal t n) : t ≠ [] := by
  cases h with
  | dec h _ => exact h.ne_nil
  | hex _ _ => simp
  | oct _ => simp

theorem Literal.not_minus {t : Str} {n : Nat} (h : Literal t n) : t.head? ≠ some (chr '-') := by
  cases h with
  | dec h _ =>
    obtain ⟨c, d, s, rfl, hd⟩ := h.cons
    simp; exact hd.facts.2.2.1
  | hex _ _ => simp; decide
  | oct _ => simp; decide

theorem decodeTail_eq (m : Sem) {t : Str} {b : Int} (hb : decodeBase t = .ok b) (ng : Bool) :
    decodeTail m t ng = (parseInt t b).bind fun r => if ng then neg m r else .ok r := by
  unfold decodeTail; rw [hb]; rfl

theorem literal_base {t : Str} {n : Nat} (h : Literal t n) (h0 : t ≠ [chr '0']) (hn : n < 2 ^ 64 - 2 ^ 31) :
    ∃ b, decodeBase t = .ok b ∧ Denotes (parseInt t b) n := by
  cases h with
  | dec h hh =>
    obtain ⟨c, d, s, rfl, hd⟩ := h.cons
    have hc : c ≠ chr '0' := by
      rintro rfl; exact h0 (hh rfl)
    refine ⟨10, decodeBase_ten s hc, ?_⟩
    have := parseInt_core (b := 10) (by omega) (by omega) (.plain h) (by omega) (follows_nil 10)
    rwa [List.append_nil] at this
  | @hex u n x h hx =>
    refine ⟨16, decodeBase_hex x u hx, ?_⟩
    rw [show (16 : Int) = ((16 : Nat) : Int) from rfl, parseInt_cons _ _ _ (by omega) (by omega), if_neg (by simp),
      if_neg (by decide)]
    exact magnitude_pos (stoul_hex h x hx) (by omega)
  | @oct u n h =>
    obtain ⟨c, d, s, rfl, hd⟩ := h.cons
    have hx : ¬ (c = chr 'x' ∨ c = chr 'X') := by
      intro h
      have := hd.not_x (by omega)
      rcases h with rfl | rfl <;> exact absurd this (by decide)
    refine ⟨8, decodeBase_oct c s hx, ?_⟩
    have := parseInt_core (b := 8) (by omega) (by omega) (.plain (h.zero_cons (by omega))) (by omega) (follows_nil 8)
    rwa [List.append_nil] at this

/-- `Integer.decode` of a literal, optionally preceded by a minus sign, is its
value.  (Missing for the full claim: the smallest int, `-0` and a leading plus
sign, see `C60_decode_wrong`.) -/
theorem C60_decode_partial (m : Sem) (t : Str) (n : Nat) (h : Literal t n) (hn : (n : Int) ≤ INT_MAX) :
    (∃ i, decode m t = .ok i ∧ i.toInt = n) ∧
    (t ≠ [chr '0'] → ∃ i, decode m (chr '-' :: t) = .ok i ∧ i.toInt = -n) := by
  have hn64 : n < 2 ^ 64 - 2 ^ 31 := by unfold INT_MAX at hn; omega
  constructor
  · by_cases h0 : t = [chr '0']
    · subst h0
      have hn0 : n = 0 := by
        generalize ht : [chr '0'] = t at h
        cases h with
        | dec h _ => subst ht; exact h.zero_zero
        | hex _ _ => simp at ht
        | oct h => simp at ht; exact absurd ht h.ne_nil
      subst hn0
      exact ⟨0, by rfl, rfl⟩
    · obtain ⟨b, hb, hd⟩ := literal_base h h0 hn64
      obtain ⟨c, s, rfl⟩ := List.exists_cons_of_ne_nil h.ne_nil
      have hm := h.not_minus
      rw [decode_cons m c s (by
        by_cases hc : c = chr '0'
        · right; rintro rfl; subst hc; exact h0 rfl
        · exact Or.inl hc), if_neg (by simpa using hm), decodeTail_eq m hb]
      unfold Denotes at hd
      rw [if_pos ⟨by unfold INT_MIN; omega, hn⟩] at hd
      obtain ⟨i, hi, hv⟩ := hd
      exact ⟨i, by rw [hi]; rfl, hv⟩
  · intro h0
    obtain ⟨b, hb, hd⟩ := literal_base h h0 hn64
    rw [decode_cons m _ _ (Or.inl (by decide)), if_pos rfl, from_one' _ _ h.ne_nil, Outcome.bind_ok, decodeTail_eq m hb]
    exact denotes_neg hd hn

/-- A literal above the int range is refused. -/
theorem C60_decode_range (m : Sem) (t : Str) (n : Nat) (h : Literal t n) (hn : INT_MAX < (n : Int)) (hn2 : n < 2 ^ 64 - 2 ^ 31) :
    decode m t = .throw .numberFormat := by
  have h0 : t ≠ [chr '0'] := by
    rintro rfl
    generalize ht : [chr '0'] = t at h
    cases h with
    | dec h _ => subst ht; rw [h.zero_zero] at hn; exact absurd hn (by decide)
    | hex _ _ => simp at ht
    | oct h => simp at ht; exact absurd ht h.ne_nil
  obtain ⟨b, hb, hd⟩ := literal_base h h0 hn2
  obtain ⟨c, s, rfl⟩ := List.exists_cons_of_ne_nil h.ne_nil
  have hm := h.not_minus
  rw [decode_cons m c s (by
        by_cases hc : c = chr '0'
        · right; rintro rfl; subst hc; exact h0 rfl
        · exact Or.inl hc), if_neg (by simpa using hm), decodeTail_eq m hb]
  unfold Denotes at hd
  rw [if_neg (by omega)] at hd
  rw [hd]; rfl

theorem C60_decode_wrong :
    decode .wrap (txt "-2147483648") = .throw .numberFormat ∧ decode .wrap (txt "-0") = .throw .stringIndexOutOfBounds ∧
    decode .wrap (txt "+0x1f") = .ok 0 ∧ decode .wrap (txt "08") = .ok 0 ∧
    decode .strict (txt "--2147483648") = .ub := by decide +kernel

example : decode .strict (txt "-0x7fffffff") = .ok (-2147483647) ∧ decode .strict (txt "017") = .ok 15 := by decide +kernel

/-! ## Long.parseLong (C16) -/

/-- Digit values as `Character::digit` sees them. -/
def lowDigit (r : Int) (c : Byte) : Option Nat :=
  if charDigit c.toInt r < 0 then none else some (charDigit c.toInt r).toNat

theorem lowDigit_iff (r : Nat) (hr : r = 10 ∨ r = 16) (c : Byte) (d : Nat) :
    lowDigit r c = some d ↔ IsDigit r c d ∧ isUpper c = false := by
  have h : ∀ c : Byte, lowDigit r c = (match digitVal c with
      | some d => if d < r ∧ isUpper c = false then some d else none
      | none => none) := by
    rcases hr with rfl | rfl
    · refine byte_all ?_; decide +kernel
    · refine byte_all ?_; decide +kernel
  rw [h]
  unfold IsDigit
  cases hd : digitVal c with
  | none => simp
  | some e =>
    by_cases hc : e < r ∧ isUpper c = false
    · simp only [hc, and_self, if_true, Option.some.injEq, and_true]
      constructor
      · rintro rfl; exact ⟨rfl, hc.1⟩
      · exact fun h => h.1
    · simp only [hc, if_false, reduceCtorEq, false_iff, Option.some.injEq]
      rintro ⟨⟨rfl, h1⟩, h2⟩; exact hc ⟨h1, h2⟩

/-- Horner's rule over the digits. -/
def horner (r : Nat) : (a : Nat) → Str → Option Nat
  | a, [] => some a
  | a, c :: s => match lowDigit r c with
    | some d => horner r (a * r + d) s
    | none => none

theorem horner_le {r : Nat} (hr : 0 < r) : ∀ (s : Str) (a v : Nat), horner r a s = some v → a ≤ v := by
  intro s
  induction s with
  | nil => intro a v h; simp [horner] at h; omega
  | cons c s ih =>
    intro a v h
    unfold horner at h
    cases hd : lowDigit r c with
    | none => rw [hd] at h; simp at h
    | some d =>
      rw [hd] at h
      have := ih _ _ h
      have h2 : a * 1 ≤ a * r := Nat.mul_le_mul_left a hr
      omega

theorem horner_append {r : Nat} : ∀ (s u : Str) (a : Nat), horner r a (s ++ u) = (horner r a s).bind fun v => horner r v u := by
  intro s
  induction s with
  | nil => intro u a; rfl
  | cons c s ih =>
    intro u a
    simp only [List.cons_append, horner]
    cases lowDigit r c with
    | none => rfl
    | some d => exact ih u _

theorem horner_of_numeral {r : Nat} (hr : r = 10 ∨ r = 16) {t : Str} {n : Nat} (h : LowNumeral r t n) :
    horner r 0 t = some n := by
  obtain ⟨h, hu⟩ := h
  induction h with
  | one h =>
    have := (lowDigit_iff r hr _ _).mpr ⟨h, hu _ (by simp)⟩
    simp [horner, this]
  | @snoc t n c d _ h ih =>
    have e := (lowDigit_iff r hr c d).mpr ⟨h, hu c (by simp)⟩
    rw [horner_append, ih (fun c hc => hu c (by simp [hc]))]
    simp [horner, e]

theorem snoc_cases {α : Type u} {P : List α → Prop} (h0 : P []) (h1 : ∀ t c, P t → P (t ++ [c])) (t : List α) : P t := by
  have : ∀ s : List α, P s.reverse := by
    intro s
    induction s with
    | nil => exact h0
    | cons c s ih => rw [List.reverse_cons]; exact h1 _ _ ih
  simpa using this t.reverse

theorem numeral_of_horner {r : Nat} (hr : r = 10 ∨ r = 16) (t : Str) : ∀ n, t ≠ [] → horner r 0 t = some n → LowNumeral r t n := by
  induction t using snoc_cases with
  | h0 => intro n h; exact absurd rfl h
  | h1 t c ih =>
    intro n _ h
    rw [horner_append] at h
    cases hv : horner r 0 t with
    | none => rw [hv] at h; simp at h
    | some v =>
      rw [hv] at h
      simp only [Option.bind_some, horner] at h
      cases hd : lowDigit r c with
      | none => rw [hd] at h; simp at h
      | some d =>
        rw [hd] at h
        simp only [Option.some.injEq] at h
        obtain ⟨h1, h2⟩ := (lowDigit_iff r hr c d).mp hd
        by_cases ht : t = []
        · subst ht
          simp [horner] at hv
          subst hv
          simp at h; subst h
          exact ⟨.one h1, by simpa using h2⟩
        · obtain ⟨h3, h4⟩ := ih v ht hv
          subst h
          refine ⟨.snoc h3 h1, ?_⟩
          intro c' hc'
          rcases List.mem_append.mp hc' with hc' | hc'
          · exact h4 c' hc'
          · simp at hc'; subst hc'; exact h2

theorem chk64_ok {x : Int} (h1 : -2 ^ 63 ≤ x) (h2 : x < 2 ^ 63) : chk64 x = .ok x := by
  unfold chk64; rw [if_pos ⟨h1, h2⟩]

/-- The accumulation loop: the digits' value if it does not exceed the limit. -/
theorem parseLoop_eq (s : Str) (r L : Nat) (hr : r = 10 ∨ r = 16) (hL : L ≤ 2 ^ 63) : ∀ n index a,
    index + n = s.length → a ≤ L →
    parseLoop s r (-(L : Int)) (-((L / r : Nat) : Int)) index n (-(a : Int)) =
      .ok (match horner r a (s.drop index) with
        | some v => if v ≤ L then some (-(v : Int)) else none
        | none => none) := by
  intro n
  induction n with
  | zero =>
    intro index a h ha
    rw [List.drop_of_length_le (by omega)]
    simp [parseLoop, horner, ha]
  | succ n ih =>
    intro index a h ha
    rw [List.drop_eq_getElem_cons (show index < s.length by omega)]
    unfold parseLoop horner
    rw [charAt_lt (by omega)]
    simp only [Outcome.bind_eq, Outcome.bind_ok]
    generalize s[index] = c
    by_cases hneg : charDigit c.toInt r < 0
    · rw [if_pos hneg]
      have : lowDigit r c = none := by unfold lowDigit; rw [if_pos hneg]
      rw [this]
    · rw [if_neg hneg]
      have hld : lowDigit r c = some (charDigit c.toInt r).toNat := by unfold lowDigit; rw [if_neg hneg]
      generalize hd : (charDigit c.toInt r).toNat = d at hld
      have hdi : charDigit c.toInt r = (d : Int) := by omega
      have hdr : d < r := ((lowDigit_iff r hr c d).mp hld).1.2
      rw [hld, hdi]
      have hrpos : 0 < r := by omega
      by_cases hm : -(a : Int) < -((L / r : Nat) : Int)
      · rw [if_pos hm]
        have h1 : L / r < a := by omega
        have h2 : L < a * r := (Nat.div_lt_iff_lt_mul hrpos).mp h1
        cases hv : horner r (a * r + d) (s.drop (index + 1)) with
        | none => simp [hv]
        | some v =>
          have := horner_le hrpos _ _ _ hv
          simp [hv, show ¬ v ≤ L by omega]
      · rw [if_neg hm]
        have h1 : a ≤ L / r := by omega
        have h2 : a * r ≤ L := (Nat.le_div_iff_mul_le hrpos).mp h1
        have e1 : -(a : Int) * r = -((a * r : Nat) : Int) := by rw [Int.neg_mul]; norm_cast
        rw [e1, chk64_ok (by omega) (by omega)]
        simp only [Outcome.bind_ok]
        rw [chk64_ok (by omega) (by omega)]
        simp only [Outcome.bind_ok]
        by_cases hlt : -((a * r : Nat) : Int) < -(L : Int) + (d : Int)
        · rw [if_pos hlt]
          cases hv : horner r (a * r + d) (s.drop (index + 1)) with
          | none => simp [hv]
          | some v =>
            have := horner_le hrpos _ _ _ hv
            simp [hv, show ¬ v ≤ L by omega]
        · rw [if_neg hlt]
          rw [chk64_ok (by omega) (by omega)]
          simp only [Outcome.bind_ok]
          have e2 : -((a * r : Nat) : Int) - (d : Int) = -((a * r + d : Nat) : Int) := by omega
          rw [e2, ih (index + 1) (a * r + d) (by omega) (by omega)]

/-- Largest magnitude of each sign. -/
def magLimit (negative : Bool) : Nat := if negative then 2 ^ 63 else 2 ^ 63 - 1

theorem parseTail_eq (s : Str) (r : Nat) (hr : r = 10 ∨ r = 16) (index : Nat) (hi : index ≤ s.length) (ng : Bool) :
    parseTail s r index ng = .ok (match horner r 0 (s.drop index) with
      | some v => if v ≤ magLimit ng then (if ng then -(v : Int) else v) else -1
      | none => -1) := by
  unfold parseTail
  have e : (if ng then -2 ^ 63 else -(2 ^ 63 - 1) : Int) = -((magLimit ng : Nat) : Int) := by cases ng <;> rfl
  have hd : divLong (-((magLimit ng : Nat) : Int)) r = .ok (-((magLimit ng / r : Nat) : Int)) := by
    rcases hr with rfl | rfl <;> cases ng <;> decide
  have hl := parseLoop_eq s r (magLimit ng) hr (by cases ng <;> decide) (s.length - index) index 0 (by omega) (by omega)
  simp only [Outcome.bind_eq, e, hd, Outcome.bind_ok]
  rw [show (-((0 : Nat) : Int)) = 0 from rfl] at hl
  rw [hl]
  simp only [Outcome.bind_ok]
  cases horner r 0 (s.drop index) with
  | none => rfl
  | some v =>
    by_cases hv : v ≤ magLimit ng
    · simp only [hv, if_true]
      cases ng with
      | true => rfl
      | false =>
        simp only [Bool.false_eq_true, if_false]
        rw [chk64_ok]
        · simp
        · simp [magLimit] at hv; omega
        · simp [magLimit] at hv; omega
    · simp only [hv, if_false]

theorem low48 : ∀ c : Byte, c.toInt < 48 → digitVal c = none := by
  refine byte_all ?_; decide +kernel

theorem parse_some {r : Nat} (hr : r = 10 ∨ r = 16) (ng : Bool) (u : Str) (res : Int)
    (hres : res = match horner r 0 u with
      | some v => if v ≤ magLimit ng then (if ng then -(v : Int) else v) else -1
      | none => -1) (hne : u ≠ []) :
    (∀ n, LowNumeral r u n → n ≤ magLimit ng → res = if ng then -(n : Int) else n) ∧
    ((¬ ∃ n, LowNumeral r u n ∧ n ≤ magLimit ng) → res = -1) := by
  constructor
  · intro n h1 h2
    rw [horner_of_numeral hr h1] at hres
    simpa [h2] using hres
  · intro h
    cases hh : horner r 0 u with
    | none => rw [hh] at hres; exact hres
    | some v =>
      rw [hh] at hres
      have h1 := numeral_of_horner hr u v hne hh
      simp only [show ¬ v ≤ magLimit ng from fun h2 => h ⟨v, h1, h2⟩, if_false] at hres
      exact hres

/-- `Long.parseLong(text, radix)` in radix 10 and 16 (lower-case letters): the
value of every well-formed text that fits in a long, and -1 for every other
text.  No text makes it misbehave. -/
theorem C16_parseLong (r : Nat) (hr : r = 10 ∨ r = 16) (s : Str) :
    (∀ v, LongText r s v → -2 ^ 63 ≤ v → v < 2 ^ 63 → parseLong s r = .ok v) ∧
    ((¬ ∃ v, LongText r s v ∧ -2 ^ 63 ≤ v ∧ v < 2 ^ 63) → parseLong s r = .ok (-1)) := by
  cases s with
  | nil =>
    refine ⟨?_, fun _ => rfl⟩
    rintro v ⟨h, _⟩
    generalize ht : ([] : Str) = t at h
    cases h with
    | plain h => exact absurd ht.symm h.ne_nil
    | plus _ => simp at ht
    | minus _ => simp at ht
  | cons c u =>
    unfold parseLong
    rw [if_pos (by simp), charAt_zero]
    simp only [Outcome.bind_eq, Outcome.bind_ok]
    by_cases hc : c.toInt < 48
    · rw [if_pos hc]
      have hnoplain : ∀ n, ¬ Numeral r (c :: u) n := by
        intro n h
        obtain ⟨d, hd⟩ := h.mem c (by simp)
        rw [IsDigit, low48 c hc] at hd; simp at hd
      by_cases hm : c = chr '-'
      · subst hm
        rw [if_pos rfl]
        have hup : isUpper (chr '-') = false := by decide
        by_cases hl : (chr '-' :: u).length = 1
        · rw [if_pos hl]
          have : u = [] := by simpa using hl
          subst this
          refine ⟨?_, fun _ => rfl⟩
          rintro v ⟨h, _⟩
          generalize ht : [chr '-'] = t at h
          cases h with
          | plain h => subst ht; exact absurd h (hnoplain _)
          | plus h => simp at ht; exact absurd ht.1 (by decide)
          | minus h => simp at ht; exact absurd ht h.ne_nil
        · rw [if_neg hl]
          have hne : u ≠ [] := by simpa using hl
          rw [parseTail_eq _ r hr 1 (by simp)]
          obtain ⟨p1, p2⟩ := parse_some hr true u _ rfl hne
          constructor
          · rintro v ⟨h, hu⟩ h1 h2
            generalize ht : chr '-' :: u = t at h
            cases h with
            | plain h => subst ht; exact absurd h (hnoplain _)
            | plus h => simp at ht; exact absurd ht.1 (by decide)
            | minus h =>
              simp at ht; subst ht
              congr 1
              exact p1 _ ⟨h, fun c hc => hu c (List.mem_cons_of_mem _ hc)⟩ (by simp [magLimit]; omega)
          · intro hno
            congr 1
            apply p2
            rintro ⟨n, ⟨h1, h2⟩, h3⟩
            simp [magLimit] at h3
            apply hno
            refine ⟨-(n : Int), ⟨.minus h1, ?_⟩, by omega, by omega⟩
            intro c hc
            rcases List.mem_cons.mp hc with rfl | hc
            · exact hup
            · exact h2 c hc
      · rw [if_neg hm]
        by_cases hp : c = chr '+'
        · subst hp
          rw [if_pos rfl]
          have hup : isUpper (chr '+') = false := by decide
          by_cases hl : (chr '+' :: u).length = 1
          · rw [if_pos hl]
            have : u = [] := by simpa using hl
            subst this
            refine ⟨?_, fun _ => rfl⟩
            rintro v ⟨h, _⟩
            generalize ht : [chr '+'] = t at h
            cases h with
            | plain h => subst ht; exact absurd h (hnoplain _)
            | plus h => simp at ht; exact absurd ht h.ne_nil
            | minus h => simp at ht; exact absurd ht.1 (by decide)
          · rw [if_neg hl]
            have hne : u ≠ [] := by simpa using hl
            rw [parseTail_eq _ r hr 1 (by simp)]
            obtain ⟨p1, p2⟩ := parse_some hr false u _ rfl hne
            constructor
            · rintro v ⟨h, hu⟩ h1 h2
              generalize ht : chr '+' :: u = t at h
              cases h with
              | plain h => subst ht; exact absurd h (hnoplain _)
              | plus h =>
                simp at ht; subst ht
                congr 1
                exact p1 _ ⟨h, fun c hc => hu c (List.mem_cons_of_mem _ hc)⟩ (by simp [magLimit]; omega)
              | minus h => simp at ht; exact absurd ht.1 (by decide)
            · intro hno
              congr 1
              apply p2
              rintro ⟨n, ⟨h1, h2⟩, h3⟩
              simp [magLimit] at h3
              apply hno
              refine ⟨(n : Int), ⟨.plus h1, ?_⟩, by omega, by omega⟩
              intro c hc
              rcases List.mem_cons.mp hc with rfl | hc
              · exact hup
              · exact h2 c hc
        · rw [if_neg hp]
          refine ⟨?_, fun _ => rfl⟩
          rintro v ⟨h, _⟩
          generalize ht : c :: u = t at h
          cases h with
          | plain h => subst ht; exact absurd h (hnoplain _)
          | plus h => simp at ht; exact absurd ht.1 hp
          | minus h => simp at ht; exact absurd ht.1 hm
    · rw [if_neg hc, parseTail_eq _ r hr 0 (by simp)]
      obtain ⟨p1, p2⟩ := parse_some hr false (c :: u) _ rfl (by simp)
      have hm : c ≠ chr '-' := by rintro rfl; exact hc (by decide)
      have hp : c ≠ chr '+' := by rintro rfl; exact hc (by decide)
      constructor
      · rintro v ⟨h, hu⟩ h1 h2
        generalize ht : c :: u = t at h
        cases h with
        | plain h =>
          subst ht
          congr 1
          exact p1 _ ⟨h, hu⟩ (by simp [magLimit]; omega)
        | plus h => simp at ht; exact absurd ht.1 hp
        | minus h => simp at ht; exact absurd ht.1 hm
      · intro hno
        congr 1
        apply p2
        rintro ⟨n, ⟨h1, h2⟩, h3⟩
        simp [magLimit] at h3
        exact hno ⟨(n : Int), ⟨.plain h1, h2⟩, by omega, by omega⟩

/-- Other radices: every text gives -1 (radix 0 traps, and so does radix -1
with a minus sign). -/
theorem C16_parseLong_other_radix (r : Int) (h10 : r ≠ 10) (h16 : r ≠ 16) (h0 : r ≠ 0) (h1 : r ≠ -1) (s : Str) :
    parseLong s r = .ok (-1) := by
  have hcd : ∀ x, charDigit x r = -1 := by intro x; simp [charDigit, h10, h16]
  have hdiv : ∀ ng : Bool, ∃ q, divLong (if ng then -2 ^ 63 else -(2 ^ 63 - 1) : Int) r = .ok q := by
    intro ng
    unfold divLong
    rw [if_neg]
    · exact ⟨_, rfl⟩
    · rintro (h | h)
      · exact h0 h
      · apply h
        have hle : ∀ a : Int, -2 ^ 63 ≤ a → a ≤ 0 → a.tdiv r < 2 ^ 63 := by
          intro a ha1 ha2
          rcases (show r < 0 ∨ 0 ≤ r by omega) with hneg | hpos
          · have hr2 : r ≤ -2 := by omega
            have e : a.tdiv r = (-a).tdiv (-r) := by rw [Int.tdiv_neg, Int.neg_tdiv, Int.neg_neg]
            rw [e, Int.tdiv_eq_ediv_of_nonneg (by omega)]
            exact Int.ediv_lt_of_lt_mul (by omega) (by omega)
          · have : a.tdiv r ≤ 0 := by
              have e : a.tdiv r = -((-a).tdiv r) := by rw [Int.neg_tdiv, Int.neg_neg]
              rw [e]
              have := Int.tdiv_nonneg (show 0 ≤ -a by omega) hpos
              omega
            omega
        cases ng
        · exact hle _ (by decide) (by decide)
        · exact hle _ (by decide) (by decide)
  have ht : ∀ (s : Str) i ng, i < s.length → parseTail s r i ng = .ok (-1) := by
    intro s i ng hi
    obtain ⟨q, hq⟩ := hdiv ng
    unfold parseTail
    simp only [Outcome.bind_eq, hq, Outcome.bind_ok]
    obtain ⟨n, hn⟩ : ∃ n, s.length - i = n + 1 := ⟨s.length - i - 1, by omega⟩
    rw [hn]
    unfold parseLoop
    rw [charAt_lt hi]
    simp [hcd]
  cases s with
  | nil => rfl
  | cons c u =>
    unfold parseLong
    rw [if_pos (by simp), charAt_zero]
    simp only [Outcome.bind_eq, Outcome.bind_ok]
    by_cases hl : (c :: u).length = 1
    · simp only [hl, if_true]
      rw [ht (c :: u) 0 false (by simp)]
      split <;> (try split) <;> (try split) <;> rfl
    · have : 1 < (c :: u).length := by simp at hl ⊢; exact List.length_pos_iff.mpr hl
      simp only [hl, if_false]
      rw [ht (c :: u) 0 false (by simp), ht _ 1 true this, ht _ 1 false this]
      split <;> (try split) <;> (try split) <;> rfl

theorem C16_parseLong_radix_zero : parseLong (txt "5") 0 = .ub ∧ parseLong (txt "-5") (-1) = .ub := by decide +kernel

example : parseLong (txt "-9223372036854775808") 10 = .ok (-9223372036854775808) ∧
    parseLong (txt "9223372036854775808") 10 = .ok (-1) ∧ parseLong (txt "ff") 16 = .ok 255 := by decide +kernel

theorem longText_canonical (v : BitVec 64) : SignedCanonical 10 (longText v) v.toInt := by
  have hf := fits_toInt (by omega) v
  unfold Fits at hf
  have hc : Canonical 10 (digits 10 64 v.toInt.natAbs) v.toInt.natAbs :=
    digits_canonical (by omega) (by omega) (by omega) (by omega)
  unfold longText
  by_cases h : v.toInt < 0
  · rw [if_pos h]; exact Or.inr ⟨h, _, rfl, hc⟩
  · rw [if_neg h]; exact Or.inl ⟨by omega, hc⟩

theorem SignedCanonical.longText {r : Nat} {t : Str} {v : Int} (h : SignedCanonical r t v) : LongText r t v := by
  refine ⟨h.signedNumeral, ?_⟩
  rcases h with ⟨_, h⟩ | ⟨_, u, rfl, h⟩
  · exact h.2.2
  · intro c hc
    rcases List.mem_cons.mp hc with rfl | hc
    · decide
    · exact h.2.2 c hc

/-- The text of a `Long` object is the decimal numeral of its value and parses
back to it, for every long. -/
theorem C16_decimal_roundtrip (v : BitVec 64) :
    SignedCanonical 10 (longText v) v.toInt ∧ parseLong (longText v) 10 = .ok v.toInt := by
  have hf := fits_toInt (by omega) v
  unfold Fits at hf
  have h := longText_canonical v
  exact ⟨h, (C16_parseLong 10 (Or.inl rfl) _).1 _ h.longText (by omega) (by omega)⟩

/-- The static `Long.toString(long)` answers every later call with the text of
the value given to the first call of the process. -/
theorem C16_static_toString_wrong (first v : BitVec 64) :
    (longToStringStatic (longToStringStatic none first).2 v).1 = longText first := rfl

example : (longToStringStatic (longToStringStatic none 5#64).2 7#64).1 = txt "5" := by decide +kernel

/-! ## Long.toBinaryString, toOctalString, toHexString (C61) -/

/-- Digit number `k` as the formatting loop computes it. -/
def nib (shift : Nat) (val : BitVec 64) (k : Nat) : Nat := (val.sshiftRight (shift * k)).toNat % 2 ^ shift

theorem nib_zero (shift : Nat) (hs : shift ≤ 5) (val : BitVec 64) :
    (val.setWidth 32 &&& BitVec.ofNat 32 (2 ^ shift - 1)).toNat = nib shift val 0 := by
  unfold nib
  have h1 : 2 ^ shift ≤ 2 ^ 5 := Nat.pow_le_pow_right (by omega) hs
  have h0 : 0 < 2 ^ shift := Nat.pow_pos (by omega)
  rw [BitVec.toNat_and, BitVec.toNat_ofNat, Nat.mod_eq_of_lt (a := 2 ^ shift - 1) (by omega),
    Nat.and_two_pow_sub_one_eq_mod, BitVec.toNat_setWidth]
  have hdvd : 2 ^ shift ∣ 2 ^ 32 := Nat.pow_dvd_pow 2 (by omega)
  rw [Nat.mod_mod_of_dvd _ hdvd]
  simp

theorem nib_succ (shift : Nat) (val : BitVec 64) (k : Nat) : nib shift (val.sshiftRight shift) k = nib shift val (k + 1) := by
  unfold nib
  rw [← BitVec.sshiftRight_add]
  congr 3
  rw [Nat.mul_add]; omega

theorem nib_of_zero (shift k : Nat) : nib shift 0 k = 0 := by
  unfold nib; simp

theorem formatLoop_eq (shift : Nat) (hs : shift ≤ 5) : ∀ n val (buf : Str), 0 < n → n ≤ buf.length →
    (∀ j, j < n → buf[j]? = some (chr '0')) →
    formatLoop shift n val buf = .ok ((List.range n).map (fun j => digitChar (nib shift val (n - 1 - j))) ++ buf.drop n) := by
  intro n
  induction n with
  | zero => intro val buf h; omega
  | succ n ih =>
    intro val buf _ hlen hz
    unfold formatLoop
    simp only [nib_zero shift hs]
    rw [Arr.set_nat (by omega)]
    simp only [Outcome.bind_eq, Outcome.bind_ok]
    have hdrop : (buf.set n (digitChar (nib shift val 0))).drop n = digitChar (nib shift val 0) :: buf.drop (n + 1) := by
      rw [List.drop_eq_getElem_cons (by simp; omega)]
      simp [List.drop_set_of_lt]
    have key : (List.range (n + 1)).map (fun j => digitChar (nib shift val (n + 1 - 1 - j))) ++ buf.drop (n + 1) =
        (List.range n).map (fun j => digitChar (nib shift (val.sshiftRight shift) (n - 1 - j))) ++
          (buf.set n (digitChar (nib shift val 0))).drop n := by
      rw [List.range_succ, List.map_append, hdrop, List.append_assoc]
      congr 1
      · apply List.map_congr_left
        intro j hj
        rw [nib_succ]
        have : j < n := List.mem_range.mp hj
        congr 2; omega
      · simp
    by_cases hc : val.sshiftRight shift ≠ 0 ∧ n > 0
    · rw [if_pos hc, ih _ _ hc.2 (by simp; omega), key]
      intro j hj
      rw [List.getElem?_set_ne (by omega)]; exact hz j (by omega)
    · rw [if_neg hc, key]
      congr 1
      rcases Nat.eq_zero_or_pos n with h0 | h0
      · subst h0; simp
      · have hv : val.sshiftRight shift = 0 := by
          by_cases h : val.sshiftRight shift = 0
          · exact h
          · exact absurd ⟨h, h0⟩ hc
        rw [hv]
        have hpre : (List.range n).map (fun j => digitChar (nib shift 0 (n - 1 - j))) =
            (buf.set n (digitChar (nib shift val 0))).take n := by
          apply List.ext_getElem
          · simp; omega
          · intro j h1 h2
            simp at h1
            rw [List.getElem_take, List.getElem_set_ne (by omega)]
            have := hz j (by omega)
            rw [List.getElem?_eq_getElem (by omega)] at this
            simp only [Option.some.injEq] at this
            rw [this]
            simp only [List.getElem_map, List.getElem_range]; rw [nib_of_zero]; decide
        rw [hpre, List.take_append_drop]

theorem nib_eq (shift : Nat) (val : BitVec 64) (k : Nat) (h : shift * (k + 1) ≤ 64 ∨ 0 ≤ val.toInt) :
    nib shift val k = val.toNat / 2 ^ (shift * k) % 2 ^ shift := by
  unfold nib
  by_cases hm : val.msb = false
  · rw [BitVec.sshiftRight_eq_of_msb_false hm, BitVec.toNat_ushiftRight, Nat.shiftRight_eq_div_pow]
  · have hle : shift * (k + 1) ≤ 64 := by
      rcases h with h | h
      · exact h
      · exfalso; apply hm; rw [BitVec.msb_eq_toInt]; simpa using h
    apply Nat.eq_of_testBit_eq
    intro i
    rw [Nat.testBit_mod_two_pow, Nat.testBit_mod_two_pow, Nat.testBit_div_two_pow]
    by_cases hi : i < shift
    · simp only [hi, decide_true, Bool.true_and]
      have : shift * (k + 1) = shift * k + shift := by rw [Nat.mul_add]; omega
      have := BitVec.getLsbD_sshiftRight val (shift * k) i
      rw [if_pos (by omega)] at this
      unfold BitVec.getLsbD at this
      rw [this]
      simp [Nat.add_comm, show ¬ 64 ≤ i by omega]
    · simp [hi]

theorem digit_prefix (b : Nat) (h2 : 2 ≤ b) (h36 : b ≤ 36) (f : Nat → Nat) (v : Nat) (n : Nat) (hv : v < b ^ n)
    (hf : ∀ k, k < n → f k = v / b ^ k % b) : ∀ k, k < n →
    Numeral b ((List.range (k + 1)).map fun j => digitChar (f (n - 1 - j))) (v / b ^ (n - 1 - k)) := by
  have hdig : ∀ k, k < n → IsDigit b (digitChar (f k)) (v / b ^ k % b) := by
    intro k hk
    rw [hf k hk]
    have : v / b ^ k % b < b := Nat.mod_lt _ (by omega)
    exact ⟨digitChar_val (by omega), this⟩
  intro k
  induction k with
  | zero =>
    intro hk
    have h1 := hdig (n - 1) (by omega)
    have e : v / b ^ (n - 1) % b = v / b ^ (n - 1) := by
      apply Nat.mod_eq_of_lt
      rw [Nat.div_lt_iff_lt_mul (Nat.pow_pos (by omega))]
      have : b ^ n = b * b ^ (n - 1) := by
        rw [← Nat.pow_succ']; congr 1; omega
      omega
    rw [e] at h1
    exact .one h1
  | succ k ih =>
    intro hk
    rw [List.range_succ, List.map_append]
    have h1 := Numeral.snoc (ih (by omega)) (hdig (n - 1 - (k + 1)) (by omega))
    have e : v / b ^ (n - 1 - k) * b + v / b ^ (n - 1 - (k + 1)) % b = v / b ^ (n - 1 - (k + 1)) := by
      have : n - 1 - k = (n - 1 - (k + 1)) + 1 := by omega
      rw [this, Nat.pow_succ, ← Nat.div_div_eq_div_mul, Nat.mul_comm]
      exact Nat.div_add_mod _ _
    rwa [e] at h1

theorem digit_list_canonical (b : Nat) (h2 : 2 ≤ b) (h36 : b ≤ 36) (f : Nat → Nat) (v : Nat) (n : Nat) (hn : 0 < n)
    (hv : v < b ^ n) (hlow : v = 0 ∧ n = 1 ∨ b ^ (n - 1) ≤ v) (hf : ∀ k, k < n → f k = v / b ^ k % b) :
    Canonical b ((List.range n).map fun j => digitChar (f (n - 1 - j))) v := by
  have h1 := digit_prefix b h2 h36 f v n hv hf (n - 1) (by omega)
  rw [show n - 1 + 1 = n by omega, show n - 1 - (n - 1) = 0 by omega, Nat.pow_zero, Nat.div_one] at h1
  refine ⟨h1, ?_, ?_⟩
  · intro h
    have e : ((List.range n).map fun j => digitChar (f (n - 1 - j))).head? = some (digitChar (f (n - 1))) := by
      obtain ⟨m, rfl⟩ : ∃ m, n = m + 1 := ⟨n - 1, by omega⟩
      rw [List.range_succ_eq_map]; simp
    rw [e] at h
    simp only [Option.some.injEq] at h
    rw [hf _ (by omega)] at h
    have hlt : v / b ^ (n - 1) % b < b := Nat.mod_lt _ (by omega)
    have h0 := digitChar_zero (by omega) h
    rcases hlow with ⟨rfl, rfl⟩ | hlow
    · simp [hf 0 (by omega)]; decide
    · exfalso
      have e : v / b ^ (n - 1) % b = v / b ^ (n - 1) := by
        apply Nat.mod_eq_of_lt
        rw [Nat.div_lt_iff_lt_mul (Nat.pow_pos (by omega))]
        have : b ^ n = b * b ^ (n - 1) := by
          rw [← Nat.pow_succ']; congr 1; omega
        omega
      rw [e] at h0
      have := Nat.div_pos hlow (Nat.pow_pos (by omega))
      omega
  · intro c hc
    rw [List.mem_map] at hc
    obtain ⟨j, hj, rfl⟩ := hc
    have : j < n := List.mem_range.mp hj
    rw [hf _ (by omega)]
    have hlt : v / b ^ (n - 1 - j) % b < b := Nat.mod_lt _ (by omega)
    exact digitChar_lower (by omega)

/-- Number of significant bits, from the leading zeros. -/
theorem mag_spec (v : BitVec 64) (hv : v ≠ 0) : ∃ h : Nat, h < 64 ∧
    64 - (longNumberOfLeadingZeros v).toNat = h + 1 ∧ 2 ^ h ≤ v.toNat ∧ v.toNat < 2 ^ (h + 1) ∧ v.getLsbD h = true := by
  obtain ⟨h, h1, h2⟩ := (C15_numberOfLeadingZeros v).2 hv
  have hh : h < 64 := by
    rcases Nat.lt_or_ge h 64 with h' | h'
    · exact h'
    · have := h2.1; rw [BitVec.getLsbD_of_ge _ _ h'] at this; simp at this
  refine ⟨h, hh, by rw [h1]; omega, ?_, ?_, h2.1⟩
  · exact Nat.ge_two_pow_of_testBit h2.1
  · apply Nat.lt_pow_two_of_testBit
    intro i hi
    exact h2.2 i (by omega)

theorem toUnsignedString0_digits (v : BitVec 64) (shift : Nat) (hs : 0 < shift) (hs5 : shift ≤ 5) :
    ∃ n, 0 < n ∧ v.toNat < (2 ^ shift) ^ n ∧ (v.toNat = 0 ∧ n = 1 ∨ (2 ^ shift) ^ (n - 1) ≤ v.toNat) ∧
      toUnsignedString0 v shift = .ok ((List.range n).map fun j => digitChar (nib shift v (n - 1 - j))) := by
  by_cases hv : v = 0
  · subst hv
    refine ⟨1, by omega, ?_, Or.inl ⟨rfl, rfl⟩, ?_⟩
    · exact Nat.pow_pos (Nat.pow_pos (by omega))
    · unfold toUnsignedString0
      have e : longNumberOfLeadingZeros (0 : BitVec 64) = 64 := rfl
      have e2 : max ((64 - Int.toNat 64 + (shift - 1)) / shift) 1 = 1 := by
        have : (64 - Int.toNat 64 + (shift - 1)) / shift = 0 := Nat.div_eq_of_lt (by simp; omega)
        rw [this]; rfl
      simp only [e, e2]
      rw [formatLoop_eq shift hs5 1 0 _ (by omega) (by simp) (by intro j hj; simp [hj])]
      simp
  · obtain ⟨h, hh, hm, h1, h2, _⟩ := mag_spec v hv
    generalize hn : (h + 1 + (shift - 1)) / shift = n
    have hn1 : h / shift + 1 = n := by
      rw [← hn, show h + 1 + (shift - 1) = h + shift by omega, Nat.add_div_right _ hs]
    have hn0 : 0 < n := by rw [← hn1]; exact Nat.succ_pos _
    have hle : shift * (n - 1) ≤ h := by
      rw [← hn1, Nat.add_sub_cancel]; exact Nat.mul_div_le h shift
    have hlt : h < shift * n := by
      rw [← hn1]; exact Nat.lt_mul_div_succ h hs
    refine ⟨n, hn0, ?_, Or.inr ?_, ?_⟩
    · rw [← Nat.pow_mul]
      exact Nat.lt_of_lt_of_le h2 (Nat.pow_le_pow_right (by omega) (by omega))
    · rw [← Nat.pow_mul]
      exact Nat.le_trans (Nat.pow_le_pow_right (by omega) hle) h1
    · unfold toUnsignedString0
      simp only [hm, hn]
      have e : max n 1 = n := Nat.max_eq_left hn0
      rw [e, formatLoop_eq shift hs5 n v _ hn0 (by simp) (by intro j hj; simp [hj])]
      simp

theorem digits_bound {v : BitVec 64} {shift n : Nat} (hn : 0 < n) (h : v.toNat = 0 ∧ n = 1 ∨ (2 ^ shift) ^ (n - 1) ≤ v.toNat) :
    shift * (n - 1) < 64 := by
  rcases h with ⟨_, rfl⟩ | h
  · simp
  · rw [← Nat.pow_mul] at h
    have := v.isLt
    exact (Nat.pow_lt_pow_iff_right (by omega : 1 < 2)).mp (Nat.lt_of_le_of_lt h this)

/-- `toBinaryString` and `toHexString` are the numeral of the unsigned value of
the long, without leading zeros. -/
theorem C61_toHexString (v : BitVec 64) :
    (∃ t, longToHexString v = .ok t ∧ Canonical 16 t v.toNat) ∧
    (∃ t, longToBinaryString v = .ok t ∧ Canonical 2 t v.toNat) := by
  constructor
  · obtain ⟨n, hn, h1, h2, h3⟩ := toUnsignedString0_digits v 4 (by omega) (by omega)
    have hb := digits_bound hn h2
    refine ⟨_, h3, digit_list_canonical 16 (by omega) (by omega) (nib 4 v) v.toNat n hn h1 h2 ?_⟩
    intro k hk
    rw [nib_eq 4 v k (Or.inl (by omega)), Nat.pow_mul]
  · obtain ⟨n, hn, h1, h2, h3⟩ := toUnsignedString0_digits v 1 (by omega) (by omega)
    have hb := digits_bound hn h2
    refine ⟨_, h3, digit_list_canonical 2 (by omega) (by omega) (nib 1 v) v.toNat n hn h1 h2 ?_⟩
    intro k hk
    rw [nib_eq 1 v k (Or.inl (by omega)), Nat.pow_mul]

/-- `toOctalString` for non-negative values. (Missing: negative values, where it
is wrong, see below.) -/
theorem C61_toOctalString_partial (v : BitVec 64) (hv : 0 ≤ v.toInt) :
    ∃ t, longToOctalString v = .ok t ∧ Canonical 8 t v.toNat := by
  obtain ⟨n, hn, h1, h2, h3⟩ := toUnsignedString0_digits v 3 (by omega) (by omega)
  refine ⟨_, h3, digit_list_canonical 8 (by omega) (by omega) (nib 3 v) v.toNat n hn h1 h2 ?_⟩
  intro k hk
  rw [nib_eq 3 v k (Or.inr hv), Nat.pow_mul]

/-- For a negative long the leading octal digit is 7 where it should be 1. -/
theorem C61_toOctalString_wrong :
    longToOctalString (-1) = .ok (txt "7777777777777777777777") ∧
    longToOctalString (BitVec.intMin 64) = .ok (txt "7000000000000000000000") := by decide +kernel

example : longToHexString 0x1f#64 = .ok (txt "1f") ∧ longToBinaryString 5#64 = .ok (txt "101") ∧
    longToOctalString 8#64 = .ok (txt "10") ∧ longToHexString (-1) = .ok (txt "ffffffffffffffff") := by decide +kernel

/-! ## Long.decode -/

theorem startsWithAt_eq (s p : Str) (i : Nat) (hi : i ≤ s.length) :
    startsWithAt s p i = .ok (prefixB p (s.drop i)) := by
  obtain ⟨b, hb, hiff⟩ := C32_startsWithAt s p i
  rw [hb]
  congr 1
  rw [Bool.eq_iff_iff, hiff, prefixB_iff, Int.toNat_natCast, occursAt_iff]
  exact ⟨fun h => h.2.2, fun h => ⟨by omega, hi, h⟩⟩

theorem decodeSign_eq {sg : Str} {ng : Bool} (h : Sign sg ng) {t : Str} (ht : t ≠ []) 
    (h1 : t.head? ≠ some (chr '-')) (h2 : t.head? ≠ some (chr '+')) :
    decodeSign (sg ++ t) = .ok (ng, sg.length) := by
  unfold decodeSign
  cases h with
  | none =>
    obtain ⟨c, s, rfl⟩ := List.exists_cons_of_ne_nil ht
    simp only [List.nil_append, charAt_zero, Outcome.bind_eq, Outcome.bind_ok]
    simp at h1 h2
    simp [h1, h2]
  | plus => simp only [List.cons_append, List.nil_append, charAt_zero, Outcome.bind_eq, Outcome.bind_ok]; rfl
  | minus => simp only [List.cons_append, List.nil_append, charAt_zero, Outcome.bind_eq, Outcome.bind_ok]; rfl

theorem decodePrefix_eq (s : Str) (i : Nat) (hi : i ≤ s.length) :
    decodePrefix s i = 
      if prefixB (txt "0x") (s.drop i) ∨ prefixB (txt "0X") (s.drop i) then .ok (i + 2, 16)
      else if prefixB (txt "#") (s.drop i) then .ok (i + 1, 16)
      else if prefixB (txt "0") (s.drop i) ∧ s.length > 1 + i then .ok (i + 1, 8)
      else .ok (i, 10) := by
  unfold decodePrefix
  simp only [startsWithAt_eq s _ i hi, Outcome.bind_eq, Outcome.bind_ok]

theorem from_drop (s : Str) (i : Nat) (h : i < s.length) : getStringFromIndex s i = .ok (s.drop i) := by
  unfold getStringFromIndex
  rw [if_neg]
  · simp [substr, show i ≤ s.length by omega]; rw [List.take_of_length_le (by simp)]
  · simp [pastEnd]; omega

theorem decodeRest_eq (s t : Str) (ng : Bool) (i : Nat) (radix : Int) (hi : i < s.length) (hd : s.drop i = t)
    (h1 : t.head? ≠ some (chr '-')) (h2 : t.head? ≠ some (chr '+')) :
    decodeRest s ng i radix = (parseLong t radix).bind fun r => if ng then chk64 (-r) else .ok r := by
  have hne : t ≠ [] := by rintro rfl; rw [List.drop_eq_nil_iff] at hd; omega
  obtain ⟨c, u, rfl⟩ := List.exists_cons_of_ne_nil hne
  simp at h1 h2
  unfold decodeRest
  simp only [startsWithAt_eq s _ i (by omega), from_drop s i hi, hd, Outcome.bind_eq, Outcome.bind_ok]
  have p1 : prefixB (txt "-") (c :: u) = false := by
    have : prefixB (txt "-") (c :: u) = (chr '-' == c && true) := rfl
    rw [this]; simp; exact fun h => h1 h.symm
  have p2 : prefixB (txt "+") (c :: u) = false := by
    have : prefixB (txt "+") (c :: u) = (chr '+' == c && true) := rfl
    rw [this]; simp; exact fun h => h2 h.symm
  rw [p1, p2]; rfl

theorem numeral_head_sign {b : Nat} {t : Str} {n : Nat} (h : Numeral b t n) :
    t.head? ≠ some (chr '-') ∧ t.head? ≠ some (chr '+') := by
  obtain ⟨c, d, s, rfl, hd⟩ := h.cons
  simp; exact ⟨hd.facts.2.2.1, hd.facts.2.2.2.1⟩

theorem parse_low {r : Nat} (hr : r = 10 ∨ r = 16) {t : Str} {n : Nat} (h : LowNumeral r t n) (hn : n < 2 ^ 63) :
    parseLong t r = .ok (n : Int) :=
  (C16_parseLong r hr t).1 n ⟨.plain h.1, h.2⟩ (by omega) (by omega)

theorem finish_decode (n : Nat) (hn : n < 2 ^ 63) (ng : Bool) :
    ((Outcome.ok (n : Int)).bind fun r => if ng then chk64 (-r) else .ok r) = .ok (if ng then -(n : Int) else n) := by
  cases ng with
  | false => rfl
  | true => rw [Outcome.bind_ok]; simp only [if_true]; rw [chk64_ok (by omega) (by omega)]

/-- `Long.decode` of an optional sign, a prefix `0x`, `0X` or `#`, and a
lower-case hexadecimal numeral. -/
theorem C16_decode_hex (sg px t : Str) (ng : Bool) (n : Nat) (hs : Sign sg ng)
    (hp : px = txt "0x" ∨ px = txt "0X" ∨ px = txt "#") (h : LowNumeral 16 t n) (hn : n < 2 ^ 63) :
    decodeLong (sg ++ px ++ t) = .ok (if ng then -(n : Int) else n) := by
  have hpne : px ≠ [] := by rcases hp with rfl | rfl | rfl <;> decide
  have hne : px ++ t ≠ [] := by simp [hpne]
  have hhead : (px ++ t).head? ≠ some (chr '-') ∧ (px ++ t).head? ≠ some (chr '+') := by
    rcases hp with rfl | rfl | rfl
    · exact ⟨by show some (chr '0') ≠ _; decide, by show some (chr '0') ≠ _; decide⟩
    · exact ⟨by show some (chr '0') ≠ _; decide, by show some (chr '0') ≠ _; decide⟩
    · exact ⟨by show some (chr '#') ≠ _; decide, by show some (chr '#') ≠ _; decide⟩
  have htl : 0 < t.length := List.length_pos_iff.mpr h.1.ne_nil
  unfold decodeLong
  rw [List.append_assoc, if_neg (by simp; intro _ h; exact absurd h hpne), decodeSign_eq hs hne hhead.1 hhead.2]
  simp only [Outcome.bind_eq, Outcome.bind_ok]
  have hself : ∀ p : Str, prefixB p (p ++ t) = true := fun p => (prefixB_iff p _).mpr ⟨t, rfl⟩
  have hpx : decodePrefix (sg ++ (px ++ t)) sg.length = .ok (sg.length + px.length, 16) := by
    rw [decodePrefix_eq _ _ (by simp), List.drop_left]
    rcases hp with rfl | rfl | rfl
    · rw [if_pos (Or.inl (hself _))]; rfl
    · rw [if_pos (Or.inr (hself _))]; rfl
    · have e1 : prefixB (txt "0x") (txt "#" ++ t) = false := rfl
      have e2 : prefixB (txt "0X") (txt "#" ++ t) = false := rfl
      rw [if_neg (by rw [e1, e2]; decide), if_pos (hself _)]; rfl
  rw [hpx]
  simp only [Outcome.bind_ok]
  obtain ⟨n1, n2⟩ := numeral_head_sign h.1
  rw [decodeRest_eq _ t ng _ 16 (by simp; omega) (by rw [← List.append_assoc, ← List.length_append, List.drop_left]) n1 n2]
  have := parse_low (Or.inr rfl) h hn
  rw [show ((16 : Nat) : Int) = 16 from rfl] at this
  rw [this]
  exact finish_decode n hn ng

/-- `Long.decode` of an optional sign and a decimal numeral without leading
zero. -/
theorem C16_decode_decimal (sg t : Str) (ng : Bool) (n : Nat) (hs : Sign sg ng) (h : Canonical 10 t n) (hn : n < 2 ^ 63) :
    decodeLong (sg ++ t) = .ok (if ng then -(n : Int) else n) := by
  obtain ⟨hnum, hz, hu⟩ := h
  obtain ⟨n1, n2⟩ := numeral_head_sign hnum
  have htl : 0 < t.length := List.length_pos_iff.mpr hnum.ne_nil
  unfold decodeLong
  rw [if_neg (by simp; intro _ h; exact absurd h hnum.ne_nil), decodeSign_eq hs hnum.ne_nil n1 n2]
  simp only [Outcome.bind_eq, Outcome.bind_ok]
  have hpx : decodePrefix (sg ++ t) sg.length = .ok (sg.length, 10) := by
    rw [decodePrefix_eq _ _ (by simp), List.drop_left]
    obtain ⟨c, d, s, rfl, hd⟩ := hnum.cons
    have hsec : c = chr '0' → s = [] := by
      rintro rfl
      have := hz rfl
      simpa using this
    rw [if_neg, if_neg, if_neg]
    · rintro ⟨h1, h2⟩
      have hc : c = chr '0' := by
        have : prefixB (txt "0") (c :: s) = (chr '0' == c && true) := rfl
        rw [this] at h1; simp at h1; exact h1.symm
      have := hsec hc
      subst this
      simp at h2; omega
    · have : prefixB (txt "#") (c :: s) = (chr '#' == c && true) := rfl
      rw [this]; simp
      exact fun h => hd.facts.2.2.2.2 h.symm
    · have e1 : prefixB (txt "0x") (c :: s) = (chr '0' == c && prefixB [chr 'x'] s) := rfl
      have e2 : prefixB (txt "0X") (c :: s) = (chr '0' == c && prefixB [chr 'X'] s) := rfl
      rw [e1, e2]
      rintro (h | h)
      · simp at h; have := hsec h.1.symm; subst this; simp [prefixB] at h
      · simp at h; have := hsec h.1.symm; subst this; simp [prefixB] at h
  rw [hpx]
  simp only [Outcome.bind_ok]
  rw [decodeRest_eq _ t ng _ 10 (by simp; omega) (by rw [List.drop_left]) n1 n2]
  have := parse_low (Or.inl rfl) ⟨hnum, hu⟩ hn
  rw [show ((10 : Nat) : Int) = 10 from rfl] at this
  rw [this]
  exact finish_decode n hn ng

/-- `Long.decode("0x" + Long.toHexString(v)) == v` for every non-negative long. -/
theorem C16_hex_roundtrip (v : BitVec 64) (hv : 0 ≤ v.toInt) :
    ∃ t, longToHexString v = .ok t ∧ decodeLong (txt "0x" ++ t) = .ok v.toInt := by
  obtain ⟨t, h1, h2, h3, h4⟩ := (C61_toHexString v).1
  refine ⟨t, h1, ?_⟩
  have hf := fits_toInt (by omega) v
  unfold Fits at hf
  have e := nonneg_toNat v hv
  have := C16_decode_hex [] (txt "0x") t false v.toNat .none (Or.inl rfl) ⟨h2, h4⟩ (by omega)
  rw [List.nil_append] at this
  rw [this]
  simp only [Bool.false_eq_true, if_false]
  congr 1; omega

/-- What `Long.decode` gets wrong: octal literals, the smallest long, and
negative values printed in hexadecimal. -/
theorem C16_decode_wrong :
    decodeLong (txt "010") = .ok (-1) ∧ decodeLong (txt "-010") = .ok 1 ∧
    decodeLong (txt "-9223372036854775808") = .ok 1 ∧ decodeLong (txt "0xffffffffffffffff") = .ok (-1) ∧
    decodeLong (txt "0x8000000000000000") = .ok (-1) ∧ decodeLong (txt "0xFF") = .ok (-1) := by decide +kernel

example : decodeLong (txt "-0x1f") = .ok (-31) ∧ decodeLong (txt "+42") = .ok 42 ∧ decodeLong (txt "#ff") = .ok 255 := by
  decide +kernel

end Verif.NumText
