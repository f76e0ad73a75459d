import Verif.Format.FormatLemmas
/-! # `String.format` -/
namespace Verif.Format

open Verif.JString Verif.NumText

variable {D : Type}

/-- Nothing is known about the C library. -/
def anyLib : Lib Unit := ⟨fun _ _ => txt "1.5", fun _ _ => txt "0x1"⟩

/-! ## Plain text (C199) -/

/-- A text in which no conversion specification starts is returned as it is, whatever the arguments. -/
theorem C199_text (m : Sem) (lib : Lib D) (s : Str) (args : List (Arg D)) (h0 : 0 ∉ s)
    (h : ∀ i, ∀ w, IsSpec w → ¬ w <+: s.drop i) : format m lib s args = .ok s :=
  (format_iff h0).2 (.text fun i _ => h i)

/-- Doubling the percent signs protects any text. -/
theorem C199_escape (m : Sem) (lib : Lib D) (s : Str) (args : List (Arg D)) (h0 : 0 ∉ s) :
    format m lib (escape s) args = .ok s := by
  have h0' : (0 : Byte) ∉ escape s := by
    intro h
    obtain ⟨c, hc, hx⟩ := List.mem_flatMap.1 h
    have : (0 : Byte) = c := by
      by_cases e : c = chr '%'
      · rw [if_pos e] at hx
        rcases List.mem_cons.1 hx with hx | hx
        · exact hx
        · exact List.mem_singleton.1 hx
      · rw [if_neg e] at hx
        exact List.mem_singleton.1 hx
    exact h0 (this ▸ hc)
  refine (format_iff h0').2 ?_
  have := formats_escape (P := fun w x t => print m lib w x = .ok t) args s [] (by simp)
  rwa [List.nil_append, List.nil_append] at this

example : format .strict anyLib (escape (txt "100% sure, %d")) [] = .ok (txt "100% sure, %d") :=
  C199_escape _ _ _ _ (by decide)
example : escape (txt "100% sure, %d") = txt "100%% sure, %%d" := by decide +kernel

/-! ## One text for each specification (C200) -/

/-- Missing: numbers whose text has 128 characters or more, and texts that have exactly 128. -/
theorem C200_format_partial (m : Sem) (lib : Lib D) (s : Str) (args : List (Arg D)) (out : Str) (h0 : 0 ∉ s)
    (h : Formats (fun w x t => Prints w x t ∧ Short x t) s args out) : format m lib s args = .ok out :=
  (format_iff h0).2 (h.mono fun _ _ _ h => print_eq h.1 h.2 m lib)

/-- A number whose text has 128 characters loses the last one: there is a NUL instead. -/
theorem C200_full_wrong (m : Sem) (lib : Lib D) (w t a b : Str) (x : Arg D) (h : Prints w x t) (ht : t.length = 128)
    (ha : chr '%' ∉ a ∧ 0 ∉ a) (hb : chr '%' ∉ b ∧ 0 ∉ b) :
    format m lib (a ++ w ++ b) [x] = .ok (a ++ (t.take 127 ++ [0]) ++ b) := by
  obtain ⟨hw, hl⟩ := prints_spec h
  have h0 : (0 : Byte) ∉ a ++ w ++ b := by
    intro h0
    rcases List.mem_append.1 h0 with h0 | h0
    · rcases List.mem_append.1 h0 with h0 | h0
      · exact ha.2 h0
      · exact spec_nul hw h0
    · exact hb.2 h0
  refine (format_iff h0).2 (formats_single hw hl ha.1 hb.1 ?_ [])
  cases x with
  | bool c =>
    cases h with
    | bool => cases c <;> cases ht
    | upperBool => cases c <;> cases ht
    | signed _ _ _ hi => rcases hi with ⟨-, a, e, -⟩ | ⟨-, a, e, -⟩ <;> cases e
    | unsigned _ _ _ hi => rcases hi with ⟨-, a, e, -⟩ | ⟨-, a, e, -⟩ <;> cases e
    | upper _ _ hi => rcases hi with ⟨-, a, e, -⟩ | ⟨-, a, e, -⟩ <;> cases e
  | str s =>
    obtain ⟨k, h1, h2, h3, h4⟩ := prints_render h (fun _ e => by cases e) m lib
    show printStr m lib w _ = _
    rw [printStr_eq h1 h2 h3 h4 (by omega), if_pos ht]
  | i32 _ =>
    obtain ⟨k, h1, h2, h3, h4⟩ := prints_render h (fun _ e => by cases e) m lib
    show printNum m lib w _ = _
    rw [printNum_eq h1 h2 h3 h4 (by omega), if_neg (by omega), if_pos ht]
  | i64 _ =>
    obtain ⟨k, h1, h2, h3, h4⟩ := prints_render h (fun _ e => by cases e) m lib
    show printNum m lib w _ = _
    rw [printNum_eq h1 h2 h3 h4 (by omega), if_neg (by omega), if_pos ht]
  | dbl _ =>
    obtain ⟨k, h1, h2, h3, h4⟩ := prints_render h (fun _ e => by cases e) m lib
    show printNum m lib w _ = _
    rw [printNum_eq h1 h2 h3 h4 (by omega), if_neg (by omega), if_pos ht]

/-- A number whose text has more than 128 characters: memory beyond the buffer is read. -/
theorem C200_over_wrong (m : Sem) (lib : Lib D) (w t : Str) (x : Arg D) (h : Prints w x t) (ht : 128 < t.length)
    (ht' : t.length ≤ 2147483647) (hx : ∀ s, x ≠ .str s) (args : List (Arg D)) : format m lib w (x :: args) = .ub := by
  obtain ⟨hw, hl⟩ := prints_spec h
  have hb : ∀ c, x ≠ .bool c := by
    rintro c rfl
    cases h with
    | bool => cases c <;> revert ht <;> decide
    | upperBool => cases c <;> revert ht <;> decide
    | signed _ _ _ hi => rcases hi with ⟨-, a, e, -⟩ | ⟨-, a, e, -⟩ <;> cases e
    | unsigned _ _ _ hi => rcases hi with ⟨-, a, e, -⟩ | ⟨-, a, e, -⟩ <;> cases e
    | upper _ _ hi => rcases hi with ⟨-, a, e, -⟩ | ⟨-, a, e, -⟩ <;> cases e
  obtain ⟨k, h1, h2, h3, h4⟩ := prints_render h hb m lib
  have hp : print m lib w x = .ub := by
    have e := printNum_eq h1 h2 h3 h4 ht'
    rw [if_neg (by omega), if_neg (by omega)] at e
    cases x with
    | bool c => exact absurd rfl (hb c)
    | str s => exact absurd rfl (hx s)
    | i32 _ => exact e
    | i64 _ => exact e
    | dbl _ => exact e
  have e := formatAt_some (m := m) (lib := lib) (n := w.length) (a := []) (r := []) (args := x :: args)
    (by rw [List.append_nil, List.nil_append]; exact spec_nul hw) hw (noSpec_zero _)
  rw [List.append_nil, List.nil_append] at e
  unfold format
  rw [e]
  simp only [printObject, if_neg hl, hp]
  rfl

theorem parts_plain (c : Byte) (hc : c ∈ txt "diuoxXcs") : Parts [chr '%', c] [] 0 none [] c :=
  ⟨⟨[], [], rfl, .inl ⟨rfl, rfl⟩, .inl ⟨rfl, rfl⟩⟩, by simp, .inl rfl, hc, by decide⟩

theorem parts_long (c : Byte) (hc : c ∈ txt "diuoxXcs") : Parts [chr '%', chr 'l', c] [] 0 none (txt "l") c :=
  ⟨⟨[], [], rfl, .inl ⟨rfl, rfl⟩, .inl ⟨rfl, rfl⟩⟩, by simp, .inr (.inl rfl), hc, by decide⟩

theorem parts_width {wd : Str} {n : Nat} (h : Canonical 10 wd n) (hn : n ≠ 0) (hn' : n ≤ 2147483647) (f : Str)
    (hf : ∀ x ∈ f, x ∈ txt "-#+0 ") (c : Byte) (hc : c ∈ txt "diuoxXcs") : Parts (chr '%' :: (f ++ wd ++ [c])) f n none [] c :=
  ⟨⟨wd, [], by simp, .inr ⟨h, hn⟩, .inl ⟨rfl, rfl⟩⟩, hf, .inl rfl, hc, hn', by decide⟩

theorem canonical_128 : Canonical 10 (txt "128") 128 := by
  have h := digits_canonical (b := 10) (fuel := 64) (n := 128) (by omega) (by omega) (by omega) (by omega)
  rwa [show digits 10 64 128 = txt "128" by decide +kernel] at h
theorem canonical_5 : Canonical 10 (txt "5") 5 := by
  have h := digits_canonical (b := 10) (fuel := 64) (n := 5) (by omega) (by omega) (by omega) (by omega)
  rwa [show digits 10 64 5 = txt "5" by decide +kernel] at h
theorem canonical_42 : Canonical 10 (txt "42") 42 := by
  have h := digits_canonical (b := 10) (fuel := 64) (n := 42) (by omega) (by omega) (by omega) (by omega)
  rwa [show digits 10 64 42 = txt "42" by decide +kernel] at h

/-- `%-5d|` and 42. -/
example : Prints (D := Unit) (txt "%-5d") (.i32 42) (txt "42   ") :=
  .signed (parts_width canonical_5 (by decide) (by decide) (txt "-") (by decide) (chr 'd') (by decide)) (.inl rfl) (by decide)
    (.inl ⟨rfl, _, rfl, rfl, rfl⟩) ⟨txt "42", .inr ⟨by decide, canonical_42⟩, rfl⟩
    ⟨3, rfl, .inl ⟨by decide, by decide⟩⟩

example : format .strict anyLib (txt "a%-5d|%s%%%b") [.i32 42, .str (txt "xy"), .bool true] = .ok (txt "a42   |xy%true") := by
  decide +kernel

example (a : BitVec 32) : Prints (D := Unit) (txt "%128s") (.str (txt "x")) (List.replicate 127 (chr ' ') ++ txt "x") :=
  .text (parts_width canonical_128 (by decide) (by decide) [] (by simp) (chr 's') (by decide)) (by decide) (by decide) (by decide)
    ⟨127, rfl, .inr (.inr ⟨by decide, id, rfl⟩)⟩

/-! ## The number of arguments (C201) -/

/-- With too few arguments a call never returns a text; if nothing is undefined before, it throws. -/
theorem C201_missing_partial (m : Sem) (lib : Lib D) (s : Str) (args : List (Arg D)) (h0 : 0 ∉ s) (h : Needs s args.length)
    : (∀ out, format m lib s args ≠ .ok out) ∧
      ((∀ w, ∀ x ∈ args, IsSpec w → ∃ t, print m lib w x = .ok t) → format m lib s args = .throw .interrupted) := by
  rcases formatAt_cases (m := m) (lib := lib) (args := args) h0 (Nat.lt_succ_self _) with ⟨out, e, h1⟩ | ⟨e, h1⟩ | ⟨e, w, x, hw, hx, hp⟩
  · exact absurd h h1
  · exact ⟨fun out e' => (by rw [format, e] at e'; cases e'), fun _ => e⟩
  · refine ⟨fun out e' => (by rw [format, e] at e'; cases e'), fun hall => ?_⟩
    obtain ⟨t, ht⟩ := hall w x hx hw
    rw [hp] at ht
    cases ht

/-- An exception means that arguments are missing; with enough of them there is none. -/
theorem C201_enough (m : Sem) (lib : Lib D) (s : Str) (args : List (Arg D)) (h0 : 0 ∉ s) (e : Exc)
    (h : format m lib s args = .throw e) : Needs s args.length := by
  rcases formatAt_cases (m := m) (lib := lib) (args := args) h0 (Nat.lt_succ_self _) with ⟨out, e', h1⟩ | ⟨e', h1⟩ | ⟨e', h1⟩
  · rw [format, e'] at h; cases h
  · exact h1
  · rw [format, e'] at h; cases h

/-- More arguments than necessary change nothing. -/
theorem C201_surplus (m : Sem) (lib : Lib D) (s : Str) (args more : List (Arg D)) (out : Str) (h0 : 0 ∉ s)
    (h : format m lib s args = .ok out) : format m lib s (args ++ more) = .ok out :=
  (format_iff h0).2 (((format_iff h0).1 h).more more)

/-- The documentation promises an `IllegalArgumentException`; it is an `InterruptedException`. -/
theorem C201_exception_wrong (m : Sem) (lib : Lib D) :
    (∀ s args, 0 ∉ s → format m lib s args ≠ .throw .illegalArgument) ∧
    format m lib (txt "%d and %d") [.i32 1] = .throw .interrupted := by
  constructor
  · intro s args h0 h
    rcases formatAt_cases (m := m) (lib := lib) (args := args) h0 (Nat.lt_succ_self _) with ⟨out, e', h1⟩ | ⟨e', h1⟩ | ⟨e', h1⟩ <;>
      rw [format, e'] at h <;> cases h
  · cases m
    · set_option maxRecDepth 4000 in exact rfl
    · set_option maxRecDepth 4000 in exact rfl

theorem needs_example : Needs (txt "%d and %d") 1 := by
  have hd : IsSpec (txt "%d") :=
    ⟨[], [], [], [], [], chr 'd', rfl, by simp, by simp, by simp, .inl rfl, .inl rfl, by decide⟩
  have h1 : Needs (txt " and " ++ txt "%d" ++ []) 0 := .here hd (by decide) (by
    rw [List.append_assoc]; exact noSpec_plain (by decide) _)
  have h2 : Needs ([] ++ txt "%d" ++ txt " and %d") 1 := .conv hd (by decide) (noSpec_zero _) h1
  exact h2
example : format .strict anyLib (txt "%d and %d") [.i32 1] = .throw .interrupted := (C201_exception_wrong _ _).2
example : format .strict anyLib (txt "%d") [.i32 1, .i32 2] = .ok (txt "1") := by decide +kernel

/-! ## Integers (C202) -/

theorem digits_length (b : Nat) : ∀ f n, (digits b f n).length ≤ f := by
  intro f
  induction f with
  | zero => intro n; exact Nat.le_refl 0
  | succ f ih =>
    intro n
    rw [digits]
    split
    · simp
    · have := ih (n / b)
      rw [List.length_append, List.length_singleton]
      omega

theorem toInt_lt (v : BitVec 32) : v.toInt.natAbs < 2 ^ 64 := by
  have := v.isLt; rw [BitVec.toInt_eq_toNat_cond]; split <;> omega
theorem toInt_lt' (v : BitVec 64) : v.toInt.natAbs < 2 ^ 64 := by
  have := v.isLt; rw [BitVec.toInt_eq_toNat_cond]; split <;> omega

theorem surround {a w b : Str} (hw : IsSpec w) (ha : chr '%' ∉ a ∧ 0 ∉ a) (hb : chr '%' ∉ b ∧ 0 ∉ b) : (0 : Byte) ∉ a ++ w ++ b := by
  intro h0
  rcases List.mem_append.1 h0 with h0 | h0
  · rcases List.mem_append.1 h0 with h0 | h0
    · exact ha.2 h0
    · exact spec_nul hw h0
  · exact hb.2 h0

theorem format_single (m : Sem) (lib : Lib D) {a w b t : Str} {x : Arg D} (h : Prints w x t) (hs : Short x t)
    (ha : chr '%' ∉ a ∧ 0 ∉ a) (hb : chr '%' ∉ b ∧ 0 ∉ b) : format m lib (a ++ w ++ b) [x] = .ok (a ++ t ++ b) := by
  obtain ⟨hw, hl⟩ := prints_spec h
  exact C200_format_partial m lib _ _ _ (surround hw ha hb) (formats_single hw hl ha.1 hb.1 ⟨h, hs⟩ [])

theorem signed_text (n : Nat) (v : Int) (hn : n = v.natAbs) (h : n < 2 ^ 64) : ∃ ds, Digits 10 none v.natAbs ds ∧
    SignedCanonical 10 (signOf [] v ++ ds) v ∧ (signOf [] v ++ ds).length ≤ 65 := by
  have hc : Canonical 10 (digits 10 64 n) n := digits_canonical (by omega) (by omega) h (by omega)
  have hl := digits_length 10 64 n
  rw [hn] at hc hl
  refine ⟨digits 10 64 v.natAbs, ⟨digits 10 64 v.natAbs, .inr ⟨by simp, hc⟩, by simp⟩, ?_, ?_⟩
  · unfold signOf
    by_cases hv : v < 0
    · rw [if_pos hv]; exact .inr ⟨hv, _, rfl, hc⟩
    · rw [if_neg hv]; exact .inl ⟨by omega, hc⟩
  · rw [List.length_append]
    unfold signOf
    split
    · show 1 + _ ≤ _; omega
    · simp; omega

/-- `%d` gives the decimal text of an `int`, `%ld` that of a `long`. -/
theorem C202_decimal (m : Sem) (lib : Lib D) (a b : Str) (ha : chr '%' ∉ a ∧ 0 ∉ a) (hb : chr '%' ∉ b ∧ 0 ∉ b) :
    (∀ v : BitVec 32, ∃ t, SignedCanonical 10 t v.toInt ∧ format m lib (a ++ txt "%d" ++ b) [.i32 v] = .ok (a ++ t ++ b)) ∧
    (∀ v : BitVec 64, ∃ t, SignedCanonical 10 t v.toInt ∧ format m lib (a ++ txt "%ld" ++ b) [.i64 v] = .ok (a ++ t ++ b)) := by
  constructor
  · intro v
    obtain ⟨ds, h1, h2, h3⟩ := signed_text _ v.toInt rfl (toInt_lt v)
    refine ⟨_, h2, format_single m lib (x := .i32 v) ?_ (by show _ < 128; omega) ha hb⟩
    exact .signed (parts_plain (chr 'd') (by decide)) (.inl rfl) (by simp) (.inl ⟨rfl, _, rfl, rfl, rfl⟩) h1
      ⟨0, by simp, .inr (.inr ⟨by simp, by simp, rfl⟩)⟩
  · intro v
    obtain ⟨ds, h1, h2, h3⟩ := signed_text _ v.toInt rfl (toInt_lt' v)
    refine ⟨_, h2, format_single m lib (x := .i64 v) ?_ (by show _ < 128; omega) ha hb⟩
    exact .signed (parts_long (chr 'd') (by decide)) (.inl rfl) (by simp) (.inr ⟨by decide, _, rfl, rfl, rfl⟩) h1
      ⟨0, by simp, .inr (.inr ⟨by simp, by simp, rfl⟩)⟩

/-- `%x` and `%o` give the numeral of the bits of an `int`, `%lx` and `%lo` of a `long`. -/
theorem C202_bits (m : Sem) (lib : Lib D) (a b : Str) (ha : chr '%' ∉ a ∧ 0 ∉ a) (hb : chr '%' ∉ b ∧ 0 ∉ b) (c : Byte) (r : Nat)
    (hc : c = chr 'x' ∧ r = 16 ∨ c = chr 'o' ∧ r = 8 ∨ c = chr 'u' ∧ r = 10) :
    (∀ v : BitVec 32, ∃ t, Canonical r t v.toNat ∧ format m lib (a ++ [chr '%', c] ++ b) [.i32 v] = .ok (a ++ t ++ b)) ∧
    (∀ v : BitVec 64, ∃ t, Canonical r t v.toNat ∧ format m lib (a ++ [chr '%', chr 'l', c] ++ b) [.i64 v] = .ok (a ++ t ++ b)) := by
  have hr : 2 ≤ r ∧ r ≤ 36 := by rcases hc with ⟨-, e⟩ | ⟨-, e⟩ | ⟨-, e⟩ <;> omega
  have hm : c ∈ txt "diuoxXcs" := by rcases hc with ⟨e, -⟩ | ⟨e, -⟩ | ⟨e, -⟩ <;> subst e <;> decide
  have hc' : c = chr 'u' ∧ r = 10 ∨ c = chr 'o' ∧ r = 8 ∨ c = chr 'x' ∧ r = 16 := by
    rcases hc with h | h | h
    · exact .inr (.inr h)
    · exact .inr (.inl h)
    · exact .inl h
  constructor
  · intro v
    have hn : v.toNat < 2 ^ 64 := by have := v.isLt; omega
    have h1 := digits_canonical hr.1 hr.2 hn (by omega)
    have hl := digits_length r 64 v.toNat
    refine ⟨_, h1, format_single m lib (x := .i32 v) ?_ (by show _ < 128; omega) ha hb⟩
    exact .unsigned (parts_plain c hm) hc' (by simp) (.inl ⟨rfl, _, rfl, rfl, rfl⟩) ⟨_, .inr ⟨by simp, h1⟩, rfl⟩
      ⟨0, by simp, .inr (.inr ⟨by simp, by simp, by simp⟩)⟩
  · intro v
    have h1 := digits_canonical hr.1 hr.2 v.isLt (by omega)
    have hl := digits_length r 64 v.toNat
    refine ⟨_, h1, format_single m lib (x := .i64 v) ?_ (by show _ < 128; omega) ha hb⟩
    exact .unsigned (parts_long c hm) hc' (by simp) (.inr ⟨by decide, _, rfl, rfl, rfl⟩) ⟨_, .inr ⟨by simp, h1⟩, rfl⟩
      ⟨0, by simp, .inr (.inr ⟨by simp, by simp, by simp⟩)⟩

theorem numeral_zeros {b : Nat} (hb : 0 < b) {t : Str} {n : Nat} (h : Numeral b t n) : Numeral b (chr '0' :: t) n := by
  have h0 : IsDigit b (chr '0') 0 := ⟨by decide, hb⟩
  induction h with
  | @one c d h =>
    have := Numeral.snoc (.one h0) h
    rw [Nat.zero_mul, Nat.zero_add] at this
    exact this
  | snoc h1 h2 ih => exact .snoc ih h2

theorem numeral_replicate {b : Nat} (hb : 0 < b) {t : Str} {n : Nat} (h : Numeral b t n) : ∀ k,
    Numeral b (List.replicate k (chr '0') ++ t) n
  | 0 => h
  | k + 1 => numeral_zeros hb (numeral_replicate hb h k)

/-- `%0Nd` fills with zeros: the text has `N` characters, or is the shortest one if that is longer. -/
theorem C202_zeros_partial (m : Sem) (lib : Lib D) (a b wd : Str) (ha : chr '%' ∉ a ∧ 0 ∉ a) (hb : chr '%' ∉ b ∧ 0 ∉ b)
    (width : Nat) (hw : Canonical 10 wd width) (h0 : 0 < width) (h1 : width < 128) (v : BitVec 32) :
    ∃ t, format m lib (a ++ (txt "%0" ++ wd ++ txt "d") ++ b) [.i32 v] = .ok (a ++ t ++ b) ∧
      SignedNumeral 10 t v.toInt ∧ (t.length = width ∨ width < t.length ∧ SignedCanonical 10 t v.toInt) := by
  obtain ⟨ds, k1, k2, k3⟩ := signed_text _ v.toInt rfl (toInt_lt v)
  have hs : signOf (txt "0") v.toInt = signOf [] v.toInt := by
    unfold signOf
    rw [if_neg (by decide : ¬ chr '+' ∈ txt "0"), if_neg (by decide : ¬ chr ' ' ∈ txt "0"),
      if_neg (by simp : ¬ chr '+' ∈ ([] : Str)), if_neg (by simp : ¬ chr ' ' ∈ ([] : Str))]
  generalize hN : width - ((signOf [] v.toInt).length + ds.length) = N
  have hP : Prints (D := D) (txt "%0" ++ wd ++ txt "d") (.i32 v) (signOf [] v.toInt ++ List.replicate N (chr '0') ++ ds) :=
    .signed (parts_width hw (by omega) (by omega) (txt "0") (by decide) (chr 'd') (by decide)) (.inl rfl) (by decide)
      (.inl ⟨rfl, _, rfl, rfl, rfl⟩) k1 ⟨N, by rw [hs, hN], .inr (.inl ⟨by decide, ⟨by decide, rfl⟩, by rw [hs]⟩)⟩
  have hlen : (signOf [] v.toInt ++ List.replicate N (chr '0') ++ ds).length = max width ((signOf [] v.toInt).length + ds.length) := by
    simp only [List.length_append, List.length_replicate]; omega
  rw [List.length_append] at k3
  refine ⟨_, format_single m lib hP (by show _ < 128; omega) ha hb, ?_, ?_⟩
  · obtain ⟨d, hd, e⟩ := k1
    have e' : ds = d := by rw [e]; simp
    subst e'
    rcases hd with ⟨-, hd, -⟩ | ⟨-, hd⟩
    · cases hd
    · have := numeral_replicate (by omega) hd.1 N
      unfold signOf
      by_cases hv : v.toInt < 0
      · rw [if_pos hv]
        have e2 : v.toInt = -(v.toInt.natAbs : Int) := by omega
        rw [e2]
        have := SignedNumeral.minus this
        rw [List.append_assoc]
        exact this
      · rw [if_neg hv]
        have e2 : v.toInt = (v.toInt.natAbs : Int) := by omega
        rw [e2]
        have := SignedNumeral.plain this
        simpa using this
  · by_cases h : (signOf [] v.toInt).length + ds.length ≤ width
    · exact .inl (by omega)
    · refine .inr ⟨by omega, ?_⟩
      have : N = 0 := by omega
      rw [this]
      simpa using k2

theorem signed_unique {t : Str} {u v : Int} (h1 : SignedNumeral 10 t u) (h2 : SignedNumeral 10 t v) : u = v := by
  have sign : ∀ {b : Nat} {t : Str} {n : Nat}, Numeral b t n → ∀ s, t ≠ chr '-' :: s ∧ t ≠ chr '+' :: s := by
    intro b t n h s
    obtain ⟨c, d, s', e, hd⟩ := h.cons
    subst e
    obtain ⟨-, -, f1, f2, -⟩ := hd.facts
    exact ⟨fun e => f1 (List.cons.inj e).1, fun e => f2 (List.cons.inj e).1⟩
  generalize hs : t = t' at h2
  cases h1 with
  | plain h =>
    cases h2 with
    | plain h' => subst hs; rw [h.unique _ h']
    | plus h' => exact absurd hs (sign h _).2
    | minus h' => exact absurd hs (sign h _).1
  | plus h =>
    cases h2 with
    | plain h' => exact absurd hs.symm (sign h' _).2
    | plus h' => rw [(List.cons.inj hs).2] at h; rw [h.unique _ h']
    | minus h' => exact absurd (List.cons.inj hs).1 (by decide)
  | minus h =>
    cases h2 with
    | plain h' => exact absurd hs.symm (sign h' _).1
    | plus h' => exact absurd (List.cons.inj hs).1 (by decide)
    | minus h' => rw [(List.cons.inj hs).2] at h; rw [h.unique _ h']

/-- `%d` for a `long` is undefined, and on the usual machines prints another number unless the value is that
of an `int`. Nothing warns: the argument has passed through a template. -/
theorem C202_long_wrong (lib : Lib D) (v : BitVec 64) : format .strict lib (txt "%d") [.i64 v] = .ub ∧
    ∃ t, format .wrap lib (txt "%d") [.i64 v] = .ok t ∧
      (¬ (-2 ^ 31 ≤ v.toInt ∧ v.toInt < 2 ^ 31) → ¬ SignedNumeral 10 t v.toInt) := by
  refine ⟨rfl, ?_⟩
  obtain ⟨t, h1, h2⟩ := (C202_decimal (D := D) .wrap lib [] [] (by simp) (by simp)).1 (v.setWidth 32)
  refine ⟨t, ?_, ?_⟩
  · have e : format .wrap lib (txt "%d") [.i64 v] = format .wrap lib (txt "%d") [.i32 (v.setWidth 32)] := rfl
    rw [e]
    simpa using h2
  · intro hv hn
    have hs : SignedNumeral 10 t (v.setWidth 32).toInt := by
      rcases h1 with ⟨k0, k⟩ | ⟨k0, u, rfl, k⟩
      · have e : (v.setWidth 32).toInt = (((v.setWidth 32).toInt).natAbs : Int) := by omega
        rw [e]; exact .plain k.1
      · have e : (v.setWidth 32).toInt = -(((v.setWidth 32).toInt).natAbs : Int) := by omega
        rw [e]; exact .minus k.1
    have := signed_unique hs hn
    rw [← this] at hv
    have := (v.setWidth 32).isLt
    rw [BitVec.toInt_eq_toNat_cond] at hv
    split at hv <;> omega

/-- `%128d` ends in a NUL whatever the number is. -/
theorem C202_width_wrong (m : Sem) (lib : Lib D) (v : BitVec 32) : ∃ t : Str, t.length = 127 ∧
    format m lib (txt "%128d") [.i32 v] = .ok (t ++ [0]) := by
  obtain ⟨ds, k1, k2, k3⟩ := signed_text _ v.toInt rfl (toInt_lt v)
  rw [List.length_append] at k3
  generalize hN : 128 - ((signOf [] v.toInt).length + ds.length) = N
  have hP : Prints (D := D) (txt "%128d") (.i32 v) (List.replicate N (chr ' ') ++ signOf [] v.toInt ++ ds) :=
    .signed (parts_width canonical_128 (by omega) (by omega) [] (by simp) (chr 'd') (by decide)) (.inl rfl) (by simp)
      (.inl ⟨rfl, _, rfl, rfl, rfl⟩) k1 ⟨N, hN.symm, .inr (.inr ⟨by simp, by simp, rfl⟩)⟩
  have hl : (List.replicate N (chr ' ') ++ signOf [] v.toInt ++ ds).length = 128 := by
    simp only [List.length_append, List.length_replicate]; omega
  have := C200_full_wrong m lib _ _ [] [] _ hP hl (by simp) (by simp)
  rw [List.append_nil, List.append_nil, List.nil_append, List.nil_append] at this
  exact ⟨_, by rw [List.length_take, hl]; rfl, this⟩

example : format .strict anyLib (txt "n = %d!") [.i32 (-2147483648)] = .ok (txt "n = -2147483648!") := by decide +kernel
example : format .strict anyLib (txt "%05d") [.i32 (-42)] = .ok (txt "-0042") := by decide +kernel
example : format .wrap anyLib (txt "%d") [.i64 4294967297] = .ok (txt "1") := by decide +kernel

/-! ## Texts (C203) -/

/-- `%s` gives the text, unless it has exactly 128 characters. -/
theorem C203_text_partial (m : Sem) (lib : Lib D) (a b s : Str) (ha : chr '%' ∉ a ∧ 0 ∉ a) (hb : chr '%' ∉ b ∧ 0 ∉ b)
    (hs : 0 ∉ s) (hl : s.length ≠ 128) (hi : s.length ≤ 2147483647) :
    format m lib (a ++ txt "%s" ++ b) [.str s] = .ok (a ++ s ++ b) :=
  format_single m lib (.text (parts_plain (chr 's') (by decide)) (by simp) (by simp) hs
    ⟨0, by simp, .inr (.inr ⟨by simp, by simp, by simp⟩)⟩) ⟨hl, hi⟩ ha hb

/-- A text of 128 characters loses the last one. -/
theorem C203_full_wrong (m : Sem) (lib : Lib D) (s : Str) (hs : 0 ∉ s) (hl : s.length = 128) :
    format m lib (txt "%s") [.str s] = .ok (s.take 127 ++ [0]) ∧ s.take 127 ++ [0] ≠ s := by
  constructor
  · have h : Prints (D := D) (txt "%s") (.str s) s := .text (parts_plain (chr 's') (by decide)) (by simp) (by simp) hs
      ⟨0, by simp, .inr (.inr ⟨by simp, by simp, by simp⟩)⟩
    have := C200_full_wrong m lib _ _ [] [] _ h hl (by simp) (by simp)
    simpa using this
  · intro e
    apply hs
    rw [← e]
    simp

/-- A text with a NUL is cut there. -/
theorem C203_nul_wrong (m : Sem) (lib : Lib D) (s r : Str) (hs : 0 ∉ s) (hl : s.length < 128) :
    format m lib (txt "%s") [.str (s ++ 0 :: r)] = .ok s := by
  have e : cstr (s ++ 0 :: r) = cstr s := by
    rw [cstr_append hs, cstr_eq_self hs]
    simp [cstr]
  have h : format m lib (txt "%s") [.str (s ++ 0 :: r)] = format m lib (txt "%s") [.str s] := by
    show formatAt m lib 3 (txt "%s") _ = formatAt m lib 3 (txt "%s") _
    have hp : print m lib (txt "%s") (.str (s ++ 0 :: r)) = print m lib (txt "%s") (.str s) := by
      show printStr m lib (txt "%s") (.str (s ++ 0 :: r)) = printStr m lib (txt "%s") (.str s)
      have hk := parse_parts (parts_plain (chr 's') (by decide))
      have hk : parseConv (txt "%s") = _ := hk
      unfold printStr
      rw [hk]
      have hr : ∀ s : Str, render m lib ⟨false, false, false, false, false, 0, none, 0, chr 's'⟩ (.str s) =
          .ok (field ⟨false, false, false, false, false, 0, none, 0, chr 's'⟩ false [] (cstr s)) := fun _ => rfl
      show (render m lib ⟨false, false, false, false, false, 0, none, 0, chr 's'⟩ (.str (s ++ 0 :: r))).bind _ =
        (render m lib ⟨false, false, false, false, false, 0, none, 0, chr 's'⟩ (.str s)).bind _
      rw [hr, hr, e]
    have hsp : IsSpec (txt "%s") := (parts_isSpec (parts_plain (chr 's') (by decide))).1
    have k := fun x => formatAt_some (m := m) (lib := lib) (n := 2) (a := []) (w := txt "%s") (r := []) (args := [x]) (by decide) hsp
      (noSpec_zero _)
    have k1 := k (.str (s ++ 0 :: r))
    have k2 := k (.str s)
    rw [List.append_nil, List.nil_append] at k1 k2
    have hl : ¬ (txt "%s").getLast? = some (chr '%') := by decide
    rw [k1, k2]
    simp only [printObject, if_neg hl, hp]
  rw [h]
  have := C203_text_partial m lib [] [] s (by simp) (by simp) hs (by omega) (by omega)
  simpa using this

example : format .strict anyLib (txt "[%s]") [.str (txt "a%d")] = .ok (txt "[a%d]") := by decide +kernel
example : ∃ s : Str, 0 ∉ s ∧ s.length = 128 := ⟨List.replicate 128 (chr 'x'), by simp [List.mem_replicate]; decide, by simp⟩

/-! ## Booleans (C204) -/

/-- `%b` and `%B` give the names of the truth values. -/
theorem C204_bool_partial (m : Sem) (lib : Lib D) (a b : Str) (v : Bool) (ha : chr '%' ∉ a ∧ 0 ∉ a) (hb : chr '%' ∉ b ∧ 0 ∉ b) :
    format m lib (a ++ txt "%b" ++ b) [.bool v] = .ok (a ++ (if v then txt "true" else txt "false") ++ b) ∧
    format m lib (a ++ txt "%B" ++ b) [.bool v] = .ok (a ++ (if v then txt "TRUE" else txt "FALSE") ++ b) :=
  ⟨format_single m lib .bool trivial ha hb, format_single m lib .upperBool trivial ha hb⟩

/-- With a width or a flag, and with any other conversion, nothing at all is printed for a Boolean. -/
theorem C204_width_wrong (m : Sem) (lib : Lib D) (w a b : Str) (v : Bool) (hw : IsSpec w) (hl : w.getLast? ≠ some (chr '%'))
    (h1 : w ≠ txt "%b") (h2 : w ≠ txt "%B") (ha : chr '%' ∉ a ∧ 0 ∉ a) (hb : chr '%' ∉ b ∧ 0 ∉ b) :
    format m lib (a ++ w ++ b) [.bool v] = .ok (a ++ b) := by
  have hp : print m lib w (.bool v) = .ok [] := by
    unfold print
    simp only [if_neg h1, if_neg h2]
  have := (format_iff (m := m) (lib := lib) (surround hw ha hb)).2 (formats_single hw hl ha.1 hb.1 hp [])
  rwa [List.append_nil] at this

/-- `%b` for anything but a Boolean is undefined. -/
theorem C204_other_wrong (m : Sem) (lib : Lib D) (v : BitVec 32) : format m lib (txt "%b") [.i32 v] = .ub := rfl

example : format .strict anyLib (txt "%5b") [.bool true] = .ok [] := by decide +kernel
example : IsSpec (txt "%5b") := ⟨txt "5", [], [], [], [], chr 'b', rfl, by decide, by simp, by simp, .inl rfl, .inl rfl, by decide⟩

end Verif.Format
