import Verif.Format.Lemmas
/-! # Lemmas about printing one argument -/
namespace Verif.Format

open Verif.JString Verif.NumText

/-! ## Numerals -/

theorem low_digit' : ∀ c : Byte, isUpper c = false → (match digitVal c with | some d => decide (c = digitChar d) | none => true) = true := by
  refine byte_all ?_; decide +kernel

theorem low_digit {b : Nat} {c : Byte} {d : Nat} (h : IsDigit b c d) (hu : isUpper c = false) : c = digitChar d := by
  have := low_digit' c hu
  rw [h.1] at this
  simpa using this

/-- There is only one canonical numeral. -/
theorem canonical_eq {b : Nat} (hb : 2 ≤ b) {t : Str} {n : Nat} (h : Numeral b t n) : ∀ fuel, 0 < fuel → n < 2 ^ fuel →
    (t.head? = some (chr '0') → t = [chr '0']) → (∀ c ∈ t, isUpper c = false) → t = digits b fuel n := by
  induction h with
  | @one c d h =>
    intro fuel hf _ _ hu
    cases fuel with
    | zero => omega
    | succ fuel =>
      rw [digits, if_pos h.2, low_digit h (hu c List.mem_cons_self)]
  | @snoc t n c d h1 h2 ih =>
    intro fuel hf hn hz hu
    have hd := h2.2
    cases fuel with
    | zero => omega
    | succ fuel =>
      have ht : t.head? ≠ some (chr '0') := by
        intro e
        cases t with
        | nil => cases e
        | cons a t =>
          have := hz e
          rw [List.cons_append] at this
          injection this with _ this
          simp at this
      have hlow : ∀ c ∈ t, isUpper c = false := fun c hc => hu c (List.mem_append_left _ hc)
      have hn0 : n ≠ 0 := by
        intro e
        subst e
        have := ih 1 (by omega) (by omega) (fun e => absurd e ht) hlow
        rw [digits, if_pos (by omega)] at this
        rw [this] at ht
        exact ht (by decide)
      have hge : b ≤ n * b := Nat.le_mul_of_pos_left b (Nat.pos_of_ne_zero hn0)
      have h2n : n * 2 ≤ n * b := Nat.mul_le_mul_left n hb
      rw [Nat.pow_succ] at hn
      have hn' : n < 2 ^ fuel := by omega
      have hfuel : 0 < fuel := by
        rcases Nat.eq_zero_or_pos fuel with e | e
        · subst e; simp at hn'; omega
        · exact e
      have hdiv : (n * b + d) / b = n := by
        rw [Nat.mul_comm, Nat.mul_add_div (by omega), Nat.div_eq_of_lt hd, Nat.add_zero]
      have hmod : (n * b + d) % b = d := by
        rw [Nat.mul_comm, Nat.mul_add_mod, Nat.mod_eq_of_lt hd]
      rw [digits, if_neg (by omega), hdiv, hmod, ← ih fuel hfuel hn' (fun e => absurd e ht) hlow,
        ← low_digit h2 (hu c (List.mem_append_right _ List.mem_cons_self))]

theorem canonical_digits {b : Nat} (hb : 2 ≤ b) {t : Str} {n : Nat} (h : Canonical b t n) (hn : n < 2 ^ 64) :
    t = digits b 64 n := canonical_eq hb h.1 64 (by omega) hn h.2.1 h.2.2

theorem digit_val' : ∀ c : Byte, (match digitVal c with | some d => decide (d < 10 → isDigit c = true ∧ c.toNat - 48 = d) | none => true) = true := by
  refine byte_all ?_; decide +kernel

theorem digit_val {c : Byte} {d : Nat} (h : IsDigit 10 c d) : isDigit c = true ∧ c.toNat - 48 = d := by
  have := digit_val' c
  rw [h.1] at this
  exact of_decide_eq_true this h.2

theorem num_numeral {t : Str} {n : Nat} (h : Numeral 10 t n) : num t = n := by
  induction h with
  | one h => simp [num, (digit_val h).2]
  | snoc h1 h2 ih =>
    unfold num at ih ⊢
    rw [List.foldl_append, ih]
    simp [(digit_val h2).2]

theorem numeral_digit {t : Str} {n : Nat} (h : Numeral 10 t n) : ∀ c ∈ t, isDigit c = true := by
  intro c hc
  obtain ⟨d, hd⟩ := h.mem c hc
  exact (digit_val hd).1

theorem digitText_eq {b : Nat} (hb : 2 ≤ b) {q : Option Nat} {n : Nat} {ds : Str} (hn : n < 2 ^ 64) (h : Digits b q n ds)
    : digitText b q n = ds := by
  obtain ⟨d, h1, h2⟩ := h
  subst h2
  unfold digitText
  simp only
  rcases h1 with ⟨e1, e2, e3⟩ | ⟨e1, e2⟩
  · rw [if_pos ⟨e1, e2⟩, e2, e3]; rfl
  · rw [if_neg e1, ← canonical_digits hb e2 hn]
    cases q with
    | none =>
      have : d.length ≠ 0 := fun e => e2.1.ne_nil (List.length_eq_zero_iff.1 e)
      rw [Option.getD_none, Option.getD_none, Nat.sub_eq_zero_of_le (by omega), Nat.zero_sub]
    | some p => rfl

/-! ## Reading a specification -/

theorem not_flag_conv : ∀ c : Byte, c ∈ txt "diuoxXcs" → isFlag c = false ∧ isDigit c = false ∧ c ≠ chr '.' ∧ c ≠ chr 'l' := by
  decide +kernel

theorem takeWhile_stop {p : Byte → Bool} {a b : Str} (ha : ∀ x ∈ a, p x = true) (hb : ∀ x, b.head? = some x → p x = false) :
    (a ++ b).takeWhile p = a ∧ (a ++ b).dropWhile p = b := by
  induction a with
  | nil =>
    cases b with
    | nil => exact ⟨rfl, rfl⟩
    | cons c b =>
      have := hb c rfl
      simp [this]
  | cons c a ih =>
    have hc := ha c List.mem_cons_self
    obtain ⟨h1, h2⟩ := ih fun x hx => ha x (List.mem_cons_of_mem _ hx)
    rw [List.cons_append, List.takeWhile_cons_of_pos hc, List.dropWhile_cons_of_pos hc, h1, h2]
    exact ⟨rfl, rfl⟩

theorem flag_nonzero : ∀ c : Byte, isDigit c = true → c ≠ chr '0' → isFlag c = false := by decide +kernel

theorem parse_parts {w f l : Str} {width : Nat} {prec : Option Nat} {c : Byte} (h : Parts w f width prec l c) :
    parseConv w = some ⟨f.contains (chr '-'), f.contains (chr '+'), f.contains (chr ' '), f.contains (chr '#'),
      f.contains (chr '0'), width, prec, l.length, c⟩ := by
  obtain ⟨⟨wd, p, e, hwd, hp⟩, hf, hl, hc, -⟩ := h
  obtain ⟨c1, c2, c3, c4⟩ := not_flag_conv c hc
  subst e
  have hll : ∀ x ∈ l, (decide (x = chr 'l')) = true := by
    rcases hl with e | e | e <;> subst e <;> decide
  have hlen : l.length ≤ 2 := by rcases hl with e | e | e <;> subst e <;> decide
  -- after the precision
  obtain ⟨t1, d1⟩ := takeWhile_stop (p := fun x => decide (x = chr 'l')) (a := l) (b := [c]) hll
    (fun x hx => by injection hx with hx; subst hx; exact decide_eq_false c4)
  have hlc : ∀ x, (l ++ [c]).head? = some x → isDigit x = false ∧ isFlag x = false ∧ x ≠ chr '.' := by
    intro x hx
    rcases hl with e | e | e <;> subst e
    · injection hx with hx; subst hx; exact ⟨c2, c1, c3⟩
    · injection hx with hx; subst hx; decide
    · injection hx with hx; subst hx; decide
  have hplc : ∀ x, (p ++ (l ++ [c])).head? = some x → isDigit x = false ∧ isFlag x = false := by
    intro x hx
    rcases hp with ⟨e, -⟩ | ⟨q, n, e, -⟩
    · subst e; exact ⟨(hlc x hx).1, (hlc x hx).2.1⟩
    · subst e
      injection hx with hx
      subst hx
      decide
  have hwdd : ∀ x ∈ wd, isDigit x = true := by
    rcases hwd with ⟨e, -⟩ | ⟨e, -⟩
    · subst e; exact fun x hx => absurd hx List.not_mem_nil
    · exact numeral_digit e.1
  obtain ⟨t2, d2⟩ := takeWhile_stop (p := isDigit) (a := wd) (b := p ++ (l ++ [c])) hwdd (fun x hx => (hplc x hx).1)
  have hwf : ∀ x, (wd ++ (p ++ (l ++ [c]))).head? = some x → isFlag x = false := by
    intro x hx
    rcases hwd with ⟨e, -⟩ | ⟨e, e0⟩
    · subst e; exact (hplc x hx).2
    · cases wd with
      | nil => exact absurd rfl e.1.ne_nil
      | cons y wd =>
        injection hx with hx
        subst hx
        refine flag_nonzero y (hwdd y List.mem_cons_self) ?_
        intro ey
        subst ey
        have := e.2.1 rfl
        rw [this] at e
        exact e0 e.1.zero_zero
  obtain ⟨t3, d3⟩ := takeWhile_stop (p := isFlag) (a := f) (b := wd ++ (p ++ (l ++ [c])))
    (fun x hx => flag_mem.2 (hf x hx)) hwf
  have hnum : num wd = width := by
    rcases hwd with ⟨e, e0⟩ | ⟨e, -⟩
    · subst e; rw [e0]; rfl
    · exact num_numeral e.1
  have hprec : precPart (p ++ (l ++ [c])) = (prec, l ++ [c]) := by
    rcases hp with ⟨e, e0⟩ | ⟨q, n, e, hq, e0⟩
    · subst e; subst e0
      rw [List.nil_append]
      cases hy : l ++ [c] with
      | nil => rfl
      | cons y s3 => rw [precPart, if_neg (hlc y (by rw [hy]; rfl)).2.2]
    · subst e; subst e0
      obtain ⟨t4, d4⟩ := takeWhile_stop (p := isDigit) (a := q) (b := l ++ [c]) (numeral_digit hq) (fun x hx => (hlc x hx).1)
      rw [List.cons_append, precPart, if_pos rfl, t4, d4, num_numeral hq]
  have ha : f ++ wd ++ p ++ l ++ [c] = f ++ (wd ++ (p ++ (l ++ [c]))) := by simp only [List.append_assoc]
  unfold parseConv
  rw [ha]
  simp only [ne_eq, not_true, if_false, t3, d3, t2, d2, hnum, hprec, t1, d1, if_pos hlen]

/-! ## Printing -/

theorem contains_false {f : Str} {c : Byte} (h : c ∉ f) : f.contains c = false := by
  rw [Bool.eq_false_iff]; exact fun e => h (List.contains_iff_mem.1 e)

theorem field_eq {f : Str} {zero : Prop} [Decidable zero] {k : Conv} {sign body t : Str} (hk : k.minus = f.contains (chr '-'))
    (h : Padded f zero k.width sign body t) : field k (decide zero) sign body = t := by
  obtain ⟨n, e, h | h | h⟩ := h
  · have : k.minus = true := by rw [hk]; exact List.contains_iff_mem.2 h.1
    rw [h.2, e]; unfold field; simp [this]
  · have : k.minus = false := by rw [hk]; exact contains_false h.1
    rw [h.2.2, e]; unfold field; simp [this, h.2.1]
  · have : k.minus = false := by rw [hk]; exact contains_false h.1
    rw [h.2.2, e]; unfold field; simp [this, h.2.1]

theorem padded_length {f : Str} {zero : Prop} {width : Nat} {sign body t : Str} (h : Padded f zero width sign body t) :
    t.length = max width (sign.length + body.length) := by
  obtain ⟨n, e, h | h | h⟩ := h
  · rw [h.2]; simp only [List.length_append, List.length_replicate]; omega
  · rw [h.2.2]; simp only [List.length_append, List.length_replicate]; omega
  · rw [h.2.2]; simp only [List.length_append, List.length_replicate]; omega

variable {D : Type}

theorem intOf_eq {l : Str} {x : Arg D} {v : Int} {n : Nat} (hl : l = [] ∨ l = txt "l" ∨ l = txt "ll") (h : IntOf l x v n)
    (m : Sem) : intArg m l.length x = .ok (v, n) ∧ v.natAbs < 2 ^ 64 ∧ n < 2 ^ 64 := by
  rcases h with ⟨e, a, e1, e2, e3⟩ | ⟨e, a, e1, e2, e3⟩ <;> subst e1 <;> subst e2 <;> subst e3
  · subst e
    refine ⟨rfl, ?_, ?_⟩
    · have := a.isLt; rw [BitVec.toInt_eq_toNat_cond]; split <;> omega
    · have := a.isLt; omega
  · have : l.length ≠ 0 := fun e0 => e (List.length_eq_zero_iff.1 e0)
    refine ⟨by simp only [intArg]; rw [if_pos this], ?_, a.isLt⟩
    have := a.isLt; rw [BitVec.toInt_eq_toNat_cond]; split <;> omega

/-- What `snprintf` makes of an argument, and that `print` gives it to `snprintf`. -/
theorem prints_render {w : Str} {x : Arg D} {t : Str} (h : Prints w x t) (hb : ∀ b, x ≠ .bool b) (m : Sem) (lib : Lib D) :
    ∃ k, parseConv w = some k ∧ render m lib k x = .ok t ∧ k.width ≤ 2147483647 ∧ k.prec.getD 0 ≤ 2147483647 := by
  cases h with
  | @signed _ f width prec l c _ v n ds _ hp hc hf hi hd ht =>
    refine ⟨_, parse_parts hp, ?_, hp.small⟩
    obtain ⟨i1, i2, i3⟩ := intOf_eq hp.length hi m
    unfold render
    simp only [if_pos hc, contains_false hf]
    rw [i1]
    show Outcome.ok (signedText _ v) = _
    have hz : (f.contains (chr '0') && prec.isNone) = decide (chr '0' ∈ f ∧ prec = none) := by
      rw [Bool.eq_iff_iff]; simp
    unfold signedText
    simp only [digitText_eq (by omega) i2 hd, hz]
    have hs : (if v < 0 then txt "-" else if f.contains (chr '+') = true then txt "+" else
        if f.contains (chr ' ') = true then txt " " else []) = signOf f v := by
      unfold signOf; simp
    rw [hs]
    exact congrArg Outcome.ok (field_eq rfl ht)
  | @unsigned _ f width prec l c b _ v n ds _ hp hc hf hi hd ht =>
    refine ⟨_, parse_parts hp, ?_, hp.small⟩
    obtain ⟨i1, i2, i3⟩ := intOf_eq hp.length hi m
    have hz : (f.contains (chr '0') && prec.isNone) = decide (chr '0' ∈ f ∧ prec = none) := by
      rw [Bool.eq_iff_iff]; simp
    have h2 : 2 ≤ b := by rcases hc with ⟨-, e⟩ | ⟨-, e⟩ | ⟨-, e⟩ <;> omega
    have hu : (intArg m l.length x).bind (fun v => Outcome.ok (unsignedText ⟨f.contains (chr '-'), f.contains (chr '+'),
        f.contains (chr ' '), f.contains (chr '#'), f.contains (chr '0'), width, prec, l.length, c⟩ v.2)) = .ok t := by
      rw [i1]
      show Outcome.ok (unsignedText _ n) = _
      unfold unsignedText
      simp only [contains_false hf, hz, Bool.false_and]
      rcases hc with ⟨e1, e2⟩ | ⟨e1, e2⟩ | ⟨e1, e2⟩ <;> subst e1 <;> subst e2
      · rw [if_neg (by decide), if_neg (by decide), if_neg (by decide), digitText_eq h2 i3 hd]
        exact congrArg Outcome.ok (field_eq rfl ht)
      · rw [if_pos rfl, digitText_eq h2 i3 hd]
        exact congrArg Outcome.ok (field_eq rfl ht)
      · rw [if_neg (by decide), if_pos rfl, digitText_eq h2 i3 hd]
        exact congrArg Outcome.ok (field_eq rfl ht)
    unfold render
    rcases hc with ⟨e1, e2⟩ | ⟨e1, e2⟩ | ⟨e1, e2⟩ <;> subst e1 <;> subst e2
    · simp only
      rw [if_neg (by decide), if_pos trivial, contains_false hf]
      rw [contains_false hf] at hu
      exact hu
    · simp only
      rw [if_neg (by decide), if_neg (by decide), if_pos (by decide)]
      exact hu
    · simp only
      rw [if_neg (by decide), if_neg (by decide), if_pos (by decide)]
      exact hu
  | @upper _ f width prec l _ v n ds _ hp hf hi hd ht =>
    refine ⟨_, parse_parts hp, ?_, hp.small⟩
    obtain ⟨i1, i2, i3⟩ := intOf_eq hp.length hi m
    have hz : (f.contains (chr '0') && prec.isNone) = decide (chr '0' ∈ f ∧ prec = none) := by
      rw [Bool.eq_iff_iff]; simp
    unfold render
    simp only
    rw [if_neg (by decide), if_neg (by decide), if_pos (by decide), i1]
    show Outcome.ok (unsignedText _ n) = _
    unfold unsignedText
    simp only [contains_false hf, hz, Bool.false_and]
    rw [if_neg (by decide), if_neg (by decide), if_pos trivial, digitText_eq (by omega) i3 hd]
    exact congrArg Outcome.ok (field_eq rfl ht)
  | @char _ f width a _ hp hf h0 ht =>
    refine ⟨_, parse_parts hp, ?_, hp.small⟩
    unfold render
    simp only
    rw [if_neg (by decide), if_neg (by decide), if_neg (by decide), if_pos trivial, contains_false hf, contains_false h0]
    have e : BitVec.ofNat 8 a.toNat = a.setWidth 8 := rfl
    have := field_eq (k := ⟨f.contains (chr '-'), f.contains (chr '+'), f.contains (chr ' '), false, false, width, none,
      ([] : Str).length, chr 'c'⟩) rfl ht
    rw [decide_eq_false not_false, ← e] at this
    exact congrArg Outcome.ok this
  | @text _ f width prec s _ hp hf h0 hn ht =>
    refine ⟨_, parse_parts hp, ?_, hp.small⟩
    unfold render
    simp only
    rw [if_neg (by decide), if_neg (by decide), if_neg (by decide), if_neg (by decide), if_pos trivial, contains_false hf,
      contains_false h0, cstr_eq_self hn]
    have := field_eq (k := ⟨f.contains (chr '-'), f.contains (chr '+'), f.contains (chr ' '), false, false, width, prec,
      ([] : Str).length, chr 's'⟩) rfl ht
    rw [decide_eq_false not_false] at this
    exact congrArg Outcome.ok this
  | bool => exact absurd rfl (hb _)
  | upperBool => exact absurd rfl (hb _)

/-! ## The buffer -/

theorem buffer_fits {n : Nat} {t : Str} (h : t.length < n) : fromBuffer (buffer n t) t.length = .ok t := by
  unfold fromBuffer buffer
  rw [List.take_of_length_le (by omega)]
  rw [if_neg (by rw [List.length_append]; omega), List.take_append_of_le_length (Nat.le_refl _), List.take_length]

theorem buffer_full {t : Str} (h : t.length = 128) : fromBuffer (buffer 128 t) t.length = .ok (t.take 127 ++ [0]) := by
  have hl : (t.take 127).length = 127 := by rw [List.length_take]; omega
  have e : buffer 128 t = t.take 127 ++ [0] := by
    unfold buffer
    show t.take 127 ++ List.replicate (128 - (t.take 127).length) 0 = _
    rw [hl]
    rfl
  unfold fromBuffer
  rw [e, if_neg (by rw [List.length_append, hl, h]; decide), List.take_of_length_le (by rw [List.length_append, hl, h]; decide)]

theorem buffer_over {t : Str} (h : 128 < t.length) : fromBuffer (buffer 128 t) t.length = .ub := by
  have hl : (t.take 127).length = 127 := by rw [List.length_take]; omega
  have e : (buffer 128 t).length = 128 := by
    unfold buffer
    show (t.take 127 ++ List.replicate (128 - (t.take 127).length) 0).length = _
    rw [List.length_append, List.length_replicate, hl]
  unfold fromBuffer
  rw [e, if_pos h]

theorem not_tooBig {k : Conv} {t : Str} (h1 : k.width ≤ 2147483647) (h2 : k.prec.getD 0 ≤ 2147483647)
    (h3 : t.length ≤ 2147483647) : tooBig k t = false := by
  unfold tooBig
  simp only [Bool.or_eq_false_iff, decide_eq_false_iff_not]
  omega

theorem printNum_eq {w : Str} {x : Arg D} {t : Str} {k : Conv} {m : Sem} {lib : Lib D} (h1 : parseConv w = some k)
    (h2 : render m lib k x = .ok t) (h3 : k.width ≤ 2147483647) (h4 : k.prec.getD 0 ≤ 2147483647) (h5 : t.length ≤ 2147483647) :
    printNum m lib w x = if t.length < 128 then .ok t else if t.length = 128 then .ok (t.take 127 ++ [0]) else .ub := by
  unfold printNum
  simp only [h1, h2]
  show (if tooBig k t = true then _ else _) = _
  rw [not_tooBig h3 h4 h5, if_neg (by decide)]
  by_cases h0 : t.length > 0
  · rw [if_pos h0]
    by_cases h : t.length < 128
    · rw [if_pos h]; exact buffer_fits h
    · rw [if_neg h]
      by_cases h' : t.length = 128
      · rw [if_pos h']; exact buffer_full h'
      · rw [if_neg h']; exact buffer_over (by omega)
  · have e : t = [] := List.length_eq_zero_iff.1 (by omega)
    subst e
    rfl

theorem printStr_eq {w : Str} {x : Arg D} {t : Str} {k : Conv} {m : Sem} {lib : Lib D} (h1 : parseConv w = some k)
    (h2 : render m lib k x = .ok t) (h3 : k.width ≤ 2147483647) (h4 : k.prec.getD 0 ≤ 2147483647) (h5 : t.length ≤ 2147483647) :
    printStr m lib w x = if t.length = 128 then .ok (t.take 127 ++ [0]) else .ok t := by
  unfold printStr
  simp only [h1, h2]
  show (if tooBig k t = true then _ else _) = _
  rw [not_tooBig h3 h4 h5, if_neg (by decide)]
  by_cases h : t.length = 128
  · rw [if_pos h, if_neg (by unfold bufferLength; omega), if_pos (by omega)]
    exact buffer_full h
  · rw [if_neg h]
    by_cases h' : t.length > bufferLength
    · rw [if_pos h']; exact buffer_fits (by omega)
    · rw [if_neg h']
      have h' : ¬ t.length > 128 := h'
      by_cases h0 : t.length > 0
      · rw [if_pos h0]; exact buffer_fits (by unfold bufferLength; omega)
      · have e : t = [] := List.length_eq_zero_iff.1 (by omega)
        subst e
        rfl

theorem print_eq {w : Str} {x : Arg D} {t : Str} (h : Prints w x t) (hs : Short x t) (m : Sem) (lib : Lib D) :
    print m lib w x = .ok t := by
  cases x with
  | bool b =>
    cases h with
    | bool => rfl
    | upperBool => rfl
    | signed _ _ _ hi => rcases hi with ⟨-, a, e, -⟩ | ⟨-, a, e, -⟩ <;> cases e
    | unsigned _ _ _ hi => rcases hi with ⟨-, a, e, -⟩ | ⟨-, a, e, -⟩ <;> cases e
    | upper _ _ hi => rcases hi with ⟨-, a, e, -⟩ | ⟨-, a, e, -⟩ <;> cases e
  | str s =>
    obtain ⟨k, h1, h2, h3, h4⟩ := prints_render h (fun _ e => by cases e) m lib
    show printStr m lib w _ = _
    rw [printStr_eq h1 h2 h3 h4 hs.2, if_neg hs.1]
  | i32 a =>
    obtain ⟨k, h1, h2, h3, h4⟩ := prints_render h (fun _ e => by cases e) m lib
    have hs : t.length < 128 := hs
    show printNum m lib w _ = _
    rw [printNum_eq h1 h2 h3 h4 (by omega), if_pos hs]
  | i64 a =>
    obtain ⟨k, h1, h2, h3, h4⟩ := prints_render h (fun _ e => by cases e) m lib
    have hs : t.length < 128 := hs
    show printNum m lib w _ = _
    rw [printNum_eq h1 h2 h3 h4 (by omega), if_pos hs]
  | dbl a =>
    obtain ⟨k, h1, h2, h3, h4⟩ := prints_render h (fun _ e => by cases e) m lib
    have hs : t.length < 128 := hs
    show printNum m lib w _ = _
    rw [printNum_eq h1 h2 h3 h4 (by omega), if_pos hs]

end Verif.Format
