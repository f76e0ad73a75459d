import Verif.Format.PrintLemmas
/-! # Lemmas about whole formats -/
namespace Verif.Format

open Verif.JString Verif.NumText

variable {D : Type}

theorem decomp {a w r a' w' r' : Str} (e : a ++ w ++ r = a' ++ w' ++ r') (hw : IsSpec w) (hw' : IsSpec w')
    (hn : NoSpec a.length (a ++ w ++ r)) (hn' : NoSpec a'.length (a' ++ w' ++ r')) : a = a' ∧ w = w' ∧ r = r' := by
  have h1 := regexec_at hw hn
  have h2 := regexec_at hw' hn'
  rw [e, h2] at h1
  injection h1 with h1
  injection h1 with h1 h3
  have e1 := List.append_inj (by rw [← List.append_assoc, ← List.append_assoc]; exact e : a ++ (w ++ r) = a' ++ (w' ++ r')) h1.symm
  have e2 := List.append_inj e1.2 (by omega)
  exact ⟨e1.1, e2.1, e2.2⟩

theorem noSpec_not {a w r : Str} (hw : IsSpec w) : ¬ NoSpec (a ++ w ++ r).length (a ++ w ++ r) := by
  intro h
  have := hw.length
  refine h a.length (by simp only [List.length_append]; omega) w hw ?_
  rw [List.append_assoc, List.drop_left]
  exact List.prefix_append _ _

theorem formats_none {P : Str → Arg D → Str → Prop} {s : Str} {args : List (Arg D)} {out : Str} (h : NoSpec s.length s) :
    Formats P s args out ↔ out = s := by
  constructor
  · intro hf
    cases hf with
    | text _ => rfl
    | percent hw _ _ _ => exact absurd h (noSpec_not hw)
    | conv hw _ _ _ _ => exact absurd h (noSpec_not hw)
  · rintro rfl; exact .text h

theorem formats_percent {P : Str → Arg D → Str → Prop} {a w r : Str} {args : List (Arg D)} {out : Str} (hw : IsSpec w)
    (hl : w.getLast? = some (chr '%')) (hn : NoSpec a.length (a ++ w ++ r)) :
    Formats P (a ++ w ++ r) args out ↔ ∃ o, out = a ++ [chr '%'] ++ o ∧ Formats P r args o := by
  constructor
  · intro hf
    generalize hs : a ++ w ++ r = s at hf
    cases hf with
    | text h => subst hs; exact absurd h (noSpec_not hw)
    | percent hw' hl' hn' hr =>
      obtain ⟨e1, e2, e3⟩ := decomp hs hw hw' hn hn'
      subst e1; subst e2; subst e3
      exact ⟨_, rfl, hr⟩
    | conv hw' hl' hn' _ hr =>
      obtain ⟨e1, e2, e3⟩ := decomp hs hw hw' hn hn'
      subst e2
      exact absurd hl hl'
  · rintro ⟨o, rfl, h⟩; exact .percent hw hl hn h

theorem formats_conv {P : Str → Arg D → Str → Prop} {a w r : Str} {args : List (Arg D)} {out : Str} (hw : IsSpec w)
    (hl : w.getLast? ≠ some (chr '%')) (hn : NoSpec a.length (a ++ w ++ r)) :
    Formats P (a ++ w ++ r) args out ↔ ∃ x as t o, args = x :: as ∧ P w x t ∧ out = a ++ t ++ o ∧ Formats P r as o := by
  constructor
  · intro hf
    generalize hs : a ++ w ++ r = s at hf
    cases hf with
    | text h => subst hs; exact absurd h (noSpec_not hw)
    | percent hw' hl' hn' hr =>
      obtain ⟨e1, e2, e3⟩ := decomp hs hw hw' hn hn'
      subst e2
      exact absurd hl' hl
    | conv hw' hl' hn' hp hr =>
      obtain ⟨e1, e2, e3⟩ := decomp hs hw hw' hn hn'
      subst e1; subst e2; subst e3
      exact ⟨_, _, _, _, rfl, hp, rfl, hr⟩
  · rintro ⟨x, as, t, o, rfl, hp, rfl, h⟩; exact .conv hw hl hn hp h

/-- One turn of the loop. -/
theorem formatAt_none {m : Sem} {lib : Lib D} {n : Nat} {s : Str} {args : List (Arg D)} (h0 : (0 : Byte) ∉ s)
    (h : NoSpec s.length s) : formatAt m lib (n + 1) s args = .ok s := by
  unfold formatAt
  by_cases e : s = []
  · rw [if_pos e, e]
  · rw [if_neg e, cstr_eq_self h0, regexec_none.2 h]

theorem formatAt_some {m : Sem} {lib : Lib D} {n : Nat} {a w r : Str} {args : List (Arg D)} (h0 : (0 : Byte) ∉ a ++ w ++ r)
    (hw : IsSpec w) (h : NoSpec a.length (a ++ w ++ r)) : formatAt m lib (n + 1) (a ++ w ++ r) args =
      match args with
        | [] => if w.getLast? ≠ some (chr '%') then .throw .interrupted
          else (formatAt m lib n r []).bind fun o => .ok (a ++ txt "%" ++ o)
        | x :: as => (printObject m lib w x).bind fun t =>
          (formatAt m lib n r (if w.getLast? = some (chr '%') then x :: as else as)).bind fun o => .ok (a ++ t ++ o) := by
  have e1 : (a ++ w ++ r).take a.length = a := by rw [List.append_assoc, List.take_left]
  have e2 : ((a ++ w ++ r).take (a.length + w.length)).drop a.length = w := by
    rw [List.take_left' (by rw [List.length_append]), List.drop_left]
  have e3 : (a ++ w ++ r).drop (a.length + w.length) = r := List.drop_left' (by rw [List.length_append])
  have hne : a ++ w ++ r ≠ [] := by
    intro e
    have := hw.length
    have e := congrArg List.length e
    simp only [List.length_append, List.length_nil] at e
    omega
  rw [formatAt, if_neg hne, cstr_eq_self h0, regexec_at hw h]
  simp only [e1, e2, e3]
  cases args <;> rfl

theorem formatAt_iff {m : Sem} {lib : Lib D} : ∀ {n s args out}, (0 : Byte) ∉ s → s.length < n →
    (formatAt m lib n s args = .ok out ↔ Formats (fun w x t => print m lib w x = .ok t) s args out) := by
  intro n
  induction n with
  | zero => intro s args out _ h; omega
  | succ n ih =>
    intro s args out h0 hn
    cases hr : regexec s with
    | none =>
      have h := regexec_none.1 hr
      rw [formatAt_none h0 h, formats_none h]
      constructor
      · intro e; injection e with e; exact e.symm
      · rintro rfl; rfl
    | some p =>
      obtain ⟨a, w, r, e, e1, -, hw, h⟩ := regexec_some (so := p.1) (eo := p.2) hr
      have hlen := hw.length
      subst e
      rw [← e1] at h
      have hr0 : (0 : Byte) ∉ r := fun hx => h0 (List.mem_append_right _ hx)
      simp only [List.length_append] at hn
      have ih := fun args out => @ih r args out hr0 (by omega)
      rw [formatAt_some h0 hw h]
      by_cases hl : w.getLast? = some (chr '%')
      · rw [formats_percent hw hl h]
        have key : ∀ args, ((formatAt m lib n r args).bind fun o => Outcome.ok (a ++ txt "%" ++ o)) = .ok out ↔
            ∃ o, out = a ++ [chr '%'] ++ o ∧ Formats (fun w x t => print m lib w x = .ok t) r args o := by
          intro args
          constructor
          · intro e
            cases hf : formatAt m lib n r args with
            | ok o =>
              rw [hf] at e
              injection e with e
              exact ⟨o, e.symm, (ih _ _).1 hf⟩
            | throw _ => rw [hf] at e; cases e
            | ub => rw [hf] at e; cases e
            | diverge => rw [hf] at e; cases e
          · rintro ⟨o, rfl, hf⟩
            rw [(ih _ _).2 hf]
            rfl
        cases args with
        | nil => simp only [hl, ne_eq, not_true, if_false]; exact key []
        | cons x as =>
          have : printObject m lib w x = .ok (txt "%") := by unfold printObject; rw [if_pos hl]
          simp only [this, if_pos hl]
          exact key (x :: as)
      · rw [formats_conv hw hl h]
        cases args with
        | nil =>
          simp only [ne_eq, hl, not_false_eq_true, if_true]
          constructor
          · intro e; cases e
          · rintro ⟨x, as, t, o, e, -⟩; cases e
        | cons x as =>
          have : printObject m lib w x = print m lib w x := by unfold printObject; rw [if_neg hl]
          simp only [this, if_neg hl]
          constructor
          · intro e
            cases hp : print m lib w x with
            | ok t =>
              rw [hp] at e
              cases hf : formatAt m lib n r as with
              | ok o =>
                simp only [hf] at e
                injection e with e
                exact ⟨x, as, t, o, rfl, hp, e.symm, (ih _ _).1 hf⟩
              | throw _ => simp only [hf] at e; cases e
              | ub => simp only [hf] at e; cases e
              | diverge => simp only [hf] at e; cases e
            | throw _ => rw [hp] at e; cases e
            | ub => rw [hp] at e; cases e
            | diverge => rw [hp] at e; cases e
          · rintro ⟨x', as', t, o, e, hp, rfl, hf⟩
            injection e with e1 e2
            subst e1; subst e2
            rw [hp]
            show (formatAt m lib n r as).bind _ = _
            rw [(ih _ _).2 hf]
            rfl

theorem format_iff {m : Sem} {lib : Lib D} {s : Str} {args : List (Arg D)} {out : Str} (h0 : (0 : Byte) ∉ s) :
    format m lib s args = .ok out ↔ Formats (fun w x t => print m lib w x = .ok t) s args out :=
  formatAt_iff h0 (Nat.lt_succ_self _)

theorem Formats.mono {P Q : Str → Arg D → Str → Prop} (hPQ : ∀ w x t, P w x t → Q w x t) {s : Str} {args : List (Arg D)}
    {out : Str} (h : Formats P s args out) : Formats Q s args out := by
  induction h with
  | text h => exact .text h
  | percent h1 h2 h3 _ ih => exact .percent h1 h2 h3 ih
  | conv h1 h2 h3 h4 _ ih => exact .conv h1 h2 h3 (hPQ _ _ _ h4) ih

theorem Formats.more {P : Str → Arg D → Str → Prop} {s : Str} {args : List (Arg D)} {out : Str} (h : Formats P s args out)
    (as : List (Arg D)) : Formats P s (args ++ as) out := by
  induction h with
  | text h => exact .text h
  | percent h1 h2 h3 _ ih => exact .percent h1 h2 h3 ih
  | conv h1 h2 h3 h4 _ ih => exact .conv h1 h2 h3 h4 ih

theorem needs_none {s : Str} (h : NoSpec s.length s) (n : Nat) : ¬ Needs s n := by
  intro hn
  cases hn with
  | here hw _ _ => exact noSpec_not hw h
  | percent hw _ _ _ => exact noSpec_not hw h
  | conv hw _ _ _ => exact noSpec_not hw h

theorem needs_percent {a w r : Str} {n : Nat} (hw : IsSpec w) (hl : w.getLast? = some (chr '%'))
    (hn : NoSpec a.length (a ++ w ++ r)) : Needs (a ++ w ++ r) n ↔ Needs r n := by
  constructor
  · intro h
    generalize hs : a ++ w ++ r = s at h
    cases h with
    | here hw' hl' hn' => obtain ⟨e1, e2, e3⟩ := decomp hs hw hw' hn hn'; subst e2; exact absurd hl hl'
    | percent hw' hl' hn' hr => obtain ⟨e1, e2, e3⟩ := decomp hs hw hw' hn hn'; subst e3; exact hr
    | conv hw' hl' hn' hr => obtain ⟨e1, e2, e3⟩ := decomp hs hw hw' hn hn'; subst e2; exact absurd hl hl'
  · exact .percent hw hl hn

theorem needs_conv {a w r : Str} {n : Nat} (hw : IsSpec w) (hl : w.getLast? ≠ some (chr '%'))
    (hn : NoSpec a.length (a ++ w ++ r)) : Needs (a ++ w ++ r) n ↔ n = 0 ∨ ∃ k, n = k + 1 ∧ Needs r k := by
  constructor
  · intro h
    generalize hs : a ++ w ++ r = s at h
    cases h with
    | here hw' hl' hn' => exact .inl rfl
    | percent hw' hl' hn' hr => obtain ⟨e1, e2, e3⟩ := decomp hs hw hw' hn hn'; subst e2; exact absurd hl' hl
    | conv hw' hl' hn' hr => obtain ⟨e1, e2, e3⟩ := decomp hs hw hw' hn hn'; subst e3; exact .inr ⟨_, rfl, hr⟩
  · rintro (rfl | ⟨k, rfl, h⟩)
    · exact .here hw hl hn
    · exact .conv hw hl hn h

theorem render_cases (m : Sem) (lib : Lib D) (k : Conv) (x : Arg D) : (∃ t, render m lib k x = .ok t) ∨ render m lib k x = .ub := by
  have hi : ∀ l (f : Int × Nat → Str), (∃ t, ((intArg m l x).bind fun v => Outcome.ok (f v)) = .ok t) ∨
      ((intArg m l x).bind fun v => Outcome.ok (f v)) = .ub := by
    intro l f
    cases x with
    | i32 v =>
      simp only [intArg]
      split
      · exact .inl ⟨_, rfl⟩
      · exact .inr rfl
    | i64 v =>
      simp only [intArg]
      split
      · exact .inl ⟨_, rfl⟩
      · cases m
        · exact .inr rfl
        · exact .inl ⟨_, rfl⟩
    | bool v => exact .inr rfl
    | dbl v => exact .inr rfl
    | str v => exact .inr rfl
  unfold render
  repeat' split
  all_goals first
    | exact .inr rfl
    | exact .inl ⟨_, rfl⟩
    | exact hi _ _

theorem fromBuffer_cases (b : Str) (n : Nat) : (∃ t, fromBuffer b n = .ok t) ∨ fromBuffer b n = .ub := by
  unfold fromBuffer
  split
  · exact .inr rfl
  · exact .inl ⟨_, rfl⟩

theorem print_cases (m : Sem) (lib : Lib D) (w : Str) (x : Arg D) : (∃ t, print m lib w x = .ok t) ∨ print m lib w x = .ub := by
  have hn : (∃ t, printNum m lib w x = .ok t) ∨ printNum m lib w x = .ub := by
    unfold printNum
    split
    · exact .inr rfl
    · next k _ =>
      rcases render_cases m lib k x with ⟨t, e⟩ | e
      · rw [e]
        simp only [Outcome.bind]
        repeat' split
        all_goals first
          | exact .inl ⟨_, rfl⟩
          | exact fromBuffer_cases _ _
      · rw [e]; exact .inr rfl
  have hs : (∃ t, printStr m lib w x = .ok t) ∨ printStr m lib w x = .ub := by
    unfold printStr
    split
    · exact .inr rfl
    · next k _ =>
      rcases render_cases m lib k x with ⟨t, e⟩ | e
      · rw [e]
        simp only [Outcome.bind]
        repeat' split
        all_goals first
          | exact .inl ⟨_, rfl⟩
          | exact fromBuffer_cases _ _
      · rw [e]; exact .inr rfl
  cases x with
  | bool b =>
    unfold print
    simp only
    repeat' split
    all_goals exact .inl ⟨_, rfl⟩
  | str s => exact hs
  | i32 v => exact hn
  | i64 v => exact hn
  | dbl v => exact hn

/-- How a call ends: with a text, with the exception for missing arguments, or undefined. -/
theorem formatAt_cases {m : Sem} {lib : Lib D} : ∀ {n s args}, (0 : Byte) ∉ s → s.length < n →
    (∃ out, formatAt m lib n s args = .ok out ∧ ¬ Needs s args.length) ∨
    (formatAt m lib n s args = .throw .interrupted ∧ Needs s args.length) ∨
    (formatAt m lib n s args = .ub ∧ ∃ w x, IsSpec w ∧ x ∈ args ∧ print m lib w x = .ub) := by
  intro n
  induction n with
  | zero => intro s args _ h; omega
  | succ n ih =>
    intro s args h0 hn
    cases hr : regexec s with
    | none =>
      have h := regexec_none.1 hr
      exact .inl ⟨s, formatAt_none h0 h, needs_none h _⟩
    | some p =>
      obtain ⟨a, w, r, e, e1, -, hw, h⟩ := regexec_some (so := p.1) (eo := p.2) hr
      have hlen := hw.length
      subst e
      rw [← e1] at h
      have hr0 : (0 : Byte) ∉ r := fun hx => h0 (List.mem_append_right _ hx)
      simp only [List.length_append] at hn
      have ih := fun args => @ih r args hr0 (by omega)
      rw [formatAt_some h0 hw h]
      by_cases hl : w.getLast? = some (chr '%')
      · rw [needs_percent hw hl h]
        have key : ∀ args, (∃ out, ((formatAt m lib n r args).bind fun o => Outcome.ok (a ++ txt "%" ++ o)) = .ok out ∧ ¬ Needs r args.length) ∨
            (((formatAt m lib n r args).bind fun o => Outcome.ok (a ++ txt "%" ++ o)) = .throw .interrupted ∧ Needs r args.length) ∨
            (((formatAt m lib n r args).bind fun o => Outcome.ok (a ++ txt "%" ++ o)) = .ub ∧ ∃ w x, IsSpec w ∧ x ∈ args ∧ print m lib w x = .ub) := by
          intro args
          rcases ih args with ⟨out, e, h1⟩ | ⟨e, h1⟩ | ⟨e, h1⟩ <;> rw [e]
          · exact .inl ⟨_, rfl, h1⟩
          · exact .inr (.inl ⟨rfl, h1⟩)
          · exact .inr (.inr ⟨rfl, h1⟩)
        cases args with
        | nil => simp only [hl, ne_eq, not_true, if_false]; exact key []
        | cons x as =>
          have : printObject m lib w x = .ok (txt "%") := by unfold printObject; rw [if_pos hl]
          simp only [this, if_pos hl]
          exact key (x :: as)
      · rw [needs_conv hw hl h]
        cases args with
        | nil =>
          simp only [ne_eq, hl, not_false_eq_true, if_true]
          exact .inr (.inl ⟨trivial, .inl rfl⟩)
        | cons x as =>
          have : printObject m lib w x = print m lib w x := by unfold printObject; rw [if_neg hl]
          simp only [this, if_neg hl]
          have hnd : (List.length (x :: as) = 0 ∨ ∃ k, (x :: as).length = k + 1 ∧ Needs r k) ↔ Needs r as.length := by
            constructor
            · rintro (e | ⟨k, e, hk⟩)
              · cases e
              · rw [List.length_cons] at e
                have : as.length = k := by omega
                rw [this]; exact hk
            · intro hk; exact .inr ⟨_, rfl, hk⟩
          rw [hnd]
          rcases print_cases m lib w x with ⟨t, e⟩ | e
          · rw [e]
            rcases ih as with ⟨out, e, h1⟩ | ⟨e, h1⟩ | ⟨e, w', x', hw', hx', e'⟩
            · refine .inl ⟨a ++ t ++ out, ?_, h1⟩
              show (formatAt m lib n r as).bind _ = _
              rw [e]; rfl
            · refine .inr (.inl ⟨?_, h1⟩)
              show (formatAt m lib n r as).bind _ = _
              rw [e]; rfl
            · refine .inr (.inr ⟨?_, w', x', hw', List.mem_cons_of_mem _ hx', e'⟩)
              show (formatAt m lib n r as).bind _ = _
              rw [e]; rfl
          · rw [e]
            exact .inr (.inr ⟨rfl, w, x, hw, List.mem_cons_self, e⟩)

theorem noSpec_plain {a : Str} (h : chr '%' ∉ a) (r : Str) : NoSpec a.length (a ++ r) := by
  intro i hi w hw hp
  obtain ⟨v, e, -⟩ := isSpec_iff.1 hw
  subst e
  obtain ⟨u, hu⟩ := hp
  rw [List.drop_append_of_le_length (by omega), List.drop_eq_getElem_cons hi] at hu
  injection hu with h1 _
  exact h (h1 ▸ List.getElem_mem hi)

theorem parts_isSpec {w f l : Str} {width : Nat} {prec : Option Nat} {c : Byte} (h : Parts w f width prec l c) :
    IsSpec w ∧ w.getLast? ≠ some (chr '%') := by
  obtain ⟨⟨wd, p, e, hwd, hp⟩, hf, hl, hc, -⟩ := h
  have hcc : ∀ c : Byte, c ∈ txt "diuoxXcs" → c ∈ txt "diuoxXfFeEgGaAcspnbB%" ∧ c ≠ chr '%' := by decide +kernel
  constructor
  · refine ⟨[], f, wd, p, l, c, e, fun x hx => absurd hx List.not_mem_nil, hf, ?_, ?_, hl, (hcc c hc).1⟩
    · rcases hwd with ⟨e, -⟩ | ⟨e, -⟩
      · subst e; exact fun x hx => absurd hx List.not_mem_nil
      · exact numeral_digit e.1
    · rcases hp with ⟨e, -⟩ | ⟨q, n, e, hq, -⟩
      · exact .inl e
      · exact .inr ⟨q, hq.ne_nil, e, numeral_digit hq⟩
  · subst e
    rw [← List.cons_append, List.getLast?_concat]
    intro e
    injection e with e
    exact (hcc c hc).2 e

theorem isSpec_b : IsSpec (txt "%b") ∧ IsSpec (txt "%B") ∧ IsSpec (txt "%%") :=
  ⟨⟨[], [], [], [], [], chr 'b', rfl, by simp, by simp, by simp, .inl rfl, .inl rfl, by decide⟩,
   ⟨[], [], [], [], [], chr 'B', rfl, by simp, by simp, by simp, .inl rfl, .inl rfl, by decide⟩,
   ⟨[], [], [], [], [], chr '%', rfl, by simp, by simp, by simp, .inl rfl, .inl rfl, by decide⟩⟩

theorem prints_spec {w : Str} {x : Arg D} {t : Str} (h : Prints w x t) : IsSpec w ∧ w.getLast? ≠ some (chr '%') := by
  cases h with
  | signed h => exact parts_isSpec h
  | unsigned h => exact parts_isSpec h
  | upper h => exact parts_isSpec h
  | char h => exact parts_isSpec h
  | text h => exact parts_isSpec h
  | bool => exact ⟨isSpec_b.1, by decide⟩
  | upperBool => exact ⟨isSpec_b.2.1, by decide⟩

theorem spec_nul {w : Str} (h : IsSpec w) : (0 : Byte) ∉ w := by
  obtain ⟨d1, f, d2, p, l, c, e, h1, h2, h3, h4, h5, h6⟩ := h
  have k1 : ∀ x : Byte, isDigit x = true → x ≠ 0 := by decide +kernel
  have k2 : ∀ x : Byte, x ∈ txt "-#+0 " → x ≠ 0 := by decide +kernel
  have k3 : ∀ x : Byte, x ∈ txt "diuoxXfFeEgGaAcspnbB%" → x ≠ 0 := by decide +kernel
  intro h0
  subst e
  simp only [List.mem_cons, List.mem_append, List.not_mem_nil, or_false] at h0
  rcases h0 with h0 | ((((h0 | h0) | h0) | h0) | h0) | h0
  · exact absurd h0 (by decide)
  · exact k1 _ (h1 _ h0) rfl
  · exact k2 _ (h2 _ h0) rfl
  · exact k1 _ (h3 _ h0) rfl
  · rcases h4 with e | ⟨q, -, e, hq⟩
    · subst e; cases h0
    · subst e
      rcases List.mem_cons.1 h0 with e | e
      · exact absurd e (by decide)
      · exact k1 _ (hq _ e) rfl
  · rcases h5 with e | e | e <;> subst e <;> revert h0 <;> decide
  · exact k3 c h6 h0.symm

/-- One specification between two texts without percent signs. -/
theorem formats_single {P : Str → Arg D → Str → Prop} {a w b t : Str} {x : Arg D} (hw : IsSpec w) (hl : w.getLast? ≠ some (chr '%'))
    (ha : chr '%' ∉ a) (hb : chr '%' ∉ b) (hp : P w x t) (as : List (Arg D)) : Formats P (a ++ w ++ b) (x :: as) (a ++ t ++ b) := by
  refine .conv hw hl ?_ hp (.text ?_)
  · rw [List.append_assoc]; exact noSpec_plain ha _
  · have := noSpec_plain hb []
    rwa [List.append_nil] at this

theorem formats_escape {P : Str → Arg D → Str → Prop} (args : List (Arg D)) : ∀ s a : Str, chr '%' ∉ a →
    Formats P (a ++ escape s) args (a ++ s) := by
  intro s
  induction s with
  | nil =>
    intro a ha
    show Formats P (a ++ []) args (a ++ [])
    rw [List.append_nil]
    have := noSpec_plain ha []
    rw [List.append_nil] at this
    exact .text this
  | cons c s ih =>
    intro a ha
    by_cases hc : c = chr '%'
    · subst hc
      have e1 : a ++ escape (chr '%' :: s) = a ++ txt "%%" ++ escape s := by
        unfold escape; rw [List.flatMap_cons, if_pos rfl, ← List.append_assoc]; rfl
      have e2 : a ++ chr '%' :: s = a ++ [chr '%'] ++ s := by simp
      rw [e1, e2]
      refine .percent isSpec_b.2.2 (by decide) ?_ (ih [] (by simp))
      rw [List.append_assoc]; exact noSpec_plain ha _
    · have e1 : a ++ escape (c :: s) = (a ++ [c]) ++ escape s := by
        unfold escape; rw [List.flatMap_cons, if_neg hc, ← List.append_assoc]
      have e2 : a ++ c :: s = a ++ [c] ++ s := by simp
      rw [e1, e2]
      refine ih _ ?_
      intro h
      rcases List.mem_append.1 h with h | h
      · exact ha h
      · exact hc (List.mem_singleton.1 h).symm

end Verif.Format
