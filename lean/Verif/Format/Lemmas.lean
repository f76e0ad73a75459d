import Verif.Format.Spec
import Verif.NumText.Lemmas
/-! # Lemmas about `String.format` -/
namespace Verif.Format

open Verif.JString Verif.NumText

/-! ## Matching -/

theorem digit_conv : ∀ c : Byte, isDigit c = true → isConv c = false := by decide +kernel
theorem flag_conv : ∀ c : Byte, isFlag c = true → isConv c = false := by decide +kernel
theorem dot_conv : isConv (chr '.') = false := by decide +kernel
theorem l_conv : isConv (chr 'l') = false := by decide +kernel
theorem flag_digit : ∀ c : Byte, isFlag c = true → c ≠ chr '0' → isDigit c = false := by decide +kernel
theorem flag_mem {c : Byte} : isFlag c = true ↔ c ∈ txt "-#+0 " := by unfold isFlag; exact List.contains_iff_mem
theorem conv_mem {c : Byte} : isConv c = true ↔ c ∈ txt "diuoxXfFeEgGaAcspnbB%" := by
  unfold isConv; exact List.contains_iff_mem

def Ll (t : Str) : Prop := ∃ l c, t = l ++ [c] ∧ (l = [] ∨ l = txt "l" ∨ l = txt "ll") ∧ isConv c = true
def Tl (t : Str) : Prop := ∃ p u, t = p ++ u ∧ (p = [] ∨ ∃ q, q ≠ [] ∧ p = chr '.' :: q ∧ ∀ x ∈ q, isDigit x = true) ∧ Ll u
def LD2 (v : Str) : Prop := ∃ d t, v = d ++ t ∧ (∀ x ∈ d, isDigit x = true) ∧ Tl t
def LFl (v : Str) : Prop := ∃ f t, v = f ++ t ∧ (∀ x ∈ f, isFlag x = true) ∧ LD2 t
def LD1 (v : Str) : Prop := ∃ d t, v = d ++ t ∧ (∀ x ∈ d, isDigit x = true) ∧ LFl t

/-- What may follow a part of the pattern. -/
def Lang : St → Str → Prop
  | .d1, v => LD1 v
  | .fl, v => LFl v
  | .d2, v => LD2 v
  | .dot, v => ∃ q t, q ≠ [] ∧ v = q ++ t ∧ (∀ x ∈ q, isDigit x = true) ∧ Ll t
  | .pr, v => ∃ q t, v = q ++ t ∧ (∀ x ∈ q, isDigit x = true) ∧ Ll t
  | .l1, v => ∃ l c, v = l ++ [c] ∧ (l = [] ∨ l = txt "l") ∧ isConv c = true
  | .l2, v => ∃ c, v = [c] ∧ isConv c = true

theorem isSpec_iff {w : Str} : IsSpec w ↔ ∃ v, w = chr '%' :: v ∧ LD1 v := by
  constructor
  · rintro ⟨d1, f, d2, p, l, c, hw, h1, h2, h3, h4, h5, h6⟩
    exact ⟨_, hw, d1, f ++ (d2 ++ (p ++ (l ++ [c]))), by simp only [List.append_assoc], h1, f, _, rfl,
      fun x hx => flag_mem.2 (h2 x hx), d2, _, rfl, h3, p, _, rfl, h4, l, c, rfl, h5, conv_mem.2 h6⟩
  · rintro ⟨v, hw, d1, t1, e1, h1, f, t2, e2, h2, d2, t3, e3, h3, p, t4, e4, h4, l, c, e5, h5, h6⟩
    refine ⟨d1, f, d2, p, l, c, ?_, h1, fun x hx => flag_mem.1 (h2 x hx), h3, h4, h5, conv_mem.1 h6⟩
    rw [hw, e1, e2, e3, e4, e5]
    simp only [List.append_assoc]

theorem ll_conv {c : Byte} (h : isConv c = true) : Ll [c] := ⟨[], c, rfl, .inl rfl, h⟩
theorem tl_ll {t : Str} (h : Ll t) : Tl t := ⟨[], t, rfl, .inl rfl, h⟩
theorem ld2_tl {t : Str} (h : Tl t) : LD2 t := ⟨[], t, rfl, fun _ hx => absurd hx List.not_mem_nil, h⟩
theorem lfl_ld2 {t : Str} (h : LD2 t) : LFl t := ⟨[], t, rfl, fun _ hx => absurd hx List.not_mem_nil, h⟩
theorem ld1_lfl {t : Str} (h : LFl t) : LD1 t := ⟨[], t, rfl, fun _ hx => absurd hx List.not_mem_nil, h⟩

theorem all_cons {p : Byte → Prop} {c : Byte} {l : Str} (h : p c) (hl : ∀ x ∈ l, p x) : ∀ x ∈ c :: l, p x := by
  intro x hx
  rcases List.mem_cons.1 hx with e | e
  · rw [e]; exact h
  · exact hl x e

theorem ld1_digit {c : Byte} {v : Str} (h : isDigit c = true) : LD1 v → LD1 (c :: v) := by
  rintro ⟨d, t, e, h1, h2⟩
  exact ⟨c :: d, t, by rw [e]; rfl, all_cons h h1, h2⟩

theorem lfl_flag {c : Byte} {v : Str} (h : isFlag c = true) : LFl v → LFl (c :: v) := by
  rintro ⟨d, t, e, h1, h2⟩
  exact ⟨c :: d, t, by rw [e]; rfl, all_cons h h1, h2⟩

theorem ld2_digit {c : Byte} {v : Str} (h : isDigit c = true) : LD2 v → LD2 (c :: v) := by
  rintro ⟨d, t, e, h1, h2⟩
  exact ⟨c :: d, t, by rw [e]; rfl, all_cons h h1, h2⟩

theorem tl_dot {v : Str} : Lang .dot v → Tl (chr '.' :: v) := by
  rintro ⟨q, t, hq, e, h1, h2⟩
  exact ⟨chr '.' :: q, t, by rw [e]; rfl, .inr ⟨q, hq, rfl, h1⟩, h2⟩

theorem ll_l {v : Str} : Lang .l1 v → Ll (chr 'l' :: v) := by
  rintro ⟨l, c, e, h1 | h1, h2⟩
  · exact ⟨[chr 'l'], c, by rw [e, h1]; rfl, .inr (.inl rfl), h2⟩
  · exact ⟨[chr 'l', chr 'l'], c, by rw [e, h1]; rfl, .inr (.inr rfl), h2⟩

theorem lang_conv {st : St} {c : Byte} (hs : st ≠ .dot) (h : isConv c = true) : Lang st [c] := by
  have h1 := ll_conv h
  cases st with
  | d1 => exact ld1_lfl (lfl_ld2 (ld2_tl (tl_ll h1)))
  | fl => exact lfl_ld2 (ld2_tl (tl_ll h1))
  | d2 => exact ld2_tl (tl_ll h1)
  | dot => exact absurd rfl hs
  | pr => exact ⟨[], [c], rfl, fun _ hx => absurd hx List.not_mem_nil, h1⟩
  | l1 => exact ⟨[], c, rfl, .inl rfl, h⟩
  | l2 => exact ⟨c, rfl, h⟩

theorem lang_step {st st' : St} {c : Byte} {v : Str} (hn : next st c = some st') (h : Lang st' v) : Lang st (c :: v) := by
  unfold next at hn
  split at hn
  · next hd =>
    cases st <;> simp only at hn
    · injection hn with hn; subst hn; exact ld1_digit hd h
    · split at hn
      · next e => injection hn with hn; subst hn; exact lfl_flag (by rw [e]; decide) h
      · injection hn with hn; subst hn; exact lfl_ld2 (ld2_digit hd h)
    · injection hn with hn; subst hn; exact ld2_digit hd h
    · injection hn with hn; subst hn
      obtain ⟨q, t, e, h1, h2⟩ := h
      exact ⟨c :: q, t, by simp, by rw [e]; rfl, all_cons hd h1, h2⟩
    · injection hn with hn; subst hn
      obtain ⟨q, t, e, h1, h2⟩ := h
      exact ⟨c :: q, t, by rw [e]; rfl, all_cons hd h1, h2⟩
    · cases hn
    · cases hn
  · split at hn
    · next hf =>
      cases st <;> simp only at hn
      · injection hn with hn; subst hn; exact ld1_lfl (lfl_flag hf h)
      · injection hn with hn; subst hn; exact lfl_flag hf h
      all_goals cases hn
    · split at hn
      · next e =>
        subst e
        cases st <;> simp only at hn
        · injection hn with hn; subst hn; exact ld1_lfl (lfl_ld2 (ld2_tl (tl_dot h)))
        · injection hn with hn; subst hn; exact lfl_ld2 (ld2_tl (tl_dot h))
        · injection hn with hn; subst hn; exact ld2_tl (tl_dot h)
        all_goals cases hn
      · split at hn
        · next e =>
          subst e
          cases st <;> simp only at hn
          · injection hn with hn; subst hn; exact ld1_lfl (lfl_ld2 (ld2_tl (tl_ll (ll_l h))))
          · injection hn with hn; subst hn; exact lfl_ld2 (ld2_tl (tl_ll (ll_l h)))
          · injection hn with hn; subst hn; exact ld2_tl (tl_ll (ll_l h))
          · cases hn
          · injection hn with hn; subst hn
            exact ⟨[], _, rfl, fun _ hx => absurd hx List.not_mem_nil, ll_l h⟩
          · injection hn with hn; subst hn
            obtain ⟨c, e, h1⟩ := h
            exact ⟨txt "l", c, by rw [e]; rfl, .inr rfl, h1⟩
          · cases hn
        · cases hn

theorem specFrom_sound {s : Str} : ∀ {st n}, specFrom st s = some n → n ≤ s.length ∧ Lang st (s.take n) := by
  induction s with
  | nil => intro st n h; cases h
  | cons c s ih =>
    intro st n h
    unfold specFrom at h
    split at h
    · next hc =>
      split at h
      · cases h
      · next hs =>
        injection h with h
        subst h
        exact ⟨Nat.succ_le_succ (Nat.zero_le _), by rw [List.take_succ_cons, List.take_zero]; exact lang_conv hs hc⟩
    · split at h
      · cases h
      · next st' hn =>
        cases hr : specFrom st' s with
        | none => rw [hr] at h; cases h
        | some k =>
          rw [hr] at h
          injection h with h
          subst h
          obtain ⟨h1, h2⟩ := ih hr
          exact ⟨Nat.succ_le_succ h1, by rw [List.take_succ_cons]; exact lang_step hn h2⟩

theorem specFrom_step {st st' : St} {c : Byte} {s : Str} {n : Nat} (hc : isConv c = false) (hn : next st c = some st')
    (h : specFrom st' s = some n) : specFrom st (c :: s) = some (n + 1) := by
  unfold specFrom
  rw [hc]
  simp only [hn, h]
  rfl

theorem specFrom_conv {st : St} {c : Byte} {s : Str} (hc : isConv c = true) (hs : st ≠ .dot) :
    specFrom st (c :: s) = some 1 := by
  unfold specFrom
  rw [if_pos hc, if_neg hs]

theorem spec_ll {t r : Str} (h : Ll t) {st : St} (hs : st = .d1 ∨ st = .fl ∨ st = .d2 ∨ st = .pr) :
    specFrom st (t ++ r) = some t.length := by
  obtain ⟨l, c, e, h1, h2⟩ := h
  have hn : next st (chr 'l') = some .l1 := by rcases hs with e | e | e | e <;> subst e <;> decide
  have hd : st ≠ .dot := by rcases hs with e | e | e | e <;> subst e <;> decide
  rcases h1 with h1 | h1 | h1 <;> subst h1 <;> subst e
  · exact specFrom_conv h2 hd
  · exact specFrom_step l_conv hn (specFrom_conv h2 (by decide))
  · exact specFrom_step l_conv hn (specFrom_step (st' := .l2) l_conv (by decide) (specFrom_conv h2 (by decide)))

theorem next_digit {c : Byte} (h : isDigit c = true) : next .d1 c = some .d1 ∧ next .d2 c = some .d2 ∧
    next .dot c = some .pr ∧ next .pr c = some .pr ∧ (next .fl c = some .fl ∨ next .fl c = some .d2) := by
  unfold next
  simp only [h, if_true]
  refine ⟨trivial, trivial, trivial, trivial, ?_⟩
  split
  · exact .inl rfl
  · exact .inr rfl

theorem spec_pr {q t r : Str} (hq : ∀ x ∈ q, isDigit x = true) (h : Ll t) :
    specFrom .pr (q ++ t ++ r) = some (q.length + t.length) := by
  induction q with
  | nil =>
    rw [List.nil_append, List.length_nil, Nat.zero_add]
    exact spec_ll h (.inr (.inr (.inr rfl)))
  | cons c q ih =>
    have hc := hq c List.mem_cons_self
    have := specFrom_step (digit_conv c hc) (next_digit hc).2.2.2.1 (ih fun x hx => hq x (List.mem_cons_of_mem _ hx))
    rw [List.length_cons, Nat.add_right_comm]
    exact this

theorem spec_tl {t r : Str} (h : Tl t) {st : St} (hs : st = .d1 ∨ st = .fl ∨ st = .d2) :
    specFrom st (t ++ r) = some t.length := by
  obtain ⟨p, u, e, h1, h2⟩ := h
  rcases h1 with h1 | ⟨q, hq, h1, h3⟩
  · subst h1
    subst e
    exact spec_ll h2 (by rcases hs with e | e | e <;> simp [e])
  · subst h1
    subst e
    have hn : next st (chr '.') = some .dot := by rcases hs with e | e | e <;> subst e <;> decide
    cases q with
    | nil => exact absurd rfl hq
    | cons c q =>
      have hc := h3 c List.mem_cons_self
      have h4 := spec_pr (r := r) (fun x hx => h3 x (List.mem_cons_of_mem _ hx)) h2
      have h5 := specFrom_step dot_conv hn (specFrom_step (digit_conv c hc) (next_digit hc).2.2.1 h4)
      have hl : (chr '.' :: (c :: q) ++ u).length = q.length + u.length + 1 + 1 := by
        simp only [List.length_append, List.length_cons]
        omega
      rw [hl]
      exact h5

theorem spec_ld2 {v r : Str} (h : LD2 v) {st : St} (hs : st = .d1 ∨ st = .fl ∨ st = .d2) :
    specFrom st (v ++ r) = some v.length := by
  obtain ⟨d, t, e, h1, h2⟩ := h
  subst e
  induction d generalizing st with
  | nil => exact spec_tl h2 hs
  | cons c d ih =>
    have hc := h1 c List.mem_cons_self
    have hd : ∀ x ∈ d, isDigit x = true := fun x hx => h1 x (List.mem_cons_of_mem _ hx)
    obtain ⟨n1, n2, -, -, n3⟩ := next_digit hc
    have go : ∀ {st'}, next st c = some st' → (st' = .d1 ∨ st' = .fl ∨ st' = .d2) →
        specFrom st (c :: d ++ t ++ r) = some (c :: d ++ t).length :=
      fun hn hst => specFrom_step (digit_conv c hc) hn (ih hst hd)
    rcases hs with e | e | e
    · exact go (by rw [e]; exact n1) (.inl rfl)
    · rcases n3 with n3 | n3
      · exact go (by rw [e]; exact n3) (.inr (.inl rfl))
      · exact go (by rw [e]; exact n3) (.inr (.inr rfl))
    · exact go (by rw [e]; exact n2) (.inr (.inr rfl))

theorem next_flag {c : Byte} (h : isFlag c = true) : next .fl c = some .fl ∧
    (next .d1 c = some .d1 ∨ next .d1 c = some .fl) := by
  by_cases e : c = chr '0'
  · subst e; decide
  · have hd := flag_digit c h e
    unfold next
    simp [hd, h]

theorem spec_lfl {v r : Str} (h : LFl v) {st : St} (hs : st = .d1 ∨ st = .fl) :
    specFrom st (v ++ r) = some v.length := by
  obtain ⟨f, t, e, h1, h2⟩ := h
  subst e
  induction f generalizing st with
  | nil => exact spec_ld2 h2 (hs.imp id .inl)
  | cons c f ih =>
    have hc := h1 c List.mem_cons_self
    have hf : ∀ x ∈ f, isFlag x = true := fun x hx => h1 x (List.mem_cons_of_mem _ hx)
    obtain ⟨n1, n2⟩ := next_flag hc
    have go : ∀ {st'}, next st c = some st' → (st' = .d1 ∨ st' = .fl) →
        specFrom st (c :: f ++ t ++ r) = some (c :: f ++ t).length :=
      fun hn hst => specFrom_step (flag_conv c hc) hn (ih hst hf)
    rcases hs with e | e
    · rcases n2 with n2 | n2
      · exact go (by rw [e]; exact n2) (.inl rfl)
      · exact go (by rw [e]; exact n2) (.inr rfl)
    · exact go (by rw [e]; exact n1) (.inr rfl)

theorem spec_ld1 {v r : Str} (h : LD1 v) : specFrom .d1 (v ++ r) = some v.length := by
  obtain ⟨d, t, e, h1, h2⟩ := h
  subst e
  induction d with
  | nil => exact spec_lfl h2 (.inl rfl)
  | cons c d ih =>
    have hc := h1 c List.mem_cons_self
    exact specFrom_step (digit_conv c hc) (next_digit hc).1 (ih fun x hx => h1 x (List.mem_cons_of_mem _ hx))

/-- Where a specification starts, `specFrom` finds it. -/
theorem spec_at {c : Byte} {s w : Str} (hw : IsSpec w) (hp : w <+: c :: s) :
    c = chr '%' ∧ specFrom .d1 s = some (w.length - 1) := by
  obtain ⟨v, e, h⟩ := isSpec_iff.1 hw
  subst e
  obtain ⟨r, hr⟩ := hp
  rw [List.cons_append] at hr
  injection hr with h1 h2
  subst h2
  exact ⟨h1.symm, spec_ld1 h⟩

theorem spec_of {s : Str} {n : Nat} (h : specFrom .d1 s = some n) : n ≤ s.length ∧ IsSpec (chr '%' :: s.take n) := by
  obtain ⟨h1, h2⟩ := specFrom_sound h
  exact ⟨h1, isSpec_iff.2 ⟨_, rfl, h2⟩⟩

theorem IsSpec.length {w : Str} (h : IsSpec w) : 2 ≤ w.length := by
  obtain ⟨d1, f, d2, p, l, c, e, -⟩ := h
  rw [e]
  simp only [List.length_cons, List.length_append, List.length_nil]
  omega

/-- Two specifications at the same place are the same: the longest match is the only one. -/
theorem spec_unique {s w w' : Str} (hw : IsSpec w) (hw' : IsSpec w') (hp : w <+: s) (hp' : w' <+: s) : w = w' := by
  cases s with
  | nil =>
    have h1 := hw.length
    have h2 := hp.length_le
    rw [List.length_nil] at h2
    omega
  | cons c s =>
    have h1 := (spec_at hw hp).2
    have h2 := (spec_at hw' hp').2
    rw [h1] at h2
    injection h2 with h2
    have := hw.length
    have := hw'.length
    have hl : w.length = w'.length := by omega
    rw [List.prefix_iff_eq_take.1 hp, List.prefix_iff_eq_take.1 hp', hl]

theorem noSpec_zero (s : Str) : NoSpec 0 s := fun i hi => absurd hi (Nat.not_lt_zero i)

theorem noSpec_cons {n : Nat} {c : Byte} {s : Str} : NoSpec (n + 1) (c :: s) ↔
    (¬ (c = chr '%' ∧ ∃ k, specFrom .d1 s = some k)) ∧ NoSpec n s := by
  constructor
  · intro h
    refine ⟨?_, fun i hi w hw => h (i + 1) (by omega) w hw⟩
    rintro ⟨hc, k, hk⟩
    subst hc
    obtain ⟨h1, h2⟩ := spec_of hk
    refine h 0 (by omega) _ h2 ?_
    rw [List.drop_zero]
    exact List.cons_prefix_cons.2 ⟨rfl, List.take_prefix _ _⟩
  · rintro ⟨h1, h2⟩ i hi w hw hp
    cases i with
    | zero =>
      obtain ⟨e, h3⟩ := spec_at hw hp
      exact h1 ⟨e, _, h3⟩
    | succ i => exact h2 i (by omega) w hw hp

/-- The leftmost match. -/
theorem regexec_some {s : Str} : ∀ {so eo}, regexec s = some (so, eo) →
    ∃ a w r, s = a ++ w ++ r ∧ a.length = so ∧ eo = so + w.length ∧ IsSpec w ∧ NoSpec so s := by
  induction s with
  | nil => intro so eo h; cases h
  | cons c s ih =>
    intro so eo h
    unfold regexec at h
    split at h
    · next n hn =>
      split at hn
      · next hc =>
        subst hc
        injection h with h
        injection h with h1 h2
        subst h1
        obtain ⟨h3, h4⟩ := spec_of hn
        refine ⟨[], _, s.drop n, ?_, rfl, ?_, h4, noSpec_zero _⟩
        · rw [List.nil_append, List.cons_append, List.take_append_drop]
        · rw [← h2, List.length_cons, List.length_take, Nat.min_eq_left h3, Nat.zero_add]
      · cases hn
    · next hn =>
      cases hr : regexec s with
      | none => rw [hr] at h; cases h
      | some p =>
        rw [hr] at h
        injection h with h
        injection h with h1 h2
        obtain ⟨a, w, r, e, h3, h4, h5, h6⟩ := ih (so := p.1) (eo := p.2) hr
        subst h1
        refine ⟨c :: a, w, r, by rw [e]; rfl, by rw [List.length_cons, h3], by omega, h5, ?_⟩
        refine noSpec_cons.2 ⟨?_, h6⟩
        rintro ⟨hc, k, hk⟩
        rw [if_pos hc, hk] at hn
        cases hn

theorem regexec_none {s : Str} : regexec s = none ↔ NoSpec s.length s := by
  induction s with
  | nil => exact ⟨fun _ => noSpec_zero _, fun _ => rfl⟩
  | cons c s ih =>
    rw [List.length_cons, noSpec_cons, ← ih, regexec]
    constructor
    · intro h
      split at h
      · cases h
      · next hn =>
        refine ⟨?_, ?_⟩
        · rintro ⟨hc, k, hk⟩
          rw [if_pos hc, hk] at hn
          cases hn
        · cases hr : regexec s with
          | none => rfl
          | some p => simp only [hr] at h; cases h
    · rintro ⟨h1, h2⟩
      split
      · next n hn =>
        split at hn
        · next hc => exact absurd ⟨hc, n, hn⟩ h1
        · cases hn
      · rw [h2]; rfl

theorem regexec_at {a w r : Str} (hw : IsSpec w) (hn : NoSpec a.length (a ++ w ++ r)) :
    regexec (a ++ w ++ r) = some (a.length, a.length + w.length) := by
  induction a with
  | nil =>
    obtain ⟨v, e, h⟩ := isSpec_iff.1 hw
    subst e
    rw [List.nil_append, List.cons_append]
    unfold regexec
    rw [if_pos rfl, spec_ld1 h]
    simp only [List.length_nil, List.length_cons, Nat.zero_add]
  | cons c a ih =>
    rw [List.cons_append, List.cons_append, List.length_cons] at hn
    obtain ⟨h1, h2⟩ := noSpec_cons.1 hn
    have := ih h2
    rw [List.cons_append, List.cons_append]
    unfold regexec
    have hnone : (if c = chr '%' then specFrom .d1 (a ++ w ++ r) else none) = none := by
      split
      · next hc =>
        cases hk : specFrom .d1 (a ++ w ++ r) with
        | none => rfl
        | some k => exact absurd ⟨hc, k, hk⟩ h1
      · rfl
    rw [hnone, this]
    simp only [Option.map_some, List.length_cons]
    congr 2
    omega

end Verif.Format
