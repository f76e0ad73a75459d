import Verif.Date.Props
import Verif.MediaType.Lemmas
import Verif.JString.Lemmas
/-! # Reading the tokens of a date -/
namespace Verif.Date
open Verif.JString

/-! ## Characters -/

theorem charAt_drop {s : Str} {i : Nat} {c : Byte} {u : Str} (h : s.drop i = c :: u) : charAt s i = .ok c := by
  rw [charAt_lt (lt_of_drop h)]
  congr 1
  have := get?_of_drop h
  rw [List.getElem?_eq_getElem (lt_of_drop h)] at this
  exact Option.some.inj this

theorem drop_append {s t u : Str} {i : Nat} (h : s.drop i = t ++ u) : s.drop (i + t.length) = u := by
  rw [← List.drop_drop, h]; simp

theorem len_of_drop {s : Str} {i : Nat} {u : Str} (h : s.drop i = u) (hu : u ≠ []) : i < s.length := by
  cases u with
  | nil => exact absurd rfl hu
  | cons c u => exact lt_of_drop h

/-- The character after the token is not of the token's kind. -/
def Stops (p : Byte → Bool) (u : Str) : Prop := ∀ c ∈ u.head?, p c = false

/-- The value of digits read after `acc`. -/
def value : Int → Str → Int
  | acc, [] => acc
  | acc, c :: ds => value (acc * 10 + (c.toNat - 48)) ds

theorem value_ge : ∀ (ds : Str) (acc : Int), 0 ≤ acc → (∀ c ∈ ds, isDigit c = true) → acc ≤ value acc ds
  | [], _, _, _ => Int.le_refl _
  | c :: ds, acc, h, hd => by
    have hc : isDigit c = true := hd c (by simp)
    simp only [isDigit, Bool.and_eq_true, decide_eq_true_eq] at hc
    have := value_ge ds (acc * 10 + (c.toNat - 48)) (by omega) (fun c hc => hd c (by simp [hc]))
    simp only [value]; omega

theorem sequenceNumber_read (s : Str) : ∀ (ds u : Str) (fuel i : Nat) (acc : Int), s.drop i = ds ++ u → ds ++ u ≠ [] → ds.length < fuel →
    (∀ c ∈ ds, isDigit c = true) → Stops isDigit u → 0 ≤ acc → value acc ds ≤ INT_MAX →
    sequenceNumber s fuel i acc = .ok (value acc ds, i + ds.length) := by
  intro ds
  induction ds with
  | nil =>
    intro u fuel i acc h hne hf _ hs h0 hv
    cases u with
    | nil => exact absurd rfl hne
    | cons c u =>
      cases fuel with
      | zero => simp at hf
      | succ n =>
        unfold sequenceNumber
        rw [charAt_drop (by simpa using h), Outcome.bind_eq, Outcome.bind_ok]
        have : isDigit c = false := hs c (by simp)
        simp [this, value]
  | cons c ds ih =>
    intro u fuel i acc h hne hf hd hs h0 hv
    have hc : isDigit c = true := hd c (by simp)
    have hc' := hc
    simp only [isDigit, Bool.and_eq_true, decide_eq_true_eq] at hc'
    have hds : ∀ c ∈ ds, isDigit c = true := fun c hc => hd c (by simp [hc])
    have hge := value_ge ds (acc * 10 + (c.toNat - 48)) (by omega) hds
    simp only [value] at hv
    cases fuel with
    | zero => simp at hf
    | succ n =>
      unfold sequenceNumber
      rw [charAt_drop (by simpa using h), Outcome.bind_eq, Outcome.bind_ok, if_pos hc]
      rw [chk32_ok (by simp only [INT_MIN, INT_MAX] at *; omega) (by simp only [INT_MIN, INT_MAX] at *; omega), Outcome.bind_eq, Outcome.bind_ok]
      rw [chk32_ok (by simp only [INT_MIN, INT_MAX] at *; omega) (by simp only [INT_MIN, INT_MAX] at *; omega), Outcome.bind_eq, Outcome.bind_ok]
      have h' : s.drop (i + 1) = ds ++ u := drop_next (by simpa using h)
      have hl := lt_of_drop (l := s) (i := i) (by simpa using h)
      by_cases hn : ds ++ u = []
      · have : ds = [] := (List.append_eq_nil_iff.1 hn).1
        subst this
        rw [hn] at h'
        rw [if_neg (by have := congrArg List.length h'; simp at this; omega)]
        rfl
      · rw [if_pos (len_of_drop h' hn), ih u n (i + 1) _ h' hn (by simp at hf; omega) hds hs (by omega) hv]
        simp only [value, List.length_cons]
        congr 2; omega

theorem sequenceChar_read (s : Str) : ∀ (ws u : Str) (fuel i : Nat) (acc : Str), s.drop i = ws ++ u → ws ++ u ≠ [] → ws.length < fuel →
    (∀ c ∈ ws, isAlpha c = true) → Stops isAlpha u → sequenceChar s fuel i acc = .ok (acc ++ ws, i + ws.length) := by
  intro ws
  induction ws with
  | nil =>
    intro u fuel i acc h hne hf _ hs
    cases u with
    | nil => exact absurd rfl hne
    | cons c u =>
      cases fuel with
      | zero => simp at hf
      | succ n =>
        unfold sequenceChar
        rw [charAt_drop (by simpa using h), Outcome.bind_eq, Outcome.bind_ok]
        have : isAlpha c = false := hs c (by simp)
        simp [this]
  | cons c ws ih =>
    intro u fuel i acc h hne hf hd hs
    have hc : isAlpha c = true := hd c (by simp)
    have hds : ∀ c ∈ ws, isAlpha c = true := fun c hc => hd c (by simp [hc])
    cases fuel with
    | zero => simp at hf
    | succ n =>
      unfold sequenceChar
      rw [charAt_drop (by simpa using h), Outcome.bind_eq, Outcome.bind_ok, if_pos hc]
      have h' : s.drop (i + 1) = ws ++ u := drop_next (by simpa using h)
      by_cases hn : ws ++ u = []
      · have : ws = [] := (List.append_eq_nil_iff.1 hn).1
        subst this
        rw [hn] at h'
        rw [if_neg (by have := congrArg List.length h'; simp at this; omega)]
        rfl
      · rw [if_pos (len_of_drop h' hn), ih u n (i + 1) _ h' hn (by simp at hf; omega) hds hs]
        simp only [List.length_cons, List.append_assoc, List.cons_append, List.nil_append]
        congr 2; omega

/-! ## Turns of the loop -/

/-- The loop gets from `st` to `st'` in no more turns than characters. -/
def Runs (s : Str) (st st' : PS) : Prop :=
  st.index ≤ st'.index ∧ ∃ k, k ≤ st'.index - st.index ∧ ∀ n, iter (parseBody s) (n + k) st = iter (parseBody s) n st'

theorem Runs.refl (s : Str) (st : PS) : Runs s st st := ⟨Nat.le_refl _, 0, by omega, fun _ => rfl⟩

theorem Runs.trans {s : Str} {a b c : PS} (h : Runs s a b) (h' : Runs s b c) : Runs s a c := by
  obtain ⟨l, k, hk, e⟩ := h
  obtain ⟨l', k', hk', e'⟩ := h'
  refine ⟨by omega, k' + k, by omega, fun n => ?_⟩
  rw [← Nat.add_assoc, e, e']

theorem Runs.one {s : Str} {st st' : PS} (h : parseBody s st = .ok (.next st')) (hi : st.index < st'.index) : Runs s st st' := by
  refine ⟨by omega, 1, by omega, fun n => ?_⟩
  rw [iter, h]

theorem Runs.finish {s : Str} {st' : PS} (h : Runs s PS.start st') (hi : st'.index = s.length) :
    iter (parseBody s) (s.length + 1) PS.start = .ok st' := by
  obtain ⟨_, k, hk, e⟩ := h
  have h0 : PS.start.index = 0 := rfl
  have : s.length + 1 = (s.length - k + 1) + k := by omega
  rw [this, e, iter]
  unfold parseBody
  rw [if_neg (by omega)]

theorem run_blank {s : Str} {st : PS} {c : Byte} {u : Str} (h : s.drop st.index = c :: u) (hc : blank c = true ∨ c = chr ',') :
    Runs s st { st with index := st.index + 1 } := by
  refine .one ?_ (Nat.lt_succ_self _)
  unfold parseBody
  rw [if_pos (lt_of_drop h), charAt_drop h, Outcome.bind_eq, Outcome.bind_ok, if_pos hc]

theorem run_sep {s : Str} {st : PS} {c : Byte} {u : Str} (h : s.drop st.index = c :: u)
    (hc : c = chr '/' ∨ c = chr ':' ∨ c = chr '+' ∨ c = chr '-') : Runs s st { st with prev := c, index := st.index + 1 } := by
  refine .one ?_ (Nat.lt_succ_self _)
  unfold parseBody
  rw [if_pos (lt_of_drop h), charAt_drop h, Outcome.bind_eq, Outcome.bind_ok, if_neg, if_neg, if_pos hc]
  · rcases hc with rfl | rfl | rfl | rfl <;> decide
  · rcases hc with rfl | rfl | rfl | rfl <;> decide

theorem digit_not_blank (c : Byte) (h : isDigit c = true) : ¬ (blank c = true ∨ c = chr ',') := by
  revert h; apply byte_all (P := fun c => isDigit c = true → ¬ (blank c = true ∨ c = chr ',')); decide +kernel

theorem alpha_other (c : Byte) (h : isAlpha c = true) :
    ¬ (blank c = true ∨ c = chr ',') ∧ isDigit c = false ∧ ¬ (c = chr '/' ∨ c = chr ':' ∨ c = chr '+' ∨ c = chr '-') := by
  revert h
  apply byte_all (P := fun c => isAlpha c = true → ¬ (blank c = true ∨ c = chr ',') ∧ isDigit c = false ∧ ¬ (c = chr '/' ∨ c = chr ':' ∨ c = chr '+' ∨ c = chr '-'))
  decide +kernel

theorem run_word {s : Str} {st st' : PS} {w u : Str} {a : Int} (h : s.drop st.index = w ++ u) (hne : w ≠ [])
    (hw : ∀ c ∈ w, isAlpha c = true) (hs : Stops isAlpha u) (hl : lookup w wordTable.reverse = .ok (some a))
    (ha : wordAction { st with index := st.index + w.length } a = .ok st') (hi : st'.index = st.index + w.length) :
    Runs s st { st' with prev := 0 } := by
  have hlen : 0 < w.length := List.length_pos_iff.2 hne
  refine .one ?_ (by simp only; omega)
  obtain ⟨c, w', rfl⟩ := List.exists_cons_of_ne_nil hne
  have hc := alpha_other c (hw c (by simp))
  have hd : s.drop st.index = c :: (w' ++ u) := by simpa using h
  have hle : (c :: w').length ≤ s.length := by
    have := congrArg List.length h
    simp at this ⊢; omega
  unfold parseBody
  rw [if_pos (lt_of_drop hd), charAt_drop hd, Outcome.bind_eq, Outcome.bind_ok, if_neg hc.1, if_neg (by simp [hc.2.1]), if_neg hc.2.2]
  unfold wordToken
  rw [sequenceChar_read s (c :: w') u _ _ [] h (by simp) (by omega) hw hs]
  simp only [Outcome.bind_eq, Outcome.bind_ok, List.nil_append]
  rw [if_neg (by omega), hl]
  simp only [Outcome.bind_ok]
  rw [ha]
  rfl

theorem run_number {s : Str} {st st' : PS} {ds u : Str} {n : Int} {c : Byte} (h : s.drop st.index = ds ++ u) (hne : ds ≠ [])
    (hd : ∀ c ∈ ds, isDigit c = true) (hs : Stops isDigit u) (hv : value 0 ds = n) (hn : n ≤ INT_MAX)
    (hc : (u.head?).getD (ds.headD 0) = c)
    (ha : numberAction s.length { st with index := st.index + ds.length } n c = .ok st') (hi : st'.index = st.index + ds.length) :
    Runs s st { st' with prev := 0 } := by
  have hlen : 0 < ds.length := List.length_pos_iff.2 hne
  refine .one ?_ (by simp only; omega)
  obtain ⟨d, ds', rfl⟩ := List.exists_cons_of_ne_nil hne
  have hdd := hd d (by simp)
  have hdr : s.drop st.index = d :: (ds' ++ u) := by simpa using h
  have hl := congrArg List.length h
  simp only [List.length_drop, List.length_append] at hl
  have hlt := lt_of_drop hdr
  unfold parseBody
  rw [if_pos hlt, charAt_drop hdr, Outcome.bind_eq, Outcome.bind_ok, if_neg (digit_not_blank d hdd), if_pos hdd]
  unfold numberToken
  rw [sequenceNumber_read s (d :: ds') u _ _ 0 h (by simp) (by omega) hd hs (by omega) (by rw [hv]; exact hn)]
  simp only [Outcome.bind_eq, Outcome.bind_ok]
  cases u with
  | nil =>
    rw [if_neg (by simp at hl ⊢; omega)]
    simp at hc
    subst hc
    rw [hv, ha]
    rfl
  | cons e u =>
    rw [if_pos (by simp at hl ⊢; omega), charAt_drop (drop_append h)]
    simp at hc
    simp only [Outcome.bind_ok]
    rw [hc, hv, ha]
    rfl

/-! ## Digits -/

theorem value_append : ∀ (a b : Str) (acc : Int), value acc (a ++ b) = value (value acc a) b
  | [], _, _ => rfl
  | c :: a, b, acc => value_append a b _

theorem digit_of (c : Byte) (d : Nat) (h : NumText.IsDigit 10 c d) : isDigit c = true ∧ c.toNat = 48 + d := by
  obtain ⟨h1, h2⟩ := h
  unfold NumText.digitVal at h1
  split at h1
  · rename_i hr
    cases h1
    simp only [isDigit, Bool.and_eq_true, decide_eq_true_eq]
    omega
  · split at h1
    · cases h1; omega
    · split at h1
      · cases h1; omega
      · cases h1

theorem numeral_value {t : Str} {n : Nat} (h : NumText.Numeral 10 t n) : value 0 t = n ∧ (∀ c ∈ t, isDigit c = true) ∧ t ≠ [] := by
  induction h with
  | one h =>
    have := digit_of _ _ h
    refine ⟨?_, by simp [this.1], by simp⟩
    simp only [value]; omega
  | snoc _ h ih =>
    have hd := digit_of _ _ h
    refine ⟨?_, ?_, by simp⟩
    · rw [value_append, ih.1]
      simp only [value]; omega
    · intro c hc
      rcases List.mem_append.1 hc with hc | hc
      · exact ih.2.1 c hc
      · rw [List.mem_singleton.1 hc]; exact hd.1

/-- A text that reads as the number `n`. -/
structure Reads (t : Str) (n : Int) : Prop where
  value : value 0 t = n
  digits : ∀ c ∈ t, isDigit c = true
  ne : t ≠ []

theorem number_reads {x : Int} (h : 0 ≤ x) (h' : x.natAbs < 2 ^ 64) : Reads (number x) x := by
  have := numeral_value (NumText.digits_numeral (b := 10) (by omega) (by omega) 64 x.natAbs h' (by omega))
  unfold number
  rw [if_neg (by omega)]
  exact ⟨by rw [this.1]; omega, this.2.1, this.2.2⟩

theorem two_reads {x : Int} (h : 0 ≤ x) (h' : x.natAbs < 2 ^ 64) : Reads (two x) x := by
  have := number_reads h h'
  unfold two
  split
  · refine ⟨this.value, ?_, by simp⟩
    intro c hc
    rcases List.mem_cons.1 hc with rfl | hc
    · decide
    · exact this.digits c hc
  · exact this

/-! ## Brackets -/

theorem removeBracket_none {s : Str} (h : chr '(' ∉ s) : removeBracket s = .ok s := by
  unfold removeBracket
  rw [iter]
  unfold bracketBody
  rw [MediaType.indexOfChar_absent 40 (chr '(') (by decide) (by decide) s h]
  simp

/-! ## Tokens -/

/-- Reading `s` has come to the text `rest` with these variables. -/
def Go (s : Str) (y m d h mi sec tz : Int) (p : Byte) (rest : Str) : Prop :=
  ∃ i, i ≤ s.length ∧ Runs s PS.start ⟨y, m, d, h, mi, sec, tz, p, i⟩ ∧ s.drop i = rest

theorem go_start (s : Str) : Go s INT_MIN (-1) (-1) (-1) (-1) (-1) (-1) 0 s := ⟨0, Nat.zero_le _, Runs.refl _ _, rfl⟩

theorem drop_le {s t u : Str} {i : Nat} (hi : i ≤ s.length) (h : s.drop i = t ++ u) : i + t.length ≤ s.length := by
  have := congrArg List.length h
  simp at this; omega

theorem go_blank {s : Str} {y m d h mi sec tz : Int} {p c : Byte} {u : Str} (g : Go s y m d h mi sec tz p (c :: u))
    (hc : blank c = true ∨ c = chr ',') : Go s y m d h mi sec tz p u := by
  obtain ⟨i, hi, r, e⟩ := g
  exact ⟨i + 1, lt_of_drop e, r.trans (run_blank (st := ⟨y, m, d, h, mi, sec, tz, p, i⟩) e hc), drop_next e⟩

theorem go_colon {s : Str} {y m d h mi sec tz : Int} {p : Byte} {u : Str} (g : Go s y m d h mi sec tz p (chr ':' :: u)) :
    Go s y m d h mi sec tz (chr ':') u := by
  obtain ⟨i, hi, r, e⟩ := g
  exact ⟨i + 1, lt_of_drop e, r.trans (run_sep (st := ⟨y, m, d, h, mi, sec, tz, p, i⟩) e (by simp)), drop_next e⟩

theorem go_word {s : Str} {y m d h mi sec tz : Int} {y' m' d' h' mi' sec' tz' : Int} {p : Byte} {w u : Str} {a : Int}
    (g : Go s y m d h mi sec tz p (w ++ u)) (hne : w ≠ [])
    (hw : ∀ c ∈ w, isAlpha c = true) (hs : Stops isAlpha u) (hl : lookup w wordTable.reverse = .ok (some a))
    (ha : ∀ i, wordAction ⟨y, m, d, h, mi, sec, tz, p, i⟩ a = .ok ⟨y', m', d', h', mi', sec', tz', p, i⟩) :
    Go s y' m' d' h' mi' sec' tz' 0 u := by
  obtain ⟨i, hi, r, e⟩ := g
  exact ⟨i + w.length, drop_le hi e, r.trans (run_word (st := ⟨y, m, d, h, mi, sec, tz, p, i⟩) e hne hw hs hl (ha _) rfl), drop_append e⟩

theorem go_number {s : Str} {y m d h mi sec tz : Int} {y' m' d' h' mi' sec' tz' : Int} {p : Byte} {t u : Str} {n : Int}
    (g : Go s y m d h mi sec tz p (t ++ u)) (ht : Reads t n) (hn : n ≤ INT_MAX) (hs : Stops isDigit u)
    (ha : ∀ i c, (u = [] → isDigit c = true ∧ i = s.length) → (∀ e v, u = e :: v → c = e ∧ i < s.length) →
      numberAction s.length ⟨y, m, d, h, mi, sec, tz, p, i⟩ n c = .ok ⟨y', m', d', h', mi', sec', tz', p, i⟩) :
    Go s y' m' d' h' mi' sec' tz' 0 u := by
  obtain ⟨i, hi, r, e⟩ := g
  have hl := congrArg List.length e
  simp only [List.length_drop, List.length_append] at hl
  refine ⟨i + t.length, drop_le hi e, r.trans (run_number (st := ⟨y, m, d, h, mi, sec, tz, p, i⟩) e ht.ne ht.digits hs ht.value hn rfl
    (ha _ _ ?_ ?_) rfl), drop_append e⟩
  · rintro rfl
    obtain ⟨c, t', rfl⟩ := List.exists_cons_of_ne_nil ht.ne
    refine ⟨by simpa using ht.digits c (by simp), ?_⟩
    simp at hl ⊢; omega
  · rintro e' v rfl
    refine ⟨by simp, ?_⟩
    simp at hl ⊢; omega

/-- What follows a number: nothing, a blank or a comma. -/
def Ends (u : Str) : Prop := ∀ c ∈ u.head?, blank c = true ∨ c = chr ','

theorem Ends.stops {u : Str} (h : Ends u) : Stops isDigit u := by
  intro c hc
  cases e : isDigit c
  · rfl
  · exact absurd (h c hc) (digit_not_blank c e)

theorem blank_facts (c : Byte) (h : blank c = true ∨ c = chr ',') : c ≠ chr ':' ∧ c ≠ chr '/' := by
  revert h; apply byte_all (P := fun c => blank c = true ∨ c = chr ',' → c ≠ chr ':' ∧ c ≠ chr '/'); decide +kernel

theorem digit_facts (c : Byte) (h : isDigit c = true) : c ≠ chr ':' ∧ c ≠ chr '/' := by
  revert h; apply byte_all (P := fun c => isDigit c = true → c ≠ chr ':' ∧ c ≠ chr '/'); decide +kernel

/-- Facts about the character that `numberAction` sees. -/
theorem ends_char {s u : Str} (h : Ends u) {i : Nat} {c : Byte} (h0 : u = [] → isDigit c = true ∧ i = s.length)
    (h1 : ∀ e v, u = e :: v → c = e ∧ i < s.length) :
    (c ≠ chr ':' ∧ c ≠ chr '/') ∧ (i ≥ s.length ∨ (blank c = true ∨ c = chr ',')) := by
  cases u with
  | nil => exact ⟨digit_facts c (h0 rfl).1, .inl (by have := (h0 rfl).2; omega)⟩
  | cons e v =>
    obtain ⟨rfl, _⟩ := h1 e v rfl
    have := h c (by simp)
    exact ⟨blank_facts c this, .inr this⟩

theorem toByte_of {n : Int} (h : 0 ≤ n) (h' : n < 256) : toByte n = n := Int.emod_eq_of_lt h h'

theorem go_hour {s : Str} {y m d mi sec tz : Int} {p : Byte} {t u : Str} {n : Int}
    (g : Go s y m d (-1) mi sec tz p (t ++ chr ':' :: u)) (ht : Reads t n) (h0 : 0 ≤ n) (hn : n < 70) (hp : p ≠ chr '+' ∧ p ≠ chr '-') :
    Go s y m d n mi sec tz 0 (chr ':' :: u) := by
  refine go_number g ht (by simp only [INT_MAX]; omega) (by intro c hc; simp at hc; subst hc; decide) ?_
  intro i c _ h1
  obtain ⟨rfl, _⟩ := h1 _ _ rfl
  unfold numberAction
  rw [if_neg (by simp [hp.1, hp.2]), if_neg (by omega), if_pos rfl, if_pos (by simp), toByte_of h0 (by omega)]

theorem go_minute {s : Str} {y m d h sec tz : Int} {p : Byte} {t u : Str} {n : Int}
    (g : Go s y m d h (-1) sec tz p (t ++ chr ':' :: u)) (ht : Reads t n) (h0 : 0 ≤ n) (hn : n < 70) (hp : p ≠ chr '+' ∧ p ≠ chr '-')
    (hh : 0 ≤ h) : Go s y m d h n sec tz 0 (chr ':' :: u) := by
  refine go_number g ht (by simp only [INT_MAX]; omega) (by intro c hc; simp at hc; subst hc; decide) ?_
  intro i c _ h1
  obtain ⟨rfl, _⟩ := h1 _ _ rfl
  unfold numberAction
  rw [if_neg (by simp [hp.1, hp.2]), if_neg (by omega), if_pos rfl, if_neg (by simp only; omega), if_pos (by simp), toByte_of h0 (by omega)]

theorem go_second {s : Str} {y m d h mi tz : Int} {p : Byte} {t u : Str} {n : Int}
    (g : Go s y m d h mi (-1) tz p (t ++ u)) (ht : Reads t n) (h0 : 0 ≤ n) (hn : n < 70) (hp : p ≠ chr '+' ∧ p ≠ chr '-')
    (hm : 0 ≤ mi) (hu : Ends u) : Go s y m d h mi n tz 0 u := by
  refine go_number g ht (by simp only [INT_MAX]; omega) hu.stops ?_
  intro i c hc0 hc1
  obtain ⟨⟨h1, h2⟩, h3⟩ := ends_char hu hc0 hc1
  unfold numberAction
  rw [if_neg (by simp [hp.1, hp.2]), if_neg (by omega), if_neg h1, if_neg h2, if_neg, if_neg (by simp only; omega), if_pos (by simp only; omega),
    toByte_of h0 (by omega)]
  rintro ⟨a, b, c', _⟩
  rcases h3 with h3 | h3 | h3
  · simp only at a; omega
  · exact c' h3
  · exact b h3

theorem go_day {s : Str} {y m tz : Int} {p : Byte} {t u : Str} {n : Int}
    (g : Go s y m (-1) (-1) (-1) (-1) tz p (t ++ u)) (ht : Reads t n) (h0 : 0 ≤ n) (hn : n < 70) (hp : p ≠ chr '+' ∧ p ≠ chr '-')
    (hu : Ends u) : Go s y m n (-1) (-1) (-1) tz 0 u := by
  refine go_number g ht (by simp only [INT_MAX]; omega) hu.stops ?_
  intro i c hc0 hc1
  obtain ⟨⟨h1, h2⟩, h3⟩ := ends_char hu hc0 hc1
  unfold numberAction
  rw [if_neg (by simp [hp.1, hp.2]), if_neg (by omega), if_neg h1, if_neg h2, if_neg, if_neg (by simp only; omega), if_neg (by simp only; omega),
    if_pos (by simp only; omega), toByte_of h0 (by omega)]
  rintro ⟨a, b, c', _⟩
  rcases h3 with h3 | h3 | h3
  · simp only at a; omega
  · exact c' h3
  · exact b h3

theorem go_year {s : Str} {m d h mi sec tz : Int} {p : Byte} {t u : Str} {n : Int}
    (g : Go s INT_MIN m d h mi sec tz p (t ++ u)) (ht : Reads t n) (hn : 70 ≤ n) (hx : n ≤ INT_MAX)
    (hu : Ends u) : Go s n m d h mi sec tz 0 u := by
  refine go_number g ht hx hu.stops ?_
  intro i c hc0 hc1
  obtain ⟨_, h3⟩ := ends_char hu hc0 hc1
  unfold numberAction
  rw [if_neg (by simp), if_pos hn, if_neg (by simp), if_pos]
  rcases h3 with h3 | h3 | h3
  · exact .inr (.inr (.inr h3))
  · exact .inl h3
  · exact .inr (.inl h3)

theorem go_finish {s : Str} {y m d h mi sec tz : Int} {p : Byte} (g : Go s y m d h mi sec tz p []) (hs : s ≠ []) (hb : chr '(' ∉ s)
    (hy : y ≠ INT_MIN) (hm : 0 ≤ m) (hd : 0 ≤ d) : parseFields s = .ok ⟨y, m, d, h, mi, sec, tz, p, s.length⟩ := by
  obtain ⟨i, hi, r, e⟩ := g
  have : i = s.length := by have := congrArg List.length e; simp at this; omega
  subst this
  unfold parseFields
  rw [if_neg (by simpa using hs), removeBracket_none hb, Outcome.bind_eq, Outcome.bind_ok, r.finish rfl, Outcome.bind_eq, Outcome.bind_ok, if_neg]
  simp only; omega

end Verif.Date
