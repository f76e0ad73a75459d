import Verif.Date.ParseLemmas
/-! # Reading the texts that dates write -/
namespace Verif.Date
open Verif.JString

/-! ## The texts, token by token -/

/-- The zones whose names `parse` knows, and their minutes west of Greenwich. -/
def knownZones : List (Str × Int) :=
  [(txt "GMT", 0), (txt "UT", 0), (txt "UTC", 0), (txt "EST", 300), (txt "EDT", 240), (txt "CST", 360), (txt "CDT", 300),
   (txt "MST", 420), (txt "MDT", 360), (txt "PST", 480), (txt "PDT", 420)]

theorem known_facts : ∀ e ∈ knownZones, e.1 ≠ [] ∧ (∀ c ∈ e.1, isAlpha c = true) ∧ lookup e.1 wordTable.reverse = .ok (some (10000 + e.2)) ∧
    0 ≤ e.2 ∧ e.2 ≤ 480 := by decide +kernel

theorem dayName_facts : ∀ n : Fin 7, nameIn dayNames n.val ≠ [] ∧ (∀ c ∈ nameIn dayNames n.val, isAlpha c = true) ∧
    lookup (nameIn dayNames n.val) wordTable.reverse = .ok (some 0) := by decide +kernel

theorem monthName_facts : ∀ n : Fin 12, nameIn monthNames n.val ≠ [] ∧ (∀ c ∈ nameIn monthNames n.val, isAlpha c = true) ∧
    lookup (nameIn monthNames n.val) wordTable.reverse = .ok (some (2 + n.val)) := by decide +kernel

theorem nameOfDay {i : Int} (h : 0 ≤ i) (h' : i < 7) : nameIn dayNames i ≠ [] ∧ (∀ c ∈ nameIn dayNames i, isAlpha c = true) ∧
    lookup (nameIn dayNames i) wordTable.reverse = .ok (some 0) := by
  have := dayName_facts ⟨i.toNat, by omega⟩
  have e : ((i.toNat : Nat) : Int) = i := by omega
  simp only [e] at this
  exact this

theorem nameOfMonth {i : Int} (h : 0 ≤ i) (h' : i < 12) : nameIn monthNames i ≠ [] ∧ (∀ c ∈ nameIn monthNames i, isAlpha c = true) ∧
    lookup (nameIn monthNames i) wordTable.reverse = .ok (some (2 + i)) := by
  have := monthName_facts ⟨i.toNat, by omega⟩
  have e : ((i.toNat : Nat) : Int) = i := by omega
  simp only [e] at this
  exact this

theorem space_ends (u : Str) : Ends (chr ' ' :: u) := by intro c hc; simp at hc; subst hc; exact .inl (by decide)
theorem comma_ends (u : Str) : Ends (chr ',' :: u) := by intro c hc; simp at hc; subst hc; exact .inr rfl
theorem space_stops (u : Str) : Stops isAlpha (chr ' ' :: u) := by intro c hc; simp at hc; subst hc; decide
theorem nil_ends : Ends [] := by intro c hc; simp at hc
theorem nil_stops (p : Byte → Bool) : Stops p [] := by intro c hc; simp at hc

/-- The clock `hh:mm:ss`, followed by a space or a comma. -/
theorem go_clock {s : Str} {y m d tz : Int} {p : Byte} {u : Str} {h mi sec : Int}
    (g : Go s y m d (-1) (-1) (-1) tz p (two h ++ chr ':' :: (two mi ++ chr ':' :: (two sec ++ u)))) (hp : p ≠ chr '+' ∧ p ≠ chr '-')
    (hh : 0 ≤ h ∧ h < 24) (hmi : 0 ≤ mi ∧ mi < 60) (hs : 0 ≤ sec ∧ sec < 60) (hu : Ends u) : Go s y m d h mi sec tz 0 u := by
  have g1 := go_hour g (two_reads hh.1 (by omega)) hh.1 (by omega) hp
  have g2 := go_minute (go_colon g1) (two_reads hmi.1 (by omega)) hmi.1 (by omega) (by decide) hh.1
  exact go_second (go_colon g2) (two_reads hs.1 (by omega)) hs.1 (by omega) (by decide) hmi.1 hu

theorem monthLength_le (y m : Int) : monthLength y m ≤ 31 := by
  unfold monthLength; repeat' split
  all_goals omega

theorem go_month {s : Str} {y d h mi sec tz : Int} {p : Byte} {u : Str} {i : Int} (g : Go s y (-1) d h mi sec tz p (nameIn monthNames i ++ u))
    (h0 : 0 ≤ i) (h1 : i < 12) (hs : Stops isAlpha u) : Go s y i d h mi sec tz 0 u := by
  obtain ⟨a, b, c⟩ := nameOfMonth h0 h1
  refine go_word g a b hs c fun j => ?_
  unfold wordAction
  rw [if_pos (by omega), if_neg (by omega), if_neg (by omega), if_pos (by omega), if_pos (by simp only; omega),
    toByte_of (by omega) (by omega)]
  simp only [Outcome.ok.injEq, PS.mk.injEq, and_true, true_and]
  omega

theorem go_zone {s : Str} {y m d h mi sec tz : Int} {p : Byte} {w u : Str} {k : Int} (g : Go s y m d h mi sec tz p (w ++ u))
    (hk : (w, k) ∈ knownZones) (hs : Stops isAlpha u) : Go s y m d h mi sec k 0 u := by
  obtain ⟨a, b, c, h0, h1⟩ := known_facts _ hk
  refine go_word g a b hs c fun j => ?_
  unfold wordAction
  simp only at h0 h1
  rw [if_pos (by simp only; omega), if_neg (by simp only; omega), if_neg (by simp only; omega), if_neg (by simp only; omega)]
  simp only [Outcome.ok.injEq, PS.mk.injEq, and_true, true_and]
  omega

/-- Texts without brackets. -/
def NoBracket (s : Str) : Prop := chr '(' ∉ s

theorem NoBracket.append {s t : Str} (hs : NoBracket s) (ht : NoBracket t) : NoBracket (s ++ t) := by
  intro h
  rcases List.mem_append.1 h with h | h
  · exact hs h
  · exact ht h

theorem NoBracket.cons {c : Byte} {t : Str} (hc : c ≠ chr '(') (ht : NoBracket t) : NoBracket (c :: t) := by
  intro h
  rcases List.mem_cons.1 h with h | h
  · exact hc h.symm
  · exact ht h

theorem reads_noBracket {t : Str} {n : Int} (h : Reads t n) : NoBracket t := fun hm => absurd (h.digits _ hm) (by decide)
theorem alpha_noBracket {t : Str} (h : ∀ c ∈ t, isAlpha c = true) : NoBracket t := fun hm => absurd (h _ hm) (by decide)

/-- Fields that `parse` can return: in their ranges, with a year from 100. -/
structure Readable (b : Tm) : Prop where
  valid : b.Valid
  low : 100 ≤ b.year + 1900
  high : b.year + 1900 ≤ INT_MAX

theorem Readable.mon {b : Tm} (h : b.Valid) : 0 ≤ b.mon ∧ b.mon < 12 := by
  have h1 := h.day.1
  have h2 := h.day.2.1
  simp only at h1 h2; omega

theorem Readable.mday {b : Tm} (h : b.Valid) : 0 ≤ b.mday ∧ b.mday < 70 := by
  have h1 := h.day.2.2.1
  have h2 := h.day.2.2.2
  have := monthLength_le (b.year + 1900) b.mon
  simp only at h1 h2; omega

/-- The text of a Date, up to the name of the zone. -/
theorem go_front {z : Zone} {b : Tm} (hb : b.Valid) (hw : 0 ≤ b.wday ∧ b.wday < 7) (hz : NoBracket z.name)
    (hy : 0 ≤ b.year + 1900) (hy' : b.year + 1900 ≤ INT_MAX) :
    Go (fullText z b) INT_MIN b.mon b.mday b.hour b.min b.sec (-1) 0 (z.name ++ chr ' ' :: number (b.year + 1900)) ∧ fullText z b ≠ [] ∧
      NoBracket (fullText z b) ∧ Reads (number (b.year + 1900)) (b.year + 1900) := by
  obtain ⟨hm0, hm1⟩ := Readable.mon hb
  obtain ⟨hd0, hd1⟩ := Readable.mday hb
  have hmax : INT_MAX = 2147483647 := rfl
  have e : fullText z b = nameIn dayNames b.wday ++ chr ' ' :: (nameIn monthNames b.mon ++ chr ' ' :: (two b.mday ++ chr ' ' :: (two b.hour ++
      chr ':' :: (two b.min ++ chr ':' :: (two b.sec ++ chr ' ' :: (z.name ++ chr ' ' :: number (b.year + 1900))))))) := by
    unfold fullText clock
    simp only [List.append_assoc]
    rfl
  have hdn := nameOfDay hw.1 hw.2
  have hmn := nameOfMonth hm0 hm1
  have ry := number_reads (x := b.year + 1900) (by omega) (by omega)
  have rd := two_reads hd0 (by omega)
  have rh := two_reads hb.hour.1 (by have := hb.hour; omega)
  have rm := two_reads hb.min.1 (by have := hb.min; omega)
  have rs := two_reads hb.sec.1 (by have := hb.sec; omega)
  have hbr : NoBracket (fullText z b) := by
    rw [e]
    exact .append (alpha_noBracket hdn.2.1) (.cons (by decide) (.append (alpha_noBracket hmn.2.1) (.cons (by decide) (.append (reads_noBracket rd)
      (.cons (by decide) (.append (reads_noBracket rh) (.cons (by decide) (.append (reads_noBracket rm) (.cons (by decide) (.append (reads_noBracket rs)
      (.cons (by decide) (.append hz (.cons (by decide) (reads_noBracket ry))))))))))))))
  have hne : fullText z b ≠ [] := by rw [e]; simp [hdn.1]
  generalize hs : fullText z b = s at hbr hne ⊢
  rw [hs] at e
  have g0 := go_start s
  conv at g0 => arg 10; rw [e]
  have g1 := go_blank (go_word g0 hdn.1 hdn.2.1 (space_stops _) hdn.2.2 (fun i => rfl)) (.inl (by decide))
  have g2 := go_blank (go_month g1 hm0 hm1 (space_stops _)) (.inl (by decide))
  have g3 := go_blank (go_day g2 rd hd0 hd1 (by decide) (space_ends _)) (.inl (by decide))
  exact ⟨go_blank (go_clock g3 (by decide) hb.hour hb.min hb.sec (space_ends _)) (.inl (by decide)), hne, hbr, ry⟩

theorem fields_full {z : Zone} {k : Int} (hk : (z.name, k) ∈ knownZones) {b : Tm} (hb : Readable b) (hw : 0 ≤ b.wday ∧ b.wday < 7) :
    parseFields (fullText z b) = .ok ⟨b.year + 1900, b.mon, b.mday, b.hour, b.min, b.sec, k, 0, (fullText z b).length⟩ := by
  have hy := hb.low
  obtain ⟨g4, hne, hbr, ry⟩ := go_front hb.valid hw (alpha_noBracket (known_facts _ hk).2.1) (by omega) hb.high
  have g5 := go_blank (go_zone g4 hk (space_stops _)) (.inl (by decide))
  have g6 := go_year (u := []) (by rw [List.append_nil]; exact g5) ry (by omega) hb.high nil_ends
  exact go_finish g6 hne hbr (by simp only [INT_MIN]; omega) (Readable.mon hb.valid).1 (Readable.mday hb.valid).1

/-- Names of zones, with a letter or several, that are not in the table. -/
def unknownZones : List Str :=
  [txt "CET", txt "CEST", txt "EET", txt "WET", txt "BST", txt "MSK", txt "IST", txt "ICT", txt "JST", txt "KST", txt "HKT", txt "AEST", txt "NZST"]

theorem unknown_facts : ∀ w ∈ unknownZones, w ≠ [] ∧ (∀ c ∈ w, isAlpha c = true) ∧ lookup w wordTable.reverse = .ok none := by decide +kernel

theorem go_throw {s : Str} {y m d h mi sec tz : Int} {p : Byte} {rest : Str} (g : Go s y m d h mi sec tz p rest) (hs : s ≠ []) (hb : NoBracket s)
    (ht : ∀ i, s.drop i = rest → parseBody s ⟨y, m, d, h, mi, sec, tz, p, i⟩ = .throw .interrupted) : parseFields s = .throw .interrupted := by
  obtain ⟨i, hi, ⟨hle, k, hk, r⟩, e⟩ := g
  have h0 : PS.start.index = 0 := rfl
  simp only at hk hle
  unfold parseFields
  rw [if_neg (by simpa using hs), removeBracket_none hb, Outcome.bind_eq, Outcome.bind_ok]
  have : s.length + 1 = (s.length - k + 1) + k := by omega
  rw [this, r, iter, ht i e]
  rfl

theorem fields_unknown {z : Zone} (hz : z.name ∈ unknownZones) {b : Tm} (hb : b.Valid) (hw : 0 ≤ b.wday ∧ b.wday < 7)
    (hy : 0 ≤ b.year + 1900) (hy' : b.year + 1900 ≤ INT_MAX) : parseFields (fullText z b) = .throw .interrupted := by
  obtain ⟨h1, h2, h3⟩ := unknown_facts _ hz
  obtain ⟨g4, hne, hbr, _⟩ := go_front hb hw (alpha_noBracket h2) hy hy'
  refine go_throw g4 hne hbr fun i hi => ?_
  generalize fullText z b = s at hi
  generalize z.name = w at h1 h2 h3 hi
  obtain ⟨c, w', rfl⟩ := List.exists_cons_of_ne_nil h1
  have hc := alpha_other c (h2 c (by simp))
  have hd : s.drop i = c :: (w' ++ chr ' ' :: number (b.year + 1900)) := by simpa using hi
  have hle : (c :: w').length ≤ s.length := by
    have := congrArg List.length hi
    simp at this ⊢; omega
  unfold parseBody
  rw [if_pos (lt_of_drop hd), charAt_drop hd, Outcome.bind_eq, Outcome.bind_ok, if_neg hc.1, if_neg (by simp [hc.2.1]), if_neg hc.2.2]
  unfold wordToken
  rw [sequenceChar_read s (c :: w') _ _ _ [] hi (by simp) (by omega) h2 (space_stops _)]
  simp only [Outcome.bind_eq, Outcome.bind_ok, List.nil_append]
  rw [if_neg (by simp), h3]
  rfl

/-- A number from 70 where the year is already known. -/
theorem throw_year {s : Str} {y m d h mi sec tz : Int} {p : Byte} {t : Str} {n : Int} (g : Go s y m d h mi sec tz p t) (ht : Reads t n)
    (hn : 70 ≤ n) (hx : n ≤ INT_MAX) (hy : y ≠ INT_MIN) (hp : p ≠ chr '+' ∧ p ≠ chr '-') (hs : s ≠ []) (hb : NoBracket s) :
    parseFields s = .throw .interrupted := by
  refine go_throw g hs hb fun i hi => ?_
  obtain ⟨c, t', rfl⟩ := List.exists_cons_of_ne_nil ht.ne
  have hl := congrArg List.length hi
  simp at hl
  have hlt := lt_of_drop hi
  have hc := ht.digits c (by simp)
  unfold parseBody
  rw [if_pos hlt, charAt_drop hi, Outcome.bind_eq, Outcome.bind_ok, if_neg (digit_not_blank c hc), if_pos hc]
  unfold numberToken
  rw [sequenceNumber_read s (c :: t') [] _ _ 0 (by simpa using hi) (by simp) (by simp; omega) ht.digits (nil_stops _) (by omega) (by rw [ht.value]; exact hx)]
  simp only [Outcome.bind_eq, Outcome.bind_ok]
  rw [if_neg (by simp; omega), ht.value]
  unfold numberAction
  rw [if_neg (by simp [hp.1, hp.2]), if_pos hn, if_pos hy]
  rfl

theorem fields_numeric {z : Zone} {c : Byte} {t : Str} {n : Nat} (hz : z.name = c :: t) (hc : c = chr '+' ∨ c = chr '-')
    (ht : NumText.Numeral 10 t n) (hn : n ≤ 9999) {b : Tm} (hb : b.Valid) (hw : 0 ≤ b.wday ∧ b.wday < 7)
    (hy : 70 ≤ b.year + 1900) (hy' : b.year + 1900 ≤ INT_MAX) : parseFields (fullText z b) = .throw .interrupted := by
  obtain ⟨v, dg, ne⟩ := numeral_value ht
  have rt : Reads t n := ⟨v, dg, ne⟩
  have hmax : INT_MAX = 2147483647 := rfl
  have hmin : INT_MIN = -2147483648 := rfl
  obtain ⟨g4, hne, hbr, ry⟩ := go_front hb hw (by rw [hz]; exact .cons (by rcases hc with rfl | rfl <;> decide) (reads_noBracket rt)) (by omega) hy'
  rw [hz] at g4
  obtain ⟨hm0, _⟩ := Readable.mon hb
  obtain ⟨hd0, _⟩ := Readable.mday hb
  generalize fullText z b = s at g4 hne hbr
  have g5 : Go s INT_MIN b.mon b.mday b.hour b.min b.sec (-1) c (t ++ chr ' ' :: number (b.year + 1900)) := by
    obtain ⟨i, hi, r, e⟩ := g4
    have e : s.drop i = c :: (t ++ chr ' ' :: number (b.year + 1900)) := by simpa using e
    exact ⟨i + 1, lt_of_drop e, r.trans (run_sep (st := ⟨INT_MIN, b.mon, b.mday, b.hour, b.min, b.sec, -1, 0, i⟩) e (by rcases hc with h | h <;> simp [h])), drop_next e⟩
  have g6 : Go s n b.mon b.mday b.hour b.min b.sec (-1) 0 (chr ' ' :: number (b.year + 1900)) := by
    by_cases h70 : 70 ≤ (n : Int)
    · exact go_year g5 rt h70 (by omega) (space_ends _)
    · refine go_number g5 rt (by omega) (space_ends _).stops ?_
      intro i c' h0 h1
      obtain ⟨rfl, _⟩ := h1 _ _ rfl
      unfold numberAction
      rw [if_neg (by simp), if_neg h70, if_neg (by decide), if_neg (by decide), if_neg, if_neg (by simp only; have := hb.min; omega),
        if_neg (by simp only; have := hb.sec; omega), if_neg (by simp only; omega), if_pos ⟨rfl, hm0, hd0⟩]
      rintro ⟨_, _, h3, _⟩
      exact h3 (by decide)
  exact throw_year (go_blank g6 (.inl (by decide))) ry hy hy' (by omega) (by decide) hne hbr

theorem hour12_facts : ∀ h : Fin 24, 1 ≤ hour12 h.val ∧ hour12 h.val ≤ 12 ∧
    (h.val ≤ 11 → hour12 h.val = 12 ∧ h.val = 0 ∨ hour12 h.val = h.val ∧ h.val < 12 ∧ h.val ≠ 0) ∧
    (11 < h.val → hour12 h.val = 12 ∧ h.val = 12 ∨ hour12 h.val + 12 = h.val ∧ hour12 h.val < 12) := by decide +kernel

theorem hour12_of {h : Int} (h0 : 0 ≤ h) (h1 : h < 24) : 1 ≤ hour12 h ∧ hour12 h ≤ 12 ∧
    (h ≤ 11 → hour12 h = 12 ∧ h = 0 ∨ hour12 h = h ∧ h < 12 ∧ h ≠ 0) ∧
    (11 < h → hour12 h = 12 ∧ h = 12 ∨ hour12 h + 12 = h ∧ hour12 h < 12) := by
  have := hour12_facts ⟨h.toNat, by omega⟩
  have e : ((h.toNat : Nat) : Int) = h := by omega
  simp only [e] at this
  refine ⟨this.1, this.2.1, fun hh => ?_, fun hh => ?_⟩
  · have := this.2.2.1 (by omega); omega
  · have := this.2.2.2 (by omega); omega

theorem halfDay_facts : ∀ w ∈ [txt "AM", txt "PM"], w ≠ [] ∧ (∀ c ∈ w, isAlpha c = true) ∧
    lookup w wordTable.reverse = .ok (some (if w = txt "PM" then 1 else 14)) := by decide +kernel

theorem go_halfDay {s : Str} {y m d mi sec tz h : Int} {p : Byte} {u : Str}
    (g : Go s y m d (hour12 h) mi sec tz p ((if h > 11 then txt "PM" else txt "AM") ++ u)) (h0 : 0 ≤ h) (h1 : h < 24) (hs : Stops isAlpha u) :
    Go s y m d h mi sec tz 0 u := by
  have hf := hour12_of h0 h1
  by_cases hh : h > 11
  · rw [if_pos hh] at g
    obtain ⟨a, b, c⟩ := halfDay_facts (txt "PM") (by simp)
    rw [if_pos rfl] at c
    refine go_word g a b hs c fun j => ?_
    unfold wordAction
    rw [if_pos (by omega), if_pos rfl, if_neg (by simp only; omega)]
    rcases hf.2.2.2 (by omega) with h2 | h2
    · rw [if_neg (by simp only; omega)]
      simp only [Outcome.ok.injEq, PS.mk.injEq, and_true, true_and]; omega
    · rw [if_pos (by simp only; omega)]
      simp only [Outcome.ok.injEq, PS.mk.injEq, and_true, true_and]; omega
  · rw [if_neg hh] at g
    obtain ⟨a, b, c⟩ := halfDay_facts (txt "AM") (by simp)
    rw [if_neg (by decide)] at c
    refine go_word g a b hs c fun j => ?_
    unfold wordAction
    rw [if_pos (by omega), if_neg (by omega), if_pos rfl, if_neg (by simp only; omega)]
    rcases hf.2.2.1 (by omega) with h2 | h2
    · rw [if_pos (by simp only; omega)]
      simp only [Outcome.ok.injEq, PS.mk.injEq, and_true, true_and]; omega
    · rw [if_neg (by simp only; omega)]
      simp only [Outcome.ok.injEq, PS.mk.injEq, and_true, true_and]; omega

theorem fields_locale {b : Tm} (hb : Readable b) :
    parseFields (localeText b) = .ok ⟨b.year + 1900, b.mon, b.mday, b.hour, b.min, b.sec, -1, 0, (localeText b).length⟩ := by
  obtain ⟨hm0, hm1⟩ := Readable.mon hb.valid
  obtain ⟨hd0, hd1⟩ := Readable.mday hb.valid
  have hy := hb.low
  have hy' := hb.high
  have hmax : INT_MAX = 2147483647 := rfl
  have e : localeText b = nameIn monthNames b.mon ++ chr ' ' :: (two b.mday ++ chr ',' :: chr ' ' :: (number (b.year + 1900) ++ chr ' ' ::
      (two (hour12 b.hour) ++ chr ':' :: (two b.min ++ chr ':' :: (two b.sec ++ chr ' ' :: ((if b.hour > 11 then txt "PM" else txt "AM") ++ [])))))) := by
    unfold localeText
    simp only [List.append_assoc, List.append_nil]
    rfl
  have hmn := nameOfMonth hm0 hm1
  have hhr := hour12_of hb.valid.hour.1 hb.valid.hour.2
  have ry := number_reads (x := b.year + 1900) (by omega) (by omega)
  have rd := two_reads hd0 (by omega)
  have rh := two_reads (x := hour12 b.hour) (by omega) (by omega)
  have rm := two_reads hb.valid.min.1 (by have := hb.valid.min; omega)
  have rs := two_reads hb.valid.sec.1 (by have := hb.valid.sec; omega)
  have hap : NoBracket ((if b.hour > 11 then txt "PM" else txt "AM") ++ []) := by
    split <;> (unfold NoBracket; decide)
  have hbr : NoBracket (localeText b) := by
    rw [e]
    exact .append (alpha_noBracket hmn.2.1) (.cons (by decide) (.append (reads_noBracket rd)
      (.cons (by decide) (.cons (by decide) (.append (reads_noBracket ry) (.cons (by decide) (.append (reads_noBracket rh) (.cons (by decide)
      (.append (reads_noBracket rm) (.cons (by decide) (.append (reads_noBracket rs) (.cons (by decide) hap))))))))))))
  have hne : localeText b ≠ [] := by rw [e]; simp [hmn.1]
  generalize hs : localeText b = s at hbr hne ⊢
  rw [hs] at e
  have g0 := go_start s
  conv at g0 => arg 10; rw [e]
  have g2 := go_blank (go_month g0 hm0 hm1 (space_stops _)) (.inl (by decide))
  have g3 := go_blank (go_blank (go_day g2 rd hd0 hd1 (by decide) (comma_ends _)) (.inr rfl)) (.inl (by decide))
  have g4 := go_blank (go_year g3 ry (by omega) hy' (space_ends _)) (.inl (by decide))
  have g5 := go_blank (go_clock g4 (by decide) (by omega) hb.valid.min hb.valid.sec (space_ends _)) (.inl (by decide))
  have g6 := go_halfDay g5 hb.valid.hour.1 hb.valid.hour.2 (nil_stops _)
  exact go_finish g6 hne hbr (by simp only [INT_MIN]; omega) hm0 hd0

theorem fields_gmt {b : Tm} (hb : Readable b) :
    parseFields (gmtText b) = .ok ⟨b.year + 1900, b.mon, b.mday, b.hour, b.min, b.sec, 0, 0, (gmtText b).length⟩ := by
  obtain ⟨hm0, hm1⟩ := Readable.mon hb.valid
  obtain ⟨hd0, hd1⟩ := Readable.mday hb.valid
  have hy := hb.low
  have hy' := hb.high
  have hmax : INT_MAX = 2147483647 := rfl
  have e : gmtText b = two b.mday ++ chr ' ' :: (nameIn monthNames b.mon ++ chr ' ' :: (number (b.year + 1900) ++ chr ' ' ::
      (two b.hour ++ chr ':' :: (two b.min ++ chr ':' :: (two b.sec ++ chr ' ' :: (txt "GMT" ++ [])))))) := by
    unfold gmtText clock
    simp only [List.append_assoc, List.append_nil]
    rfl
  have hmn := nameOfMonth hm0 hm1
  have ry := number_reads (x := b.year + 1900) (by omega) (by omega)
  have rd := two_reads hd0 (by omega)
  have rh := two_reads hb.valid.hour.1 (by have := hb.valid.hour; omega)
  have rm := two_reads hb.valid.min.1 (by have := hb.valid.min; omega)
  have rs := two_reads hb.valid.sec.1 (by have := hb.valid.sec; omega)
  have hbr : NoBracket (gmtText b) := by
    rw [e]
    exact .append (reads_noBracket rd) (.cons (by decide) (.append (alpha_noBracket hmn.2.1)
      (.cons (by decide) (.append (reads_noBracket ry) (.cons (by decide) (.append (reads_noBracket rh) (.cons (by decide)
      (.append (reads_noBracket rm) (.cons (by decide) (.append (reads_noBracket rs) (.cons (by decide) (by unfold NoBracket; decide))))))))))))
  have hne : gmtText b ≠ [] := by rw [e]; simp
  generalize hs : gmtText b = s at hbr hne ⊢
  rw [hs] at e
  have g0 := go_start s
  conv at g0 => arg 10; rw [e]
  have g2 := go_blank (go_day g0 rd hd0 hd1 (by decide) (space_ends _)) (.inl (by decide))
  have g3 := go_blank (go_month g2 hm0 hm1 (space_stops _)) (.inl (by decide))
  have g4 := go_blank (go_year g3 ry (by omega) hy' (space_ends _)) (.inl (by decide))
  have g5 := go_blank (go_clock g4 (by decide) hb.valid.hour hb.valid.min hb.valid.sec (space_ends _)) (.inl (by decide))
  have g6 := go_zone (k := 0) g5 (by decide) (nil_stops _)
  exact go_finish g6 hne hbr (by simp only [INT_MIN]; omega) hm0 hd0

/-! ## The instant -/

/-- The clock of the machine is within thirty million years of the epoch. -/
def Clock (now : Int) : Prop := -1000000000000000 ≤ now ∧ now ≤ 1000000000000000

/-- A time in milliseconds that fits a `long`. -/
def Long (ms : Int) : Prop := -9223372036854775808 ≤ ms ∧ ms ≤ 9223372036854775807

theorem offset_of (z : Zone) {now : Int} (h : Clock now) (w : World) :
    offsetFromUTC z now w = .ret { w with tm := broken (now + z.off) } (-z.off) := by
  obtain ⟨h1, h2⟩ := h
  have hz := z.small
  have r1 : Representable z now := representable_of (by omega) (by omega)
  have r2 : Representable z (now - z.off) := representable_of (by omega) (by omega)
  have e1 := (representable_iff z now).1 r1
  have hy := (localtime_some ((representable_iff z _).1 r2)).2
  have e3 : now - z.off + z.off = now := by omega
  rw [e3] at hy
  have e2 : gmtime now = some (broken now) := by
    unfold gmtime; simp only; rw [if_pos hy]
  have m1 : (mktime z (broken now)).1 = now - z.off := by
    rw [mktime_of (by rw [seconds_broken]; exact r2), seconds_broken]
  unfold offsetFromUTC
  rw [e1, e2]
  simp only [OM.bind_eq, OM.bind_read, OM.bind_write, OM.ret_apply]
  rw [m1, mktime_broken r1]
  congr 1
  simp only; omega

theorem parse_local {z : Zone} {now : Int} {s : Str} {b : Tm} {n : Nat} (hb : Readable b) (hr : Representable z (seconds b - z.off))
    (hl : Long (1000 * (seconds b - z.off)))
    (hf : parseFields s = .ok ⟨b.year + 1900, b.mon, b.mday, b.hour, b.min, b.sec, -1, 0, n⟩) (w : World) :
    parse z now s w = .ret w (1000 * (seconds b - z.off)) := by
  have hy := hb.low
  obtain ⟨h1, h2⟩ := hl
  have hs : seconds ⟨b.year + 1900 - 1900, b.mon, b.mday, b.hour, b.min, b.sec, 0⟩ = seconds b := by
    unfold seconds; simp only; rw [show b.year + 1900 - 1900 + 1900 = b.year + 1900 by omega]
  unfold parse
  rw [hf]
  simp only [OM.bind_eq, OM.lift_ok, OM.bind_ret]
  unfold century
  rw [if_neg (by omega), OM.bind_ret, if_pos trivial]
  rw [orZero, orZero, orZero, if_neg (by have := hb.valid.hour; omega), if_neg (by have := hb.valid.min; omega), if_neg (by have := hb.valid.sec; omega)]
  rw [mktime_of (by rw [hs]; exact hr), hs]
  have : chk64 ((seconds b - z.off) * 1000) = .ok (1000 * (seconds b - z.off)) := by
    rw [Int.mul_comm]; exact if_pos ⟨h1, h2⟩
  rw [this, OM.lift_ok, OM.ret_apply]

theorem parse_zoned {z : Zone} {now : Int} {s : Str} {b : Tm} {n : Nat} {k : Int} (hb : Readable b) (hr : Representable z (seconds b - z.off))
    (hk : 0 ≤ k ∧ k ≤ 480) (hn : Clock now) (hl : Long (1000 * (seconds b + 60 * k)))
    (hf : parseFields s = .ok ⟨b.year + 1900, b.mon, b.mday, b.hour, b.min, b.sec, k, 0, n⟩) (w : World) :
    parse z now s w = .ret { w with tm := broken (now + z.off) } (1000 * (seconds b + 60 * k)) := by
  have hy := hb.low
  obtain ⟨h1, h2⟩ := hl
  have hs : seconds ⟨b.year + 1900 - 1900, b.mon, b.mday, b.hour, b.min, b.sec, 0⟩ = seconds b := by
    unfold seconds; simp only; rw [show b.year + 1900 - 1900 + 1900 = b.year + 1900 by omega]
  unfold parse
  rw [hf]
  simp only [OM.bind_eq, OM.lift_ok, OM.bind_ret]
  unfold century
  rw [if_neg (by omega), OM.bind_ret, if_neg (by omega), OM.bind_of_ret (offset_of z hn w)]
  rw [orZero, orZero, orZero, if_neg (by have := hb.valid.hour; omega), if_neg (by have := hb.valid.min; omega), if_neg (by have := hb.valid.sec; omega)]
  rw [mktime_of (by rw [hs]; exact hr), hs]
  rw [chk32_ok (by simp only [INT_MIN]; omega) (by simp only [INT_MAX]; omega), OM.lift_ok, OM.bind_ret]
  have e : ((seconds b - z.off) + k * 60 - -z.off) * 1000 = 1000 * (seconds b + 60 * k) := by omega
  have : chk64 (((seconds b - z.off) + k * 60 - -z.off) * 1000) = .ok (1000 * (seconds b + 60 * k)) := by
    rw [e]; exact if_pos ⟨h1, h2⟩
  rw [this, OM.lift_ok, OM.ret_apply]

end Verif.Date
