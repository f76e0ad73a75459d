import Verif.Date.TextProps
/-! # Dates with slashes, years of two digits -/
namespace Verif.Date
open Verif.JString

/-- `mm/dd/yyyy` and, if there is a time, ` hh:mm:ss`. -/
def slashes (m d y : Str) (time : Option (Str × Str × Str)) : Str :=
  m ++ txt "/" ++ d ++ txt "/" ++ y ++
    match time with
    | none => []
    | some (h, mi, s) => txt " " ++ h ++ txt ":" ++ mi ++ txt ":" ++ s

/-- Decimal numerals, with any number of leading zeros, for the time of day. -/
def TimeText (b : Tm) : Option (Str × Str × Str) → Prop
  | none => b.hour = 0 ∧ b.min = 0 ∧ b.sec = 0
  | some (h, mi, s) => NumText.Numeral 10 h b.hour.toNat ∧ NumText.Numeral 10 mi b.min.toNat ∧ NumText.Numeral 10 s b.sec.toNat

/-- The year that a text's year stands for while the clock shows the year `cur`: from 100
itself, and below that the one with these last digits among the 80 years before `cur`,
`cur` and the 19 after. -/
def Means (cur y full : Int) : Prop :=
  100 ≤ y ∧ full = y ∨ y < 100 ∧ full % 100 = y ∧ cur - 80 ≤ full ∧ full < cur + 20

theorem reads_of {t : Str} {n : Nat} (h : NumText.Numeral 10 t n) : Reads t n := by
  obtain ⟨v, dg, ne⟩ := numeral_value h
  exact ⟨v, dg, ne⟩

theorem go_slash {s : Str} {y m d h mi sec tz : Int} {p : Byte} {u : Str} (g : Go s y m d h mi sec tz p (chr '/' :: u)) :
    Go s y m d h mi sec tz (chr '/') u := by
  obtain ⟨i, hi, r, e⟩ := g
  exact ⟨i + 1, lt_of_drop e, r.trans (run_sep (st := ⟨y, m, d, h, mi, sec, tz, p, i⟩) e (by simp)), drop_next e⟩

theorem slash_stops (u : Str) : Stops isDigit (chr '/' :: u) := by intro c hc; simp at hc; subst hc; decide

theorem go_monthNumber {s : Str} {y d h mi sec tz : Int} {p : Byte} {t u : Str} {n : Int}
    (g : Go s y (-1) d h mi sec tz p (t ++ chr '/' :: u)) (ht : Reads t n) (h0 : 1 ≤ n) (hn : n < 70) (hp : p ≠ chr '+' ∧ p ≠ chr '-') :
    Go s y (n - 1) d h mi sec tz 0 (chr '/' :: u) := by
  refine go_number g ht (by simp only [INT_MAX]; omega) (slash_stops _) ?_
  intro i c _ h1
  obtain ⟨rfl, _⟩ := h1 _ _ rfl
  unfold numberAction
  rw [if_neg (by simp [hp.1, hp.2]), if_neg (by omega), if_neg (by decide), if_pos rfl, if_pos (by simp), toByte_of (by omega) (by omega)]

theorem go_dayNumber {s : Str} {y m h mi sec tz : Int} {p : Byte} {t u : Str} {n : Int}
    (g : Go s y m (-1) h mi sec tz p (t ++ chr '/' :: u)) (ht : Reads t n) (h0 : 0 ≤ n) (hn : n < 70) (hp : p ≠ chr '+' ∧ p ≠ chr '-')
    (hm : 0 ≤ m) : Go s y m n h mi sec tz 0 (chr '/' :: u) := by
  refine go_number g ht (by simp only [INT_MAX]; omega) (slash_stops _) ?_
  intro i c _ h1
  obtain ⟨rfl, _⟩ := h1 _ _ rfl
  unfold numberAction
  rw [if_neg (by simp [hp.1, hp.2]), if_neg (by omega), if_neg (by decide), if_pos rfl, if_neg (by simp only; omega), if_pos (by simp),
    toByte_of h0 (by omega)]

/-- The year after month and day, of any size. -/
theorem go_lastYear {s : Str} {m d tz : Int} {p : Byte} {t u : Str} {n : Int} (g : Go s INT_MIN m d (-1) (-1) (-1) tz p (t ++ u)) (ht : Reads t n)
    (hx : n ≤ INT_MAX) (hm : 0 ≤ m) (hd : 0 ≤ d) (hp : p ≠ chr '+' ∧ p ≠ chr '-') (hu : Ends u) : Go s n m d (-1) (-1) (-1) tz 0 u := by
  by_cases hn : 70 ≤ n
  · exact go_year g ht hn hx hu
  · refine go_number g ht hx hu.stops ?_
    intro i c hc0 hc1
    obtain ⟨⟨h1, h2⟩, h3⟩ := ends_char hu hc0 hc1
    unfold numberAction
    rw [if_neg (by simp [hp.1, hp.2]), if_neg (by omega), if_neg h1, if_neg h2, if_neg, if_neg (by simp only; omega), if_neg (by simp only; omega),
      if_neg (by simp only; omega), if_pos ⟨rfl, hm, hd⟩]
    rintro ⟨a, b, c', _⟩
    rcases h3 with h3 | h3 | h3
    · simp only at a; omega
    · exact c' h3
    · exact b h3

theorem toNat_reads {t : Str} {x : Int} (h : NumText.Numeral 10 t x.toNat) (h0 : 0 ≤ x) : Reads t x := by
  have := reads_of h
  rwa [show ((x.toNat : Nat) : Int) = x by omega] at this

theorem fields_slashes {b : Tm} (hb : b.Valid) {m d y : Str} {time : Option (Str × Str × Str)} {n : Nat}
    (hm : NumText.Numeral 10 m (b.mon + 1).toNat) (hd : NumText.Numeral 10 d b.mday.toNat) (hy : NumText.Numeral 10 y n) (hn : n ≤ INT_MAX)
    (ht : TimeText b time) : ∃ h mi s, orZero h = b.hour ∧ orZero mi = b.min ∧ orZero s = b.sec ∧
      parseFields (slashes m d y time) = .ok ⟨n, b.mon, b.mday, h, mi, s, -1, 0, (slashes m d y time).length⟩ := by
  obtain ⟨hm0, hm1⟩ := Readable.mon hb
  obtain ⟨hd0, hd1⟩ := Readable.mday hb
  have rm := toNat_reads hm (by omega)
  have rd := toNat_reads hd hd0
  have ry := reads_of hy
  have hmin : INT_MIN = -2147483648 := rfl
  have hne : slashes m d y time ≠ [] := by simp [slashes, rm.ne]
  have key : ∀ u, slashes m d y time = m ++ chr '/' :: (d ++ chr '/' :: (y ++ u)) → Ends u →
      Go (slashes m d y time) n b.mon b.mday (-1) (-1) (-1) (-1) 0 u := by
    intro u e hu
    generalize slashes m d y time = s at e
    have g0 := go_start s
    conv at g0 => arg 10; rw [e]
    have g1 := go_slash (go_monthNumber g0 rm (by omega) (by omega) (by decide))
    rw [show b.mon + 1 - 1 = b.mon by omega] at g1
    have g2 := go_slash (go_dayNumber g1 rd hd0 hd1 (by decide) hm0)
    exact go_lastYear g2 ry hn hm0 hd0 (by decide) hu
  cases time with
  | none =>
    obtain ⟨h1, h2, h3⟩ := ht
    refine ⟨-1, -1, -1, by rw [h1]; rfl, by rw [h2]; rfl, by rw [h3]; rfl, ?_⟩
    have e : slashes m d y none = m ++ chr '/' :: (d ++ chr '/' :: (y ++ [])) := by
      unfold slashes; simp only [List.append_assoc]; rfl
    have hbr : NoBracket (slashes m d y none) := by
      rw [e]
      exact .append (reads_noBracket rm) (.cons (by decide) (.append (reads_noBracket rd) (.cons (by decide) (.append (reads_noBracket ry) (by unfold NoBracket; simp)))))
    exact go_finish (key [] e nil_ends) hne hbr (by omega) hm0 hd0
  | some t =>
    obtain ⟨h, mi, s⟩ := t
    obtain ⟨h1, h2, h3⟩ := ht
    have rh := toNat_reads h1 hb.hour.1
    have rmi := toNat_reads h2 hb.min.1
    have rs := toNat_reads h3 hb.sec.1
    refine ⟨b.hour, b.min, b.sec, if_neg (by have := hb.hour; omega), if_neg (by have := hb.min; omega), if_neg (by have := hb.sec; omega), ?_⟩
    have e : slashes m d y (some (h, mi, s)) = m ++ chr '/' :: (d ++ chr '/' :: (y ++ (chr ' ' :: (h ++ chr ':' :: (mi ++ chr ':' :: (s ++ [])))))) := by
      unfold slashes; simp only [List.append_assoc, List.append_nil]; rfl
    have hbr : NoBracket (slashes m d y (some (h, mi, s))) := by
      rw [e]
      exact .append (reads_noBracket rm) (.cons (by decide) (.append (reads_noBracket rd) (.cons (by decide) (.append (reads_noBracket ry)
        (.cons (by decide) (.append (reads_noBracket rh) (.cons (by decide) (.append (reads_noBracket rmi) (.cons (by decide) (.append (reads_noBracket rs)
        (by unfold NoBracket; simp)))))))))))
    have g3 := go_blank (key _ e (space_ends _)) (.inl (by decide))
    have g4 := go_hour g3 rh hb.hour.1 (by have := hb.hour; omega) (by decide)
    have g5 := go_minute (go_colon g4) rmi hb.min.1 (by have := hb.min; omega) (by decide) hb.hour.1
    have g6 := go_second (go_colon g5) rs hb.sec.1 (by have := hb.sec; omega) (by decide) hb.min.1 nil_ends
    exact go_finish g6 hne hbr (by omega) hm0 hd0

/-- `century` turns the text's year into the year that it stands for. -/
theorem century_of {z : Zone} {now : Int} (hn : Clock now) {bn : Tm} (hs : Shows z now bn) (hc : 80 ≤ bn.year + 1900) {y full : Int}
    (hy : 0 ≤ y) (hm : Means (bn.year + 1900) y full) (w : World) :
    century z now y w = .ret (if y < 100 then { w with tm := { bn with year := bn.year + 1900 } } else w) full := by
  have hz := z.small
  have r1 : Representable z now := representable_of (by unfold Clock at hn; omega) (by unfold Clock at hn; omega)
  have e := (representable_iff z now).1 r1
  have hb := shows_unique hs
  rw [← hb] at e
  unfold century
  rcases hm with ⟨h1, rfl⟩ | ⟨h1, h2, h3, h4⟩
  · rw [if_neg (by omega), if_neg (by omega)]; rfl
  · rw [if_pos h1, if_pos h1, e]
    have hr := (localtime_some e).2
    have hyr : bn.year ≤ 2000000000 := by
      have e' : (broken (now + z.off)).year = yearOf ((now + z.off) / 86400) - 1900 := rfl
      have ⟨g1, g2⟩ := yearOf_spec ((now + z.off) / 86400)
      rw [hb, e']
      unfold Clock at hn
      generalize yearOf ((now + z.off) / 86400) = y at *
      unfold yearStart leaps at g1 g2
      omega
    simp only [OM.bind_eq]
    rw [chk32_ok (by simp only [INT_MIN]; omega) (by simp only [INT_MAX]; omega), OM.lift_ok, OM.bind_ret, OM.bind_read, OM.bind_write, OM.ret_apply]
    have ht : (bn.year + 1900 - 80).tdiv 100 = (bn.year + 1900 - 80) / 100 := Int.tdiv_eq_ediv_of_nonneg (by omega)
    rw [ht]
    split
    · congr 1; omega
    · congr 1; omega

theorem parse_slashes {z : Zone} {now : Int} (hn : Clock now) {bn : Tm} (hs : Shows z now bn) (hc : 80 ≤ bn.year + 1900)
    {b : Tm} (hb : b.Valid) {u : Int} (hu : Names z u b) (hr : Representable z u) (hl : Long (1000 * u))
    {m d y : Str} {time : Option (Str × Str × Str)} {n : Nat}
    (hm : NumText.Numeral 10 m (b.mon + 1).toNat) (hd : NumText.Numeral 10 d b.mday.toNat) (hy : NumText.Numeral 10 y n) (hn' : n ≤ INT_MAX)
    (ht : TimeText b time) (hmean : Means (bn.year + 1900) n (b.year + 1900)) (w : World) :
    step z (.parse (slashes m d y time) now) w =
      .ret (if (n : Int) < 100 then { w with tm := { bn with year := bn.year + 1900 } } else w) (.int (1000 * u)) := by
  have e : seconds b - z.off = u := names_unique (names_seconds z b) hu
  subst e
  obtain ⟨h, mi, s, e1, e2, e3, hf⟩ := fields_slashes hb hm hd hy hn' ht
  refine step_parse ?_
  obtain ⟨h1, h2⟩ := hl
  have hse : seconds ⟨b.year + 1900 - 1900, b.mon, b.mday, b.hour, b.min, b.sec, 0⟩ = seconds b := by
    unfold seconds; simp only; rw [show b.year + 1900 - 1900 + 1900 = b.year + 1900 by omega]
  unfold parse
  rw [hf]
  simp only [OM.bind_eq, OM.lift_ok, OM.bind_ret]
  rw [OM.bind_of_ret (century_of hn hs hc (by omega) hmean w), if_pos trivial, e1, e2, e3, mktime_of (by rw [hse]; exact hr), hse]
  have : chk64 ((seconds b - z.off) * 1000) = .ok (1000 * (seconds b - z.off)) := by
    rw [Int.mul_comm]; exact if_pos ⟨h1, h2⟩
  rw [this, OM.lift_ok, OM.ret_apply]

/-! ## C117: dates with slashes -/

/-- The text `mm/dd/yyyy`, with or without ` hh:mm:ss`, parses to the instant that shows
these fields here, and years of two digits to the year nearest in the past 80 or next 19. -/
theorem C117_slashes (z : Zone) (now : Int) (hn : Clock now) (bn : Tm) (hs : Shows z now bn) (hc : 80 ≤ bn.year + 1900)
    (b : Tm) (hb : b.Valid) (u : Int) (hu : Names z u b) (hr : Representable z u) (hl : Long (1000 * u))
    (m d y : Str) (time : Option (Str × Str × Str)) (n : Nat)
    (hm : NumText.Numeral 10 m (b.mon + 1).toNat) (hd : NumText.Numeral 10 d b.mday.toNat) (hy : NumText.Numeral 10 y n) (hn' : n ≤ INT_MAX)
    (ht : TimeText b time) (hmean : Means (bn.year + 1900) n (b.year + 1900)) (w : World) :
    ∃ w', step z (.parse (slashes m d y time) now) w = .ret w' (.int (1000 * u)) :=
  ⟨_, parse_slashes hn hs hc hb hu hr hl hm hd hy hn' ht hmean w⟩

/-- A year of four digits leaves every Date as it is. -/
theorem C117_pure_partial (z : Zone) (now : Int) (hn : Clock now) (bn : Tm) (hs : Shows z now bn) (hc : 80 ≤ bn.year + 1900)
    (b : Tm) (hb : b.Valid) (u : Int) (hu : Names z u b) (hr : Representable z u) (hl : Long (1000 * u))
    (m d y : Str) (time : Option (Str × Str × Str)) (n : Nat)
    (hm : NumText.Numeral 10 m (b.mon + 1).toNat) (hd : NumText.Numeral 10 d b.mday.toNat) (hy : NumText.Numeral 10 y n) (hn' : n ≤ INT_MAX)
    (ht : TimeText b time) (h100 : (n : Int) = b.year + 1900) (h : 100 ≤ n) (w : World) :
    step z (.parse (slashes m d y time) now) w = .ret w (.int (1000 * u)) := by
  rw [parse_slashes hn hs hc hb hu hr hl hm hd hy hn' ht (.inl ⟨by omega, h100.symm⟩) w, if_neg (by omega)]

/-- But reading a year of two digits changes what every Date shows: its year becomes
the clock's, counted from 0 and not from 1900. -/
theorem C117_year_wrong (z : Zone) (now : Int) (hn : Clock now) (bn : Tm) (hs : Shows z now bn) (hc : 80 ≤ bn.year + 1900)
    (b : Tm) (hb : b.Valid) (u : Int) (hu : Names z u b) (hr : Representable z u) (hl : Long (1000 * u))
    (m d y : Str) (time : Option (Str × Str × Str)) (n : Nat)
    (hm : NumText.Numeral 10 m (b.mon + 1).toNat) (hd : NumText.Numeral 10 d b.mday.toNat) (hy : NumText.Numeral 10 y n)
    (ht : TimeText b time) (h100 : n < 100) (hmean : Means (bn.year + 1900) n (b.year + 1900)) (w : World) (i : Nat) :
    ∃ w', runHist (step z) [.parse (slashes m d y time) now, .get i .year, .get i .month] w =
      .ok (w', [.ok (.int (1000 * u)), .ok (.int (bn.year + 1900)), .ok (.int bn.mon)]) := by
  rw [runHist_cons (parse_slashes hn hs hc hb hu hr hl hm hd hy (by simp only [INT_MAX]; omega) ht hmean w), if_pos (by omega),
    runHist_cons (step_get z i .year _), runHist_cons (step_get z i .month _)]
  exact ⟨_, rfl⟩

example : NumText.Numeral 10 (txt "02") 2 ∧ NumText.Numeral 10 (txt "29") 29 ∧ NumText.Numeral 10 (txt "00") 0 ∧
    slashes (txt "02") (txt "29") (txt "00") (some (txt "2", txt "9", txt "0")) = txt "02/29/00 2:9:0" :=
  ⟨.snoc (t := txt "0") (.one (d := 0) (by unfold NumText.IsDigit; decide)) (d := 2) (by unfold NumText.IsDigit; decide),
    .snoc (t := txt "2") (.one (d := 2) (by unfold NumText.IsDigit; decide)) (d := 9) (by unfold NumText.IsDigit; decide),
    .snoc (t := txt "0") (.one (d := 0) (by unfold NumText.IsDigit; decide)) (d := 0) (by unfold NumText.IsDigit; decide), rfl⟩

/-- 29 February of the year 0 of this century, 02:09:00, with the clock at 16 November 2026. -/
example : Tm.Valid ⟨100, 1, 29, 2, 9, 0, 0⟩ ∧ Means (126 + 1900) 0 (100 + 1900) ∧ Clock 1794842746 ∧
    Shows utcZone 1794842746 (broken (1794842746 + utcZone.off)) ∧ (broken (1794842746 + utcZone.off)).year = 126 :=
  ⟨⟨by unfold Day.Valid monthLength; decide, by decide, by decide, by decide⟩, .inr (by decide), by unfold Clock; omega, broken_shows _ _, by decide +kernel⟩

end Verif.Date
