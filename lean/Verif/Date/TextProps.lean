import Verif.Date.Texts
/-! # Properties of construction, texts and parsing -/
namespace Verif.Date
open Verif.JString

/-! ## C100: construction from fields -/

theorem step_make {z : Zone} {b : Tm} (hr : Representable z (seconds b - z.off)) (i : Nat) (w : World) :
    step z (.make i b.year b.mon b.mday b.hour b.min b.sec) w = .ret (w.put z i (seconds b - z.off)) .done := by
  have hs : seconds ⟨b.year, b.mon, b.mday, b.hour, b.min, b.sec, 0⟩ = seconds b := rfl
  simp only [step, OM.bind_eq, initFields]
  rw [mktime_of (by rw [hs]; exact hr), hs, OM.bind_of_ret (initTime_of hr i w), OM.ret_apply]

theorem step_getTime {z : Zone} {i : Nat} {w : World} (h : Long (1000 * (w.date i).timer)) :
    step z (.getTime i) w = .ret w (.int (1000 * (w.date i).timer)) := by
  simp only [step, OM.bind_eq, OM.bind_read]
  have : chk64 ((w.date i).timer * 1000) = .ok (1000 * (w.date i).timer) := by
    rw [Int.mul_comm]; exact if_pos h
  rw [this, OM.lift_ok, OM.bind_ret, OM.ret_apply]

/-- A Date made from fields in their ranges shows these fields, and its time is the instant they name. -/
theorem C100_fields (z : Zone) (w : World) (i : Nat) (b : Tm) (u : Int) (hb : b.Valid) (hu : Names z u b) (hr : Representable z u)
    (hl : Long (1000 * u)) (f : Field) (hf : f ≠ .day) :
    ∃ w', runHist (step z) [.make i b.year b.mon b.mday b.hour b.min b.sec, .get i f, .getTime i] w =
      .ok (w', [.ok .done, .ok (.int (b.shown f)), .ok (.int (1000 * u))]) := by
  have e : seconds b - z.off = u := names_unique (names_seconds z b) hu
  subst e
  rw [runHist_cons (step_make hr i w), runHist_cons (step_get z i f _)]
  have ht : ((w.put z i (seconds b - z.off)).date i).timer = seconds b - z.off := by
    show (setDate _ i _ i).timer = _
    rw [setDate_same]
  rw [runHist_cons (step_getTime (by rw [ht]; exact hl)), ht]
  refine ⟨w.put z i (seconds b - z.off), ?_⟩
  have : (w.put z i (seconds b - z.off)).tm.shown f = b.shown f := by
    show (broken (seconds b - z.off + z.off)).shown f = _
    rw [show seconds b - z.off + z.off = seconds b by omega, broken_seconds hb]
    cases f <;> first | rfl | exact absurd rfl hf
  rw [this]
  rfl

/-- 29 February 2000, 12:30:45. -/
example : ∃ u, Tm.Valid ⟨100, 1, 29, 12, 30, 45, 0⟩ ∧ Names utcZone u ⟨100, 1, 29, 12, 30, 45, 0⟩ ∧ Representable utcZone u ∧ Long (1000 * u) := by
  refine ⟨951827445, ⟨by unfold Day.Valid; decide, by decide, by decide, by decide⟩, ?_, representable_of (by omega) (by omega), by unfold Long; omega⟩
  have : seconds ⟨100, 1, 29, 12, 30, 45, 0⟩ - utcZone.off = 951827445 := by decide +kernel
  rw [← this]
  exact names_seconds _ _

/-! ## C101: parsing toString -/

theorem wday_of (u : Int) : 0 ≤ (broken u).wday ∧ (broken u).wday < 7 := by
  show 0 ≤ (4 + u / 86400) % 7 ∧ (4 + u / 86400) % 7 < 7
  omega

theorem step_text {z : Zone} {i : Nat} {w : World} {t : Int} (h : Holds z i w t) :
    step z (.text i) w = .ret w (.text (fullText z (broken (t + z.off)))) := by
  simp only [step, OM.bind_eq, OM.bind_read, OM.ret_apply]
  rw [h.2.1, cstr_eq_self (fun h0 => fullText_plain h.2.2 _ h0 rfl)]

theorem hist_text {z : Zone} {ms : Int} (hr : Representable z (ms.tdiv 1000)) (i : Nat) (w : World) :
    runHist (step z) [.ofMillis i ms, .text i] w =
      .ok (w.put z i (ms.tdiv 1000), [.ok .done, .ok (.text (fullText z (broken (ms.tdiv 1000 + z.off))))]) := by
  rw [runHist_cons (step_ofMillis hr i w), runHist_cons (step_text (holds_put hr))]
  rfl

theorem step_parse {z : Zone} {s : Str} {now : Int} {w w' : World} {v : Int} (h : parse z now s w = .ret w' v) :
    step z (.parse s now) w = .ret w' (.int v) := by
  simp only [step, OM.bind_eq]
  rw [OM.bind_of_ret h, OM.ret_apply]

theorem step_parse_throw {z : Zone} {s : Str} {now : Int} {w : World} {e : Exc} (h : parseFields s = .throw e) :
    step z (.parse s now) w = .exc w e := by
  simp only [step, OM.bind_eq]
  unfold parse
  rw [h]
  rfl

theorem readable_broken {z : Zone} {t : Int} {b : Tm} (hs : Shows z t b) (hy : 100 ≤ b.year + 1900) (hy' : b.year + 1900 ≤ INT_MAX) :
    Readable (broken (t + z.off)) := by
  have := shows_unique hs
  subst this
  exact ⟨broken_valid _, hy, hy'⟩

theorem long_tdiv {ms : Int} (h : Long ms) : Long (1000 * ms.tdiv 1000) := by
  obtain ⟨h1, h2⟩ := h
  have e := Int.mul_tdiv_add_tmod ms 1000
  have hb : -1000 < ms.tmod 1000 ∧ ms.tmod 1000 < 1000 := ⟨Int.lt_tmod_of_pos ms (by omega), Int.tmod_lt_of_pos ms (by omega)⟩
  rcases Int.lt_or_le ms 0 with h0 | h0
  · have : ms.tmod 1000 ≤ 0 := by
      have := Int.tmod_nonneg (a := -ms) 1000 (by omega)
      rw [Int.neg_tmod] at this; omega
    exact ⟨by omega, by omega⟩
  · have := Int.tmod_nonneg (a := ms) 1000 h0
    exact ⟨by omega, by omega⟩

/-- In the zones whose names `parse` knows, parsing the text of a Date gives its time, for years from 100. -/
theorem C101_text_partial (z : Zone) (k : Int) (hk : (z.name, k) ∈ knownZones) (ho : z.off = -60 * k) (now : Int) (hn : Clock now)
    (ms : Int) (hl : Long ms) (hr : Representable z (ms.tdiv 1000)) (b : Tm) (hs : Shows z (ms.tdiv 1000) b)
    (hy : 100 ≤ b.year + 1900) (hy' : b.year + 1900 ≤ INT_MAX) (w : World) (i : Nat) :
    ∃ s w' w'', runHist (step z) [.ofMillis i ms, .text i] w = .ok (w', [.ok .done, .ok (.text s)]) ∧
      step z (.parse s now) w' = .ret w'' (.int (1000 * ms.tdiv 1000)) := by
  have hb := readable_broken hs hy hy'
  have hkf := known_facts _ hk
  have e : 1000 * (seconds (broken (ms.tdiv 1000 + z.off)) + 60 * k) = 1000 * ms.tdiv 1000 := by
    rw [seconds_broken, ho]; omega
  have hp := parse_zoned (z := z) hb (by rw [seconds_broken, show ms.tdiv 1000 + z.off - z.off = ms.tdiv 1000 by omega]; exact hr) hkf.2.2.2 hn
    (by rw [e]; exact long_tdiv hl) (fields_full hk hb (wday_of _)) (w.put z i (ms.tdiv 1000))
  rw [e] at hp
  exact ⟨_, _, _, hist_text hr i w, step_parse hp⟩

/-- With the name of another zone, parsing throws. -/
theorem C101_unknown_zone_wrong (z : Zone) (hz : z.name ∈ unknownZones) (now : Int)
    (ms : Int) (hr : Representable z (ms.tdiv 1000)) (b : Tm) (hs : Shows z (ms.tdiv 1000) b)
    (hy : 0 ≤ b.year + 1900) (hy' : b.year + 1900 ≤ INT_MAX) (w : World) (i : Nat) :
    ∃ s w', runHist (step z) [.ofMillis i ms, .text i] w = .ok (w', [.ok .done, .ok (.text s)]) ∧
      step z (.parse s now) w' = .exc w' .interrupted := by
  have := shows_unique hs
  subst this
  exact ⟨_, _, hist_text hr i w, step_parse_throw (fields_unknown hz (broken_valid _) (wday_of _) hy hy')⟩

/-- And in the zones that the C library names by their offsets, as `+07` and `-03`, it always throws. -/
theorem C101_numeric_zone_wrong (z : Zone) (c : Byte) (t : Str) (n : Nat) (hz : z.name = c :: t) (hc : c = chr '+' ∨ c = chr '-')
    (ht : NumText.Numeral 10 t n) (hn : n ≤ 9999) (now : Int)
    (ms : Int) (hr : Representable z (ms.tdiv 1000)) (b : Tm) (hs : Shows z (ms.tdiv 1000) b)
    (hy : 70 ≤ b.year + 1900) (hy' : b.year + 1900 ≤ INT_MAX) (w : World) (i : Nat) :
    ∃ s w', runHist (step z) [.ofMillis i ms, .text i] w = .ok (w', [.ok .done, .ok (.text s)]) ∧
      step z (.parse s now) w' = .exc w' .interrupted := by
  have := shows_unique hs
  subst this
  exact ⟨_, _, hist_text hr i w, step_parse_throw (fields_numeric hz hc ht hn (broken_valid _) (wday_of _) hy hy')⟩

def ictZone : Zone := ⟨25200, txt "+07", by decide, by decide, by decide⟩
def cetZone : Zone := ⟨3600, txt "CET", by decide, by decide, by decide⟩

example : (estZone.name, 300) ∈ knownZones ∧ estZone.off = -60 * 300 ∧ cetZone.name ∈ unknownZones := by decide
example : ictZone.name = chr '+' :: txt "07" ∧ NumText.Numeral 10 (txt "07") 7 :=
  ⟨rfl, NumText.Numeral.snoc (t := txt "0") (.one (d := 0) (by unfold NumText.IsDigit; decide)) (d := 7) (by unfold NumText.IsDigit; decide)⟩
example : Shows estZone 1794842746 (broken (1794842746 + estZone.off)) ∧ (broken (1794842746 + estZone.off)).year = 126 ∧
    Clock 1794842746 ∧ Long 1794842746000 := ⟨broken_shows _ _, by decide +kernel, by unfold Clock; omega, by unfold Long; omega⟩

/-! ## C102: parsing toLocaleString -/

/-- In every zone, parsing the locale text of a Date gives its time, for years from 100. -/
theorem C102_locale_partial (z : Zone) (now : Int) (ms : Int) (hl : Long ms) (hr : Representable z (ms.tdiv 1000)) (b : Tm)
    (hs : Shows z (ms.tdiv 1000) b) (hy : 100 ≤ b.year + 1900) (hy' : b.year + 1900 ≤ INT_MAX) (w : World) (i : Nat) :
    ∃ s w', runHist (step z) [.ofMillis i ms, .localeText i] w = .ok (w', [.ok .done, .ok (.text s)]) ∧
      step z (.parse s now) w' = .ret w' (.int (1000 * ms.tdiv 1000)) := by
  have hb := readable_broken hs hy hy'
  have e : seconds (broken (ms.tdiv 1000 + z.off)) - z.off = ms.tdiv 1000 := by rw [seconds_broken]; omega
  have hp := parse_local (z := z) (now := now) hb (by rw [e]; exact hr) (by rw [e]; exact long_tdiv hl) (fields_locale hb) (w.put z i (ms.tdiv 1000))
  rw [e] at hp
  refine ⟨localeText (broken (ms.tdiv 1000 + z.off)), w.put z i (ms.tdiv 1000), ?_, step_parse hp⟩
  rw [runHist_cons (step_ofMillis hr i w)]
  rfl

/-! ## C103: toGMTString -/

/-- Greenwich. -/
def greenwich : Zone := ⟨0, txt "GMT", by decide, by decide, by decide⟩

/-- A year before 100 is taken for a year of two digits: 1 January 50 in Greenwich is read as the same day
of 1950, if the clock shows 2001. -/
theorem C102_year_wrong : ∃ s w, runHist (step greenwich) [.ofMillis 0 (-60589296000000), .localeText 0] (start greenwich) =
      .ok (w, [.ok .done, .ok (.text s)]) ∧ s = txt "Jan 01, 50 12:00:00 AM" ∧
    ∃ w', step greenwich (.parse s 1000000000) w = .ret w' (.int (-631152000000)) := by
  obtain ⟨w, hw⟩ : ∃ w, w = (start greenwich).put greenwich 0 (-60589296000) := ⟨_, rfl⟩
  have hr : Representable greenwich ((-60589296000000 : Int).tdiv 1000) := representable_of (by decide) (by decide)
  refine ⟨localeText (broken (-60589296000)), w, ?_, by decide +kernel, ?_⟩
  · rw [runHist_cons (step_ofMillis hr 0 _)]
    subst hw
    rfl
  · have hf : parseFields (localeText (broken (-60589296000))) = .ok ⟨50, 0, 1, 0, 0, 0, -1, 0, 22⟩ := by decide +kernel
    have hl : localtime greenwich 1000000000 = some (broken 1000000000) := by decide +kernel
    have hy : chk32 ((broken 1000000000).year + 1900) = .ok 2001 := by decide +kernel
    have hm : (mktime greenwich ⟨1950 - 1900, 0, 1, 0, 0, 0, 0⟩).1 = -631152000 := by decide +kernel
    have hc : century greenwich 1000000000 50 w = .ret { w with tm := { broken 1000000000 with year := 2001 } } 1950 := by
      unfold century
      rw [if_pos (by decide), hl]
      simp only [OM.bind_eq, OM.lift_ok, OM.bind_ret, hy]
      rfl
    refine ⟨{ w with tm := { broken 1000000000 with year := 2001 } }, step_parse ?_⟩
    unfold parse
    rw [hf]
    simp only [OM.bind_eq, OM.lift_ok, OM.bind_ret]
    rw [OM.bind_of_ret hc]
    have e0 : orZero 0 = 0 := rfl
    simp only [e0, hm]
    rfl

theorem step_gmtText {z : Zone} {i : Nat} {w : World} {t : Int} (h : (w.date i).timer = t) (hr : Representable greenwich t) :
    step z (.gmtText i) w = .ret { w with tm := broken t } (.text (gmtText (broken t))) := by
  have h1 := (localtime_some ((representable_iff _ _).1 hr)).2
  rw [show t + greenwich.off = t by show t + 0 = t; omega] at h1
  have e1 : t - z.off + z.off = t := by omega
  have hl : localtime z (t - z.off) = some (broken t) := by
    unfold localtime; simp only; rw [e1, if_pos h1]
  have hg : gmtime t = some (broken t) := by unfold gmtime; simp only; rw [if_pos h1]
  have hm : (mktime z (broken t)).1 = t - z.off := by
    rw [mktime_of (by rw [seconds_broken, representable_iff, e1]; exact hl), seconds_broken]
  simp only [step, OM.bind_eq, OM.bind_read]
  rw [h]
  unfold utcTime
  rw [hg]
  simp only [OM.bind_ret]
  rw [hm, hl]
  simp only [OM.bind_write, OM.ret_apply]

theorem hist_gmt {z : Zone} {ms : Int} (hr : Representable z (ms.tdiv 1000)) (hg : Representable greenwich (ms.tdiv 1000)) (i : Nat) (w : World) :
    runHist (step z) [.ofMillis i ms, .gmtText i] w =
      .ok ({ w.put z i (ms.tdiv 1000) with tm := broken (ms.tdiv 1000) }, [.ok .done, .ok (.text (gmtText (broken (ms.tdiv 1000))))]) := by
  have ht : ((w.put z i (ms.tdiv 1000)).date i).timer = ms.tdiv 1000 := by
    show (setDate _ i _ i).timer = _
    rw [setDate_same]
  rw [runHist_cons (step_ofMillis hr i w), runHist_cons (step_gmtText ht hg)]
  rfl

/-- The GMT text shows the fields of the instant in Greenwich. -/
theorem C103_gmt_text (z : Zone) (ms : Int) (hr : Representable z (ms.tdiv 1000)) (hg : Representable greenwich (ms.tdiv 1000)) (b : Tm)
    (hs : Shows greenwich (ms.tdiv 1000) b) (w : World) (i : Nat) :
    ∃ w', runHist (step z) [.ofMillis i ms, .gmtText i] w = .ok (w', [.ok .done, .ok (.text b.gmt)]) := by
  have := shows_unique hs
  rw [show ms.tdiv 1000 + greenwich.off = ms.tdiv 1000 by show ms.tdiv 1000 + 0 = _; omega] at this
  subst this
  have e := (texts_eq hg).2.2
  rw [show ms.tdiv 1000 + greenwich.off = ms.tdiv 1000 by show ms.tdiv 1000 + 0 = _; omega] at e
  rw [← e]
  exact ⟨_, hist_gmt hr hg i w⟩

/-- In every zone, parsing the GMT text of a Date gives its time, for years from 100. -/
theorem C103_parse_partial (z : Zone) (now : Int) (hn : Clock now) (ms : Int) (hl : Long ms) (hr : Representable z (ms.tdiv 1000))
    (b : Tm) (hs : Shows greenwich (ms.tdiv 1000) b) (hy : 100 ≤ b.year + 1900) (hy' : b.year + 1900 ≤ INT_MAX) (w : World) (i : Nat) :
    ∃ s w' w'', runHist (step z) [.ofMillis i ms, .gmtText i] w = .ok (w', [.ok .done, .ok (.text s)]) ∧
      step z (.parse s now) w' = .ret w'' (.int (1000 * ms.tdiv 1000)) := by
  have hb := readable_broken hs hy hy'
  have hg : Representable greenwich (ms.tdiv 1000) := ⟨b, hs, by simp only [INT_MIN]; omega, by omega⟩
  have e0 : ms.tdiv 1000 + greenwich.off = ms.tdiv 1000 := by show ms.tdiv 1000 + 0 = _; omega
  rw [e0] at hb
  have e : 1000 * (seconds (broken (ms.tdiv 1000)) + 60 * 0) = 1000 * ms.tdiv 1000 := by
    rw [seconds_broken]; omega
  have hrz : Representable z (seconds (broken (ms.tdiv 1000)) - z.off) := by
    have h1 := (localtime_some ((representable_iff _ _).1 hg)).2
    rw [e0] at h1
    rw [seconds_broken, representable_iff]
    unfold localtime
    simp only
    rw [show ms.tdiv 1000 - z.off + z.off = ms.tdiv 1000 by omega, if_pos h1]
  have hp := parse_zoned (z := z) (k := 0) hb hrz (by omega) hn
    (by rw [e]; exact long_tdiv hl) (fields_gmt hb) { w.put z i (ms.tdiv 1000) with tm := broken (ms.tdiv 1000) }
  rw [e] at hp
  exact ⟨_, _, _, hist_gmt hr hg i w, step_parse hp⟩

/-- But asking for the text changes what the Date shows: its getters then answer with the fields in Greenwich. -/
theorem C103_fields_wrong (z : Zone) (ms : Int) (hr : Representable z (ms.tdiv 1000)) (hg : Representable greenwich (ms.tdiv 1000)) (b : Tm)
    (hs : Shows greenwich (ms.tdiv 1000) b) (w : World) (i : Nat) (f : Field) :
    ∃ w' s, runHist (step z) [.ofMillis i ms, .gmtText i, .get i f] w = .ok (w', [.ok .done, .ok (.text s), .ok (.int (b.shown f))]) := by
  have := shows_unique hs
  rw [show ms.tdiv 1000 + greenwich.off = ms.tdiv 1000 by show ms.tdiv 1000 + 0 = _; omega] at this
  subst this
  have ht : ((w.put z i (ms.tdiv 1000)).date i).timer = ms.tdiv 1000 := by
    show (setDate _ i _ i).timer = _
    rw [setDate_same]
  rw [runHist_cons (step_ofMillis hr i w), runHist_cons (step_gmtText ht hg), runHist_cons (step_get z i f _)]
  exact ⟨_, _, rfl⟩

/-- A setter called after it moves the Date by the offset of the zone: setting the seconds to what they are. -/
theorem C103_setter_wrong (z : Zone) (hz : z.off ≠ 0) (ms : Int) (hr : Representable z (ms.tdiv 1000)) (hg : Representable greenwich (ms.tdiv 1000)) (b : Tm)
    (hs : Shows greenwich (ms.tdiv 1000) b) (w : World) (i : Nat) :
    ∃ w' s, runHist (step z) [.ofMillis i ms, .gmtText i, .set i .seconds b.sec] w = .ok (w', [.ok .done, .ok (.text s), .ok .done]) ∧
      (w'.date i).timer = ms.tdiv 1000 - z.off ∧ (w'.date i).timer ≠ ms.tdiv 1000 := by
  have := shows_unique hs
  rw [show ms.tdiv 1000 + greenwich.off = ms.tdiv 1000 by show ms.tdiv 1000 + 0 = _; omega] at this
  subst this
  have ht : ((w.put z i (ms.tdiv 1000)).date i).timer = ms.tdiv 1000 := by
    show (setDate _ i _ i).timer = _
    rw [setDate_same]
  have h1 := (localtime_some ((representable_iff _ _).1 hg)).2
  rw [show ms.tdiv 1000 + greenwich.off = ms.tdiv 1000 by show ms.tdiv 1000 + 0 = _; omega] at h1
  have e1 : ms.tdiv 1000 - z.off + z.off = ms.tdiv 1000 := by omega
  have hrz : Representable z (ms.tdiv 1000 - z.off) := by
    rw [representable_iff]; unfold localtime; simp only; rw [e1, if_pos h1]
  have hset : (broken (ms.tdiv 1000)).with_ .seconds (broken (ms.tdiv 1000)).sec = broken (ms.tdiv 1000) := rfl
  have h3 := step_set (z := z) (f := .seconds) (v := (broken (ms.tdiv 1000)).sec)
    (w := { w.put z i (ms.tdiv 1000) with tm := broken (ms.tdiv 1000) }) (by
      simp only
      rw [hset, seconds_broken]; exact hrz) i
  rw [runHist_cons (step_ofMillis hr i w), runHist_cons (step_gmtText ht hg), runHist_cons h3]
  refine ⟨_, _, rfl, ?_⟩
  have : seconds ((broken (ms.tdiv 1000)).with_ .seconds (broken (ms.tdiv 1000)).sec) - z.off = ms.tdiv 1000 - z.off := by
    rw [hset, seconds_broken]
  show (setDate _ i _ i).timer = _ ∧ (setDate _ i _ i).timer ≠ _
  rw [setDate_same]
  simp only
  rw [this]
  omega

example : Representable greenwich 1794842746 ∧ Shows greenwich 1794842746 (broken 1794842746) ∧ (broken 1794842746).hour = 15 :=
  ⟨representable_of (by omega) (by omega), by
    have := broken_shows greenwich 1794842746
    rwa [show 1794842746 + greenwich.off = 1794842746 from rfl] at this, by decide +kernel⟩

/-! ## C104: UTC -/

theorem step_utc (z : Zone) (w : World) (b : Tm) (u : Int) (hu : Names greenwich u b) (h : -1000000000000 ≤ u ∧ u ≤ 1000000000000) :
    ∃ w', step z (.utc b.year b.mon b.mday b.hour b.min b.sec) w = .ret w' (.int (1000 * (u - z.off) - z.off)) := by
  have e : seconds b - greenwich.off = u := names_unique (names_seconds greenwich b) hu
  have e : seconds b = u := by rw [← e]; show seconds b = seconds b - 0; omega
  have hz := z.small
  have hs : seconds ⟨b.year, b.mon, b.mday, b.hour, b.min, b.sec, 0⟩ = u := e
  have r1 : Representable z (u - z.off) := representable_of (by omega) (by omega)
  have r2 : Representable z ((u - z.off) * 1000 - z.off) := representable_of (by omega) (by omega)
  have h1 := (localtime_some ((representable_iff _ _).1 r2)).2
  rw [show (u - z.off) * 1000 - z.off + z.off = (u - z.off) * 1000 by omega] at h1
  have hg : gmtime ((u - z.off) * 1000) = some (broken ((u - z.off) * 1000)) := by unfold gmtime; simp only; rw [if_pos h1]
  have hm : (mktime z (broken ((u - z.off) * 1000))).1 = (u - z.off) * 1000 - z.off := by
    rw [mktime_of (by rw [seconds_broken]; exact r2), seconds_broken]
  have hc : chk64 ((u - z.off) * 1000) = .ok ((u - z.off) * 1000) := if_pos (by omega)
  refine ⟨{ w with tm := broken (u - z.off + z.off) }, ?_⟩
  simp only [step, OM.bind_eq]
  rw [mktime_of (by rw [hs]; exact r1), hs]
  simp only
  rw [OM.bind_of_ret (temporary_of r1 w), hc, OM.lift_ok, OM.bind_ret]
  unfold utcTime
  rw [hg]
  simp only [OM.bind_ret, OM.ret_apply]
  rw [hm, Int.mul_comm]

/-- On Greenwich time, `UTC` gives the time of the instant that the fields name in Greenwich. -/
theorem C104_utc_partial (z : Zone) (hz : z.off = 0) (w : World) (b : Tm) (u : Int) (hu : Names greenwich u b)
    (h : -1000000000000 ≤ u ∧ u ≤ 1000000000000) :
    ∃ w', step z (.utc b.year b.mon b.mday b.hour b.min b.sec) w = .ret w' (.int (1000 * u)) := by
  obtain ⟨w', h'⟩ := step_utc z w b u hu h
  exact ⟨w', by rw [h', show 1000 * (u - z.off) - z.off = 1000 * u by omega]⟩

/-- In every other zone it never does. -/
theorem C104_utc_wrong (z : Zone) (hz : z.off ≠ 0) (w : World) (b : Tm) (u : Int) (hu : Names greenwich u b)
    (h : -1000000000000 ≤ u ∧ u ≤ 1000000000000) :
    ∃ w' a, step z (.utc b.year b.mon b.mday b.hour b.min b.sec) w = .ret w' (.int a) ∧ a ≠ 1000 * u := by
  obtain ⟨w', h'⟩ := step_utc z w b u hu h
  exact ⟨w', _, h', by omega⟩

example : Names greenwich 951827445 ⟨100, 1, 29, 12, 30, 45, 0⟩ := by
  have : seconds ⟨100, 1, 29, 12, 30, 45, 0⟩ - greenwich.off = 951827445 := by decide +kernel
  rw [← this]
  exact names_seconds _ _

/-! ## C105: milliseconds -/

theorem hist_time {z : Zone} {ms : Int} (hl : Long ms) (hr : Representable z (ms.tdiv 1000)) (i : Nat) (w : World) :
    runHist (step z) [.ofMillis i ms, .getTime i] w = .ok (w.put z i (ms.tdiv 1000), [.ok .done, .ok (.int (1000 * ms.tdiv 1000))]) := by
  have ht : ((w.put z i (ms.tdiv 1000)).date i).timer = ms.tdiv 1000 := by
    show (setDate _ i _ i).timer = _
    rw [setDate_same]
  have := step_getTime (z := z) (i := i) (w := w.put z i (ms.tdiv 1000)) (by rw [ht]; exact long_tdiv hl)
  rw [ht] at this
  rw [runHist_cons (step_ofMillis hr i w), runHist_cons this]
  rfl

/-- A whole number of seconds comes back. -/
theorem C105_time_partial (z : Zone) (ms : Int) (hl : Long ms) (hr : Representable z (ms.tdiv 1000)) (h : 1000 ∣ ms) (i : Nat) (w : World) :
    ∃ w', runHist (step z) [.ofMillis i ms, .getTime i] w = .ok (w', [.ok .done, .ok (.int ms)]) := by
  rw [hist_time hl hr, Int.mul_tdiv_cancel' h]
  exact ⟨_, rfl⟩

/-- Any other time does not: it moves towards the epoch, by less than a second. -/
theorem C105_time_wrong (z : Zone) (ms : Int) (hl : Long ms) (hr : Representable z (ms.tdiv 1000)) (h : ¬ 1000 ∣ ms) (i : Nat) (w : World) :
    ∃ w' a, runHist (step z) [.ofMillis i ms, .getTime i] w = .ok (w', [.ok .done, .ok (.int a)]) ∧ a ≠ ms ∧
      (0 < ms → 0 ≤ a ∧ a < ms ∧ ms < a + 1000) ∧ (ms < 0 → a ≤ 0 ∧ ms < a ∧ a < ms + 1000) := by
  have e := Int.mul_tdiv_add_tmod ms 1000
  have hb : -1000 < ms.tmod 1000 ∧ ms.tmod 1000 < 1000 := ⟨Int.lt_tmod_of_pos ms (by omega), Int.tmod_lt_of_pos ms (by omega)⟩
  have hne : ms.tmod 1000 ≠ 0 := fun h0 => h (Int.dvd_of_tmod_eq_zero h0)
  refine ⟨_, _, hist_time hl hr i w, by omega, fun h0 => ?_, fun h0 => ?_⟩
  · have := Int.tmod_nonneg (a := ms) 1000 (by omega)
    omega
  · have : ms.tmod 1000 ≤ 0 := by
      have := Int.tmod_nonneg (a := -ms) 1000 (by omega)
      rw [Int.neg_tmod] at this; omega
    omega

example : Long 1794842746123 ∧ ¬ (1000 : Int) ∣ 1794842746123 := ⟨by unfold Long; omega, by decide⟩

end Verif.Date
