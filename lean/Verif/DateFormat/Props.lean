import Verif.DateFormat.Model
import Verif.JString.Props
/-!
# Properties of formatting dates
-/
namespace Verif.DateFormat
open Verif.JString Verif.Date

theorem cstr_self {l : Str} (h : ∀ c ∈ l, c ≠ 0) : cstr l = l := by
  unfold cstr
  induction l with
  | nil => rfl
  | cons a l ih =>
    rw [List.takeWhile_cons_of_pos (by simpa using h a List.mem_cons_self),
      ih fun c hc => h c (List.mem_cons_of_mem _ hc)]

/-- `n` blanks. -/
def blanks (n : Nat) : Str := List.replicate n (chr ' ')

/-- C190: the text of a date is its pattern filled in with the fields of the date in the zone of the
format, whatever the zone of the process, without blanks at both ends, provided that it has less than
80 bytes and that the year fits an `int`. -/
theorem C190_text_partial (lib : Lib) (f : Format) (i : Nat) (now : Int) (w : World) {b : Tm} {g : Tm}
    {n m : Nat} {t : Str} (hnow : gmtime now = some g)
    (htime : -9223372036854775 ≤ (w.dates.date i).timer ∧ (w.dates.date i).timer ≤ 9223372036854775)
    (hb : localtime (lib.zoneOf (some (cstr f.zone))) (w.dates.date i).timer = some b)
    (hs : render lib (lib.zoneOf (some (cstr f.zone))) b (cstr f.pattern) = blanks n ++ t ++ blanks m)
    (hlen : (blanks n ++ t ++ blanks m).length < 80) (hz : ∀ c ∈ t, c ≠ 0)
    (hh : t.head? ≠ some (chr ' ')) (hl : t.getLast? ≠ some (chr ' ')) :
    ∃ w', format lib f i now w = .ok (w', t) ∧ w'.dates.date = w.dates.date ∧ w'.shared = w.shared := by
  have hchk : chk64 ((w.dates.date i).timer * 1000) = .ok ((w.dates.date i).timer * 1000) := by
    unfold chk64
    rw [if_pos (by omega)]
  have hdiv : ((w.dates.date i).timer * 1000).tdiv 1000 + 0 = (w.dates.date i).timer := by
    rw [Int.mul_tdiv_cancel _ (by decide), Int.add_zero]
  have hc : cstr (blanks n ++ t ++ blanks m) = blanks n ++ t ++ blanks m := by
    refine cstr_self fun c hc => ?_
    have h0 : chr ' ' ≠ 0 := by decide
    simp only [blanks, List.mem_append, List.mem_replicate] at hc
    rcases hc with (hc | hc) | hc
    · rw [hc.2]; exact h0
    · exact hz c hc
    · rw [hc.2]; exact h0
  have ht := C37_trim n m t hh hl
  refine ⟨⟨{ w.dates with tm := b }, none, w.shared⟩, ?_, rfl, rfl⟩
  simp only [format, hnow, hchk, Outcome.bind_ok, hdiv, hb, hs, hc]
  rw [if_neg (by unfold bufferLength; omega)]
  unfold blanks
  rw [ht, Outcome.bind_ok]

/-- A library for examples: `%Y` and `%H`, the zone `Etc/GMT-7` is seven hours east. -/
def lib₀ : Lib where
  zoneOf tz := if tz = some (txt "Etc/GMT-7") then ⟨25200, txt "+07", by decide, by decide, by decide⟩
    else ⟨0, txt "UTC", by decide, by decide, by decide⟩
  conv c _ b := if c = chr 'Y' then number (b.year + 1900) else if c = chr 'H' then two b.hour else [c]

/-- The dates of 1970-01-01 01:00:00 UTC. -/
def w₀ : World := ⟨⟨broken 3600, fun _ => ⟨3600, []⟩⟩, some (txt "Asia/Tokyo"), txt "UTC"⟩

example : ∃ w', format lib₀ ⟨txt " year %Y, hour %H", txt "Etc/GMT-7"⟩ 0 1000000000 w₀ = .ok (w', txt "year 1970, hour 08") := by
  obtain ⟨w', h, _⟩ := C190_text_partial lib₀ ⟨txt " year %Y, hour %H", txt "Etc/GMT-7"⟩ 0 1000000000 w₀
    (b := broken 28800) (g := broken 1000000000) (n := 1) (m := 0) (t := txt "year 1970, hour 08")
    (by decide +kernel) (by decide +kernel) (by decide +kernel) (by decide +kernel) (by decide +kernel)
    (by decide +kernel) (by decide +kernel) (by decide +kernel)
  exact ⟨w', h⟩

/-- C190: a format that was given no zone fills in the fields of the date in the zone named UTC. -/
theorem C190_new_partial (lib : Lib) (p : Str) (i : Nat) (now : Int) (w : World) {b : Tm} {g : Tm}
    {n m : Nat} {t : Str} (hnow : gmtime now = some g)
    (htime : -9223372036854775 ≤ (w.dates.date i).timer ∧ (w.dates.date i).timer ≤ 9223372036854775)
    (hb : localtime (lib.zoneOf (some (txt "UTC"))) (w.dates.date i).timer = some b)
    (hs : render lib (lib.zoneOf (some (txt "UTC"))) b (cstr p) = blanks n ++ t ++ blanks m)
    (hlen : (blanks n ++ t ++ blanks m).length < 80) (hz : ∀ c ∈ t, c ≠ 0)
    (hh : t.head? ≠ some (chr ' ')) (hl : t.getLast? ≠ some (chr ' ')) :
    ∃ w', format lib (make p) i now w = .ok (w', t) ∧ w'.dates.date = w.dates.date ∧ w'.shared = w.shared := by
  have hu : cstr (make p).zone = txt "UTC" := (by decide : cstr (txt "UTC") = txt "UTC")
  exact C190_text_partial lib (make p) i now w hnow htime (by rw [hu]; exact hb) (by rw [hu]; exact hs) hlen hz hh hl

example : ∃ w', format lib₀ (make (txt "year %Y, hour %H")) 0 1000000000 w₀ = .ok (w', txt "year 1970, hour 01") := by
  obtain ⟨w', h, _⟩ := C190_new_partial lib₀ (txt "year %Y, hour %H") 0 1000000000 w₀
    (b := broken 3600) (g := broken 1000000000) (n := 0) (m := 0) (t := txt "year 1970, hour 01")
    (by decide +kernel) (by decide +kernel) (by decide +kernel) (by decide +kernel) (by decide +kernel)
    (by decide +kernel) (by decide +kernel) (by decide +kernel)
  exact ⟨w', h⟩

/-- C190 fails for long texts: if the text has 80 bytes or more, formatting is undefined. -/
theorem C190_long_wrong (lib : Lib) (f : Format) (i : Nat) (now : Int) (w : World) {b : Tm}
    (htime : -9223372036854775 ≤ (w.dates.date i).timer ∧ (w.dates.date i).timer ≤ 9223372036854775)
    (hb : localtime (lib.zoneOf (some (cstr f.zone))) (w.dates.date i).timer = some b)
    (hlen : 80 ≤ (render lib (lib.zoneOf (some (cstr f.zone))) b (cstr f.pattern)).length) :
    format lib f i now w = .ub := by
  have hchk : chk64 ((w.dates.date i).timer * 1000) = .ok ((w.dates.date i).timer * 1000) := by
    unfold chk64
    rw [if_pos (by omega)]
  have hdiv : ((w.dates.date i).timer * 1000).tdiv 1000 + 0 = (w.dates.date i).timer := by
    rw [Int.mul_tdiv_cancel _ (by decide), Int.add_zero]
  simp only [format, hchk, Outcome.bind_ok, hdiv, hb]
  cases gmtime now with
  | none => rfl
  | some g => exact if_pos (by unfold bufferLength; omega)

/-- C190 fails for blanks: those at the ends of the pattern are lost. -/
theorem C190_blanks_wrong : ∃ w', format lib₀ (make (txt "  %Y ")) 0 0 w₀ = .ok (w', txt "1970") := by
  obtain ⟨w', h, _⟩ := C190_text_partial lib₀ (make (txt "  %Y ")) 0 0 w₀ (b := broken 3600) (g := broken 0) (n := 2) (m := 1)
    (t := txt "1970") (by decide +kernel) (by decide +kernel) (by decide +kernel) (by decide +kernel)
    (by decide +kernel) (by decide +kernel) (by decide +kernel) (by decide +kernel)
  exact ⟨w', h⟩

/-- C191: formatting changes no instant: every date still has its time, its text and its place in the order. -/
theorem C191_dates_partial (lib : Lib) (f : Format) (i : Nat) (now : Int) (w w' : World) {t : Str}
    (h : format lib f i now w = .ok (w', t)) : w'.dates.date = w.dates.date := by
  simp only [format] at h
  cases hg : gmtime now with
  | none => rw [hg] at h; cases h
  | some g =>
    simp only [hg] at h
    cases hc : chk64 ((w.dates.date i).timer * 1000) with
    | ok ms =>
      simp only [hc, Outcome.bind_ok] at h
      cases hb : localtime (lib.zoneOf (some (cstr f.zone))) (ms.tdiv 1000 + 0) with
      | none => simp only [hb] at h; cases h
      | some b =>
        simp only [hb] at h
        split at h
        · cases h
        · cases ht : trim (cstr (render lib (lib.zoneOf (some (cstr f.zone))) b (cstr f.pattern))) with
          | ok r => rw [ht, Outcome.bind_ok] at h; cases h; rfl
          | throw e => rw [ht] at h; cases h
          | ub => rw [ht] at h; cases h
          | diverge => rw [ht] at h; cases h
    | throw e => rw [hc] at h; cases h
    | ub => rw [hc] at h; cases h
    | diverge => rw [hc] at h; cases h

/-- C191 fails: after formatting any date, the fields of every date are those of the formatted one in
the zone of the format, and the process has no `TZ`, whatever it was before. -/
theorem C191_fields_wrong (lib : Lib) (f : Format) (i : Nat) (now : Int) (w w' : World) {t : Str}
    (h : format lib f i now w = .ok (w', t)) : w'.tz = none ∧
      ∃ b, localtime (lib.zoneOf (some (cstr f.zone))) (w.dates.date i).timer = some b ∧
        ∀ (z : Zone) (j : Nat) (fld : Field), step z (.get j fld) w'.dates = .ret w'.dates (.int (b.get fld)) := by
  simp only [format] at h
  cases hg : gmtime now with
  | none => rw [hg] at h; cases h
  | some g =>
    simp only [hg] at h
    cases hc : chk64 ((w.dates.date i).timer * 1000) with
    | ok ms =>
      have hms : ms = (w.dates.date i).timer * 1000 := by
        unfold chk64 at hc
        split at hc
        · cases hc; rfl
        · cases hc
      subst hms
      have hdiv : ((w.dates.date i).timer * 1000).tdiv 1000 + 0 = (w.dates.date i).timer := by
        rw [Int.mul_tdiv_cancel _ (by decide), Int.add_zero]
      simp only [hc, Outcome.bind_ok, hdiv] at h
      cases hb : localtime (lib.zoneOf (some (cstr f.zone))) (w.dates.date i).timer with
      | none => simp only [hb] at h; cases h
      | some b =>
        simp only [hb] at h
        split at h
        · cases h
        · cases ht : trim (cstr (render lib (lib.zoneOf (some (cstr f.zone))) b (cstr f.pattern))) with
          | ok r =>
            rw [ht, Outcome.bind_ok] at h
            cases h
            exact ⟨rfl, b, rfl, fun z j fld => rfl⟩
          | throw e => rw [ht] at h; cases h
          | ub => rw [ht] at h; cases h
          | diverge => rw [ht] at h; cases h
    | throw e => rw [hc] at h; cases h
    | ub => rw [hc] at h; cases h
    | diverge => rw [hc] at h; cases h

/-- C192: a format keeps the zone it was given, whatever zones are asked for later. -/
theorem C192_kept_partial (w : World) (f : Format) (id : Str) :
    (setTimeZone (getTimeZone w id).1 f (getTimeZone w id).2).zone = id ∧
      (setTimeZone (getTimeZone w id).1 f (getTimeZone w id).2).pattern = f.pattern := ⟨rfl, rfl⟩

/-- C192 fails: a zone that was asked for becomes another one when another one is asked for. -/
theorem C192_shared_wrong (w : World) (id id' : Str) :
    getID (getTimeZone (getTimeZone w id).1 id').1 (getTimeZone w id).2 = id' := rfl

end Verif.DateFormat
