import Verif.Date.Spec
import Verif.Date.CalLemmas
/-! # Instants and fields -/
namespace Verif.Date
open Verif.JString

theorem broken_day (u : Int) : (⟨(broken u).year + 1900, (broken u).mon, (broken u).mday⟩ : Day) = civil (u / 86400) := by
  unfold broken
  simp only
  rw [show (civil (u / 86400)).year - 1900 + 1900 = (civil (u / 86400)).year by omega]

theorem broken_shows (z : Zone) (t : Int) : Shows z t (broken (t + z.off)) := by
  refine ⟨?_, ?_, ?_, ?_, ?_, rfl⟩
  · rw [broken_day]; exact civil_isDay _
  · unfold broken; simp only; omega
  · unfold broken; simp only; omega
  · unfold broken; simp only; omega
  · unfold broken; simp only; omega

theorem shows_unique {z : Zone} {t : Int} {b : Tm} (h : Shows z t b) : b = broken (t + z.off) := by
  obtain ⟨h1, h2, h3, h4, h5, h6⟩ := h
  rw [isDay_iff] at h1
  have h1' := h1.trans (broken_day (t + z.off)).symm
  obtain ⟨y, mo, d, h, mi, s, w⟩ := b
  simp only [Day.mk.injEq] at h1' h2 h3 h4 h5 h6
  obtain ⟨a1, a2, a3⟩ := h1'
  have e : broken (t + z.off) = ⟨(broken (t + z.off)).year, (broken (t + z.off)).mon, (broken (t + z.off)).mday, (t + z.off) % 86400 / 3600,
    (t + z.off) % 86400 % 3600 / 60, (t + z.off) % 86400 % 60, (4 + (t + z.off) / 86400) % 7⟩ := rfl
  rw [e, Tm.mk.injEq]
  refine ⟨by omega, a2, a3, by omega, by omega, by omega, h6⟩

theorem seconds_broken (u : Int) : seconds (broken u) = u := by
  have h := (civil_spec (u / 86400)).2
  rw [← broken_day] at h
  simp only at h
  unfold seconds
  rw [h]
  unfold broken
  simp only
  omega

theorem localtime_some {z : Zone} {t : Int} {b : Tm} (h : localtime z t = some b) : b = broken (t + z.off) ∧ INT_MIN ≤ b.year ∧ b.year ≤ INT_MAX := by
  unfold localtime at h
  simp only at h
  split at h
  · rename_i h'
    cases h; exact ⟨rfl, h'⟩
  · cases h

theorem representable_iff (z : Zone) (t : Int) : Representable z t ↔ localtime z t = some (broken (t + z.off)) := by
  constructor
  · rintro ⟨b, hb, h⟩
    rw [shows_unique hb] at h
    unfold localtime
    simp only
    rw [if_pos h]
  · intro h
    exact ⟨_, broken_shows z t, (localtime_some h).2⟩

theorem localtime_none {z : Zone} {t : Int} (h : ¬ Representable z t) : localtime z t = none := by
  unfold localtime
  simp only
  rw [if_neg]
  intro h'
  exact h ⟨_, broken_shows z t, h'⟩

theorem mktime_of {z : Zone} {b : Tm} (h : Representable z (seconds b - z.off)) :
    mktime z b = (seconds b - z.off, broken (seconds b)) := by
  unfold mktime
  rw [(representable_iff _ _).mp h]
  simp only
  congr 2
  omega

theorem mktime_broken {z : Zone} {t : Int} (h : Representable z t) : mktime z (broken (t + z.off)) = (t, broken (t + z.off)) := by
  have e : seconds (broken (t + z.off)) - z.off = t := by rw [seconds_broken]; omega
  rw [mktime_of (e.symm ▸ h), e, seconds_broken]

/-- The instant of any fields. -/
theorem names_seconds (z : Zone) (b : Tm) : Names z (seconds b - z.off) b := by
  refine ⟨b.year + b.mon / 12, b.mon % 12, dayNumber (b.year + b.mon / 12 + 1900) (b.mon % 12) 1, by omega, by omega, by omega, ?_, ?_⟩
  · refine isDay_dayNumber ⟨_, _, 1⟩ ⟨?_, ?_, ?_, ?_⟩
    · simp only; omega
    · simp only; omega
    · simp only; omega
    · simp only
      unfold monthLength; repeat' split
      all_goals omega
  · unfold seconds dayNumber
    simp only
    have e : b.mon % 12 / 12 = 0 := by omega
    have e' : b.mon % 12 % 12 = b.mon % 12 := by omega
    rw [e, e', show b.year + b.mon / 12 + 1900 + 0 = b.year + 1900 + b.mon / 12 by omega]
    omega

theorem names_unique {z : Zone} {t u : Int} {b : Tm} (h : Names z t b) (h' : Names z u b) : t = u := by
  obtain ⟨y, m, n, h1, h2, h3, h4, h5⟩ := h
  obtain ⟨y', m', n', h1', h2', h3', h4', h5'⟩ := h'
  have : y = y' ∧ m = m' := by omega
  obtain ⟨rfl, rfl⟩ := this
  rw [isDay_iff] at h4 h4'
  have a := (civil_spec n).2
  have b := (civil_spec n').2
  rw [← h4] at a
  rw [← h4', a] at b
  omega

theorem broken_seconds {b : Tm} (h : b.Valid) : broken (seconds b) = { b with wday := (4 + seconds b / 86400) % 7 } := by
  obtain ⟨h1, h2, h3, h4⟩ := h
  have hd := civil_dayNumber _ h1
  simp only at hd
  have e : seconds b = dayNumber (b.year + 1900) b.mon b.mday * 86400 + (b.hour * 3600 + b.min * 60 + b.sec) := by unfold seconds; omega
  have hq : seconds b / 86400 = dayNumber (b.year + 1900) b.mon b.mday := by omega
  have hr : seconds b % 86400 = b.hour * 3600 + b.min * 60 + b.sec := by omega
  unfold broken
  simp only
  rw [hr, hq, hd]
  simp only [Tm.mk.injEq]
  refine ⟨by omega, trivial, trivial, by omega, by omega, by omega, trivial⟩

theorem broken_valid (u : Int) : (broken u).Valid := by
  have h := broken_shows ⟨0, [], by decide, by decide, by simp⟩ u
  simp only [Int.add_zero] at h
  exact ⟨h.day.1, h.hour, h.min, h.sec⟩

/-- Every instant up to this size is representable. -/
theorem representable_of {z : Zone} {t : Int} (h : -10000000000000000 ≤ t) (h' : t ≤ 10000000000000000) : Representable z t := by
  refine ⟨_, broken_shows z t, ?_⟩
  have hz := z.small
  have e : (broken (t + z.off)).year = yearOf ((t + z.off) / 86400) - 1900 := rfl
  have ⟨h1, h2⟩ := yearOf_spec ((t + z.off) / 86400)
  rw [e]
  generalize yearOf ((t + z.off) / 86400) = y at *
  unfold yearStart leaps at h1 h2
  unfold INT_MIN INT_MAX
  omega

end Verif.Date
