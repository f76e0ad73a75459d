import Verif.StringBuffer.Props
import Verif.JString.Props
/-! # C68: searching a `StringBuffer` -/
namespace Verif.StringBuffer

open Verif.StringBuilder (SB)
open Verif.JString (IsFirst IsLast OccursAt)

/-- The buffer can be read as a C string: it never grew, is not full and holds no NUL. -/
def Readable (s : SB) (t : List Byte) : Prop := ∃ cap, Holds s ⟨t, cap, true⟩ ∧ t.length < cap ∧ 0 ∉ t

theorem Readable.text {s : SB} {t : List Byte} (h : Readable s t) : toString s = .ret s t ∧ s.len = t.length := by
  obtain ⟨cap, h1, h2, h3⟩ := h
  exact ⟨toString_ok h1 rfl h2 h3, h1.1⟩

theorem indexIn_ok (t p : List Byte) (hp : p ≠ []) (h0 : 0 ∉ p) (i : Nat) :
    ∃ r, indexIn t p i = .ok r ∧ IsFirst t p i r := by
  obtain ⟨r, h1, h2⟩ := JString.C32_indexOfFrom_partial t p hp (i : Int)
  refine ⟨r, ?_, h2⟩
  rw [← h1]
  unfold indexIn JString.indexOfFrom
  rw [if_neg (show ¬ (i : Int) < 0 by omega), cstr_eq_self h0]
  rfl

/-- C68, `_partial`: indexOf(p, from) is the first occurrence at or behind from, for every start. What is missing: the empty
pattern (`C68_indexOf_empty`), patterns with NUL, and buffers that grew or are full (`C40_grown_wrong`, `C40_toString_full`). -/
theorem C68_indexOfFrom_partial (s : SB) (t p : List Byte) (h : Readable s t) (hp : p ≠ []) (h0 : 0 ∉ p) (i : Int) :
    ∃ r, indexOfFrom p i s = .ret s r ∧ IsFirst t p i.toNat r := by
  obtain ⟨r, h1, h2⟩ := indexIn_ok t p hp h0 i.toNat
  refine ⟨r, ?_, h2⟩
  unfold indexOfFrom
  rw [OM.bind_eq, OM.bind_of_ret h.text.1]
  by_cases hi : i < 0
  · rw [if_pos hi, cstr_eq_self h0]
    rw [show i.toNat = 0 by omega] at h1
    rw [show (0 : Int) = ((0 : Nat) : Int) from rfl, h1]; rfl
  · rw [if_neg hi]
    rw [show ((i.toNat : Nat) : Int) = i by omega] at h1
    rw [h1]; rfl

/-- C68, `_partial`: indexOf(p) is the first occurrence. -/
theorem C68_indexOf_partial (s : SB) (t p : List Byte) (h : Readable s t) (hp : p ≠ []) (h0 : 0 ∉ p) :
    ∃ r, indexOf p s = .ret s r ∧ IsFirst t p 0 r := by
  unfold indexOf
  rw [cstr_eq_self h0]
  exact C68_indexOfFrom_partial s t p h hp h0 0

/-- C68 is false for the empty pattern: it occurs at every position, yet the answer is always -1. -/
theorem C68_indexOf_empty (s : SB) (t : List Byte) (h : Readable s t) (i : Int) :
    indexOfFrom [] i s = .ret s (-1) ∧ indexOf [] s = .ret s (-1) ∧ ∀ k ≤ t.length, OccursAt t [] k := by
  have h1 : ∀ i : Int, indexOfFrom [] i s = .ret s (-1) := by
    intro i
    unfold indexOfFrom
    rw [OM.bind_eq, OM.bind_of_ret h.text.1]
    have : ∀ j, indexIn t [] j = .ok (-1) := by
      intro j; unfold indexIn; rw [if_pos (Or.inr rfl)]
    by_cases hi : i < 0
    · rw [if_pos hi, show cstr ([] : List Byte) = [] from rfl, this]; rfl
    · rw [if_neg hi, this]; rfl
  exact ⟨h1 i, h1 0, fun k hk => ⟨t.take k, t.drop k, by simp, by simp; omega⟩⟩

/-- C68. lastIndexOf(p) is the last occurrence, for every pattern. -/
theorem C68_lastIndexOf (s : SB) (t p : List Byte) (h : Readable s t) :
    ∃ r, lastIndexOf p s = .ret s r ∧ IsLast t p t.length r := by
  refine ⟨_, ?_, JString.C32_lastIndexOf t p⟩
  unfold lastIndexOf
  rw [OM.bind_eq, OM.bind_of_ret h.text.1]; rfl

theorem getFrom_ok (u : List Byte) (i : Nat) (h : i < u.length) : JString.getStringFromIndex u i = .ok (u.drop i) := by
  unfold JString.getStringFromIndex JString.pastEnd JString.substr
  rw [if_neg (by simp; omega), if_pos (by omega), List.take_of_length_le (by simp)]
  simp

/-- C68, `_partial`: lastIndexOf(p, from) is the last occurrence at or before from when an occurrence at from would end inside
the text. What is missing: every larger start, which throws (`C68_lastIndexOfFrom_wrong`), and the empty pattern. -/
theorem C68_lastIndexOfFrom_partial (s : SB) (t p : List Byte) (h : Readable s t) (hp : p ≠ []) (h0 : 0 ∉ p) (i : Nat)
    (hi : i + p.length ≤ t.length) (hlen : t.length < 2 ^ 31) : ∃ r, lastIndexOfFrom p i s = .ret s r ∧ IsLast t p i r := by
  have hpl : 0 < p.length := List.length_pos_iff.mpr hp
  have hrev : 0 ∉ p.reverse := by simpa using h0
  have hu : t.reverse.drop (t.length - i - p.length) = (t.take (i + p.length)).reverse := by
    rw [List.drop_reverse, show t.length - (t.length - i - p.length) = i + p.length by omega]
  have hul : (t.take (i + p.length)).length = i + p.length := by simp; omega
  refine ⟨if JString.indexOf ((t.take (i + p.length)).reverse) p.reverse = -1 then -1
      else i - JString.indexOf ((t.take (i + p.length)).reverse) p.reverse, ?_, ?_⟩
  · unfold lastIndexOfFrom
    rw [OM.bind_eq, OM.bind_of_ret h.text.1, OM.bind_eq, OM.bind_read, h.text.2, OM.bind_eq,
      chk32_ok (by unfold INT_MIN; omega) (by unfold INT_MAX; omega), OM.lift_ok, OM.bind_ret, OM.bind_eq,
      chk32_ok (by unfold INT_MIN; omega) (by unfold INT_MAX; omega), OM.lift_ok, OM.bind_ret, OM.bind_eq,
      show (t.length : Int) - i - p.length = ((t.length - i - p.length : Nat) : Int) by omega, getFrom_ok _ _ (by simp; omega),
      OM.lift_ok, OM.bind_ret, hu, cstr_eq_self hrev]
    split
    · rfl
    · rw [List.length_reverse, hul]
      show Res.ret s _ = Res.ret s _
      congr 1
      omega
  · have hfirst := JString.C32_indexOf_partial ((t.take (i + p.length)).reverse) p.reverse (by simpa using hp)
    have hocc : ∀ j, j ≤ i → (OccursAt t p j ↔ OccursAt (t.take (i + p.length)).reverse p.reverse (i - j)) := by
      intro j hj
      have := JString.occursAt_reverse (t.take (i + p.length)) p j (by omega)
      rw [hul, show i + p.length - p.length - j = i - j by omega] at this
      rw [this]
      constructor
      · rintro ⟨x, y, he, hx⟩
        refine ⟨x, y.take (i - j), ?_, hx⟩
        rw [he, List.append_assoc, List.take_append, List.take_of_length_le (by omega), List.take_append, List.take_of_length_le (by omega),
          ← List.append_assoc]
        congr 2
        omega
      · rintro ⟨x, y, he, hx⟩
        refine ⟨x, y ++ t.drop (i + p.length), ?_, hx⟩
        rw [← List.append_assoc, ← he, List.take_append_drop]
    rcases hfirst with ⟨k, hk, _, hk2, hk3⟩ | ⟨hn, hn2⟩
    · left
      have hki : k ≤ i := by
        have := hk2.le
        simp only [List.length_reverse, hul] at this
        omega
      refine ⟨i - k, ?_, by omega, ?_, ?_⟩
      · rw [hk, if_neg (by omega)]; omega
      · rw [hocc _ (by omega), show i - (i - k) = k by omega]; exact hk2
      · intro j h1 h2 h3
        exact hk3 (i - j) (by omega) (by omega) ((hocc j h2).mp h3)
    · right
      refine ⟨by rw [if_pos hn], ?_⟩
      intro j hj h3
      exact hn2 (i - j) (by omega) ((hocc j hj).mp h3)

/-- C68 is false: lastIndexOf(p, from) throws for every start behind the last place where p fits, although the last occurrence
would be the answer. -/
theorem C68_lastIndexOfFrom_wrong (s : SB) (t p : List Byte) (h : Readable s t) (i : Nat) (hi : t.length < i + p.length)
    (hm : i + p.length < 2 ^ 31) :
    lastIndexOfFrom p i s = .exc s .stringIndexOutOfBounds := by
  unfold lastIndexOfFrom
  have hg : JString.getStringFromIndex t.reverse ((t.length : Int) - i - p.length) = .throw .stringIndexOutOfBounds := by
    unfold JString.getStringFromIndex
    rw [if_pos (Or.inl (by omega))]
  rw [OM.bind_eq, OM.bind_of_ret h.text.1, OM.bind_eq, OM.bind_read, h.text.2, OM.bind_eq,
    chk32_ok (by unfold INT_MIN; omega) (by unfold INT_MAX; omega), OM.lift_ok, OM.bind_ret, OM.bind_eq,
    chk32_ok (by unfold INT_MIN; omega) (by unfold INT_MAX; omega), OM.lift_ok, OM.bind_ret, OM.bind_eq, hg]; rfl

/-- Searching never changes the buffer. -/
theorem C68_still (p : List Byte) (i : Int) : Still (indexOf p) ∧ Still (indexOfFrom p i) ∧ Still (lastIndexOf p) ∧ Still (lastIndexOfFrom p i) := by
  have ht : Still toString := by unfold toString; exact Still.bind Still.read fun _ => Still.lift _
  have h1 : ∀ p i, Still (indexOfFrom p i) := fun p i => by
    unfold indexOfFrom; exact Still.bind ht fun _ => Still.ite (Still.lift _) (Still.lift _)
  refine ⟨h1 _ _, h1 _ _, by unfold lastIndexOf; exact Still.bind ht fun _ => Still.ret _, ?_⟩
  unfold lastIndexOfFrom
  exact Still.bind ht fun _ => Still.bind Still.read fun _ => Still.bind (Still.lift _) fun _ => Still.bind (Still.lift _) fun _ =>
    Still.bind (Still.lift _) fun _ => Still.ite (Still.ret _) (Still.ret _)

example : ∃ s, ofText (txt "banana") = .ret s () ∧ Readable s (txt "banana") := by
  obtain ⟨s, h1, h2⟩ := C40_ofText (txt "banana") (by decide)
  exact ⟨s, h1, _, h2, by decide, by decide⟩
example : indexIn (txt "banana") (txt "ana") 2 = .ok 3 := by decide

end Verif.StringBuffer
