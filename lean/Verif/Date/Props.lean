import Verif.Date.Steps
import Verif.NumText.Lemmas
import Verif.Wrappers.Lemmas
/-! # Properties of Date objects -/
namespace Verif.Date
open Verif.JString

/-! ## C54: independence -/

theorem lift_chk64_inv {x a : Int} {w w' : World} (h : ((OM.lift (chk64 x)).bind fun v => (OM.ret (Ans.int v) : OM World Ans)) w = .ret w' (.int a)) :
    a = x ∧ w' = w ∧ chk64 x = .ok x := by
  unfold chk64 at h ⊢
  split at h
  · rename_i hx
    rw [OM.lift_ok, OM.bind_ret, OM.ret_apply] at h
    cases h
    exact ⟨rfl, rfl, if_pos hx⟩
  · rw [OM.lift_ub, OM.bind_undef] at h; cases h

theorem getTime_inv {z : Zone} {i : Nat} {w w' : World} {a : Int} (h : step z (.getTime i) w = .ret w' (.int a)) :
    a = (w.date i).timer * 1000 ∧ w' = w ∧ chk64 ((w.date i).timer * 1000) = .ok ((w.date i).timer * 1000) := by
  simp only [step, OM.bind_eq, OM.bind_read] at h
  exact lift_chk64_inv h

/-- Calls that assign other variables leave a Date's instant and text alone. -/
theorem step_frame (z : Zone) (op : Op) (i : Nat) (w : World) (h : op.target ≠ some i) :
    match step z op w with
    | .ret w' _ => w'.date i = w.date i
    | .exc w' _ => w'.date i = w.date i
    | _ => True := by
  by_cases hs : SetInRange z w op
  · have hc := step_changes z w op hs
    cases hr : step z op w with
    | ret w' a =>
      rw [hr] at hc
      rcases hc with hc | ⟨j, t, hj, _, hc⟩
      · simp only; rw [hc]
      · simp only
        rw [hc, setDate_ne]
        rintro rfl
        exact h hj
    | exc w' e => rw [hr] at hc; simp only; rw [show w'.date = w.date from hc]
    | ub => trivial
    | diverge => trivial
  · cases op with
    | set j f v =>
      simp only [step, OM.bind_eq, OM.bind_read, OM.bind_write, update, OM.ret_apply]
      unfold OM.bind
      simp only [OM.read_apply, OM.write_apply, OM.ret_apply]
      rw [setDate_ne]
      rintro rfl
      exact h rfl
    | _ => exact absurd trivial hs

theorem hist_frame (z : Zone) (i : Nat) : ∀ (ops : List Op) (w w' : World) (as : List (Except Exc Ans)), (∀ op ∈ ops, op.target ≠ some i) →
    runHist (step z) ops w = .ok (w', as) → w'.date i = w.date i := by
  intro ops
  induction ops with
  | nil => intro w w' as _ h; cases h; rfl
  | cons op ops ih =>
    intro w w' as ht h
    have hf := step_frame z op i w (ht op (by simp))
    unfold runHist at h
    cases hr : step z op w with
    | ret w1 a =>
      rw [hr] at h hf
      simp only at h hf
      cases hr2 : runHist (step z) ops w1 with
      | ok r =>
        rw [hr2, Outcome.bind_ok] at h
        cases h
        rw [ih w1 r.1 r.2 (fun op ho => ht op (List.mem_cons_of_mem _ ho)) hr2]
        exact hf
      | throw e => rw [hr2] at h; cases h
      | ub => rw [hr2] at h; cases h
      | diverge => rw [hr2] at h; cases h
    | exc w1 e =>
      rw [hr] at h hf
      simp only at h hf
      cases hr2 : runHist (step z) ops w1 with
      | ok r =>
        rw [hr2, Outcome.bind_ok] at h
        cases h
        rw [ih w1 r.1 r.2 (fun op ho => ht op (List.mem_cons_of_mem _ ho)) hr2]
        exact hf
      | throw e => rw [hr2] at h; cases h
      | ub => rw [hr2] at h; cases h
      | diverge => rw [hr2] at h; cases h
    | ub => rw [hr] at h; cases h
    | diverge => rw [hr] at h; cases h

/-- Whatever is called in between, as long as it does not assign the Date, its
`getTime` and `toString` answer as before.  (Missing: its fields.) -/
theorem C54_instants_partial (z : Zone) (i : Nat) (ops : List Op) (w w' : World) (as : List (Except Exc Ans))
    (ht : ∀ op ∈ ops, op.target ≠ some i) (h : runHist (step z) ops w = .ok (w', as)) (a : Ans) :
    (step z (.getTime i) w = .ret w a → step z (.getTime i) w' = .ret w' a) ∧
    (step z (.text i) w = .ret w a → step z (.text i) w' = .ret w' a) := by
  have hf := hist_frame z i ops w w' as ht h
  constructor
  · intro hg
    simp only [step, OM.bind_eq, OM.bind_read] at hg ⊢
    rw [hf]
    unfold chk64 at hg ⊢
    split at hg
    · rename_i hx
      rw [if_pos hx]
      rw [OM.lift_ok, OM.bind_ret, OM.ret_apply] at hg ⊢
      cases hg
      rfl
    · rw [OM.lift_ub, OM.bind_undef] at hg; cases hg
  · intro hg
    simp only [step, OM.bind_eq, OM.bind_read, OM.ret_apply] at hg ⊢
    rw [hf]
    cases hg
    rfl

/-- In every world that a history reaches, comparisons agree with `getTime`. -/
theorem C54_comparisons (z : Zone) (w : World) (hr : Reach z w) (i j : Nat) (a b : Int)
    (ha : step z (.getTime i) w = .ret w (.int a)) (hb : step z (.getTime j) w = .ret w (.int b)) :
    step z (.compareTo i j) w = .ret w (.int (if a < b then -1 else if b < a then 1 else 0)) ∧
    (∃ w', step z (.before i j) w = .ret w' (.bool (decide (a < b)))) ∧
    (∃ w', step z (.after i j) w = .ret w' (.bool (decide (b < a)))) ∧
    (∃ w', step z (.equals i j) w = .ret w' (.bool (decide (a = b)))) := by
  have hg := reach_good hr
  obtain ⟨ea, _, ca⟩ := getTime_inv ha
  obtain ⟨eb, _, cb⟩ := getTime_inv hb
  have tj := temporary_of (hg j).1 w
  have ra : -9223372036854775808 ≤ a ∧ a ≤ 9223372036854775807 := by
    unfold chk64 at ca; split at ca
    · omega
    · cases ca
  have rb : -9223372036854775808 ≤ b ∧ b ≤ 9223372036854775807 := by
    unfold chk64 at cb; split at cb
    · omega
    · cases cb
  refine ⟨?_, ⟨{ w with tm := broken ((w.date j).timer + z.off) }, ?_⟩, ⟨{ w with tm := broken ((w.date j).timer + z.off) }, ?_⟩,
    ⟨{ w with tm := broken ((w.date j).timer + z.off) }, ?_⟩⟩
  · simp only [step, OM.bind_eq, OM.bind_read]
    have : chk64 ((w.date i).timer - (w.date j).timer) = .ok ((w.date i).timer - (w.date j).timer) := by
      unfold chk64; rw [if_pos]; omega
    rw [this, OM.lift_ok, OM.bind_ret, OM.ret_apply]
    congr 2
    repeat' split
    all_goals omega
  · simp only [step, OM.bind_eq, OM.bind_read]
    rw [OM.bind_of_ret tj, OM.ret_apply]
    congr 2
    rw [decide_eq_decide]; omega
  · simp only [step, OM.bind_eq, OM.bind_read]
    rw [OM.bind_of_ret tj, OM.ret_apply]
    congr 2
    rw [decide_eq_decide]; omega
  · simp only [step, OM.bind_eq, OM.bind_read]
    rw [OM.bind_of_ret tj, ca, OM.lift_ok, OM.bind_ret, cb, OM.lift_ok, OM.bind_ret, OM.ret_apply, ← ea, ← eb]

theorem runHist_cons {z : Zone} {op : Op} {w w1 : World} {a : Ans} (h : step z op w = .ret w1 a) (ops : List Op) :
    runHist (step z) (op :: ops) w = (runHist (step z) ops w1).bind fun r => .ok (r.1, .ok a :: r.2) := by
  conv => lhs; unfold runHist
  rw [h]

theorem step_ofMillis {z : Zone} {ms : Int} (h : Representable z (ms.tdiv 1000)) (i : Nat) (w : World) :
    step z (.ofMillis i ms) w = .ret (w.put z i (ms.tdiv 1000)) .done := by
  simp only [step, OM.bind_eq]
  rw [OM.bind_of_ret (initTime_of h i w), OM.ret_apply]

theorem get_shown (b : Tm) (f : Field) : b.get f = b.shown f := by cases f <;> rfl

theorem set_with (b : Tm) (f : Field) (v : Int) : b.set f v = b.with_ f v := by cases f <;> rfl

theorem step_get (z : Zone) (i : Nat) (f : Field) (w : World) : step z (.get i f) w = .ret w (.int (w.tm.shown f)) := by
  simp only [step, OM.bind_eq, OM.bind_read, OM.ret_apply, get_shown]

theorem step_set {z : Zone} {f : Field} {v : Int} {w : World} (h : Representable z (seconds (w.tm.with_ f v) - z.off)) (i : Nat) :
    step z (.set i f v) w = .ret (w.put z i (seconds (w.tm.with_ f v) - z.off)) .done := by
  simp only [step, OM.bind_eq, OM.bind_read, OM.bind_write, set_with]
  rw [OM.bind_of_ret (update_of (w := { w with tm := w.tm.with_ f v }) h i), OM.ret_apply]
  rfl

/-- A Date shows the fields of the Date made last, whatever both are: here the first
one, asked for any field, answers with the second one's. -/
theorem C54_fields_wrong (z : Zone) (w : World) (i j : Nat) (a b : Int) (f : Field) (bt : Tm)
    (ha : Representable z (a.tdiv 1000)) (hb : Representable z (b.tdiv 1000)) (hs : Shows z (b.tdiv 1000) bt) :
    ∃ w', runHist (step z) [.ofMillis i a, .ofMillis j b, .get i f] w = .ok (w', [.ok .done, .ok .done, .ok (.int (bt.shown f))]) := by
  rw [runHist_cons (step_ofMillis ha i w), runHist_cons (step_ofMillis hb j _), runHist_cons (step_get z i f _), shows_unique hs]
  exact ⟨_, rfl⟩

/-- So does a mere comparison: after `a.before(b)`, `a` shows the fields of `b`. -/
theorem C54_comparison_wrong (z : Zone) (w : World) (i j : Nat) (f : Field) (bt : Tm)
    (hb : Representable z (w.date j).timer) (hs : Shows z (w.date j).timer bt) :
    ∃ w' r, runHist (step z) [.before i j, .get i f] w = .ok (w', [.ok (.bool r), .ok (.int (bt.shown f))]) := by
  have h : ∃ r, step z (.before i j) w = .ret { w with tm := broken ((w.date j).timer + z.off) } (.bool r) := by
    simp only [step, OM.bind_eq, OM.bind_read]
    rw [OM.bind_of_ret (temporary_of hb w)]
    exact ⟨_, rfl⟩
  obtain ⟨r, h⟩ := h
  rw [runHist_cons h, runHist_cons (step_get z i f _), shows_unique hs]
  exact ⟨_, r, rfl⟩

/-- And a setter moves its Date to the fields of the other one: setting the day of the
month of the first Date gives it the month, year and time of the second. -/
theorem C54_setter_wrong (z : Zone) (w : World) (i j : Nat) (hij : i ≠ j) (a b d u : Int) (bt : Tm)
    (ha : Representable z (a.tdiv 1000)) (hb : Representable z (b.tdiv 1000)) (hs : Shows z (b.tdiv 1000) bt)
    (hu : Names z u { bt with mday := d }) (hur : Representable z u) :
    ∃ w', runHist (step z) [.ofMillis i a, .ofMillis j b, .set i .date d] w = .ok (w', [.ok .done, .ok .done, .ok .done]) ∧
      (w'.date i).timer = u ∧ (w'.date j).timer = b.tdiv 1000 := by
  have e : seconds { bt with mday := d } - z.off = u := names_unique (names_seconds z _) hu
  rw [shows_unique hs] at e
  have h3 := step_set (z := z) (f := .date) (v := d) (w := (w.put z i (a.tdiv 1000)).put z j (b.tdiv 1000)) (by
    show Representable z (seconds { broken (b.tdiv 1000 + z.off) with mday := d } - z.off)
    rw [e]; exact hur) i
  rw [runHist_cons (step_ofMillis ha i w), runHist_cons (step_ofMillis hb j _), runHist_cons h3]
  refine ⟨_, rfl, ?_, ?_⟩
  · show (setDate _ i _ i).timer = u
    rw [setDate_same]
    exact e
  · show (setDate _ i _ j).timer = _
    rw [setDate_ne _ _ (Ne.symm hij)]
    show (setDate _ j _ j).timer = _
    rw [setDate_same]

/-- UTC, and a zone five hours west. -/
def utcZone : Zone := ⟨0, txt "UTC", by decide, by decide, by decide⟩
def estZone : Zone := ⟨-18000, txt "EST", by decide, by decide, by decide⟩

/-- 16 November 2026 and 1 January 1970: different in every field but the zone. -/
example : (broken 1794842746).year = 126 ∧ (broken 0).year = 70 ∧ Representable utcZone 1794842746 ∧ Representable utcZone 0 :=
  ⟨by decide, by decide, representable_of (by omega) (by omega), representable_of (by omega) (by omega)⟩

/-! ## C99: a program with one Date -/

/-- No zero byte. -/
def Plain (s : Str) : Prop := ∀ c ∈ s, c ≠ 0

theorem Plain.append {s t : Str} (hs : Plain s) (ht : Plain t) : Plain (s ++ t) := by
  intro c hc
  rcases List.mem_append.1 hc with hc | hc
  · exact hs c hc
  · exact ht c hc

theorem digits_plain {n : Nat} (h : n < 2 ^ 64) : Plain (NumText.digits 10 64 n) := by
  intro c hc h0
  subst h0
  exact (NumText.digits_numeral (b := 10) (by omega) (by omega) 64 n h (by omega)).nul hc

theorem number_plain {x : Int} (h : x.natAbs < 2 ^ 64) : Plain (number x) := by
  unfold number
  split
  · exact Plain.append (s := [chr '-']) (by intro c hc; rw [List.mem_singleton.1 hc]; decide) (digits_plain h)
  · exact digits_plain h

theorem two_plain {x : Int} (h : x.natAbs < 2 ^ 64) : Plain (two x) := by
  unfold two
  split
  · exact Plain.append (s := [chr '0']) (by intro c hc; rw [List.mem_singleton.1 hc]; decide) (number_plain h)
  · exact number_plain h

theorem nameIn_plain {l : List Str} (h : ∀ n ∈ l, Plain n) (i : Int) : Plain (nameIn l i) := by
  have hq : Plain (txt "?") := by unfold Plain; decide
  unfold nameIn
  split
  · exact hq
  · rw [List.getD_eq_getElem?_getD]
    cases e : l[i.toNat]? with
    | none => exact hq
    | some n => exact h n (List.mem_of_getElem? e)

theorem fullText_plain {z : Zone} {t : Int} (h : Representable z t) : Plain (fullText z (broken (t + z.off))) := by
  have hv := broken_valid (t + z.off)
  have hy := (localtime_some ((representable_iff z t).1 h)).2
  revert hv hy
  generalize broken (t + z.off) = b
  intro hv hy
  have hd : ∀ n ∈ dayNames, Plain n := by unfold Plain; decide
  have hm : ∀ n ∈ monthNames, Plain n := by unfold Plain; decide
  have h1 := hv.day.2
  have hml : monthLength (b.year + 1900) b.mon ≤ 31 := by unfold monthLength; repeat' split
                                                          all_goals omega
  have h2 := hv.hour
  have h3 := hv.min
  have h4 := hv.sec
  simp only [INT_MIN, INT_MAX] at hy
  unfold fullText clock
  refine .append (.append (.append (.append (.append (.append (.append (.append (.append (.append ?_ ?_) ?_) ?_) ?_) ?_) (.append (.append (.append (.append ?_ ?_) ?_) ?_) ?_)) ?_) ?_) ?_) ?_
  · exact nameIn_plain hd _
  · unfold Plain; decide
  · exact nameIn_plain hm _
  · unfold Plain; decide
  · exact two_plain (by simp only at h1; omega)
  · unfold Plain; decide
  · exact two_plain (by omega)
  · unfold Plain; decide
  · exact two_plain (by omega)
  · unfold Plain; decide
  · exact two_plain (by omega)
  · unfold Plain; decide
  · exact z.plain
  · unfold Plain; decide
  · exact number_plain (by omega)

theorem dayWord_eq {i : Int} (h : 0 ≤ i) (h' : i < 7) : nameIn dayNames i = txt (dayWord i) := by
  have : i = 0 ∨ i = 1 ∨ i = 2 ∨ i = 3 ∨ i = 4 ∨ i = 5 ∨ i = 6 := by omega
  rcases this with rfl | rfl | rfl | rfl | rfl | rfl | rfl <;> rfl

theorem monthWord_eq {i : Int} (h : 0 ≤ i) (h' : i ≤ 11) : nameIn monthNames i = txt (monthWord i) := by
  have : i = 0 ∨ i = 1 ∨ i = 2 ∨ i = 3 ∨ i = 4 ∨ i = 5 ∨ i = 6 ∨ i = 7 ∨ i = 8 ∨ i = 9 ∨ i = 10 ∨ i = 11 := by omega
  rcases this with rfl | rfl | rfl | rfl | rfl | rfl | rfl | rfl | rfl | rfl | rfl | rfl <;> rfl

theorem number_dec {x : Int} (h : x.natAbs < 2 ^ 64) : number x = dec x := Wrappers.fmt_decimal x h

theorem two_dec {x : Int} (h : 0 ≤ x) (h' : x < 100) : two x = dec2 x := by
  unfold two dec2
  rw [number_dec (by omega)]
  by_cases hx : x < 10
  · rw [if_pos ⟨h, hx⟩, if_pos hx]; rfl
  · rw [if_neg (fun hc => hx hc.2), if_neg hx]

theorem hour_dec {x : Int} (h : 0 ≤ x) (h' : x < 24) : hour12 x = if x % 12 = 0 then 12 else x % 12 := by
  unfold hour12
  repeat' split
  all_goals omega

/-- Fields that some instant shows. -/
theorem texts_eq {z : Zone} {t : Int} (h : Representable z t) :
    fullText z (broken (t + z.off)) = (broken (t + z.off)).full z.name ∧ localeText (broken (t + z.off)) = (broken (t + z.off)).locale ∧
      gmtText (broken (t + z.off)) = (broken (t + z.off)).gmt := by
  have hv := broken_valid (t + z.off)
  have hy := (localtime_some ((representable_iff z t).1 h)).2
  have hw : 0 ≤ (broken (t + z.off)).wday ∧ (broken (t + z.off)).wday < 7 := by
    show 0 ≤ (4 + (t + z.off) / 86400) % 7 ∧ (4 + (t + z.off) / 86400) % 7 < 7
    omega
  revert hv hy hw
  generalize broken (t + z.off) = b
  intro hv hy hw
  have h0 := hv.day.1
  have h1 := hv.day.2
  have hml : monthLength (b.year + 1900) b.mon ≤ 31 := by unfold monthLength; repeat' split
                                                          all_goals omega
  have h2 := hv.hour
  have h3 := hv.min
  have h4 := hv.sec
  simp only [INT_MIN, INT_MAX] at hy
  simp only at h0 h1
  have e1 := dayWord_eq hw.1 hw.2
  have e2 := monthWord_eq (i := b.mon) (by omega) (by omega)
  have e3 := two_dec (x := b.mday) (by omega) (by omega)
  have e4 := two_dec (x := b.hour) (by omega) (by omega)
  have e5 := two_dec (x := b.min) (by omega) (by omega)
  have e6 := two_dec (x := b.sec) (by omega) (by omega)
  have e7 := number_dec (x := b.year + 1900) (by omega)
  have e8 := hour_dec h2.1 h2.2
  have e9 : two (hour12 b.hour) = dec2 (if b.hour % 12 = 0 then 12 else b.hour % 12) := by
    rw [e8]; apply two_dec
    · split <;> omega
    · split <;> omega
  refine ⟨?_, ?_, ?_⟩
  · unfold fullText clock Tm.full; rw [e1, e2, e3, e4, e5, e6, e7]
  · unfold localeText Tm.locale; rw [e2, e3, e5, e6, e7, e9]
    by_cases hh : b.hour < 12
    · have hn : ¬ b.hour > 11 := by omega
      simp only [hn, hh, if_true, if_false]
    · have hn : b.hour > 11 := by omega
      simp only [hn, hh, if_true, if_false]
  · unfold gmtText clock Tm.gmt; rw [e2, e3, e4, e5, e6, e7]

/-- The variable `i` and the static fields hold the instant `t`. -/
def Holds (z : Zone) (i : Nat) (w : World) (t : Int) : Prop :=
  w.tm = broken (t + z.off) ∧ w.date i = ⟨t, fullText z (broken (t + z.off))⟩ ∧ Representable z t

theorem holds_put {z : Zone} {i : Nat} {w : World} {t : Int} (h : Representable z t) : Holds z i (w.put z i t) t :=
  ⟨rfl, setDate_same _ _ _, h⟩

theorem lone_step (z : Zone) (i : Nat) (op : Op) (w : World) (t : Int) (hS : Holds z i w t) (hl : LoneLegal z i op t) :
    ∃ w' t' a, Holds z i w' t' ∧ Lone z i op t t' a ∧ (step z op w).Is w' a := by
  obtain ⟨htm, hd, hr⟩ := hS
  have hS : Holds z i w t := ⟨htm, hd, hr⟩
  have hti : (w.date i).timer = t := by rw [hd]
  have hb := broken_shows z t
  have htemp : temporary z (w.date i).timer w = .ret w t := by
    rw [hti, temporary_of hr, ← htm]
  cases op with
  | now k u =>
    obtain ⟨rfl, hu⟩ := hl
    refine ⟨w.put z k u, u, .ok .done, holds_put hu, ⟨rfl, rfl⟩, ?_⟩
    simp only [Res.Is, step, OM.bind_eq]
    rw [OM.bind_of_ret (initTime_of hu k w), OM.ret_apply]
  | make k y mo d h mi s =>
    obtain ⟨rfl, hu⟩ := hl
    have hn := names_seconds z ⟨y, mo, d, h, mi, s, 0⟩
    have hu := hu _ hn
    refine ⟨w.put z k _, _, .ok .done, holds_put hu, ⟨hn, rfl⟩, ?_⟩
    simp only [Res.Is, step, OM.bind_eq, initFields]
    rw [mktime_of hu, OM.bind_of_ret (initTime_of hu k w), OM.ret_apply]
  | ofMillis k ms =>
    obtain ⟨rfl, hu⟩ := hl
    exact ⟨w.put z k _, _, .ok .done, holds_put hu, ⟨rfl, rfl⟩, step_ofMillis hu k w⟩
  | setTime k ms =>
    obtain ⟨rfl, hu⟩ := hl
    exact ⟨w.put z k _, _, .ok .done, holds_put hu, ⟨rfl, rfl⟩, step_ofMillis hu k w⟩
  | copy k j =>
    obtain ⟨rfl, rfl⟩ := hl
    refine ⟨w.put z j t, t, .ok .done, holds_put hr, ⟨rfl, rfl⟩, ?_⟩
    simp only [Res.Is, step, OM.bind_eq, OM.bind_read]
    rw [hti, OM.bind_of_ret (initTime_of hr j w), OM.ret_apply]
  | set k f v =>
    obtain ⟨rfl, _, hu⟩ := hl
    have hn := names_seconds z ((broken (t + z.off)).with_ f v)
    have hu := hu _ _ hb hn
    refine ⟨w.put z k _, _, .ok .done, holds_put hu, ⟨⟨_, hb, hn⟩, rfl⟩, ?_⟩
    rw [← htm] at hu ⊢
    exact step_set hu k
  | get k f =>
    obtain rfl := hl
    refine ⟨w, t, _, hS, ⟨rfl, _, hb, rfl⟩, ?_⟩
    rw [← htm]
    exact step_get z k f w
  | getTime k =>
    obtain ⟨rfl, h1, h2⟩ := hl
    refine ⟨w, t, _, hS, ⟨rfl, rfl⟩, ?_⟩
    have hc : chk64 (t * 1000) = .ok (t * 1000) := if_pos (by omega)
    simp only [Res.Is, step, OM.bind_eq, OM.bind_read]
    rw [hti, hc, OM.lift_ok, OM.bind_ret, OM.ret_apply, Int.mul_comm]
  | compareTo k j =>
    obtain ⟨rfl, rfl⟩ := hl
    refine ⟨w, t, _, hS, ⟨rfl, rfl⟩, ?_⟩
    have hc : chk64 (t - t) = .ok 0 := by rw [Int.sub_self]; rfl
    simp only [Res.Is, step, OM.bind_eq, OM.bind_read]
    rw [hti, hc, OM.lift_ok, OM.bind_ret, OM.ret_apply]
    rfl
  | before k j =>
    obtain ⟨rfl, rfl⟩ := hl
    refine ⟨w, t, _, hS, ⟨rfl, rfl⟩, ?_⟩
    simp only [Res.Is, step, OM.bind_eq, OM.bind_read]
    rw [OM.bind_of_ret htemp, OM.ret_apply, hti, decide_eq_false (by omega)]
  | after k j =>
    obtain ⟨rfl, rfl⟩ := hl
    refine ⟨w, t, _, hS, ⟨rfl, rfl⟩, ?_⟩
    simp only [Res.Is, step, OM.bind_eq, OM.bind_read]
    rw [OM.bind_of_ret htemp, OM.ret_apply, hti, decide_eq_false (by omega)]
  | equals k j =>
    obtain ⟨rfl, rfl, h1, h2⟩ := hl
    refine ⟨w, t, _, hS, ⟨rfl, rfl⟩, ?_⟩
    have hc : chk64 (t * 1000) = .ok (t * 1000) := if_pos (by omega)
    simp only [Res.Is, step, OM.bind_eq, OM.bind_read]
    rw [OM.bind_of_ret htemp, hti, hc, OM.lift_ok, OM.bind_ret, OM.bind_ret, OM.ret_apply, decide_eq_true rfl]
  | text k =>
    obtain rfl := hl
    refine ⟨w, t, _, hS, ⟨rfl, _, hb, rfl⟩, ?_⟩
    simp only [Res.Is, step, OM.bind_eq, OM.bind_read, OM.ret_apply]
    rw [hd, cstr_eq_self (fun h0 => fullText_plain hr _ h0 rfl), (texts_eq hr).1]
  | localeText k =>
    obtain rfl := hl
    refine ⟨w, t, _, hS, ⟨rfl, _, hb, rfl⟩, ?_⟩
    simp only [Res.Is, step, OM.bind_eq, OM.bind_read, OM.ret_apply]
    rw [htm, (texts_eq hr).2.1]
  | _ => exact absurd hl id

/-- A program that uses one Date: every call answers as the specification says, through
every history. -/
theorem C99_lone (z : Zone) (i : Nat) (ms : Int) (ops : List Op) (w : World) (hr : Representable z (ms.tdiv 1000))
    (hl : Always (Lone z i) (LoneLegal z i) ops (ms.tdiv 1000)) :
    ∃ w' t' as, Follows (Lone z i) ops as (ms.tdiv 1000) t' ∧
      runHist (step z) (.ofMillis i ms :: ops) w = .ok (w', .ok .done :: as) := by
  obtain ⟨w', t', as, _, hF, hrun⟩ := runHist_follows (step z) (Lone z i) (Holds z i) (LoneLegal z i)
    (fun op w t => lone_step z i op w t) ops (w.put z i (ms.tdiv 1000)) _ (holds_put hr) hl
  refine ⟨w', t', as, hF, ?_⟩
  rw [runHist_cons (step_ofMillis hr i w), hrun]
  rfl

/-- From 16 November 2026, setting the day to 40 gives 10 December. -/
example : Always (Lone utcZone 0) (LoneLegal utcZone 0) [.set 0 .date 40, .get 0 .month, .getTime 0] 1794842746 := by
  have hv : seconds ((broken (1794842746 + utcZone.off)).with_ .date 40) - utcZone.off = 1796916346 := by decide +kernel
  refine ⟨⟨rfl, by decide, fun b u hs hn => ?_⟩, ?_⟩
  · have := shows_unique hs
    subst this
    have := names_unique (names_seconds _ _) hn
    rw [hv] at this
    subst this
    exact representable_of (by omega) (by omega)
  · rintro t₁ a ⟨⟨b, hs, hn⟩, _⟩
    have := shows_unique hs
    subst this
    have := names_unique (names_seconds _ _) hn
    rw [hv] at this
    subst this
    refine ⟨rfl, ?_⟩
    rintro t₂ a ⟨rfl, _⟩
    exact ⟨⟨rfl, by omega, by omega⟩, fun _ _ _ => trivial⟩

end Verif.Date
