import Verif.Date.Lemmas
/-! # What the calls do to the world -/
namespace Verif.Date
open Verif.JString

/-- The world after a `Date` has been set to the instant `t`. -/
def World.put (z : Zone) (w : World) (i : Nat) (t : Int) : World :=
  ⟨broken (t + z.off), setDate w.date i ⟨t, fullText z (broken (t + z.off))⟩⟩

theorem setDate_same (d : Nat → Obj) (i : Nat) (o : Obj) : setDate d i o i = o := if_pos rfl
theorem setDate_ne (d : Nat → Obj) {i j : Nat} (o : Obj) (h : j ≠ i) : setDate d i o j = d j := if_neg h

theorem initTime_of {z : Zone} {t : Int} (h : Representable z t) (i : Nat) (w : World) : initTime z i t w = .ret (w.put z i t) () := by
  unfold initTime
  rw [(representable_iff _ _).mp h]
  simp only [OM.bind_eq, OM.bind_read, OM.bind_write, update, OM.write_apply]
  rw [mktime_broken h]
  rfl

theorem initTime_none {z : Zone} {t : Int} (h : ¬ Representable z t) (i : Nat) (w : World) : initTime z i t w = .ub := by
  unfold initTime
  rw [localtime_none h]
  rfl

theorem minusOne (z : Zone) : Representable z (-1) := representable_of (by omega) (by omega)

/-- `mktime` always returns an instant that `localtime` accepts. -/
theorem mktime_representable (z : Zone) (b : Tm) : Representable z (mktime z b).1 := by
  by_cases h : Representable z (seconds b - z.off)
  · rw [mktime_of h]; exact h
  · unfold mktime
    rw [localtime_none h]
    exact minusOne z

theorem temporary_of {z : Zone} {t : Int} (h : Representable z t) (w : World) : temporary z t w = .ret { w with tm := broken (t + z.off) } t := by
  unfold temporary
  rw [(representable_iff _ _).mp h]
  simp only [OM.bind_eq, OM.bind_read, OM.bind_write, OM.ret_apply]
  rw [mktime_broken h]

theorem update_of {z : Zone} {w : World} (h : Representable z (seconds w.tm - z.off)) (i : Nat) :
    update z i w = .ret (w.put z i (seconds w.tm - z.off)) () := by
  unfold update
  simp only [OM.bind_eq, OM.bind_read, OM.write_apply]
  rw [mktime_of h]
  unfold World.put
  rw [show seconds w.tm - z.off + z.off = seconds w.tm by omega]

/-! ## Worlds that histories reach -/

/-- What the setter would write has a year that fits an `int`. -/
def SetInRange (z : Zone) (w : World) : Op → Prop
  | .set _ f v => Representable z (seconds (w.tm.set f v) - z.off)
  | _ => True

/-- The worlds that histories of calls reach, as long as no setter leaves the range
of representable instants. -/
inductive Reach (z : Zone) : World → Prop
  | start : Reach z (start z)
  | ret {w w' : World} {op : Op} {a : Ans} : Reach z w → SetInRange z w op → step z op w = .ret w' a → Reach z w'
  | exc {w w' : World} {op : Op} {e : Exc} : Reach z w → SetInRange z w op → step z op w = .exc w' e → Reach z w'

/-- Instants are representable and the texts are theirs. -/
def Good (z : Zone) (w : World) : Prop :=
  ∀ i, Representable z (w.date i).timer ∧ (w.date i).text = fullText z (broken ((w.date i).timer + z.off))

theorem good_start (z : Zone) : Good z (start z) := by
  intro i
  refine ⟨representable_of (t := 0) (by omega) (by omega), ?_⟩
  simp only [start]
  rw [Int.zero_add]

theorem good_put {z : Zone} {w : World} (h : Good z w) (i : Nat) {t : Int} (ht : Representable z t) : Good z (w.put z i t) := by
  intro j
  by_cases hj : j = i
  · subst hj
    simp only [World.put, setDate_same]
    exact ⟨ht, trivial⟩
  · simp only [World.put, setDate_ne _ _ hj]
    exact h j

/-- The variables are the same. -/
def Same (w w' : World) : Prop := w'.date = w.date

/-- Results that leave the variables as they were. -/
def Keeps {β : Type} (w : World) : Res World β → Prop
  | .ret w' _ => w'.date = w.date
  | .exc w' _ => w'.date = w.date
  | _ => True

theorem keeps_bind {β γ : Type} {f : OM World β} {g : β → OM World γ} {w : World} (hf : Keeps w (f w))
    (hg : ∀ v w', w'.date = w.date → Keeps w (g v w')) : Keeps w (f.bind g w) := by
  unfold OM.bind
  cases h : f w with
  | ret w' v => rw [h] at hf; exact hg v w' hf
  | exc w' e => rw [h] at hf; exact hf
  | ub => trivial
  | diverge => trivial

theorem keeps_lift {β : Type} (x : Outcome β) {w w' : World} (h : w'.date = w.date) : Keeps w ((OM.lift x : OM World β) w') := by
  cases x
  · exact h
  · exact h
  · trivial
  · trivial

theorem keeps_century (z : Zone) (now y : Int) {w w' : World} (h : w'.date = w.date) : Keeps w (century z now y w') := by
  unfold century
  split
  · cases localtime z now with
    | none => trivial
    | some b =>
      show Keeps w (((OM.lift (chk32 (b.year + 1900))).bind fun ty => OM.read.bind fun w1 =>
        (OM.write { w1 with tm := { b with year := ty } }).bind fun _ =>
          OM.ret (if y + (ty - 80).tdiv 100 * 100 < ty - 80 then y + (ty - 80).tdiv 100 * 100 + 100 else y + (ty - 80).tdiv 100 * 100)) w')
      unfold chk32
      split
      · simp only [OM.lift_ok, OM.bind_ret, OM.bind_read, OM.bind_write, OM.ret_apply]
        exact h
      · trivial
  · exact h

theorem keeps_offset (z : Zone) (now : Int) {w w' : World} (h : w'.date = w.date) : Keeps w (offsetFromUTC z now w') := by
  unfold offsetFromUTC
  cases gmtime now <;> cases localtime z now <;> first | exact h | trivial

theorem keeps_parse (z : Zone) (now : Int) (s : Str) {w w' : World} (h : w'.date = w.date) : Keeps w (parse z now s w') := by
  have h1 : ∀ {β γ : Type} (f : OM World β) (g : β → OM World γ) (w1 : World), w1.date = w.date → Keeps w (f w1) →
      (∀ v w2, w2.date = w.date → Keeps w (g v w2)) → Keeps w (f.bind g w1) := by
    intro β γ f g w1 _ hf hg
    unfold OM.bind
    cases e : f w1 with
    | ret w2 v => rw [e] at hf; exact hg v w2 hf
    | exc w2 e' => rw [e] at hf; exact hf
    | ub => trivial
    | diverge => trivial
  unfold parse
  simp only [OM.bind_eq]
  refine h1 _ _ _ h (keeps_lift _ h) fun st w1 hw1 => ?_
  refine h1 _ _ _ hw1 (keeps_century z now _ hw1) fun y w2 hw2 => ?_
  split
  · exact keeps_lift _ hw2
  · refine h1 _ _ _ hw2 (keeps_offset z now hw2) fun o w3 hw3 => ?_
    refine h1 _ _ _ hw3 (keeps_lift _ hw3) fun m w4 hw4 => ?_
    exact keeps_lift _ hw4

/-- The variable a call assigns. -/
def Op.target : Op → Option Nat
  | .now i _ => some i
  | .make i _ _ _ _ _ _ => some i
  | .ofMillis i _ => some i
  | .ofText i _ _ => some i
  | .copy i _ => some i
  | .set i _ _ => some i
  | .setTime i _ => some i
  | _ => none

/-- The variables after a call: all as before, or all but one, which holds an instant
with its text. -/
def Changes (z : Zone) (w : World) (o : Option Nat) {β : Type} : Res World β → Prop
  | .ret w' _ => w'.date = w.date ∨ ∃ i t, o = some i ∧ Representable z t ∧ w'.date = setDate w.date i ⟨t, fullText z (broken (t + z.off))⟩
  | .exc w' _ => w'.date = w.date
  | _ => True

theorem changes_init (z : Zone) (w w' : World) (h : w'.date = w.date) (i : Nat) (t : Int) :
    Changes z w (some i) (((initTime z i t).bind fun _ => (OM.ret Ans.done : OM World Ans)) w') := by
  by_cases ht : Representable z t
  · rw [OM.bind_of_ret (initTime_of ht i w'), OM.ret_apply]
    right
    refine ⟨i, t, rfl, ht, ?_⟩
    rw [← h]; rfl
  · rw [OM.bind_of_ub (initTime_none ht i w')]
    trivial

theorem changes_of_keeps {z : Zone} {w : World} {o : Option Nat} {β : Type} {r : Res World β} (h : Keeps w r) : Changes z w o r := by
  cases r with
  | ret w' v => exact Or.inl h
  | exc w' e => exact h
  | ub => trivial
  | diverge => trivial

theorem keeps_temporary (z : Zone) (t : Int) {w w' : World} (h : w'.date = w.date) : Keeps w (temporary z t w') := by
  unfold temporary
  cases localtime z t with
  | none => trivial
  | some b => exact h

theorem keeps_utc (z : Zone) (t : Int) {w w' : World} (h : w'.date = w.date) : Keeps w (utcTime z t w') := by
  unfold utcTime
  cases gmtime t with
  | none => trivial
  | some b => exact h

theorem keeps_bind' {β γ : Type} {f : OM World β} {g : β → OM World γ} {w w1 : World} (hf : Keeps w (f w1))
    (hg : ∀ v w', w'.date = w.date → Keeps w (g v w')) : Keeps w (f.bind g w1) := by
  unfold OM.bind
  cases h : f w1 with
  | ret w' v => rw [h] at hf; exact hg v w' hf
  | exc w' e => rw [h] at hf; exact hf
  | ub => trivial
  | diverge => trivial

theorem step_changes (z : Zone) (w : World) (op : Op) (hs : SetInRange z w op) : Changes z w op.target (step z op w) := by
  cases op with
  | now i t => simp only [step, OM.bind_eq, Op.target]; exact changes_init z w w rfl i t
  | make i y mo d h mi s => simp only [step, OM.bind_eq, Op.target, initFields]; exact changes_init z w w rfl i _
  | ofMillis i ms => simp only [step, OM.bind_eq, Op.target]; exact changes_init z w w rfl i _
  | setTime i ms => simp only [step, OM.bind_eq, Op.target]; exact changes_init z w w rfl i _
  | copy i j =>
    simp only [step, OM.bind_eq, Op.target, OM.bind_read]
    exact changes_init z w w rfl i _
  | ofText i s now =>
    simp only [step, OM.bind_eq, Op.target]
    have hk := keeps_parse z now s (w := w) (w' := w) rfl
    cases h : parse z now s w with
    | ret w' ms => rw [h] at hk; rw [OM.bind_of_ret h]; exact changes_init z w w' hk i _
    | exc w' e => rw [h] at hk; rw [OM.bind_of_exc h]; exact hk
    | ub => rw [OM.bind_of_ub h]; trivial
    | diverge => unfold OM.bind; rw [h]; trivial
  | set i f v =>
    have h := update_of (w := { w with tm := w.tm.set f v }) hs i
    simp only [step, OM.bind_eq, Op.target, OM.bind_read, OM.bind_write]
    rw [OM.bind_of_ret h, OM.ret_apply]
    exact Or.inr ⟨i, _, rfl, hs, rfl⟩
  | get i f => simp only [step, OM.bind_eq, OM.bind_read, OM.ret_apply]; exact Or.inl rfl
  | getTime i =>
    simp only [step, OM.bind_eq, OM.bind_read]
    exact changes_of_keeps (keeps_bind' (keeps_lift _ rfl) fun v w' h => h)
  | compareTo i j =>
    simp only [step, OM.bind_eq, OM.bind_read]
    exact changes_of_keeps (keeps_bind' (keeps_lift _ rfl) fun v w' h => h)
  | before i j =>
    simp only [step, OM.bind_eq, OM.bind_read]
    exact changes_of_keeps (keeps_bind' (keeps_temporary _ _ rfl) fun v w' h => h)
  | after i j =>
    simp only [step, OM.bind_eq, OM.bind_read]
    exact changes_of_keeps (keeps_bind' (keeps_temporary _ _ rfl) fun v w' h => h)
  | equals i j =>
    simp only [step, OM.bind_eq, OM.bind_read]
    refine changes_of_keeps (keeps_bind' (keeps_temporary _ _ rfl) fun v w' h => ?_)
    refine keeps_bind' (keeps_lift _ h) fun v' w'' h' => ?_
    exact keeps_bind' (keeps_lift _ h') fun v' w'' h' => h'
  | text i => simp only [step, OM.bind_eq, OM.bind_read, OM.ret_apply]; exact Or.inl rfl
  | localeText i => simp only [step, OM.bind_eq, OM.bind_read, OM.ret_apply]; exact Or.inl rfl
  | gmtText i =>
    simp only [step, OM.bind_eq, OM.bind_read]
    refine changes_of_keeps (keeps_bind' (keeps_utc _ _ rfl) fun v w' h => ?_)
    cases localtime z v with
    | none => trivial
    | some b => simp only [OM.bind_write, OM.ret_apply]; exact rfl
  | utc y mo d h mi s =>
    simp only [step, OM.bind_eq]
    refine changes_of_keeps (keeps_bind' (keeps_temporary _ _ rfl) fun v w' h => ?_)
    refine keeps_bind' (keeps_lift _ h) fun v' w'' h' => ?_
    exact keeps_bind' (keeps_utc _ _ h') fun v' w'' h' => h'
  | parse s now =>
    simp only [step, OM.bind_eq]
    exact changes_of_keeps (keeps_bind' (keeps_parse _ _ _ rfl) fun v w' h => h)

theorem reach_good {z : Zone} {w : World} (h : Reach z w) : Good z w := by
  have put : ∀ {w w' : World} {i : Nat} {t : Int}, Good z w → Representable z t →
      w'.date = setDate w.date i ⟨t, fullText z (broken (t + z.off))⟩ → Good z w' := by
    intro w w' i t hg ht e j
    rw [e]
    exact good_put hg i ht j
  induction h with
  | start => exact good_start z
  | ret hr hs he ih =>
    have hc := step_changes z _ _ hs
    rw [he] at hc
    rcases hc with hc | ⟨i, t, _, ht, hc⟩
    · intro j; rw [hc]; exact ih j
    · exact put ih ht hc
  | exc hr hs he ih =>
    have hc := step_changes z _ _ hs
    rw [he] at hc
    intro j
    rw [show _ = _ from hc]; exact ih j

end Verif.Date
