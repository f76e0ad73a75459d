import Verif.Date.TextProps
/-! # Parsing any text -/
namespace Verif.Date
open Verif.JString

/-- No more than seven digits in a row. -/
def ShortRuns (s : Str) : Prop := ∀ a ds b, s = a ++ ds ++ b → (∀ c ∈ ds, isDigit c = true) → ds.length ≤ 7

theorem value_lt : ∀ (ds : Str) (acc : Int), 0 ≤ acc → (∀ c ∈ ds, isDigit c = true) → value acc ds < (acc + 1) * 10 ^ ds.length
  | [], acc, _, _ => by simp only [value, List.length_nil]; omega
  | c :: ds, acc, h, hd => by
    have hc : isDigit c = true := hd c (by simp)
    simp only [isDigit, Bool.and_eq_true, decide_eq_true_eq] at hc
    have ih := value_lt ds (acc * 10 + (c.toNat - 48)) (by omega) (fun c hc => hd c (by simp [hc]))
    simp only [value, List.length_cons]
    have hp : (0 : Int) ≤ 10 ^ ds.length := Int.pow_nonneg (by omega)
    have hle : (acc * 10 + (c.toNat - 48) + 1) * 10 ^ ds.length ≤ ((acc + 1) * 10) * 10 ^ ds.length :=
      Int.mul_le_mul_of_nonneg_right (by omega) hp
    have e : (acc + 1) * (10 : Int) ^ (ds.length + 1) = ((acc + 1) * 10) * 10 ^ ds.length := by
      rw [Int.pow_succ, Int.mul_assoc, Int.mul_comm 10]
    rw [e]; omega

theorem value_short {ds : Str} (hd : ∀ c ∈ ds, isDigit c = true) (hl : ds.length ≤ 7) : 0 ≤ value 0 ds ∧ value 0 ds < 10000000 := by
  have h1 := value_lt ds 0 (by omega) hd
  have h2 : (10 : Int) ^ ds.length ≤ 10 ^ 7 := by
    have : (10 : Nat) ^ ds.length ≤ 10 ^ 7 := Nat.pow_le_pow_right (by omega) hl
    exact_mod_cast this
  have h3 := value_ge ds 0 (by omega) hd
  have h4 : (10 : Int) ^ 7 = 10000000 := by decide
  omega

/-- The longest start of a text with a property. -/
theorem span (p : Byte → Bool) : ∀ u : Str, ∃ a b, u = a ++ b ∧ (∀ c ∈ a, p c = true) ∧ Stops p b
  | [] => ⟨[], [], rfl, by simp, nil_stops _⟩
  | c :: u => by
    cases hc : p c
    · exact ⟨[], c :: u, rfl, by simp, by intro d hd; simp at hd; subst hd; exact hc⟩
    · obtain ⟨a, b, rfl, h1, h2⟩ := span p u
      refine ⟨c :: a, b, rfl, ?_, h2⟩
      intro d hd
      rcases List.mem_cons.1 hd with rfl | hd
      · exact hc
      · exact h1 d hd

/-- What `parse` keeps in its variables. -/
structure Bounded (s : Str) (st : PS) : Prop where
  year : st.year = INT_MIN ∨ 0 ≤ st.year ∧ st.year < 10000000
  month : -1 ≤ st.month ∧ st.month < 256
  day : -1 ≤ st.day ∧ st.day < 256
  hour : -1 ≤ st.hour ∧ st.hour < 256
  minute : -1 ≤ st.minute ∧ st.minute < 256
  second : -1 ≤ st.second ∧ st.second < 256
  tz : -10000000 ≤ st.tz ∧ st.tz ≤ 10000000

theorem toByte_range (n : Int) : -1 ≤ toByte n ∧ toByte n < 256 := by unfold toByte; omega

/-- A call that keeps the variables in bounds, with the index it was given, or throws. -/
def Sound (s : Str) (i : Nat) (o : Outcome PS) : Prop :=
  o = .throw .interrupted ∨ ∃ st, o = .ok st ∧ Bounded s st ∧ st.index = i

theorem number_sound {s : Str} {st : PS} (h : Bounded s st) {n : Int} (h0 : 0 ≤ n) (hn : n < 10000000) (len : Nat) (c : Byte) :
    Sound s st.index (numberAction len st n c) := by
  obtain ⟨hy, hm, hd, hh, hmi, hs, hz⟩ := h
  unfold numberAction
  simp only
  repeat' split
  all_goals first
    | exact .inl rfl
    | exact .inr ⟨_, rfl, ⟨hy, hm, hd, hh, hmi, hs, by simp only; omega⟩, rfl⟩
    | exact .inr ⟨_, rfl, ⟨.inr ⟨by simp only; omega, by simp only; omega⟩, hm, hd, hh, hmi, hs, hz⟩, rfl⟩
    | exact .inr ⟨_, rfl, ⟨hy, hm, hd, toByte_range _, hmi, hs, hz⟩, rfl⟩
    | exact .inr ⟨_, rfl, ⟨hy, hm, hd, hh, toByte_range _, hs, hz⟩, rfl⟩
    | exact .inr ⟨_, rfl, ⟨hy, toByte_range _, hd, hh, hmi, hs, hz⟩, rfl⟩
    | exact .inr ⟨_, rfl, ⟨hy, hm, toByte_range _, hh, hmi, hs, hz⟩, rfl⟩
    | exact .inr ⟨_, rfl, ⟨hy, hm, hd, hh, hmi, toByte_range _, hz⟩, rfl⟩

theorem table_actions : ∀ e ∈ wordTable, 0 ≤ e.2 ∧ e.2 ≤ 10480 := by decide +kernel

theorem word_sound {s : Str} {st : PS} (h : Bounded s st) {a : Int} (h0 : 0 ≤ a) (ha : a ≤ 10480) : Sound s st.index (wordAction st a) := by
  obtain ⟨hy, hm, hd, hh, hmi, hs, hz⟩ := h
  unfold wordAction
  repeat' split
  all_goals first
    | exact .inl rfl
    | exact .inr ⟨_, rfl, ⟨hy, hm, hd, hh, hmi, hs, hz⟩, rfl⟩
    | exact .inr ⟨_, rfl, ⟨hy, toByte_range _, hd, hh, hmi, hs, hz⟩, rfl⟩
    | exact .inr ⟨_, rfl, ⟨hy, hm, hd, by simp only; omega, hmi, hs, hz⟩, rfl⟩
    | exact .inr ⟨_, rfl, ⟨hy, hm, hd, hh, hmi, hs, by simp only; omega⟩, rfl⟩

theorem subString_ok (s : Str) (b e : Int) : ∃ t, subString s b e = .ok t := by
  unfold subString
  split
  · exact ⟨_, rfl⟩
  · rename_i h
    unfold substr
    rw [if_pos (by omega)]
    exact ⟨_, rfl⟩

theorem regionMatches_ok (s w : Str) (h : (w.length : Int) ≤ INT_MAX) : ∃ r, regionMatches true s 0 w 0 w.length = .ok r := by
  unfold regionMatches
  have hc : chk32 (0 + (w.length : Int)) = .ok (w.length : Int) := by
    rw [chk32_ok (by simp only [INT_MIN]; omega) (by omega)]; congr 1; omega
  obtain ⟨a, ha⟩ := subString_ok s 0 w.length
  obtain ⟨b, hb⟩ := subString_ok w 0 w.length
  simp only [hc, ha, hb, Outcome.bind_eq, Outcome.bind_ok]
  exact ⟨_, rfl⟩

theorem lookup_ok (w : Str) (h : (w.length : Int) ≤ INT_MAX) : ∀ l : List (Str × Int), lookup w l = .ok none ∨ ∃ e ∈ l, lookup w l = .ok (some e.2)
  | [] => .inl rfl
  | e :: es => by
    obtain ⟨r, hr⟩ := regionMatches_ok e.1 w h
    unfold lookup
    simp only [hr, Outcome.bind_eq, Outcome.bind_ok]
    cases r
    · rcases lookup_ok w h es with h' | ⟨e', h1, h2⟩
      · exact .inl (by simpa using h')
      · exact .inr ⟨e', by simp [h1], by simpa using h2⟩
    · exact .inr ⟨e, by simp, rfl⟩

theorem length_of_drop {s : Str} {i : Nat} {a b : Str} (h : s.drop i = a ++ b) (hi : i ≤ s.length) : i + a.length ≤ s.length := drop_le hi h

/-- One turn: on with more of the text read, or an exception. -/
theorem body_sound {s : Str} (hs : ShortRuns s) (hl : (s.length : Int) ≤ INT_MAX) {st : PS} (h : Bounded s st) (hi : st.index < s.length) :
    parseBody s st = .throw .interrupted ∨
      ∃ st', parseBody s st = .ok (.next st') ∧ Bounded s st' ∧ st.index < st'.index ∧ st'.index ≤ s.length := by
  obtain ⟨c, u, hd⟩ : ∃ c u, s.drop st.index = c :: u := by
    cases e : s.drop st.index with
    | nil => have := congrArg List.length e; simp at this; omega
    | cons c u => exact ⟨c, u, rfl⟩
  have hb := h
  obtain ⟨hy, hm, hdd, hh, hmi, hsec, hz⟩ := h
  unfold parseBody
  rw [if_pos hi, charAt_drop hd, Outcome.bind_eq, Outcome.bind_ok]
  split
  · exact .inr ⟨_, rfl, ⟨hy, hm, hdd, hh, hmi, hsec, hz⟩, Nat.lt_succ_self _, hi⟩
  · split
    · rename_i hc
      obtain ⟨ds, v, he, hds, hst⟩ := span isDigit (s.drop st.index)
      have hlen := length_of_drop he (Nat.le_of_lt hi)
      have hsh := hs (s.take st.index) ds v (by rw [List.append_assoc, ← he, List.take_append_drop]) hds
      have hv := value_short hds hsh
      have hne : ds ≠ [] := by
        rintro rfl
        rw [hd] at he
        have := hst c (by simp only [List.nil_append] at he; rw [← he]; rfl)
        rw [hc] at this; cases this
      have hpos := List.length_pos_iff.2 hne
      unfold numberToken
      rw [sequenceNumber_read s ds v _ _ 0 he (by simp [hne]) (by omega) hds hst (by omega) (by simp only [INT_MAX]; omega)]
      simp only [Outcome.bind_eq, Outcome.bind_ok]
      have key : ∀ c', (∃ st', (numberAction s.length { st with index := st.index + ds.length } (value 0 ds) c' = .ok st' ∧ Bounded s st' ∧ st'.index = st.index + ds.length)) ∨
          numberAction s.length { st with index := st.index + ds.length } (value 0 ds) c' = .throw .interrupted := by
        intro c'
        rcases number_sound (s := s) (st := { st with index := st.index + ds.length }) ⟨hy, hm, hdd, hh, hmi, hsec, hz⟩ hv.1 hv.2 s.length c' with h1 | ⟨st', h1, h2, h3⟩
        · exact .inr h1
        · exact .inl ⟨st', h1, h2, h3⟩
      have fin : ∀ c', ((numberAction s.length { st with index := st.index + ds.length } (value 0 ds) c').bind fun st' =>
          Outcome.ok { st' with prev := 0 }).bind (fun st' => Outcome.ok (Step.next (ρ := PS) st')) = .throw .interrupted ∨
          ∃ st', ((numberAction s.length { st with index := st.index + ds.length } (value 0 ds) c').bind fun st' =>
          Outcome.ok { st' with prev := 0 }).bind (fun st' => Outcome.ok (Step.next (ρ := PS) st')) = .ok (.next st') ∧ Bounded s st' ∧ st.index < st'.index ∧ st'.index ≤ s.length := by
        intro c'
        rcases key c' with ⟨st', h1, h2, h3⟩ | h1
        · rw [h1]
          obtain ⟨b1, b2, b3, b4, b5, b6, b7⟩ := h2
          exact .inr ⟨_, rfl, ⟨b1, b2, b3, b4, b5, b6, b7⟩, by simp only; omega, by simp only; omega⟩
        · rw [h1]; exact .inl rfl
      split
      · rename_i hlt
        rw [charAt_lt hlt]
        simp only [Outcome.bind_ok]
        exact fin _
      · exact fin _
    · split
      · exact .inr ⟨_, rfl, ⟨hy, hm, hdd, hh, hmi, hsec, hz⟩, Nat.lt_succ_self _, hi⟩
      · obtain ⟨ws, v, he, hws, hst⟩ := span isAlpha (s.drop st.index)
        have hlen := length_of_drop he (Nat.le_of_lt hi)
        unfold wordToken
        rw [sequenceChar_read s ws v _ _ [] he (by rw [← he, hd]; simp) (by omega) hws hst]
        simp only [Outcome.bind_eq, Outcome.bind_ok, List.nil_append]
        split
        · exact .inl rfl
        · rename_i hgt
          rcases lookup_ok ws (by omega) wordTable.reverse with h1 | ⟨e, h1, h2⟩
          · rw [h1]; exact .inl rfl
          · rw [h2]
            simp only [Outcome.bind_ok]
            have ha := table_actions e (by simpa using h1)
            rcases word_sound (s := s) (st := { st with index := st.index + ws.length }) ⟨hy, hm, hdd, hh, hmi, hsec, hz⟩ ha.1 ha.2 with h3 | ⟨st', h3, h4, h5⟩
            · rw [h3]; exact .inl rfl
            · rw [h3]
              obtain ⟨b1, b2, b3, b4, b5, b6, b7⟩ := h4
              simp only at h5
              exact .inr ⟨_, rfl, ⟨b1, b2, b3, b4, b5, b6, b7⟩, by simp only; omega, by simp only; omega⟩

theorem fields_sound {s : Str} (hs : ShortRuns s) (hl : (s.length : Int) ≤ INT_MAX) (hb : NoBracket s) :
    parseFields s = .throw .interrupted ∨ ∃ st, parseFields s = .ok st ∧ Bounded s st ∧ 0 ≤ st.year ∧ 0 ≤ st.month ∧ 0 ≤ st.day := by
  unfold parseFields
  by_cases he : s.isEmpty
  · rw [if_pos he]; exact .inl rfl
  · rw [if_neg he, removeBracket_none hb, Outcome.bind_eq, Outcome.bind_ok]
    have hstart : Bounded s PS.start :=
      ⟨.inl rfl, by decide, by decide, by decide, by decide, by decide, by decide⟩
    have := iter_rule (body := parseBody s) (fun st => Bounded s st ∧ st.index ≤ s.length)
      (fun o => o = .throw .interrupted ∨ ∃ st, o = .ok st ∧ Bounded s st) (fun st => s.length - st.index) (by
        rintro st ⟨h1, h2⟩
        by_cases hi : st.index < s.length
        · rcases body_sound hs hl h1 hi with h3 | ⟨st', h3, h4, h5, h6⟩
          · exact .inr (.inr (.inl ⟨_, h3, .inl rfl⟩))
          · exact .inl ⟨st', h3, ⟨h4, h6⟩, by omega⟩
        · refine .inr (.inl ⟨st, ?_, .inr ⟨st, rfl, h1⟩⟩)
          unfold parseBody
          rw [if_neg hi]) (s.length + 1) PS.start ⟨hstart, Nat.zero_le _⟩ (by show s.length - 0 < s.length + 1; omega)
    rcases this with h1 | ⟨st, h1, h2⟩
    · rw [h1]; exact .inl rfl
    · rw [h1, Outcome.bind_eq, Outcome.bind_ok]
      split
      · exact .inl rfl
      · rename_i hn
        refine .inr ⟨st, rfl, h2, ?_, by omega, by omega⟩
        rcases h2.year with h3 | h3
        · omega
        · exact h3.1

/-! ## Bounds on instants -/

theorem year_bound {z : Zone} {now : Int} (h : Clock now) : -40000000 ≤ (broken (now + z.off)).year ∧ (broken (now + z.off)).year ≤ 40000000 := by
  obtain ⟨h1, h2⟩ := h
  have hz := z.small
  have e : (broken (now + z.off)).year = yearOf ((now + z.off) / 86400) - 1900 := rfl
  have ⟨h3, h4⟩ := yearOf_spec ((now + z.off) / 86400)
  rw [e]
  generalize yearOf ((now + z.off) / 86400) = y at *
  unfold yearStart leaps at h3 h4
  omega

theorem monthStart_range (lp : Bool) (m : Int) : 0 ≤ monthStart lp m ∧ monthStart lp m ≤ 335 := by
  unfold monthStart
  cases lp <;> (simp only [if_true, Bool.false_eq_true, if_false]; repeat' split) <;> omega

theorem seconds_bound {y m d h mi s : Int} (hy : -50000000 ≤ y ∧ y ≤ 50000000) (hm : 0 ≤ m ∧ m < 256) (hd : 0 ≤ d ∧ d < 256)
    (hh : 0 ≤ h ∧ h < 256) (hmi : 0 ≤ mi ∧ mi < 256) (hs : 0 ≤ s ∧ s < 256) :
    -2000000000000000 ≤ seconds ⟨y, m, d, h, mi, s, 0⟩ ∧ seconds ⟨y, m, d, h, mi, s, 0⟩ ≤ 2000000000000000 := by
  unfold seconds dayNumber
  simp only
  have h1 := monthStart_range (leap (y + 1900 + m / 12)) (m % 12)
  generalize monthStart (leap (y + 1900 + m / 12)) (m % 12) = k at *
  have hq : 0 ≤ m / 12 ∧ m / 12 ≤ 22 := by omega
  generalize m / 12 = q at *
  unfold yearStart leaps
  omega

theorem mktime_bound {z : Zone} {b : Tm} (h : -2000000000000000 ≤ seconds b ∧ seconds b ≤ 2000000000000000) :
    -3000000000000000 ≤ (mktime z b).1 ∧ (mktime z b).1 ≤ 3000000000000000 := by
  have hz := z.small
  unfold mktime
  cases localtime z (seconds b - z.off) with
  | none => simp only; omega
  | some _ => simp only; omega

/-! ## C106 -/

theorem century_sound (z : Zone) {now : Int} (hn : Clock now) {year : Int} (h0 : 0 ≤ year) (h1 : year < 10000000) (w : World) :
    ∃ w' y, century z now year w = .ret w' y ∧ -45000000 ≤ y ∧ y ≤ 45000000 := by
  have hr : Representable z now := by obtain ⟨a, b⟩ := hn; exact representable_of (by omega) (by omega)
  have hl := (representable_iff z now).1 hr
  have hy := year_bound (z := z) hn
  unfold century
  split
  · rw [hl]
    simp only [OM.bind_eq]
    rw [chk32_ok (by simp only [INT_MIN]; omega) (by simp only [INT_MAX]; omega), OM.lift_ok, OM.bind_ret, OM.bind_read, OM.bind_write, OM.ret_apply]
    refine ⟨_, _, rfl, ?_⟩
    generalize (broken (now + z.off)).year = b at *
    have hb : -40000000 - 100 ≤ (b + 1900 - 80).tdiv 100 * 100 ∧ (b + 1900 - 80).tdiv 100 * 100 ≤ 40000000 + 2000 := by
      have e := Int.mul_tdiv_add_tmod (b + 1900 - 80) 100
      have h2 := Int.lt_tmod_of_pos (b + 1900 - 80) (b := 100) (by omega)
      have h3 := Int.tmod_lt_of_pos (b + 1900 - 80) (b := 100) (by omega)
      omega
    generalize (b + 1900 - 80).tdiv 100 * 100 = q at *
    split <;> omega
  · exact ⟨w, year, rfl, by omega, by omega⟩

theorem orZero_range {x : Int} (h : -1 ≤ x ∧ x < 256) : 0 ≤ orZero x ∧ orZero x < 256 := by unfold orZero; split <;> omega

/-- Parsing a text without brackets whose numbers have at most seven digits returns a time or throws InterruptedException; it
does not do anything else. -/
theorem C106_parse_partial (z : Zone) (now : Int) (hn : Clock now) (s : Str) (hs : ShortRuns s) (hl : (s.length : Int) ≤ INT_MAX)
    (hb : chr '(' ∉ s) (w : World) :
    (∃ w' v, step z (.parse s now) w = .ret w' (.int v)) ∨ ∃ w', step z (.parse s now) w = .exc w' .interrupted := by
  rcases fields_sound hs hl hb with h | ⟨st, h, hbd, hy, hm, hd⟩
  · exact .inr ⟨w, step_parse_throw h⟩
  · left
    obtain ⟨by', bm, bd, bh, bmi, bs, bz⟩ := hbd
    have hyr : st.year < 10000000 := by
      rcases by' with h1 | h1
      · rw [h1]; decide
      · exact h1.2
    obtain ⟨w1, y, hc, hy1, hy2⟩ := century_sound z hn hy hyr w
    have hsec := seconds_bound (y := y - 1900) (by omega) (m := st.month) ⟨hm, bm.2⟩ (d := st.day) ⟨hd, bd.2⟩ (orZero_range bh) (orZero_range bmi) (orZero_range bs)
    have hmk := mktime_bound (z := z) hsec
    suffices ∃ w' v, parse z now s w = .ret w' v by
      obtain ⟨w', v, h'⟩ := this
      exact ⟨w', v, step_parse h'⟩
    unfold parse
    rw [h]
    simp only [OM.bind_eq, OM.lift_ok, OM.bind_ret]
    rw [OM.bind_of_ret hc]
    generalize (mktime z ⟨y - 1900, st.month, st.day, orZero st.hour, orZero st.minute, orZero st.second, 0⟩).1 = r at *
    have hz := z.small
    split
    · have : chk64 (r * 1000) = .ok (r * 1000) := if_pos (by omega)
      rw [this, OM.lift_ok, OM.ret_apply]
      exact ⟨_, _, rfl⟩
    · rw [OM.bind_of_ret (offset_of z hn w1)]
      rw [chk32_ok (by simp only [INT_MIN]; omega) (by simp only [INT_MAX]; omega), OM.lift_ok, OM.bind_ret]
      have : chk64 ((r + st.tz * 60 - -z.off) * 1000) = .ok ((r + st.tz * 60 - -z.off) * 1000) := if_pos (by omega)
      rw [this, OM.lift_ok, OM.ret_apply]
      exact ⟨_, _, rfl⟩

theorem sequenceNumber_overflow (s : Str) : ∀ (ds u : Str) (fuel i : Nat) (acc : Int), s.drop i = ds ++ u → ds.length < fuel →
    (∀ c ∈ ds, isDigit c = true) → 0 ≤ acc → acc ≤ INT_MAX → INT_MAX < value acc ds → sequenceNumber s fuel i acc = .ub := by
  intro ds
  induction ds with
  | nil => intro u fuel i acc _ _ _ _ h1 h2; simp only [value] at h2; omega
  | cons c ds ih =>
    intro u fuel i acc h hf hd h0 h1 h2
    have hc : isDigit c = true := hd c (by simp)
    have hc' := hc
    simp only [isDigit, Bool.and_eq_true, decide_eq_true_eq] at hc'
    simp only [value] at h2
    have hdr : s.drop i = c :: (ds ++ u) := by simpa using h
    cases fuel with
    | zero => simp at hf
    | succ n =>
      unfold sequenceNumber
      rw [charAt_drop hdr, Outcome.bind_eq, Outcome.bind_ok, if_pos hc]
      have hmin : INT_MIN = -2147483648 := rfl
      by_cases hb : acc * 10 ≤ INT_MAX
      · rw [chk32_ok (by omega) hb, Outcome.bind_eq, Outcome.bind_ok]
        by_cases hb2 : acc * 10 + (c.toNat - 48) ≤ INT_MAX
        · rw [chk32_ok (by omega) hb2, Outcome.bind_eq, Outcome.bind_ok]
          have hne : ds ≠ [] := by
            rintro rfl
            simp only [value] at h2; omega
          have h' := drop_next hdr
          rw [if_pos (len_of_drop h' (by simp [hne]))]
          exact ih u n (i + 1) _ h' (by simp at hf; omega) (fun c hc => hd c (by simp [hc])) (by omega) hb2 h2
        · unfold chk32
          rw [if_neg (by omega)]
          rfl
      · unfold chk32
        rw [if_neg (by omega)]
        rfl

/-- But a text that starts with a number larger than an `int` is undefined behaviour. -/
theorem C106_overflow_wrong (z : Zone) (now : Int) (t u : Str) (n : Nat) (ht : NumText.Numeral 10 t n) (hn : INT_MAX < n)
    (hb : chr '(' ∉ t ++ u) (w : World) : step z (.parse (t ++ u) now) w = .ub := by
  obtain ⟨v, dg, ne⟩ := numeral_value ht
  have hf : parseFields (t ++ u) = .ub := by
    unfold parseFields
    rw [if_neg (by simp [ne]), removeBracket_none hb, Outcome.bind_eq, Outcome.bind_ok, iter]
    suffices parseBody (t ++ u) PS.start = .ub by rw [this]; rfl
    obtain ⟨c, t', rfl⟩ := List.exists_cons_of_ne_nil ne
    have hc := dg c (by simp)
    have hd : (c :: t' ++ u).drop PS.start.index = c :: (t' ++ u) := rfl
    unfold parseBody
    rw [if_pos (lt_of_drop hd), charAt_drop hd, Outcome.bind_eq, Outcome.bind_ok, if_neg (digit_not_blank c hc), if_pos hc]
    unfold numberToken
    rw [sequenceNumber_overflow (c :: t' ++ u) (c :: t') u _ _ 0 rfl (by simp; omega) dg (by omega) (by decide) (by rw [v]; omega)]
    rfl
  simp only [step, OM.bind_eq]
  unfold parse
  rw [hf]
  rfl

/-- A text of seven characters or fewer has no long run, whatever they are. -/
example (s : Str) (h : s.length ≤ 7) : ShortRuns s := by
  rintro a ds b rfl _
  simp at h; omega

example : NumText.Numeral 10 (NumText.digits 10 64 99999999999) 99999999999 ∧ INT_MAX < (99999999999 : Nat) :=
  ⟨NumText.digits_numeral (by omega) (by omega) _ _ (by decide) (by omega), by decide⟩

end Verif.Date
