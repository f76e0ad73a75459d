import Verif.StringBuffer.Lemmas
import Verif.StringBuilder.Props
/-! # C40: edits of a `StringBuffer` -/
namespace Verif.StringBuffer

open Verif.StringBuilder (SB take_drop_eq)

theorem bind_unit {m : OM SB Unit} {s s' : SB} (h : m s = .ret s' ()) :
    (m.bind fun _ => (OM.ret Ans.unit : OM SB Ans)) s = .ret s' .unit := by
  rw [OM.bind_of_ret h]; rfl

theorem bind_ans {β : Type} {m : OM SB β} {s s' : SB} {v : β} (f : β → Ans) (h : m s = .ret s' v) :
    (m.bind fun v => (OM.ret (f v) : OM SB Ans)) s = .ret s' (f v) := by
  rw [OM.bind_of_ret h]; rfl

theorem appendSlice_ok {s : SB} {a : Txt} (h : Holds s a) {l : List Byte} {o n : Nat} (hon : o + n ≤ l.length)
    (hn : a.text.length + l.length < 2 ^ 30) :
    ∃ s', appendSlice l o n s = .ret s' () ∧ Holds s' (a.room (a.text.length + n) (a.text ++ (l.drop o).take n)) := by
  unfold appendSlice
  rw [if_neg (by omega), OM.bind_eq, chk32_ok (by unfold INT_MIN; omega) (by unfold INT_MAX; omega), OM.lift_ok, OM.bind_ret,
    if_neg (by omega)]
  exact appendAt_ok h hon (by omega)

theorem insertSlice_ok {s : SB} {a : Txt} (h : Holds s a) {l : List Byte} {i o n : Nat} (hi : i ≤ a.text.length) (hon : o + n ≤ l.length)
    (hn : a.text.length + l.length < 2 ^ 30) :
    ∃ s', insertSlice i l o n s = .ret s' () ∧
      Holds s' (a.room (a.text.length + n) (a.text.take i ++ (l.drop o).take n ++ a.text.drop i)) := by
  have hl := h.1
  unfold insertSlice
  rw [OM.bind_eq, OM.bind_read, if_neg (by omega), OM.bind_eq, chk32_ok (by unfold INT_MIN; omega) (by unfold INT_MAX; omega),
    OM.lift_ok, OM.bind_ret, if_neg (by omega)]
  exact insertAt_ok h hi hon (by omega)

theorem insert_ok {s : SB} {a : Txt} (h : Holds s a) {l : List Byte} {i : Nat} (hi : i ≤ a.text.length)
    (hn : a.text.length + l.length < 2 ^ 30) :
    ∃ s', insert i l s = .ret s' () ∧ Holds s' (a.room (a.text.length + l.length) (a.text.take i ++ l ++ a.text.drop i)) := by
  obtain ⟨s', h1, h2⟩ := insertSlice_ok h (l := l) (i := i) (o := 0) (n := l.length) hi (by omega) hn
  rw [List.drop_zero, List.take_length] at h2
  exact ⟨s', h1, h2⟩

theorem insert_exc {s : SB} {a : Txt} (h : Holds s a) {l : List Byte} {i : Int} (hi : ¬ (0 ≤ i ∧ i ≤ a.text.length)) :
    insert i l s = .exc s .stringIndexOutOfBounds := by
  have hl := h.1
  unfold insert insertSlice
  rw [OM.bind_eq, OM.bind_read, if_pos (by omega)]; rfl

theorem subString_ok {s : SB} {a : Txt} (h : Holds s a) {i j : Int} (hc : 0 ≤ i ∧ i ≤ j ∧ j ≤ a.text.length) (hi : i ≠ a.text.length)
    (h0 : 0 ∉ (a.text.take j.toNat).drop i.toNat) :
    subString i j s = .ret s ((a.text.take j.toNat).drop i.toNat) := by
  have hl := h.1
  obtain ⟨_, _, _, rest, hr, _⟩ := h
  unfold subString
  have hld := Block.load_of a.text rest i.toNat (j - i).toNat (by omega)
  rw [← hr, show ((i.toNat : Nat) : Int) = i by omega, show (j - i).toNat = j.toNat - i.toNat by omega, take_drop_eq] at hld
  rw [OM.bind_eq, OM.bind_read, if_neg (by omega), if_neg (by omega), OM.bind_eq, show (j - i).toNat = j.toNat - i.toNat by omega,
    hld, OM.lift_ok, OM.bind_ret, cstr_eq_self h0]; rfl

theorem subString_exc {s : SB} {a : Txt} (h : Holds s a) {i j : Int} (hc : ¬ (0 ≤ i ∧ i ≤ j ∧ j ≤ a.text.length)) :
    subString i j s = .exc s .stringIndexOutOfBounds := by
  have hl := h.1
  unfold subString
  rw [OM.bind_eq, OM.bind_read]
  by_cases h1 : i < 0 ∨ j < 0
  · rw [if_pos h1]; rfl
  · rw [if_neg h1, if_pos (by omega)]; rfl

/-- C40. Every call that keeps to `Legal` does to the object what it does to the text, answers or throws what the text says,
and touches no byte outside the block and no unwritten one. -/
theorem C40_call (m : Sem) (op : Op) (s : SB) (a : Txt) (h : Holds s a) (hl : Legal op a) :
    ∃ s', Holds s' (spec op a).1 ∧ (step m op s).Is s' (spec op a).2 := by
  have hlen := h.1
  cases op with
  | append l =>
    obtain ⟨s', h1, h2⟩ := append_ok h (l := l) hl
    exact ⟨s', h2, bind_unit h1⟩
  | appendSlice l o n =>
    simp only [spec, step, OM.bind_eq]
    by_cases hc : 0 ≤ o ∧ 0 ≤ n ∧ o + n ≤ l.length
    · rw [if_pos hc]
      obtain ⟨s', h1, h2⟩ := appendSlice_ok h (l := l) (o := o.toNat) (n := n.toNat) (by omega) hl.1
      rw [show ((o.toNat : Nat) : Int) = o by omega, show ((n.toNat : Nat) : Int) = n by omega] at h1
      exact ⟨s', h2, bind_unit h1⟩
    · rw [if_neg hc]
      refine ⟨s, h, OM.bind_of_exc ?_⟩
      unfold appendSlice
      by_cases h1 : o < 0 ∨ n < 0
      · rw [if_pos h1]; rfl
      · rw [if_neg h1, OM.bind_eq, chk32_ok (by unfold INT_MIN; omega) hl.2, OM.lift_ok, OM.bind_ret, if_pos (by omega)]; rfl
  | appendSub l i j =>
    simp only [spec, step, OM.bind_eq]
    by_cases hc : 0 ≤ i ∧ i ≤ j ∧ j ≤ l.length
    · rw [if_pos hc]
      obtain ⟨s', h1, h2⟩ := appendSlice_ok h (l := l) (o := i.toNat) (n := (j - i).toNat) (by omega) hl.1
      rw [show ((i.toNat : Nat) : Int) = i by omega, show (((j - i).toNat : Nat) : Int) = j - i by omega] at h1
      rw [show (j - i).toNat = j.toNat - i.toNat by omega, take_drop_eq, show j.toNat - i.toNat = (j - i).toNat by omega] at h2
      refine ⟨s', h2, bind_unit ?_⟩
      unfold appendSub
      rw [if_neg (by omega)]; exact h1
    · rw [if_neg hc]
      refine ⟨s, h, OM.bind_of_exc ?_⟩
      unfold appendSub
      by_cases h1 : i < 0 ∨ i > j ∨ i > l.length
      · rw [if_pos h1]; rfl
      · rw [if_neg h1]
        unfold appendSlice
        rw [if_neg (by omega), OM.bind_eq, show i + (j - i) = j by omega, chk32_ok (by unfold INT_MIN; omega) hl.2, OM.lift_ok, OM.bind_ret,
          if_pos (by omega)]; rfl
  | appendChar c =>
    obtain ⟨s', h1, h2⟩ := append_ok h (l := [c]) hl.1
    refine ⟨s', h2, bind_unit ?_⟩
    unfold appendChar
    rw [if_neg hl.2]; exact h1
  | appendCodePoint c =>
    have hz : (c >>> 16).toNat = 0 := by
      rw [BitVec.toNat_ushiftRight, Nat.shiftRight_eq_div_pow]; have := hl.2.2; omega
    have hne : c.setWidth 8 ≠ (0 : Byte) := by
      intro e
      have := congrArg BitVec.toNat e
      rw [BitVec.toNat_setWidth] at this
      have h1 := hl.2.1
      have h2 := hl.2.2
      simp at this; omega
    obtain ⟨s', h1, h2⟩ := append_ok h (l := [c.setWidth 8]) hl.1
    refine ⟨s', h2, bind_unit ?_⟩
    unfold appendCodePoint appendChar
    rw [if_pos hz, if_neg hne]; exact h1
  | insert i l =>
    simp only [spec, step, OM.bind_eq]
    by_cases hc : 0 ≤ i ∧ i ≤ a.text.length
    · rw [if_pos hc]
      obtain ⟨s', h1, h2⟩ := insert_ok h (l := l) (i := i.toNat) (by omega) hl
      rw [show ((i.toNat : Nat) : Int) = i by omega] at h1
      exact ⟨s', h2, bind_unit h1⟩
    · rw [if_neg hc]
      exact ⟨s, h, OM.bind_of_exc (insert_exc h hc)⟩
  | insertSlice i l o n =>
    simp only [spec, step, OM.bind_eq]
    by_cases hc : 0 ≤ i ∧ i ≤ a.text.length ∧ 0 ≤ o ∧ 0 ≤ n ∧ o + n ≤ l.length
    · rw [if_pos hc]
      obtain ⟨s', h1, h2⟩ := insertSlice_ok h (l := l) (i := i.toNat) (o := o.toNat) (n := n.toNat) (by omega) (by omega) hl.1
      rw [show ((i.toNat : Nat) : Int) = i by omega, show ((o.toNat : Nat) : Int) = o by omega,
        show ((n.toNat : Nat) : Int) = n by omega] at h1
      exact ⟨s', h2, bind_unit h1⟩
    · rw [if_neg hc]
      refine ⟨s, h, OM.bind_of_exc ?_⟩
      unfold insertSlice
      rw [OM.bind_eq, OM.bind_read]
      by_cases h1 : i < 0 ∨ i > s.len ∨ o < 0 ∨ n < 0
      · rw [if_pos h1]; rfl
      · rw [if_neg h1, OM.bind_eq, chk32_ok (by unfold INT_MIN; omega) hl.2, OM.lift_ok, OM.bind_ret, if_pos (by omega)]; rfl
  | insertSub i l x y =>
    simp only [spec, step, OM.bind_eq]
    by_cases hc : 0 ≤ i ∧ i ≤ a.text.length ∧ 0 ≤ x ∧ x ≤ y ∧ y ≤ l.length
    · rw [if_pos hc]
      obtain ⟨s', h1, h2⟩ := insertSlice_ok h (l := l) (i := i.toNat) (o := x.toNat) (n := (y - x).toNat) (by omega) (by omega) hl
      rw [show ((i.toNat : Nat) : Int) = i by omega, show ((x.toNat : Nat) : Int) = x by omega,
        show (((y - x).toNat : Nat) : Int) = y - x by omega] at h1
      rw [show (y - x).toNat = y.toNat - x.toNat by omega, take_drop_eq, show y.toNat - x.toNat = (y - x).toNat by omega] at h2
      refine ⟨s', h2, bind_unit ?_⟩
      unfold insertSub
      rw [OM.bind_eq, OM.bind_read, if_neg (by omega), if_neg (by omega)]; exact h1
    · rw [if_neg hc]
      refine ⟨s, h, OM.bind_of_exc ?_⟩
      unfold insertSub
      rw [OM.bind_eq, OM.bind_read]
      by_cases h1 : i < 0
      · rw [if_pos h1]; rfl
      · rw [if_neg h1, if_pos (by omega)]; rfl
  | insertChar i c =>
    simp only [spec, step, OM.bind_eq]
    have hdef : insertChar i c = insert i [c] := by unfold insertChar; rw [if_neg hl.2]
    rw [hdef]
    by_cases hc : 0 ≤ i ∧ i ≤ a.text.length
    · rw [if_pos hc]
      obtain ⟨s', h1, h2⟩ := insert_ok h (l := [c]) (i := i.toNat) (by omega) hl.1
      rw [show ((i.toNat : Nat) : Int) = i by omega] at h1
      exact ⟨s', h2, bind_unit h1⟩
    · rw [if_neg hc]
      exact ⟨s, h, OM.bind_of_exc (insert_exc h hc)⟩
  | deletes i j =>
    simp only [spec, step, OM.bind_eq]
    by_cases hc : 0 ≤ i ∧ i ≤ j ∧ i ≤ a.text.length
    · rw [if_pos hc]
      by_cases h1 : i = j ∨ i = a.text.length
      · refine ⟨s, ?_, bind_unit ?_⟩
        · have : a.text.take i.toNat ++ a.text.drop j.toNat = a.text := by
            rcases h1 with h1 | h1
            · subst h1; exact List.take_append_drop _ _
            · rw [List.take_of_length_le (by omega), List.drop_eq_nil_of_le (by omega), List.append_nil]
          rw [this]; exact h
        · unfold deletes
          rw [OM.bind_eq, OM.bind_read, if_neg (by omega), if_neg (by omega), if_pos (by omega)]; rfl
      · have hl' := hl (by omega) (by omega)
        obtain ⟨s', h2, h3⟩ := deleteMove_ok h (i := i.toNat) (j := j.toNat) (by omega) (by omega) (by
          by_cases hx : (a.text.length : Int) < j
          · rw [if_pos hx] at hl'; rw [if_pos (by omega)]; exact hl'
          · rw [if_neg hx] at hl'; rw [if_neg (by omega)]; omega)
        rw [show ((i.toNat : Nat) : Int) = i by omega, show ((j.toNat : Nat) : Int) = j by omega] at h2
        refine ⟨s', h3, bind_unit ?_⟩
        unfold deletes
        rw [OM.bind_eq, OM.bind_read, if_neg (by omega), if_neg (by omega), if_neg (by omega)]; exact h2
    · rw [if_neg hc]
      refine ⟨s, h, OM.bind_of_exc ?_⟩
      unfold deletes
      rw [OM.bind_eq, OM.bind_read]
      by_cases h1 : i < 0
      · rw [if_pos h1]; rfl
      · rw [if_neg h1, if_pos (by omega)]; rfl
  | deleteCharAt i =>
    simp only [spec, step, OM.bind_eq]
    by_cases hc : 0 ≤ i ∧ i < a.text.length
    · rw [if_pos hc]
      obtain ⟨s', h1, h2⟩ := deleteCharAt_ok h (i := i.toNat) (by omega) hl
      rw [show ((i.toNat : Nat) : Int) = i by omega] at h1
      exact ⟨s', h2, bind_unit h1⟩
    · rw [if_neg hc]
      refine ⟨s, h, OM.bind_of_exc ?_⟩
      unfold deleteCharAt
      rw [OM.bind_eq, OM.bind_read]
      by_cases h1 : i < 0
      · rw [if_pos h1]; rfl
      · rw [if_neg h1, if_pos (by omega)]; rfl
  | replace i j l =>
    simp only [spec, step, OM.bind_eq]
    by_cases hc : 0 ≤ i ∧ i ≤ j ∧ i ≤ a.text.length
    · rw [if_pos hc]
      have hst : stop a j = min j.toNat a.text.length := rfl
      obtain ⟨hl1, hl2, hl3⟩ := hl
      obtain ⟨s', h1, h2⟩ := replaceTail_ok h (l := l) (i := i.toNat) (e := stop a j) (by omega) (by omega) hl1
        (by omega) (fun hne => by have := hl3 hne; omega)
      rw [drop_stop] at h2
      refine ⟨s', h2, bind_unit ?_⟩
      unfold replace
      rw [OM.bind_eq, OM.bind_read, if_neg (by omega), if_neg (by omega), show (if j > s.len then s.len else j) = (stop a j : Int) by
        split <;> omega]
      rw [show ((i.toNat : Nat) : Int) = i by omega] at h1
      exact h1
    · rw [if_neg hc]
      refine ⟨s, h, OM.bind_of_exc ?_⟩
      unfold replace
      rw [OM.bind_eq, OM.bind_read]
      by_cases h1 : i < 0
      · rw [if_pos h1]; rfl
      · rw [if_neg h1, if_pos (by omega)]; rfl
  | reverse =>
    obtain ⟨s', h1, h2⟩ := reverse_ok h
    exact ⟨s', h2, bind_unit h1⟩
  | setCharAt i c =>
    simp only [spec, step, OM.bind_eq]
    by_cases hc : 0 ≤ i ∧ i < a.text.length
    · rw [if_pos hc]
      have hle := h.len_le
      obtain ⟨_, hcap, hm, rest, hr, hz⟩ := h
      refine ⟨_, ?_, bind_unit (s' := { s with mem := s.mem.set i.toNat (some c) }) ?_⟩
      · refine ⟨?_, hcap, ?_, rest, ?_, hz⟩
        · simp only [Txt.put, List.length_set]; exact hlen
        · simp only [Txt.put, List.length_set]; exact hm
        · show s.mem.set _ _ = _
          rw [hr, List.set_append_left _ _ (by simp; omega)]
          simp [Txt.put, List.map_set]
      · unfold setCharAt
        rw [OM.bind_eq, OM.bind_read, if_neg (by omega), if_neg (by omega), OM.bind_eq, Block.wr_of _ _ _ (by omega), OM.lift_ok, OM.bind_ret,
          OM.write_apply]
    · rw [if_neg hc]
      refine ⟨s, h, OM.bind_of_exc ?_⟩
      unfold setCharAt
      rw [OM.bind_eq, OM.bind_read]
      by_cases h1 : i < 0
      · rw [if_pos h1]; rfl
      · rw [if_neg h1, if_pos (by omega)]; rfl
  | setLength n =>
    simp only [spec, step, OM.bind_eq]
    by_cases hc : 0 ≤ n
    · rw [if_pos hc]
      obtain ⟨hl1, hl2⟩ := hl
      obtain ⟨s', h1, h2⟩ := setLength_ok h (n := n.toNat) (by omega) (by
        by_cases hx : (a.text.length : Int) < n
        · rw [if_pos hx] at hl2; rw [if_pos (by omega)]; omega
        · rw [if_neg hx] at hl2; rw [if_neg (by omega)]; exact hl2)
      rw [show ((n.toNat : Nat) : Int) = n by omega] at h1
      exact ⟨s', h2, bind_unit h1⟩
    · rw [if_neg hc]
      refine ⟨s, h, OM.bind_of_exc ?_⟩
      unfold setLength
      rw [if_pos (by omega)]; rfl
  | ensureCapacity n =>
    obtain ⟨s', h1, h2⟩ := ensure_ok h (n := n) hl
    exact ⟨s', h2, bind_unit h1⟩
  | trimToSize =>
    simp only [spec, step, OM.bind_eq]
    have hle := h.len_le
    obtain ⟨_, hcap, hm, rest, hr, hz⟩ := h
    by_cases hc : s.cap ≤ s.len
    · refine ⟨s, ⟨hlen, ?_, ?_, rest, hr, hz⟩, bind_unit ?_⟩
      · show s.cap = _; simp only; omega
      · simp only; omega
      · unfold trimToSize
        rw [OM.bind_eq, OM.bind_read, if_pos hc]; rfl
    · refine ⟨_, ?_, bind_unit (s' := { s with mem := s.mem.realloc s.len.toNat, cap := s.len }) ?_⟩
      · refine ⟨hlen, hlen, ?_, [], ?_, by simp⟩
        · simp only [Block.length_realloc]; omega
        · show s.mem.realloc _ = _
          unfold Block.realloc
          rw [show s.len.toNat = a.text.length by omega, show a.text.length - s.mem.length = 0 by omega, hr,
            StringBuilder.take_mem _ _ _ (Nat.le_refl _), List.take_length]
          rfl
      · unfold trimToSize
        rw [OM.bind_eq, OM.bind_read, if_neg hc, OM.write_apply]
  | charAt i =>
    simp only [spec, step, OM.bind_eq]
    by_cases hc : 0 ≤ i ∧ i < a.text.length
    · rw [dif_pos hc]
      refine ⟨s, h, bind_ans Ans.char ?_⟩
      unfold charAt
      rw [OM.bind_eq, OM.bind_read, if_neg (by omega), if_neg (by omega), rd_ok h hc]; rfl
    · rw [dif_neg hc]
      refine ⟨s, h, OM.bind_of_exc ?_⟩
      unfold charAt
      rw [OM.bind_eq, OM.bind_read]
      by_cases h1 : i < 0
      · rw [if_pos h1]; rfl
      · rw [if_neg h1, if_pos (by omega)]; rfl
  | codePointAt i =>
    simp only [spec, step, OM.bind_eq]
    by_cases hc : 0 ≤ i ∧ i < a.text.length
    · rw [dif_pos hc]
      refine ⟨s, h, ?_⟩
      have : codePointAt m i s = .ret s (Character.widen (a.text[i.toNat]'(by omega))) := by
        unfold codePointAt
        rw [OM.bind_eq, OM.bind_read, if_neg (by omega), if_neg (by omega), OM.bind_eq, rd_ok h hc, OM.lift_ok, OM.bind_ret,
          (Character.C65_no_surrogates _).1, if_neg (by simp)]; rfl
      refine (bind_ans (fun c => Ans.int c.toInt) this).trans ?_
      rw [Character.widen_toInt]
    · rw [dif_neg hc]
      refine ⟨s, h, OM.bind_of_exc ?_⟩
      unfold codePointAt
      rw [OM.bind_eq, OM.bind_read]
      by_cases h1 : i < 0
      · rw [if_pos h1]; rfl
      · rw [if_neg h1, if_pos (by omega)]; rfl
  | codePointBefore i =>
    simp only [spec, step, OM.bind_eq]
    by_cases hc : 1 ≤ i ∧ i ≤ a.text.length
    · rw [dif_pos hc]
      refine ⟨s, h, ?_⟩
      have : codePointBefore m i s = .ret s (Character.widen (a.text[(i - 1).toNat]'(by omega))) := by
        unfold codePointBefore
        rw [OM.bind_eq, OM.bind_read, if_neg (by omega), if_neg (by omega), OM.bind_eq, rd_ok h (by omega), OM.lift_ok, OM.bind_ret,
          (Character.C65_no_surrogates _).2.1, if_neg (by simp)]; rfl
      refine (bind_ans (fun c => Ans.int c.toInt) this).trans ?_
      rw [Character.widen_toInt]
    · rw [dif_neg hc]
      refine ⟨s, h, OM.bind_of_exc ?_⟩
      unfold codePointBefore
      rw [OM.bind_eq, OM.bind_read]
      by_cases h1 : i < 0 ∨ i = 0
      · rw [if_pos h1]; rfl
      · rw [if_neg h1, if_pos (by omega)]; rfl
  | codePointCount i j =>
    simp only [spec, step, OM.bind_eq]
    by_cases hc : 0 ≤ i ∧ i ≤ j ∧ j ≤ a.text.length
    · rw [if_pos hc]
      refine ⟨s, h, bind_ans Ans.int ?_⟩
      unfold codePointCount
      rw [OM.bind_eq, OM.bind_read, if_neg (by omega), countLoop_ok _ _ _ _ _ ?_]
      · rfl
      · intro k h1 h2
        by_cases hk : k < a.text.length
        · exact ⟨_, rd_ok h ⟨by omega, hk⟩⟩
        · have hkk : k = a.text.length := by omega
          subst hkk
          have := hl (by omega) (by omega)
          exact ⟨_, rd_end h this.1 this.2⟩
    · rw [if_neg hc]
      refine ⟨s, h, OM.bind_of_exc ?_⟩
      unfold codePointCount
      rw [OM.bind_eq, OM.bind_read, if_pos (by omega)]; rfl
  | length =>
    refine ⟨s, h, ?_⟩
    show (Res.ret s (Ans.int s.len)) = _
    rw [hlen]
  | capacity =>
    refine ⟨s, h, ?_⟩
    show (Res.ret s (Ans.int s.cap)) = _
    rw [h.2.1]
  | toString =>
    exact ⟨s, h, bind_ans Ans.text (toString_ok h hl.1 hl.2.1 hl.2.2)⟩
  | subString i j =>
    simp only [spec, step, OM.bind_eq]
    by_cases hc : 0 ≤ i ∧ i ≤ j ∧ j ≤ a.text.length
    · rw [if_pos hc]
      exact ⟨s, h, bind_ans Ans.text (subString_ok h hc hl.1 hl.2)⟩
    · rw [if_neg hc]
      exact ⟨s, h, OM.bind_of_exc (subString_exc h hc)⟩
  | subStringFrom i =>
    simp only [spec, step, OM.bind_eq]
    have hdef : subStringFrom i s = subString i a.text.length s := by
      unfold subStringFrom; rw [OM.bind_eq, OM.bind_read, hlen]
    by_cases hc : 0 ≤ i ∧ i ≤ a.text.length
    · rw [if_pos hc]
      have := subString_ok h (i := i) (j := a.text.length) (by omega) hl.1 (by
        rw [show ((a.text.length : Int).toNat) = a.text.length by omega, List.take_length]; exact hl.2)
      rw [show ((a.text.length : Int).toNat) = a.text.length by omega, List.take_length, ← hdef] at this
      exact ⟨s, h, bind_ans Ans.text this⟩
    · rw [if_neg hc]
      refine ⟨s, h, OM.bind_of_exc ?_⟩
      rw [hdef]
      exact subString_exc h (by omega)

/-- A fresh buffer. -/
theorem holds_fresh (n : Nat) : Holds ⟨Block.calloc n, 0, n⟩ ⟨[], n, true⟩ := by
  refine ⟨rfl, rfl, by simp [Block.calloc], Block.calloc n, rfl, fun _ x hx => ?_⟩
  exact (List.mem_replicate.mp hx).2

/-- C40, `_partial`: for every history of calls from an empty buffer of any capacity, every answer and exception is that of the
abstract text, as long as every call keeps to `Legal`. What is missing, and why, is in the theorems below: calls for which the
block has no spare room, toString after the buffer grew, NUL characters, replacements that change the length of a middle part. -/
theorem C40_history_partial (m : Sem) (ops : List Op) (capacity : Int) (hc : 0 ≤ capacity)
    (h : Along spec Legal ops ⟨[], capacity.toNat, true⟩) :
    ∃ s s', ofCapacity capacity = .ok s ∧ Holds s' (specHist spec ops ⟨[], capacity.toNat, true⟩).1 ∧
      runHist (step m) ops s = .ok (s', (specHist spec ops ⟨[], capacity.toNat, true⟩).2) := by
  have h0 := holds_fresh capacity.toNat
  rw [show ((capacity.toNat : Nat) : Int) = capacity by omega] at h0
  obtain ⟨s', h1, h2⟩ := runHist_refines (step m) spec Holds Legal (fun op s t h hl => C40_call m op s t h hl) ops _ _ h0 h
  exact ⟨_, s', by unfold ofCapacity; rw [if_neg (by omega)], h1, h2⟩

/-- C40. A negative capacity is refused. -/
theorem C40_negative_capacity (capacity : Int) (h : capacity < 0) : ofCapacity capacity = .throw .negativeArraySize := by
  unfold ofCapacity; rw [if_pos h]

/-- C40. A buffer made from a text holds it, with 16 zeroed bytes to spare. -/
theorem C40_ofText (l : List Byte) (h : l.length < 2 ^ 30) :
    ∃ s, ofText l = .ret s () ∧ Holds s ⟨l, l.length + 16, true⟩ := by
  unfold ofText defaultCapacity
  rw [chk32_ok (by unfold INT_MIN; omega) (by unfold INT_MAX; omega), OM.lift_ok, OM.bind_ret, OM.bind_write]
  have h0 := holds_fresh (l.length + 16)
  rw [show (((l.length + 16 : Nat)) : Int) = (l.length : Int) + 16 by omega] at h0
  obtain ⟨s2, h3, h4⟩ := append_ok h0 (l := l) (by simpa using h)
  rw [show ((l.length : Int) + 16).toNat = l.length + 16 by omega]
  refine ⟨s2, h3, ?_⟩
  simp only [Txt.room, List.length_nil, Nat.zero_add, List.nil_append, grow_of_le (show l.length ≤ l.length + 16 by omega),
    Bool.true_and, show (decide (l.length ≤ l.length + 16)) = true by simp] at h4
  exact h4

/-- C40. A copy holds the same text in a block of the same capacity whose spare bytes are zero; the original does not change. -/
theorem C40_copy (t : SB) (a : Txt) (h : Holds t a) : ∃ r, copy t = .ok r ∧ Holds r ⟨a.text, a.cap, true⟩ := by
  have hle := h.len_le
  obtain ⟨hl, hc, hm, rest, hr, hz⟩ := h
  unfold copy
  have h1 := Block.load_of a.text rest 0 a.text.length (by omega)
  rw [List.drop_zero, List.take_length, ← hr] at h1
  have h2 := Block.store_of (Block.calloc a.cap) 0 a.text (by simp [Block.calloc]; exact hle)
  rw [hl, hc, show ((a.text.length : Int).toNat) = a.text.length by omega, show ((a.cap : Int).toNat) = a.cap by omega,
    show (0 : Int) = ((0 : Nat) : Int) from rfl, h1, Outcome.bind_ok, h2, Outcome.bind_ok]
  refine ⟨_, rfl, rfl, rfl, ?_, (Block.calloc a.cap).drop (0 + a.text.length), ?_, ?_⟩
  · simp [Block.calloc]; omega
  · simp
  · intro _ x hx
    exact (List.mem_replicate.mp (List.mem_of_mem_drop hx)).2

/-- C40. Assignment from another buffer makes the object a copy of it. -/
theorem C40_assign (s t : SB) (a : Txt) (h : Holds t a) : ∃ r, assign (some t) s = .ret r () ∧ Holds r ⟨a.text, a.cap, true⟩ := by
  obtain ⟨r, h1, h2⟩ := C40_copy t a h
  refine ⟨r, ?_, h2⟩
  show (OM.lift (copy t)).bind (fun c => OM.write c) s = _
  rw [h1, OM.lift_ok, OM.bind_ret]; rfl

/-- C40. After ensureCapacity(n) the capacity is at least n, never smaller than before, and unchanged when n fits already; the
text stays. trimToSize makes the capacity the length. -/
theorem C40_capacity (s : SB) (a : Txt) (h : Holds s a) (n : Int) (hn : n < 2 ^ 30) :
    (∃ s' c, ensureCapacity n s = .ret s' () ∧ Holds s' ⟨a.text, c, a.clean && decide (n ≤ a.cap)⟩ ∧ n ≤ c ∧ a.cap ≤ c ∧
      (n ≤ a.cap → c = a.cap)) ∧
    (∃ s', trimToSize s = .ret s' () ∧ Holds s' ⟨a.text, a.text.length, a.clean⟩) := by
  constructor
  · obtain ⟨s', h1, h2⟩ := ensure_ok h hn
    have := le_grow a.cap n.toNat
    refine ⟨s', grow a.cap n.toNat, h1, ?_, by omega, this.2, fun hle => grow_of_le (by omega)⟩
    have hd : decide (n.toNat ≤ a.cap) = decide (n ≤ a.cap) := decide_eq_decide.mpr (by omega)
    unfold Txt.room at h2
    rw [hd] at h2
    exact h2
  · obtain ⟨s', h1, h2⟩ := C40_call .wrap .trimToSize s a h trivial
    refine ⟨s', ?_, h1⟩
    simp only [spec, step, OM.bind_eq, Res.Is] at h2
    unfold OM.bind at h2
    cases hx : trimToSize s with
    | ret r v => rw [hx] at h2; simp only [OM.ret_apply] at h2; cases h2; rfl
    | exc r e => rw [hx] at h2; simp at h2
    | ub => rw [hx] at h2; simp at h2
    | diverge => rw [hx] at h2; simp at h2

/-! ## Where C40 is false -/

theorem move_ub {m : Block} {d e n : Int} (hn : n ≠ 0) (h : m.length < d + n ∨ m.length < e + n) : Block.move m d e n = .ub := by
  unfold Block.move
  rw [if_neg hn, if_neg (by omega)]

/-- C40 is false: delete reads outside the block whenever the part deleted is longer than the spare room (or, for an end behind
the text, whenever the text fills more than half of the block). -/
theorem C40_deletes_wrong (s : SB) (a : Txt) (h : Holds s a) (i j : Int) (hi : 0 ≤ i) (hij : i < j) (hit : i < a.text.length)
    (hroom : if a.text.length < j then a.cap < 2 * a.text.length else a.cap < (j - i) + a.text.length) :
    deletes i j s = .ub := by
  obtain ⟨hl, hc, hm, _⟩ := h
  unfold deletes
  rw [OM.bind_eq, OM.bind_read, if_neg (by omega), if_neg (by omega), if_neg (by omega)]
  unfold deleteMove
  rw [OM.bind_eq, OM.bind_read]
  by_cases hx : (a.text.length : Int) < j
  · rw [if_pos hx] at hroom
    rw [if_pos (by omega), OM.bind_eq, move_ub (by omega) (by omega)]; rfl
  · rw [if_neg hx] at hroom
    rw [if_neg (by omega), OM.bind_eq, move_ub (by omega) (by omega)]; rfl

/-- C40 is false: deleteCharAt reads outside the block when the text fills it. -/
theorem C40_deleteCharAt_wrong (s : SB) (a : Txt) (h : Holds s a) (i : Int) (hi : 0 ≤ i) (hit : i < a.text.length)
    (hf : a.text.length = a.cap) : deleteCharAt i s = .ub := by
  obtain ⟨hl, hc, hm, _⟩ := h
  unfold deleteCharAt
  rw [OM.bind_eq, OM.bind_read, if_neg (by omega), if_neg (by omega), OM.bind_eq, move_ub (by omega) (by omega)]; rfl

theorem store_ub (m : Block) (i : Nat) (l : List Byte) (h : m.length < i + l.length) (hi : i ≤ m.length) : Block.store m i l = .ub := by
  induction l generalizing m i with
  | nil => simp at h; omega
  | cons c l ih =>
    unfold Block.store
    simp only [List.length_cons] at h
    by_cases hi2 : i < m.length
    · rw [Block.wr_of _ _ _ (by omega), Outcome.bind_ok, show (i : Int) + 1 = ((i + 1 : Nat) : Int) by omega]
      exact ih _ _ (by simp; omega) (by simp; omega)
    · have : m.wr i c = .ub := by
        unfold Block.wr; rw [if_neg (by omega), if_neg (by omega)]
      rw [this, Outcome.bind_ub]

/-- C40 is false: setLength writes behind the block when the new length is the new capacity, and when the text fills the block
and is not made longer. -/
theorem C40_setLength_wrong (s : SB) (a : Txt) (h : Holds s a) (n : Int) (h0 : 0 ≤ n) (hn : n < 2 ^ 30)
    (hf : if a.text.length < n then n = grow a.cap n.toNat else a.text.length = a.cap) : setLength n s = .ub := by
  have hlen := h.1
  unfold setLength
  rw [if_neg (by omega), OM.bind_eq, OM.bind_read]
  by_cases hx : (a.text.length : Int) < n
  · rw [if_pos hx] at hf
    obtain ⟨s', h1, h2⟩ := ensure_ok h hn
    have hl' := h2.1
    have hm' := h2.2.2.1
    simp only [Txt.room] at hl' hm'
    rw [if_pos (by omega), OM.bind_eq, OM.bind_of_ret h1, OM.bind_eq, OM.bind_read, OM.bind_eq, hl',
      store_ub _ _ _ (by simp only [List.length_replicate]; omega) (by omega)]; rfl
  · rw [if_neg hx] at hf
    obtain ⟨_, hc, hm, _⟩ := h
    rw [if_neg (by omega), OM.bind_eq, show (s.len - n + 1).toNat = (s.len - n).toNat + 1 by omega]
    unfold wipeDown Block.wr
    rw [if_neg (by omega), if_neg (by omega), Outcome.bind_ub]; rfl

/-- C40 is false: toString of a text without NUL that fills the block reads behind it. -/
theorem C40_toString_full (s : SB) (a : Txt) (h : Holds s a) (h0 : 0 ∉ a.text) (hf : a.text.length = a.cap) : toString s = .ub := by
  obtain ⟨_, hc, hm, rest, hr, _⟩ := h
  have : rest = [] := by
    have := congrArg List.length hr
    simp at this
    exact List.eq_nil_of_length_eq_zero (by omega)
  subst this
  unfold toString
  rw [OM.bind_eq, OM.bind_read, hr, List.append_nil, cstring_full _ h0]; rfl

/-- C40 is false: after any append that makes the buffer grow, toString reads a byte that was never written (or behind the
block), for every text without NUL. -/
theorem C40_grown_wrong (s : SB) (a : Txt) (h : Holds s a) (l : List Byte) (h0 : 0 ∉ a.text) (h1 : 0 ∉ l)
    (hg : a.cap < a.text.length + l.length) (hn : a.text.length + l.length < 2 ^ 30) :
    ∃ s', append l s = .ret s' () ∧ toString s' = .ub := by
  have hle := h.len_le
  have hlen := h.1
  have hne : 0 ∉ a.text ++ l := by simp only [List.mem_append, not_or]; exact ⟨h0, h1⟩
  have hgr := le_grow a.cap (a.text.length + l.length)
  have hens : ensureCapacity ((a.text.length + l.length : Nat) : Int) s =
      .ret { s with mem := s.mem.realloc (grow a.cap (a.text.length + l.length)), cap := (grow a.cap (a.text.length + l.length) : Nat) } () := by
    unfold ensureCapacity
    have hc := h.2.1
    have := growLoop_ok (a.text.length + l.length) hn 33 a.cap hg (by omega)
    rw [OM.bind_eq, OM.bind_read, if_neg (by omega), if_neg (by omega), OM.bind_eq, hc, this, OM.lift_ok, OM.bind_ret, OM.write_apply]
    simp
  obtain ⟨_, hc, hm, rest, hr, _⟩ := h
  have hrl : a.text.length + rest.length = a.cap := by rw [← hm, hr]; simp
  have hreal : s.mem.realloc (grow a.cap (a.text.length + l.length)) =
      a.text.map some ++ (rest ++ List.replicate (grow a.cap (a.text.length + l.length) - a.cap) none) := by
    unfold Block.realloc
    rw [List.take_of_length_le (by omega), hm, hr, List.append_assoc]
  refine ⟨{ mem := (a.text ++ l).map some ++ List.replicate (grow a.cap (a.text.length + l.length) - (a.text.length + l.length)) none,
            len := (a.text.length + l.length : Nat), cap := (grow a.cap (a.text.length + l.length) : Nat) }, ?_, ?_⟩
  · unfold append appendSlice
    rw [if_neg (by omega), OM.bind_eq, chk32_ok (by unfold INT_MIN; omega) (by unfold INT_MAX; omega), OM.lift_ok, OM.bind_ret,
      if_neg (by omega)]
    unfold appendAt
    rw [OM.bind_eq, OM.bind_read, OM.bind_eq, hlen, chk32_ok (by unfold INT_MIN; omega) (by unfold INT_MAX; omega), OM.lift_ok, OM.bind_ret,
      show (a.text.length : Int) + l.length = ((a.text.length + l.length : Nat) : Int) by omega, OM.bind_eq, OM.bind_of_ret hens,
      OM.bind_eq, OM.bind_read, OM.bind_eq]
    simp only [hlen]
    rw [hreal, show (0 : Int).toNat = 0 from rfl, List.drop_zero,
      copyIn_of _ _ _ _ (Nat.le_refl _) (by simp only [List.length_append, List.length_map, List.length_replicate]; omega), OM.lift_ok,
      OM.bind_ret, OM.write_apply, StringBuilder.take_mem _ _ _ (Nat.le_refl _), List.take_length, List.take_length, drop_text _ _ _ (by omega),
      List.drop_append, List.drop_eq_nil_of_le (as := rest) (by omega), List.nil_append, List.drop_replicate, List.map_append]
    congr 4
    omega
  · unfold toString
    rw [OM.bind_eq, OM.bind_read]
    simp only
    cases hk : grow a.cap (a.text.length + l.length) - (a.text.length + l.length) with
    | zero => rw [List.replicate_zero, List.append_nil, cstring_full _ hne]; rfl
    | succ k => rw [List.replicate_succ, cstring_none _ hne]; rfl

/-- C40 is false: replacing a part by the empty text shortens the text at its end instead of removing the part. -/
theorem C40_replace_wrong (s : SB) (a : Txt) (h : Holds s a) (i j : Int) (hi : 0 ≤ i) (hij : i ≤ j) (hj : j ≤ a.text.length)
    (hn : a.text.length < 2 ^ 30) :
    ∃ s', replace i j [] s = .ret s' () ∧ s'.len = a.text.length - (j - i) ∧
      ∀ k : Int, (h0 : 0 ≤ k) → (hk : k < a.text.length - (j - i)) → charAt k s' = .ret s' (a.text[k.toNat]'(by omega)) := by
  have hle := h.len_le
  have hlen := h.1
  have hcap := h.2.1
  have hrep : replace i j [] s = .ret { s with len := a.text.length - (j - i) } () := by
    unfold replace
    rw [OM.bind_eq, OM.bind_read, if_neg (by omega), if_neg (by omega), if_neg (by omega)]
    unfold replaceTail
    rw [OM.bind_eq, OM.bind_read, OM.bind_eq, hlen, chk32_ok (by unfold INT_MIN; rw [List.length_nil]; omega) (by unfold INT_MAX; rw [List.length_nil]; omega), OM.lift_ok,
      OM.bind_ret]
    simp only [List.length_nil]
    have hens : ensureCapacity ((a.text.length : Int) + ((0 : Nat) : Int) - j + i) s = .ret s () := by
      unfold ensureCapacity
      rw [OM.bind_eq, OM.bind_read]
      by_cases h1 : (a.text.length : Int) + ((0 : Nat) : Int) - j + i ≤ 0
      · rw [if_pos h1]; rfl
      · rw [if_neg h1, if_pos (by omega)]; rfl
    rw [OM.bind_eq, OM.bind_of_ret hens, OM.bind_eq, OM.bind_read, OM.bind_eq]
    unfold Block.move
    rw [if_pos (show ((0 : Nat) : Int) = 0 from rfl), OM.lift_ok, OM.bind_ret, OM.bind_eq]
    unfold Block.copyIn
    rw [if_pos (show ((0 : Nat) : Int) = 0 from rfl), OM.lift_ok, OM.bind_ret, OM.write_apply]
    congr 2
    omega
  refine ⟨_, hrep, rfl, ?_⟩
  intro k hk0 hk
  unfold charAt
  rw [OM.bind_eq, OM.bind_read]
  simp only
  rw [if_neg (by omega), if_neg (by omega), rd_ok h (by omega)]; rfl

/-- C40 is false: inserting a character sequence inserts the word "true", whatever the sequence is. -/
theorem C40_insertSequence_wrong (s : SB) (a : Txt) (h : Holds s a) (i : Int) (hi : 0 ≤ i ∧ i ≤ a.text.length) (l : List Byte)
    (hn : a.text.length + 4 < 2 ^ 30) :
    ∃ s', insertSequence i l s = .ret s' () ∧
      Holds s' (a.room (a.text.length + 4) (a.text.take i.toNat ++ txt "true" ++ a.text.drop i.toNat)) := by
  obtain ⟨s', h1, h2⟩ := insert_ok h (l := txt "true") (i := i.toNat) (by omega) hn
  rw [show ((i.toNat : Nat) : Int) = i by omega] at h1
  exact ⟨s', h1, h2⟩

/-- C40 is false: appending or inserting the NUL character does nothing. -/
theorem C40_nul_wrong (s : SB) (a : Txt) (h : Holds s a) (hn : a.text.length < 2 ^ 30) :
    ∃ s', appendChar 0 s = .ret s' () ∧ Holds s' a := by
  obtain ⟨s', h1, h2⟩ := append_ok h (l := []) (by simpa using hn)
  have hle := h.len_le
  refine ⟨s', h1, ?_⟩
  simp only [Txt.room, List.length_nil, Nat.add_zero, List.append_nil, grow_of_le hle, decide_eq_true hle, Bool.and_true] at h2
  exact h2

/-- C40 is false: subString(length) is refused, although the empty text is there. -/
theorem C40_subString_wrong (s : SB) (a : Txt) (h : Holds s a) :
    subStringFrom a.text.length s = .exc s .stringIndexOutOfBounds ∧
    subString a.text.length a.text.length s = .exc s .stringIndexOutOfBounds := by
  have hlen := h.1
  have : subString a.text.length a.text.length s = .exc s .stringIndexOutOfBounds := by
    unfold subString
    rw [OM.bind_eq, OM.bind_read, if_neg (by omega), if_pos (by omega)]; rfl
  refine ⟨?_, this⟩
  unfold subStringFrom
  rw [OM.bind_eq, OM.bind_read, hlen]; exact this

/-- C40 is false: a code point below 2^16 is appended as its low byte, so different code points become the same character. -/
theorem C40_appendCodePoint_wrong (s : SB) (c d : BitVec 32) (hc : c.toNat < 2 ^ 16) (hd : d.toNat < 2 ^ 16) (h : c.toNat % 256 = d.toNat % 256) :
    appendCodePoint c s = appendCodePoint d s := by
  have hz : ∀ x : BitVec 32, x.toNat < 2 ^ 16 → (x >>> 16).toNat = 0 := by
    intro x hx
    rw [BitVec.toNat_ushiftRight, Nat.shiftRight_eq_div_pow]; omega
  unfold appendCodePoint
  rw [if_pos (hz c hc), if_pos (hz d hd), show c.setWidth 8 = d.setWidth 8 by
    apply BitVec.eq_of_toNat_eq; simpa [BitVec.toNat_setWidth] using h]

/-- The low bytes of the surrogates of a code point above the basic plane, except those that are zero. -/
def surrogateBytes (c : Nat) : List Byte :=
  [BitVec.ofNat 8 ((c - 0x10000) / 0x400), BitVec.ofNat 8 (c % 0x400)].filter (· ≠ 0)

theorem appendChar_ok {s : SB} {a : Txt} (h : Holds s a) (c : Byte) (hn : a.text.length + 1 < 2 ^ 30) :
    ∃ s' a', appendChar c s = .ret s' () ∧ Holds s' a' ∧ a'.text = a.text ++ [c].filter (· ≠ 0) := by
  by_cases hc : c = 0
  · subst hc
    obtain ⟨s', h1, h2⟩ := C40_nul_wrong s a h (by omega)
    exact ⟨s', a, h1, h2, by simp⟩
  · obtain ⟨s', h1, h2⟩ := append_ok h (l := [c]) hn
    have hf : [c].filter (· ≠ 0) = [c] := by rw [List.filter_cons_of_pos (by simpa using hc)]; rfl
    refine ⟨s', _, ?_, h2, by rw [hf]; rfl⟩
    unfold appendChar
    rw [if_neg hc]; exact h1

/-- C40 is false: a code point above the basic plane becomes two characters, the low bytes of its surrogates, without those that are zero;
from 0x110000 on it is refused and the buffer stays as it is. -/
theorem C40_codePoint_high_wrong (s : SB) (a : Txt) (h : Holds s a) (c : BitVec 32) (hc : 2 ^ 16 ≤ c.toNat) (hn : a.text.length + 2 < 2 ^ 30) :
    (c.toNat < 0x110000 → ∃ s' a', appendCodePoint c s = .ret s' () ∧ Holds s' a' ∧ a'.text = a.text ++ surrogateBytes c.toNat) ∧
    (0x110000 ≤ c.toNat → appendCodePoint c s = .exc s .interrupted) := by
  have hs : (c >>> 16).toNat = c.toNat / 2 ^ 16 := by rw [BitVec.toNat_ushiftRight, Nat.shiftRight_eq_div_pow]
  unfold appendCodePoint
  rw [hs, if_neg (by omega)]
  refine ⟨fun hlt => ?_, fun hge => ?_⟩
  · rw [if_pos (by omega)]
    have e1 : highByte c = BitVec.ofNat 8 ((c.toNat - 0x10000) / 0x400) := by
      apply BitVec.eq_of_toNat_eq
      unfold highByte
      rw [BitVec.toNat_setWidth, BitVec.toNat_add, BitVec.toNat_ushiftRight, Nat.shiftRight_eq_div_pow, BitVec.toNat_ofNat,
        show (0xD800#32 - 0x10000#32 >>> 10).toNat = 0xD800 - 0x40 by decide]
      omega
    have e2 : lowByte c = BitVec.ofNat 8 (c.toNat % 0x400) := by
      apply BitVec.eq_of_toNat_eq
      unfold lowByte
      rw [BitVec.toNat_setWidth, BitVec.toNat_add, BitVec.toNat_and, show (0x3ff#32).toNat = 2 ^ 10 - 1 from rfl,
        Nat.and_two_pow_sub_one_eq_mod, show (0xDC00#32).toNat = 0xDC00 from rfl, BitVec.toNat_ofNat]
      omega
    obtain ⟨s₁, a₁, h1, h2, h3⟩ := appendChar_ok h (highByte c) (by omega)
    have hlen : a₁.text.length ≤ a.text.length + 1 := by
      rw [h3, List.length_append]
      have := List.length_filter_le (· ≠ 0) [highByte c]
      simp only [List.length_singleton] at this
      omega
    obtain ⟨s₂, a₂, k1, k2, k3⟩ := appendChar_ok h2 (lowByte c) (by omega)
    refine ⟨s₂, a₂, ?_, k2, ?_⟩
    · rw [OM.bind_eq, OM.bind_of_ret h1, k1]
    · rw [k3, h3, List.append_assoc, ← List.filter_append, e1, e2]; rfl
  · rw [if_neg (by omega)]; rfl

example : surrogateBytes 0x1F600 = [0x3d, 0x00].filter (· ≠ 0) ∧ surrogateBytes 0x10FFFF = [0xff, 0xff] := by decide +kernel

/-- C40 is false: offsetByCodePoints answers 0 whatever it is asked. -/
theorem C40_offsetByCodePoints_wrong (s : SB) (a : Txt) (h : Holds s a) (i n : Int) (hi : 0 ≤ i ∧ i ≤ a.text.length) :
    offsetByCodePoints i n s = .ret s 0 := by
  have hlen := h.1
  unfold offsetByCodePoints
  rw [OM.bind_eq, OM.bind_read, if_neg (by omega)]; rfl

/-- C40 is false: assigning a buffer to itself keeps the length and replaces every character by NUL, so a text with any other
character in it is lost. -/
theorem C40_self_assign_wrong (s : SB) (a : Txt) (h : Holds s a) (hne : ∃ c ∈ a.text, c ≠ 0#8) :
    ∃ r, assign none s = .ret r () ∧ Holds r ⟨List.replicate a.text.length 0#8, a.cap, true⟩ ∧
      List.replicate a.text.length 0#8 ≠ a.text := by
  have hle := h.len_le
  obtain ⟨hl, hc, -, -⟩ := h
  have hz : Holds { s with mem := Block.calloc s.cap.toNat } ⟨List.replicate a.text.length 0#8, a.cap, true⟩ := by
    refine ⟨by simp [hl], hc, ?_, List.replicate (a.cap - a.text.length) (some 0#8), ?_, ?_⟩
    · simp [Block.calloc, hc]
    · simp only [Block.calloc, hc, List.map_replicate, List.replicate_append_replicate, Int.toNat_natCast]
      rw [Nat.add_sub_cancel' hle]
    · intro _ x hx
      exact (List.mem_replicate.mp hx).2
  obtain ⟨r, h1, h2⟩ := C40_copy _ _ hz
  refine ⟨r, ?_, h2, ?_⟩
  · show (OM.read : OM SB SB).bind (fun s => (OM.lift (copy { s with mem := Block.calloc s.cap.toNat })).bind fun c => OM.write c) s = _
    rw [OM.bind_read, h1, OM.lift_ok, OM.bind_ret]; rfl
  · intro he
    obtain ⟨c, hc1, hc2⟩ := hne
    rw [← he] at hc1
    exact hc2 (List.mem_replicate.mp hc1).2

/-! ## The hypotheses can be met -/

/-- A history of sixteen calls, none of them outside `Legal`. -/
example : Along spec Legal [.append (txt "hello"), .insert 5 (txt " you"), .deletes 1 3, .reverse, .setCharAt 0 33#8,
    .appendChar 46#8, .charAt 2, .codePointAt 0, .codePointCount 0 3, .setLength 6, .deleteCharAt 0, .toString, .subString 1 3,
    .replace 0 1 (txt "J"), .ensureCapacity 100, .length] ⟨[], 16, true⟩ := by
  simp only [Along, spec, Legal, Txt.room, Txt.put, stop, INT_MAX]
  simp (config := { decide := true }) [grow_of_le]

example : (specHist spec [.append (txt "hello"), .insert 5 (txt " you"), .deletes 1 3, .replace 0 1 (txt "J"), .reverse]
    ⟨[], 16, true⟩).1.text = txt "uoy olJ" := by
  decide +kernel

example : ∃ s, ofText (txt "abc") = .ret s () ∧ Holds s ⟨txt "abc", 19, true⟩ := C40_ofText _ (by decide)
/-- A full block, for the theorems about texts without spare room. -/
example : Holds ⟨[some 97#8, some 98#8], 2, 2⟩ ⟨txt "ab", 2, true⟩ := ⟨rfl, rfl, rfl, [], rfl, by simp⟩
example : deletes 0 2 ⟨[some 97#8, some 98#8, some 0#8], 2, 3⟩ = .ub :=
  C40_deletes_wrong _ ⟨txt "ab", 3, true⟩ ⟨rfl, rfl, rfl, [some 0#8], rfl, by simp⟩ 0 2 (by decide) (by decide) (by decide) (by decide)
/-- "ab" assigned to itself. -/
example : assign none ⟨[some 97#8, some 98#8, some 0#8], 2, 3⟩ = .ret ⟨[some 0#8, some 0#8, some 0#8], 2, 3⟩ () := rfl
example : ∃ r, assign none ⟨[some 97#8, some 98#8], 2, 2⟩ = .ret r () ∧ Holds r ⟨List.replicate 2 0#8, 2, true⟩ ∧
    List.replicate 2 0#8 ≠ txt "ab" :=
  C40_self_assign_wrong _ ⟨txt "ab", 2, true⟩ ⟨rfl, rfl, rfl, [], rfl, by simp⟩ ⟨97#8, by decide, by decide⟩

end Verif.StringBuffer
