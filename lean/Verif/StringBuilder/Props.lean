import Verif.StringBuilder.Lemmas
import Verif.JString.Model
/-! # C38: edits of a `StringBuilder` -/
namespace Verif.StringBuilder

theorem setLength_ok {s : SB} {t : List Byte} (h : Holds s t) {n : Nat} (hn : n < 2 ^ 30) :
    ∃ s', setLength n s = .ret s' () ∧ Holds s' (t.take n ++ List.replicate (n - t.length) 0#8) := by
  unfold setLength
  rw [if_neg (by omega)]
  simp only [OM.bind_eq]
  obtain ⟨s', h1, ⟨hl', hc', rest, hm'⟩, h2⟩ := ensure_ok h (n := (n : Int)) (by omega)
  rw [OM.bind_of_ret h1, OM.bind_read, hl', show ((n : Int) - (t.length : Int)).toNat = n - t.length by omega]
  by_cases hcase : n ≤ t.length
  · rw [show n - t.length = 0 by omega]
    refine ⟨{ s' with len := n }, ?_, ?_, ?_, (t.drop n).map some ++ rest, ?_⟩
    · rfl
    · simp; omega
    · exact hc'
    · show s'.mem = _
      rw [hm', List.replicate_zero, List.append_nil, ← List.append_assoc, ← List.map_append, List.take_append_drop]
  · have hlen : t.length ≤ s'.mem.length := by rw [hm']; simp
    rw [Block.store_of _ _ _ (by simp; omega), OM.lift_ok, OM.bind_ret, OM.write_apply]
    refine ⟨_, rfl, ?_, ?_, s'.mem.drop (t.length + (List.replicate (n - t.length) 0#8).length), ?_⟩
    · simp; omega
    · show s'.cap = _
      simp only [List.length_append, List.length_map, List.length_take, List.length_drop, List.length_replicate]; omega
    · show s'.mem.take t.length ++ _ ++ _ = _
      rw [hm', take_mem _ _ _ (Nat.le_refl _), List.take_length, List.take_of_length_le (by omega : t.length ≤ n), List.map_append]

theorem charAt_rd {s : SB} {t : List Byte} (h : Holds s t) {i : Int} (hi : 0 ≤ i ∧ i < t.length) :
    s.mem.rd i = .ok (t[i.toNat]'(by omega)) := by
  obtain ⟨hl, hc, rest, hm⟩ := h
  rw [hm, Block.rd_of _ _ _ hi]

theorem take_drop_eq (l : List Byte) (a b : Nat) : (l.drop a).take (b - a) = (l.take b).drop a := by
  rw [List.drop_take]

/-- Replacing the unit answer of an edit. -/
theorem bind_unit {m : OM SB Unit} {s s' : SB} (h : m s = .ret s' ()) :
    (m.bind fun _ => (OM.ret Ans.unit : OM SB Ans)) s = .ret s' .unit := by
  rw [OM.bind_of_ret h]; rfl

/-- C38. Every call does to the object what it does to the text, and never touches memory outside the block or reads an
unwritten byte. -/
theorem C38_call (m : Sem) (op : Op) (s : SB) (t : List Byte) (h : Holds s t) (hl : Legal op t) :
    ∃ s', Holds s' (spec op t).1 ∧ (step m op s).Is s' (spec op t).2 := by
  have hlen := h.1
  cases op with
  | append l =>
    obtain ⟨s', h1, h2⟩ := append_ok h (l := l) hl
    exact ⟨s', h2, bind_unit h1⟩
  | appendSlice l i j =>
    simp only [spec, step, OM.bind_eq]
    by_cases hc : 0 ≤ i ∧ i ≤ j ∧ j ≤ l.length
    · rw [if_pos hc]
      have hle : t.length + l.length < 2 ^ 30 := hl
      obtain ⟨s', h1, h2⟩ := append_ok h (l := (l.drop i.toNat).take (j - i).toNat) (by simp; omega)
      refine ⟨s', ?_, bind_unit ?_⟩
      · rw [← take_drop_eq, show j.toNat - i.toNat = (j - i).toNat by omega]; exact h2
      · unfold appendSlice
        rw [if_neg (by omega)]; exact h1
    · rw [if_neg hc]
      refine ⟨s, h, OM.bind_of_exc ?_⟩
      unfold appendSlice
      rw [if_pos (by omega)]; rfl
  | insert i l =>
    simp only [spec, step, OM.bind_eq]
    by_cases hc : 0 ≤ i ∧ i ≤ t.length
    · rw [if_pos hc]
      obtain ⟨s', h1, h2⟩ := insertAt_ok h (l := l) hl hc
      refine ⟨s', h2, bind_unit ?_⟩
      unfold insert
      rw [OM.bind_eq, OM.bind_read, if_neg (by omega)]; exact h1
    · rw [if_neg hc]
      refine ⟨s, h, OM.bind_of_exc ?_⟩
      unfold insert
      rw [OM.bind_eq, OM.bind_read, if_pos (by omega)]; rfl
  | insertChar i c =>
    simp only [spec, step, OM.bind_eq]
    by_cases hc : 0 ≤ i ∧ i ≤ t.length
    · rw [if_pos hc]
      obtain ⟨s', h1, h2⟩ := insertAt_ok h (l := [c]) hl hc
      refine ⟨s', h2, bind_unit ?_⟩
      unfold insertChar
      rw [OM.bind_eq, OM.bind_read, if_neg (by omega)]; exact h1
    · rw [if_neg hc]
      refine ⟨s, h, OM.bind_of_exc ?_⟩
      unfold insertChar
      rw [OM.bind_eq, OM.bind_read, if_pos (by omega)]; rfl
  | insertSlice i l o n =>
    simp only [spec, step, OM.bind_eq]
    obtain ⟨hl1, hl2, hl3⟩ := hl
    by_cases hc : 0 ≤ i ∧ i ≤ t.length
    · by_cases hd : 0 ≤ o ∧ 0 ≤ n ∧ o + n ≤ l.length
      · rw [if_pos ⟨hc.1, hc.2, hd⟩]
        obtain ⟨s', h1, h2⟩ := insertAt_ok h (l := (l.drop o.toNat).take n.toNat) (by simp; omega) hc
        refine ⟨s', ?_, bind_unit ?_⟩
        · rw [← take_drop_eq, show (o + n).toNat - o.toNat = n.toNat by omega]; exact h2
        · unfold insertSlice
          rw [OM.bind_eq, OM.bind_read, if_neg (by omega), OM.bind_eq, chk32_ok hl2 hl3, OM.lift_ok, OM.bind_ret, if_neg (by omega)]
          exact h1
      · rw [if_neg (by omega)]
        refine ⟨s, h, OM.bind_of_exc ?_⟩
        unfold insertSlice
        rw [OM.bind_eq, OM.bind_read, if_neg (by omega), OM.bind_eq, chk32_ok hl2 hl3, OM.lift_ok, OM.bind_ret, if_pos (by omega)]
        rfl
    · rw [if_neg (by omega)]
      refine ⟨s, h, OM.bind_of_exc ?_⟩
      unfold insertSlice
      rw [OM.bind_eq, OM.bind_read, if_pos (by omega)]; rfl
  | insertSub i l a b =>
    simp only [spec, step, OM.bind_eq]
    have hle : t.length + l.length < 2 ^ 30 := hl
    by_cases hc : 0 ≤ i ∧ i ≤ t.length
    · by_cases hd : 0 ≤ a ∧ a ≤ b ∧ b ≤ l.length
      · rw [if_pos ⟨hc.1, hc.2, hd⟩]
        obtain ⟨s', h1, h2⟩ := insertAt_ok h (l := (l.drop a.toNat).take (b - a).toNat) (by simp; omega) hc
        refine ⟨s', ?_, bind_unit ?_⟩
        · rw [← take_drop_eq, show b.toNat - a.toNat = (b - a).toNat by omega]; exact h2
        · unfold insertSub
          rw [OM.bind_eq, OM.bind_read, if_neg (by omega), if_neg (by omega)]
          exact h1
      · rw [if_neg (by omega)]
        refine ⟨s, h, OM.bind_of_exc ?_⟩
        unfold insertSub
        rw [OM.bind_eq, OM.bind_read, if_neg (by omega), if_pos (by omega)]
        rfl
    · rw [if_neg (by omega)]
      refine ⟨s, h, OM.bind_of_exc ?_⟩
      unfold insertSub
      rw [OM.bind_eq, OM.bind_read, if_pos (by omega)]; rfl
  | deleteRange i j =>
    simp only [spec, step, OM.bind_eq]
    have hdef : deleteRange i j s = (if i < 0 then OM.raise .stringIndexOutOfBounds else
        if i > (if j > s.len then s.len else j) then OM.raise .stringIndexOutOfBounds else
          deleteTail i (if j > s.len then s.len else j)) s := rfl
    by_cases hc : 0 ≤ i ∧ i ≤ j ∧ i ≤ t.length
    · rw [if_pos hc]
      obtain ⟨s', r, h1, h2, h3⟩ := deleteTail_ok h (a := i) (b := if j > s.len then s.len else j) (by split <;> omega)
      have he : t.drop (if j > s.len then s.len else j).toNat = t.drop j.toNat := by
        split
        · rw [List.drop_eq_nil_of_le (by omega), List.drop_eq_nil_of_le (by omega)]
        · rfl
      rw [he] at h2 h3
      refine ⟨s', h2, bind_built ?_ h3⟩
      rw [hdef, if_neg (by omega), if_neg (by split <;> omega)]; exact h1
    · rw [if_neg hc]
      refine ⟨s, h, OM.bind_of_exc ?_⟩
      rw [hdef]
      by_cases hi : i < 0
      · rw [if_pos hi]; rfl
      · rw [if_neg hi, if_pos (by split <;> omega)]; rfl
  | deleteCharAt i =>
    simp only [spec, step, OM.bind_eq]
    by_cases hc : 0 ≤ i ∧ i < t.length
    · rw [if_pos hc]
      obtain ⟨s', r, h1, h2, h3⟩ := deleteTail_ok h (a := i) (b := i + 1) (by omega)
      rw [show (i + 1).toNat = i.toNat + 1 by omega, ← List.eraseIdx_eq_take_drop_succ] at h2 h3
      refine ⟨s', h2, bind_built ?_ h3⟩
      unfold deleteCharAt
      rw [OM.bind_eq, OM.bind_read, if_neg (by omega)]; exact h1
    · rw [if_neg hc]
      refine ⟨s, h, OM.bind_of_exc ?_⟩
      unfold deleteCharAt
      rw [OM.bind_eq, OM.bind_read, if_pos (by omega)]; rfl
  | replace i j l =>
    simp only [spec, step, OM.bind_eq]
    by_cases hc : 0 ≤ i ∧ i ≤ j ∧ i ≤ t.length
    · rw [if_pos hc]
      obtain ⟨s', r, h1, h2, h3⟩ := replaceTail_ok h (l := l) hl (a := i) (b := if j > s.len then s.len else j) (by split <;> omega)
      have he : t.drop (if j > s.len then s.len else j).toNat = t.drop j.toNat := by
        split
        · rw [List.drop_eq_nil_of_le (by omega), List.drop_eq_nil_of_le (by omega)]
        · rfl
      rw [he] at h2 h3
      refine ⟨s', h2, bind_built ?_ h3⟩
      unfold replace
      rw [OM.bind_eq, OM.bind_read, if_neg (by omega), if_neg (by omega), if_neg (by omega)]; exact h1
    · rw [if_neg hc]
      refine ⟨s, h, OM.bind_of_exc ?_⟩
      unfold replace
      rw [OM.bind_eq, OM.bind_read]
      by_cases h1 : i < 0
      · rw [if_pos h1]; rfl
      · rw [if_neg h1]
        by_cases h2 : i > s.len
        · rw [if_pos h2]; rfl
        · rw [if_neg h2, if_pos (by omega)]; rfl
  | reverse =>
    obtain ⟨s', r, h1, h2, h3⟩ := reverse_ok h
    exact ⟨s', h2, bind_built h1 h3⟩
  | setCharAt i c =>
    simp only [spec, step, OM.bind_eq]
    by_cases hc : 0 ≤ i ∧ i < t.length
    · rw [if_pos hc]
      obtain ⟨hl1, hc1, rest, hm⟩ := h
      refine ⟨{ s with mem := (t.set i.toNat c).map some ++ rest }, ⟨?_, ?_, rest, rfl⟩, bind_unit ?_⟩
      · simp [hl1]
      · show s.cap = _
        rw [hc1, hm]; simp
      · unfold setCharAt
        rw [OM.bind_eq, OM.bind_read, if_neg (by omega), OM.bind_eq]
        have := wr_text t rest i.toNat c (by omega)
        rw [show ((i.toNat : Nat) : Int) = i by omega, ← hm] at this
        rw [this]; rfl
    · rw [if_neg hc]
      refine ⟨s, h, OM.bind_of_exc ?_⟩
      unfold setCharAt
      rw [OM.bind_eq, OM.bind_read, if_pos (by omega)]; rfl
  | setLength n =>
    simp only [spec, step, OM.bind_eq]
    by_cases hc : 0 ≤ n
    · rw [if_pos hc]
      obtain ⟨n, rfl⟩ : ∃ k : Nat, n = k := ⟨n.toNat, by omega⟩
      have hle : (n : Int) < 2 ^ 30 := hl
      obtain ⟨s', h1, h2⟩ := setLength_ok h (n := n) (by omega)
      exact ⟨s', h2, bind_unit h1⟩
    · rw [if_neg hc]
      refine ⟨s, h, OM.bind_of_exc ?_⟩
      unfold setLength
      rw [if_pos (by omega)]; rfl
  | ensureCapacity n =>
    obtain ⟨s', h1, h2, _⟩ := ensure_ok h (n := n) hl
    exact ⟨s', h2, bind_unit h1⟩
  | trimToSize =>
    simp only [spec, step, OM.bind_eq]
    obtain ⟨hl1, hc1, rest, hm⟩ := h
    by_cases hc : s.cap > s.len
    · obtain ⟨rest', hr'⟩ := Block.realloc_of t rest s.len.toNat (by omega)
      refine ⟨{ s with mem := s.mem.realloc s.len.toNat, cap := s.len }, ⟨hl1, ?_, rest', ?_⟩, bind_unit ?_⟩
      · show s.len = _
        rw [Block.length_realloc]; omega
      · show s.mem.realloc _ = _
        rw [hm]; exact hr'
      · unfold trimToSize
        rw [OM.bind_eq, OM.bind_read, if_pos hc]; rfl
    · refine ⟨s, ⟨hl1, hc1, rest, hm⟩, bind_unit ?_⟩
      unfold trimToSize
      rw [OM.bind_eq, OM.bind_read, if_neg hc]; rfl
  | charAt i =>
    simp only [spec, step, OM.bind_eq]
    by_cases hc : 0 ≤ i ∧ i < t.length
    · rw [dif_pos hc]
      refine ⟨s, h, (OM.bind_of_ret (s' := s) (v := t[i.toNat]'(by omega)) ?_).trans rfl⟩
      unfold charAt
      rw [OM.bind_eq, OM.bind_read, if_neg (by omega), charAt_rd h hc]; rfl
    · rw [dif_neg hc]
      refine ⟨s, h, OM.bind_of_exc ?_⟩
      unfold charAt
      rw [OM.bind_eq, OM.bind_read, if_pos (by omega)]; rfl
  | codePointAt i =>
    simp only [spec, step, OM.bind_eq]
    by_cases hc : 0 ≤ i ∧ i < t.length
    · rw [dif_pos hc]
      obtain ⟨r, hr, hv⟩ := (Character.C65_codePointAt m t i).1 hc
      refine ⟨s, h, (OM.bind_of_ret (s' := s) (v := r) ?_).trans (by rw [hv]; rfl)⟩
      unfold codePointAt
      rw [OM.bind_eq, OM.bind_read, if_neg (by omega), OM.bind_eq, load_all h, OM.lift_ok, OM.bind_ret, hr]; rfl
    · rw [dif_neg hc]
      refine ⟨s, h, OM.bind_of_exc ?_⟩
      unfold codePointAt
      rw [OM.bind_eq, OM.bind_read, if_pos (by omega)]; rfl
  | codePointBefore i =>
    simp only [spec, step, OM.bind_eq]
    obtain ⟨hl1, hl2⟩ := hl
    have hk : codePointBefore m i s = codePointAt m (i - 1) s := by
      unfold codePointBefore
      rw [OM.bind_eq, chk32_ok (by omega) (by omega), OM.lift_ok, OM.bind_ret]
    by_cases hc : 1 ≤ i ∧ i ≤ t.length
    · rw [dif_pos hc]
      obtain ⟨r, hr, hv⟩ := (Character.C65_codePointAt m t (i - 1)).1 (by omega)
      refine ⟨s, h, (OM.bind_of_ret (s' := s) (v := r) ?_).trans (by rw [hv]; rfl)⟩
      rw [hk]
      unfold codePointAt
      rw [OM.bind_eq, OM.bind_read, if_neg (by omega), OM.bind_eq, load_all h, OM.lift_ok, OM.bind_ret, hr]; rfl
    · rw [dif_neg hc]
      refine ⟨s, h, OM.bind_of_exc ?_⟩
      rw [hk]
      unfold codePointAt
      rw [OM.bind_eq, OM.bind_read, if_pos (by omega)]; rfl
  | codePointCount i j =>
    simp only [spec, step, OM.bind_eq]
    by_cases hc : 0 ≤ i ∧ i ≤ j ∧ j ≤ t.length
    · rw [if_pos hc]
      refine ⟨s, h, (OM.bind_of_ret (s' := s) (v := j - i) ?_).trans rfl⟩
      unfold codePointCount
      obtain ⟨hl1, hc1, rest, hm⟩ := h
      have := Block.load_of t rest 0 j.toNat (by omega)
      rw [List.drop_zero, ← hm] at this
      rw [OM.bind_eq, OM.bind_read, if_neg (by omega), OM.bind_eq, show (0 : Int) = ((0 : Nat) : Int) from rfl, this, OM.lift_ok,
        OM.bind_ret, Character.C65_codePointCount, if_pos (by simp; omega)]
      rfl
    · rw [if_neg hc]
      refine ⟨s, h, OM.bind_of_exc ?_⟩
      unfold codePointCount
      rw [OM.bind_eq, OM.bind_read, if_pos (by omega)]; rfl
  | length =>
    refine ⟨s, h, ?_⟩
    simp only [spec, step, OM.bind_eq, Res.Is]
    rw [← hlen]; rfl
  | toString =>
    obtain ⟨hl1, hl2⟩ := hl
    refine ⟨s, h, (OM.bind_of_ret (s' := s) (v := t) ?_).trans rfl⟩
    unfold toString
    simp only [OM.bind_eq, OM.bind_read]
    rw [chk32_ok (by unfold INT_MIN; omega) (by unfold INT_MAX; omega), OM.lift_ok, OM.bind_ret, load_all h, OM.lift_ok, OM.bind_ret,
      cstr_eq_self hl2]; rfl
  | substring i j =>
    simp only [spec, step, OM.bind_eq]
    have hsub : ∀ i j : Int, 0 ≤ i ∧ i ≤ j ∧ j ≤ t.length → 0 ∉ (t.take j.toNat).drop i.toNat →
        substring i j s = .ret s ((t.take j.toNat).drop i.toNat) := by
      intro i j hc hz
      unfold substring
      obtain ⟨hl1, hc1, rest, hm⟩ := h
      have := Block.load_of t rest i.toNat (j - i).toNat (by omega)
      rw [show ((i.toNat : Nat) : Int) = i by omega, ← hm, show (j - i).toNat = j.toNat - i.toNat by omega, take_drop_eq] at this
      rw [OM.bind_eq, OM.bind_read, if_neg (by omega), if_neg (by omega), if_neg (by omega), OM.bind_eq,
        show (j - i).toNat = j.toNat - i.toNat by omega, this, OM.lift_ok, OM.bind_ret, cstr_eq_self hz]; rfl
    by_cases hc : 0 ≤ i ∧ i ≤ j ∧ j ≤ t.length
    · rw [if_pos hc]
      exact ⟨s, h, (OM.bind_of_ret (hsub i j hc hl)).trans rfl⟩
    · rw [if_neg hc]
      refine ⟨s, h, OM.bind_of_exc ?_⟩
      unfold substring
      rw [OM.bind_eq, OM.bind_read]
      by_cases h1 : i < 0 ∨ i > s.len
      · rw [if_pos h1]; rfl
      · rw [if_neg h1]
        by_cases h2 : j < 0 ∨ j > s.len
        · rw [if_pos h2]; rfl
        · rw [if_neg h2, if_pos (by omega)]; rfl
  | substringFrom i =>
    simp only [spec, step, OM.bind_eq]
    have hdef : substringFrom i s = substring i s.len s := rfl
    by_cases hc : 0 ≤ i ∧ i ≤ t.length
    · rw [if_pos hc]
      refine ⟨s, h, (OM.bind_of_ret (s' := s) (v := t.drop i.toNat) ?_).trans rfl⟩
      rw [hdef]
      unfold substring
      obtain ⟨hl1, hc1, rest, hm⟩ := h
      have := Block.load_of t rest i.toNat (t.length - i.toNat) (by omega)
      rw [show ((i.toNat : Nat) : Int) = i by omega, ← hm, List.take_of_length_le (by simp)] at this
      rw [OM.bind_eq, OM.bind_read, if_neg (by omega), if_neg (by omega), if_neg (by omega), OM.bind_eq,
        show (s.len - i).toNat = t.length - i.toNat by omega, this, OM.lift_ok, OM.bind_ret, cstr_eq_self hl]; rfl
    · rw [if_neg hc]
      refine ⟨s, h, OM.bind_of_exc ?_⟩
      rw [hdef]
      unfold substring
      rw [OM.bind_eq, OM.bind_read, if_pos (by omega)]; rfl

/-- C38, `_partial`: for every history of calls from an empty builder of any capacity, every answer and exception is that
of the abstract text. What is missing: texts containing NUL characters, whose toString and substring are cut
(`C38_text_wrong`). -/
theorem C38_history_partial (m : Sem) (ops : List Op) (capacity : Int) (hc : 0 ≤ capacity) (h : Along spec Legal ops []) :
    ∃ s s', ofCapacity capacity = .ok s ∧ Holds s' (specHist spec ops []).1 ∧
      runHist (step m) ops s = .ok (s', (specHist spec ops []).2) := by
  have h0 : Holds ⟨Block.calloc capacity.toNat, 0, capacity⟩ [] := by
    refine ⟨rfl, ?_, Block.calloc capacity.toNat, rfl⟩
    show capacity = _
    unfold Block.calloc; simp; omega
  obtain ⟨s', h1, h2⟩ := runHist_refines (step m) spec Holds Legal (fun op s t h hl => C38_call m op s t h hl) ops _ _ h0 h
  exact ⟨_, s', by unfold ofCapacity; rw [if_neg (by omega)], h1, h2⟩

/-- C38. A negative capacity is refused. -/
theorem C38_negative_capacity (capacity : Int) (h : capacity < 0) : ofCapacity capacity = .throw .negativeArraySize := by
  unfold ofCapacity; rw [if_pos h]

/-- C38. A builder made from a text holds that text. -/
theorem C38_ofText (l : List Byte) (h : l.length + 16 < 2 ^ 30) : ∃ s, ofText l = .ret s () ∧ Holds s l := by
  have h0 : Holds ⟨[], 0, 0⟩ [] := ⟨rfl, rfl, [], rfl⟩
  unfold ofText defaultCapacity
  rw [chk32_ok (by unfold INT_MIN; omega) (by unfold INT_MAX; omega), OM.lift_ok, OM.bind_ret]
  obtain ⟨s1, h1, h2, _⟩ := ensure_ok h0 (n := 16 + l.length) (by omega)
  rw [OM.bind_of_ret h1]
  obtain ⟨s2, h3, h4⟩ := append_ok h2 (l := l) (by simp; omega)
  exact ⟨s2, h3, h4⟩

/-- C38. A copy holds the same text. -/
theorem C38_copy (s : SB) (t : List Byte) (h : Holds s t) : ∃ r, copy s = .ok r ∧ Holds r t := copy_ok h

/-- C38. After ensureCapacity(n) the capacity is at least n and the text is unchanged; trimToSize makes the capacity the length. -/
theorem C38_capacity (s : SB) (t : List Byte) (h : Holds s t) (n : Int) (hn : n < 2 ^ 30) :
    (∃ s', ensureCapacity n s = .ret s' () ∧ Holds s' t ∧ capacity s' = .ret s' s'.cap ∧ n ≤ s'.cap ∧ s.cap ≤ s'.cap) ∧
    (∃ s', trimToSize s = .ret s' () ∧ Holds s' t ∧ s'.cap = t.length) := by
  have hlen := h.1
  constructor
  · obtain ⟨s', h1, h2, h3⟩ := ensure_ok h hn
    refine ⟨s', h1, h2, rfl, h3, ?_⟩
    unfold ensureCapacity at h1
    simp only [OM.bind_eq, OM.bind_read] at h1
    by_cases hcase : n ≤ 0 ∨ n ≤ s.cap
    · rw [if_pos hcase] at h1
      cases h1; omega
    · omega
  · obtain ⟨s', h1, h2⟩ := C38_call .wrap .trimToSize s t h trivial
    obtain ⟨hl1, hc1, rest, hm⟩ := h
    have hle : t.length ≤ s.mem.length := by rw [hm]; simp
    unfold trimToSize
    rw [OM.bind_eq, OM.bind_read]
    by_cases hc : s.cap > s.len
    · obtain ⟨rest', hr'⟩ := Block.realloc_of t rest s.len.toNat (by omega)
      rw [if_pos hc]
      refine ⟨_, rfl, ⟨hl1, ?_, rest', ?_⟩, hl1⟩
      · show s.len = _
        rw [Block.length_realloc]; omega
      · show s.mem.realloc _ = _
        rw [hm]; exact hr'
    · rw [if_neg hc]
      exact ⟨s, rfl, ⟨hl1, hc1, rest, hm⟩, by omega⟩

theorem cstr_cut (a b : List Byte) (ha : 0 ∉ a) : cstr (a ++ 0#8 :: b) = a := by
  unfold cstr
  induction a with
  | nil => rfl
  | cons x a ih =>
    simp only [List.mem_cons, not_or] at ha
    simp only [List.cons_append, List.takeWhile_cons]
    rw [if_pos (by simpa using fun e : x = 0 => ha.1 e.symm), ih ha.2]

/-- C38 is false as stated for texts with a NUL: toString hands out the part before the first NUL, for every text. -/
theorem C38_text_wrong (s : SB) (a b : List Byte) (h : Holds s (a ++ 0#8 :: b)) (ha : 0 ∉ a) (hlen : a.length + b.length < 2 ^ 30) :
    toString s = .ret s a ∧ a ≠ a ++ 0#8 :: b := by
  constructor
  · unfold toString
    simp only [OM.bind_eq, OM.bind_read]
    have hl := h.1
    simp only [List.length_append, List.length_cons] at hl
    rw [chk32_ok (by unfold INT_MIN; omega) (by unfold INT_MAX; omega), OM.lift_ok, OM.bind_ret, load_all h, OM.lift_ok, OM.bind_ret]
    rw [cstr_cut a b ha]; rfl
  · intro e
    have := congrArg List.length e
    simp at this

/-- C38 is false beyond 2^30 characters: once the capacity has reached 2^30 - 1, any append that needs more room overflows
`int` while doubling it, although the length itself would fit. -/
theorem C38_growth_wrong (s : SB) (t l : List Byte) (h : Holds s t) (hc : 2 ^ 30 - 1 ≤ s.cap) (hn : s.cap < s.len + l.length)
    (hm : s.len + l.length ≤ INT_MAX) : append l s = .ub := by
  have hl := h.1
  unfold append
  simp only [OM.bind_eq, OM.bind_read]
  rw [chk32_ok (by unfold INT_MIN; omega) hm, OM.lift_ok, OM.bind_ret]
  apply OM.bind_of_ub
  unfold ensureCapacity
  simp only [OM.bind_eq, OM.bind_read]
  rw [if_neg (by omega)]
  have : newCapacity s.cap (s.len + l.length) = .ub := by
    unfold newCapacity chk32
    rw [if_neg (by unfold INT_MAX; omega)]; rfl
  rw [this]; rfl

/-- Calls that only ask. -/
def Op.asks : Op → Bool
  | .charAt _ | .codePointAt _ | .codePointBefore _ | .codePointCount _ _ | .length | .toString | .substring _ _ | .substringFrom _ => true
  | _ => false

/-- C66. Every query on a builder holding a text without NUL answers what the text says, or raises, and changes nothing. -/
theorem C66_queries (m : Sem) (op : Op) (hq : op.asks = true) (s : SB) (t : List Byte) (h : Holds s t) (h0 : 0 ∉ t)
    (hlen : t.length < 2 ^ 30) (hi : ∀ i, op = .codePointBefore i → INT_MIN < i ∧ i ≤ INT_MAX) :
    (step m op s).Is s (spec op t).2 := by
  have hl : Legal op t := by
    cases op <;> simp [Op.asks] at hq <;> simp only [Legal]
    · exact hi _ rfl
    · exact ⟨hlen, h0⟩
    · exact fun hm => h0 (List.mem_of_mem_take (List.mem_of_mem_drop hm))
    · exact fun hm => h0 (List.mem_of_mem_drop hm)
  obtain ⟨s', _, h2⟩ := C38_call m op s t h hl
  have hst : Still (step m op) := by
    cases op <;> simp [Op.asks] at hq <;>
      simp only [step, charAt, codePointAt, codePointBefore, codePointCount, length, toString, substring, substringFrom, OM.bind_eq] <;>
      repeat first
        | exact Still.ret _
        | exact Still.raise _
        | exact Still.read
        | exact Still.lift _
        | apply Still.ite
        | apply Still.bind
        | intro _
  have := hst.is h2
  subst this
  exact h2

/-- A builder meeting the hypotheses of `C66_queries`. -/
example : (∃ s, ofText (txt "abc") = .ret s () ∧ Holds s (txt "abc")) ∧ 0 ∉ txt "abc" := ⟨C38_ofText _ (by decide), by decide⟩

example : ∃ s, ofText [97#8, 0#8, 98#8] = .ret s () ∧ Holds s ([97#8] ++ 0#8 :: [98#8]) := C38_ofText _ (by decide)

/-- A history with growth, insertion, deletion, reversal and a failing call meets the hypothesis of `C38_history_partial`. -/
example : Along spec Legal [.append (txt "hello"), .insert 5 (txt " world"), .deleteRange 1 3, .replace 0 2 (txt "J"), .reverse,
    .charAt 99, .toString] [] := by
  simp [Along, Legal, spec, txt, chr]

example : (specHist spec [.append (txt "hello"), .insert 5 (txt " world"), .deleteRange 1 3, .replace 0 2 (txt "J"), .reverse,
    .charAt 99, .toString] []).2 = [.ok .unit, .ok .unit, .ok (.built (txt "hlo world")), .ok (.built (txt "Jo world")),
      .ok (.built (txt "dlrow oJ")), .error .indexOutOfBounds, .ok (.text (txt "dlrow oJ"))] := rfl

end Verif.StringBuilder
