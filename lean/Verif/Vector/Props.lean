import Verif.Vector.Lemmas
/-!
# Properties of `Vector` (C26)
-/
namespace Verif.Vector

variable {α : Type}

/-- **C26** (one call). Every legal call on a vector that holds the sequence
`t`, with iterators as in libstdc++, does and answers what the abstract sequence
does; when it throws, the vector still holds `t`. -/
theorem C26_call [DecidableEq α] (dflt : α) (op : Op α) (v : Vec α) (t : List α) (h : Holds v t) (hl : Legal op t) :
    ∃ w, Holds w (spec dflt op t).1 ∧ (step .libstd dflt op v).Is w (spec dflt op t).2 := by
  have hs := h.elems
  have hlen := h.len31
  have keep : Holds v v.elems := by rw [hs]; exact h
  have smaller : ∀ l : List α, l.length ≤ v.elems.length → Holds { v with elems := l } l := fun l hl =>
    ⟨rfl, Nat.le_trans hl h.fits, h.cap, Nat.le_trans hl h.size, h.inc⟩
  cases op with
  | add e =>
    obtain ⟨w, w1, w2, _⟩ := add_ok v t e h hl
    exact ⟨w, w2, (OM.bind_of_ret w1).trans rfl⟩
  | addAt i e =>
    simp only [spec]
    by_cases hi : 0 ≤ i ∧ i ≤ t.length
    · rw [if_pos hi]
      obtain ⟨w, w1, w2, _⟩ := addAt_ok v t i e h hl hi
      exact ⟨w, by simpa using w2, (OM.bind_of_ret w1).trans rfl⟩
    · rw [if_neg hi]
      exact ⟨v, h, OM.bind_of_exc (addAt_out v t i e h hi)⟩
  | addAll l =>
    obtain ⟨hl1, hl2⟩ := hl
    obtain ⟨w, w1, w2, _⟩ := addAllLoop_ok l v t 0 h hl1 (Int.le_refl _) (by omega)
    refine ⟨w, ?_, ?_⟩
    · simp only [spec]
      rcases hl2 with rfl | rfl
      · simpa using w2
      · simpa using w2
    · simp only [Res.Is, spec, step, OM.bind_eq, addAll, addAllAt]
      rw [OM.bind_of_ret (OM.bind_of_ret w1 : (OM.bind (addAllLoop l _) fun _ => OM.ret (decide (l.length ≠ 0))) v = .ret w _)]
      simp
  | addAllAt i l =>
    obtain ⟨hl1, hl2⟩ := hl
    simp only [spec]
    by_cases hi : 0 ≤ i ∧ i ≤ t.length
    · rw [if_pos hi]
      obtain ⟨w, w1, w2, _⟩ := addAllLoop_ok l v t i h hl1 hi.1 hi.2
      refine ⟨w, w2, ?_⟩
      simp only [Res.Is, step, OM.bind_eq, addAllAt]
      rw [OM.bind_of_ret (OM.bind_of_ret w1 : (OM.bind (addAllLoop l _) fun _ => OM.ret (decide (l.length ≠ 0))) v = .ret w _)]
      simp
    · rw [if_neg hi]
      refine ⟨v, h, ?_⟩
      cases l with
      | nil => exact absurd (hl2 rfl) hi
      | cons x r =>
        simp only [Res.Is, step, OM.bind_eq, addAllAt, addAllLoop]
        exact OM.bind_of_exc (OM.bind_of_exc (OM.bind_of_exc (addAt_out v t i x h hi)))
  | clear => exact ⟨{ v with elems := [] }, smaller [] (Nat.zero_le _), rfl⟩
  | get i =>
    subst hs
    simp only [spec]
    by_cases hi : 0 ≤ i ∧ i < v.elems.length
    · rw [dif_pos hi]
      exact ⟨v, h, (OM.bind_of_ret (get_in v i hi)).trans rfl⟩
    · rw [dif_neg hi]
      exact ⟨v, h, OM.bind_of_exc (get_out v i hi)⟩
  | indexOf e =>
    refine ⟨v, h, ?_⟩
    simp only [Res.Is, step, spec, indexOf, OM.bind_eq]
    rw [OM.bind_of_ret (show (OM.read.bind fun v => OM.ret (indexOfLoop e v.elems 0)) v = .ret v _ from rfl), indexOfLoop_eq, hs]
    unfold firstFrom
    rw [List.drop_zero]
    rfl
  | indexOfFrom e i =>
    subst hs
    simp only [spec, step, OM.bind_eq]
    by_cases hi : 0 ≤ i ∧ i < v.elems.length
    · rw [if_pos hi]
      refine ⟨v, h, ?_⟩
      refine (OM.bind_of_ret (s' := v) (v := firstFrom e i.toNat v.elems) ?_).trans rfl
      unfold indexOfFrom
      simp only [OM.bind_eq, OM.bind_read, toInt_eq hlen]
      rw [if_neg (by omega), indexOfLoop_eq]
      rfl
    · rw [if_neg hi]
      refine ⟨v, h, OM.bind_of_exc ?_⟩
      unfold indexOfFrom
      simp only [OM.bind_eq, OM.bind_read, toInt_eq hlen]
      rw [if_pos (by omega)]
      rfl
  | lastIndexOf e =>
    subst hs
    simp only [Legal] at hl
    have h0 : v.elems.length ≠ 0 := fun h' => hl (List.eq_nil_of_length_eq_zero h')
    refine ⟨v, h, ?_⟩
    simp only [Res.Is, spec, step, OM.bind_eq]
    refine (OM.bind_of_ret (s' := v) (v := lastUpTo e v.elems.length v.elems) ?_).trans rfl
    unfold lastIndexOf lastIndexOfFrom
    simp only [OM.bind_eq, OM.bind_read, toInt_eq hlen]
    rw [if_neg (by omega), lastIndexOfLoop_eq _ _ _ (by omega), show ((v.elems.length : Int) - 1).toNat + 1 = v.elems.length by omega]
    rfl
  | lastIndexOfFrom e i =>
    subst hs
    simp only [spec, step, OM.bind_eq]
    by_cases hi : 0 ≤ i ∧ i < v.elems.length
    · rw [if_pos hi]
      refine ⟨v, h, ?_⟩
      refine (OM.bind_of_ret (s' := v) (v := lastUpTo e (i.toNat + 1) v.elems) ?_).trans rfl
      unfold lastIndexOfFrom
      simp only [OM.bind_eq, OM.bind_read]
      rw [if_neg (by omega), lastIndexOfLoop_eq _ _ _ (by omega)]
      rfl
    · rw [if_neg hi]
      refine ⟨v, h, OM.bind_of_exc ?_⟩
      unfold lastIndexOfFrom
      simp only [OM.bind_eq, OM.bind_read]
      rw [if_pos (by omega)]
      rfl
  | contains e =>
    refine ⟨v, h, ?_⟩
    simp only [Res.Is, spec, step, OM.bind_eq]
    refine (OM.bind_of_ret (s' := v) (v := decide (e ∈ t)) ?_).trans rfl
    unfold contains indexOf
    simp only [OM.bind_eq]
    rw [OM.bind_of_ret (show (OM.read.bind fun v => OM.ret (indexOfLoop e v.elems 0)) v = .ret v _ from rfl), indexOfLoop_eq, hs]
    have := firstFrom_neg e t
    unfold firstFrom at this
    rw [List.drop_zero] at this
    simp only [OM.ret_apply, Res.ret.injEq, true_and]
    refine decide_eq_decide.mpr ?_
    exact (not_congr this).trans Classical.not_not
  | containsAll l =>
    refine ⟨v, h, ?_⟩
    subst hs
    exact (OM.bind_of_ret (containsAll_eq v l)).trans rfl
  | firstElement =>
    refine ⟨v, h, ?_⟩
    subst hs
    simp only [Res.Is, spec, step, OM.bind_eq, firstElement]
    unfold OM.bind
    simp only [OM.read_apply]
    cases hc : v.elems with
    | nil => rfl
    | cons x r => rfl
  | lastElement =>
    refine ⟨v, h, ?_⟩
    subst hs
    simp only [Res.Is, spec, step, OM.bind_eq, lastElement]
    unfold OM.bind
    simp only [OM.read_apply]
    cases hc : v.elems.getLast? with
    | none => rfl
    | some x => rfl
  | removeAt i =>
    subst hs
    simp only [spec]
    by_cases hi : 0 ≤ i ∧ i < v.elems.length
    · rw [dif_pos hi]
      exact ⟨_, smaller _ (List.length_eraseIdx_le _ _), (OM.bind_of_ret (removeAt_in v i hi)).trans rfl⟩
    · rw [dif_neg hi]
      exact ⟨v, h, OM.bind_of_exc (removeAt_out v i hi)⟩
  | removeObj e =>
    subst hs
    cases e with
    | none =>
      simp only [Legal] at hl
      refine ⟨v, h, ?_⟩
      simp only [Res.Is, spec, step, OM.bind_eq, removeObj]
      unfold OM.bind
      simp only [OM.read_apply]
      rw [if_pos hl]
      rfl
    | some e =>
      refine ⟨{ v with elems := v.elems.erase e }, smaller _ (List.length_erase_le), ?_⟩
      simp only [Res.Is, spec, step, OM.bind_eq]
      refine (OM.bind_of_ret (s' := { v with elems := v.elems.erase e }) (v := decide (e ∈ v.elems)) ?_).trans rfl
      unfold removeObj
      simp only [OM.bind_eq, OM.bind_read]
      rw [removeElemLoop_eq e v _ 0 (by omega)]
      simp
  | removeAll l =>
    subst hs
    have hf : v.elems.filter (fun x => !l.contains x) = v.elems.filter (fun x => decide (x ∉ l)) :=
      List.filter_congr fun x _ => by simp
    refine ⟨{ v with elems := v.elems.filter (fun x => decide (x ∉ l)) }, smaller _ (List.length_filter_le _ _), ?_⟩
    simp only [Res.Is, spec, step, OM.bind_eq]
    refine (OM.bind_of_ret (v := decide (∃ x ∈ v.elems, x ∈ l)) ?_).trans rfl
    unfold removeAll
    simp only [OM.bind_eq, OM.bind_read]
    rw [OM.bind_of_ret (removeLoop_libstd _ _ 0 v (by omega))]
    simp only [List.take_zero, List.nil_append, List.drop_zero, OM.bind_read, OM.ret_apply, hf]
    rw [toInt_eq hlen, sizeDiffers_eq hlen]
    congr 1
    refine decide_eq_decide.mpr ?_
    rw [Ne, eq_comm, List.length_filter_eq_length_iff]
    simp
  | retainAll l =>
    subst hs
    have hf : v.elems.filter (fun x => !(!l.contains x)) = v.elems.filter (fun x => decide (x ∈ l)) :=
      List.filter_congr fun x _ => by simp
    refine ⟨{ v with elems := v.elems.filter (fun x => decide (x ∈ l)) }, smaller _ (List.length_filter_le _ _), ?_⟩
    simp only [Res.Is, spec, step, OM.bind_eq]
    refine (OM.bind_of_ret (v := decide (∃ x ∈ v.elems, x ∉ l)) ?_).trans rfl
    unfold retainAll
    simp only [OM.bind_eq, OM.bind_read]
    rw [OM.bind_of_ret (removeLoop_libstd _ _ 0 v (by omega))]
    simp only [List.take_zero, List.nil_append, List.drop_zero, OM.bind_read, OM.ret_apply, hf]
    rw [toInt_eq hlen, sizeDiffers_eq hlen]
    congr 1
    refine decide_eq_decide.mpr ?_
    rw [Ne, eq_comm, List.length_filter_eq_length_iff]
    simp
  | removeRange i j =>
    subst hs
    simp only [Legal] at hl
    simp only [spec]
    by_cases hr : 0 ≤ i ∧ i ≤ j ∧ j ≤ v.elems.length
    · rw [if_pos hr]
      have := hl hr
      refine ⟨{ v with elems := v.elems.take i.toNat ++ v.elems.drop j.toNat }, smaller _ (by simp; omega), ?_⟩
      simp only [Res.Is, step, OM.bind_eq]
      refine (OM.bind_of_ret (v := ()) ?_).trans rfl
      unfold removeRange
      simp only [OM.bind_eq, OM.bind_read, toInt_eq hlen]
      rw [if_neg (by omega), if_neg (by omega), if_neg (by omega)]
      have := removeRangeLoop_ok i.toNat (j - i).toNat v (by omega)
      rw [Int.toNat_of_nonneg hr.1, show i.toNat + (j - i).toNat = j.toNat by omega] at this
      exact this
    · rw [if_neg hr]
      refine ⟨v, h, OM.bind_of_exc ?_⟩
      unfold removeRange
      simp only [OM.bind_eq, OM.bind_read, toInt_eq hlen]
      by_cases q : i < 0 ∨ i ≥ v.elems.length ∨ j < 0 ∨ j ≥ v.elems.length
      · rw [if_pos q]; rfl
      · rw [if_neg q, if_pos (by omega)]; rfl
  | set i e =>
    subst hs
    simp only [spec]
    by_cases hi : 0 ≤ i ∧ i < v.elems.length
    · rw [dif_pos hi]
      refine ⟨{ v with elems := v.elems.set i.toNat e }, smaller _ (by simp), ?_⟩
      simp only [Res.Is, step, OM.bind_eq]
      refine (OM.bind_of_ret (v := v.elems[i.toNat]'(by omega)) ?_).trans rfl
      unfold set
      simp only [OM.bind_eq, OM.bind_read]
      rw [if_neg (by simp only [outside, decide_eq_true_eq]; omega), OM.bind_of_ret (get_in v i hi)]
      rfl
    · rw [dif_neg hi]
      refine ⟨v, h, OM.bind_of_exc ?_⟩
      unfold set
      simp only [OM.bind_eq, OM.bind_read]
      rw [if_pos (by simp only [outside, decide_eq_true_eq]; omega)]
      rfl
  | setSize n =>
    subst hs
    simp only [Legal] at hl
    simp only [spec]
    by_cases hn : 0 ≤ n
    · rw [if_pos hn]
      have hlen' : (v.elems.take n.toNat ++ List.replicate (n.toNat - v.elems.length) dflt).length = n.toNat := by simp; omega
      by_cases hg : n > v.elems.length
      · obtain ⟨c, c1, c2, c3, c4, _⟩ := ensureCapacity_ok v n h.cap h.inc hl
        refine ⟨⟨v.elems.take n.toNat ++ List.replicate (n.toNat - v.elems.length) dflt, c, v.inc⟩,
          ⟨rfl, by simp only [hlen']; omega, c2, by simp only [hlen']; omega, h.inc⟩, ?_⟩
        simp only [Res.Is, step, OM.bind_eq]
        refine (OM.bind_of_ret (v := ()) ?_).trans rfl
        unfold setSize
        rw [if_neg (by omega)]
        simp only [OM.bind_eq, OM.bind_read]
        rw [if_pos hg, OM.bind_of_ret c1]
        simp only [OM.bind_read, OM.write_apply]
        rw [if_neg (by omega)]
      · refine ⟨⟨v.elems.take n.toNat ++ List.replicate (n.toNat - v.elems.length) dflt, v.cap, v.inc⟩,
          ⟨rfl, by simp only [hlen']; have := h.fits; omega, h.cap, by simp only [hlen']; omega, h.inc⟩, ?_⟩
        simp only [Res.Is, step, OM.bind_eq]
        refine (OM.bind_of_ret (v := ()) ?_).trans rfl
        unfold setSize
        rw [if_neg (by omega)]
        simp only [OM.bind_eq, OM.bind_read]
        rw [if_neg hg]
        simp only [OM.bind_ret, OM.bind_read, OM.write_apply]
        rw [if_neg (by have := h.fits; omega)]
    · rw [if_neg hn]
      refine ⟨v, h, OM.bind_of_exc ?_⟩
      unfold setSize
      rw [if_pos (by omega)]
      rfl
  | size =>
    refine ⟨v, h, ?_⟩
    subst hs
    simp only [Res.Is, spec, step, size, OM.bind_eq]
    rw [← toInt_eq hlen]
    rfl
  | isEmpty =>
    refine ⟨v, h, ?_⟩
    subst hs
    simp only [Res.Is, spec, step, isEmpty, OM.bind_eq]
    unfold OM.bind
    simp only [OM.read_apply, OM.ret_apply]
    cases v.elems <;> rfl
  | toArray =>
    refine ⟨v, h, ?_⟩
    subst hs
    rfl
  | trimToSize =>
    subst hs
    exact ⟨{ v with cap := v.elems.length }, ⟨rfl, Nat.le_refl _, h.len31, h.size, h.inc⟩, rfl⟩

/-- **C26** (histories). Any history of legal calls from a vector that holds `t`
gives the contents and answers of the same history on the abstract sequence.
Missing from the full statement: the calls `Legal` leaves out (see the negations
below) and the reading of the iterators by ISO C++ (`C26_removeAll_iso_wrong`). -/
theorem C26_history_partial [DecidableEq α] (dflt : α) (ops : List (Op α)) (v : Vec α) (t : List α) (h : Holds v t)
    (hl : Along (spec dflt) Legal ops t) :
    ∃ w, Holds w (specHist (spec dflt) ops t).1 ∧ runHist (step .libstd dflt) ops v = .ok (w, (specHist (spec dflt) ops t).2) :=
  runHist_refines _ _ (fun v t => Holds v t) Legal (fun op s t hR hl => C26_call dflt op s t hR hl) ops v t h hl

/-- **C26**. A new vector is empty and can be used; a negative capacity is
rejected. -/
theorem C26_new (c inc : Int) (hi : inc ≤ 2 ^ 30) (hc : c ≤ INT_MAX) :
    if 0 ≤ c then ∃ v : Vec α, new c inc = .ok v ∧ Holds v [] else (new c inc : Outcome (Vec α)) = .throw .invalidArgument := by
  unfold new
  by_cases h : 0 ≤ c
  · rw [if_pos h, if_neg (by omega)]
    exact ⟨_, rfl, ⟨rfl, Nat.zero_le _, by simp only; omega, Nat.zero_le _, hi⟩⟩
  · rw [if_neg h, if_pos (by omega)]

example : Along (spec 0) Legal [Op.add 5, .addAllAt 1 [7, 7, 8], .removeAll [7], .setSize 4, .removeRange 0 2, .get 9] ([] : List Nat) ∧
    specHist (spec 0) [Op.add 5, .addAllAt 1 [7, 7, 8], .removeAll [7], .setSize 4, .removeRange 0 2, .get 9] ([] : List Nat) =
      ([0, 0], [.ok (.bool true), .ok (.bool true), .ok (.bool true), .ok .unit, .ok .unit, .error .illegalArgument]) := by
  constructor
  · simp [Along, Legal, spec]
  · rfl

/-- **C26** (negation). `addAll(list)`, documented to append, puts the new
elements in front of the old ones. -/
theorem C26_addAll_wrong (v : Vec α) (t l : List α) (h : Holds v t) (hl : t.length + l.length ≤ 2 ^ 30) :
    ∃ w, addAll l v = .ret w (decide (l ≠ [])) ∧ w.elems = l ++ t := by
  obtain ⟨w, w1, w2, _⟩ := addAllLoop_ok l v t 0 h hl (Int.le_refl _) (by omega)
  refine ⟨w, ?_, by simpa using w2.elems⟩
  unfold addAll addAllAt
  rw [OM.bind_eq, OM.bind_of_ret w1]
  simp

example : addAll [3] ⟨[1, 2], 10, 0⟩ = .ret ⟨[3, 1, 2], 10, 0⟩ true := by decide +kernel

/-- **C26** (negation). `addAll` of nothing at an invalid index does not raise. -/
theorem C26_addAll_empty_wrong (v : Vec α) (i : Int) : addAllAt i [] v = .ret v false := rfl

/-- **C26** (negation). `lastIndexOf` on an empty vector raises instead of
returning -1. -/
theorem C26_lastIndexOf_empty_wrong [DecidableEq α] (e : α) (v : Vec α) (h : v.elems = []) :
    lastIndexOf e v = .exc v .illegalArgument := by
  unfold lastIndexOf lastIndexOfFrom
  simp only [OM.bind_eq, OM.bind_read, h]
  rw [if_pos (by left; rw [List.length_nil]; decide)]
  rfl

/-- **C26** (negation). `removeRange(i, i)`, an empty range, removes one element. -/
theorem C26_removeRange_empty_wrong (v : Vec α) (t : List α) (h : Holds v t) (i : Nat) (hi : i < t.length) :
    removeRange i i v = .ret { v with elems := t.eraseIdx i } () := by
  have hs := h.elems
  subst hs
  unfold removeRange
  simp only [OM.bind_eq, OM.bind_read, toInt_eq h.len31]
  rw [if_neg (by omega), if_neg (by omega), if_pos trivial, OM.bind_of_ret (removeAt_in v i (by omega))]
  rfl

/-- **C26** (negation). A range that reaches the end of the vector cannot be
removed. -/
theorem C26_removeRange_end_wrong (v : Vec α) (t : List α) (h : Holds v t) (i : Int) :
    removeRange i t.length v = .exc v .illegalArgument := by
  have hs := h.elems
  subst hs
  unfold removeRange
  simp only [OM.bind_eq, OM.bind_read, toInt_eq h.len31]
  rw [if_pos (by omega)]
  rfl

/-- **C26** (negation). By ISO C++ `removeAll` is undefined whenever there is
something to remove: it goes on with the iterator it has erased. The same loop
serves `retainAll`. -/
theorem C26_removeAll_iso_wrong [DecidableEq α] (l : List α) (v : Vec α) :
    ((∃ x ∈ v.elems, x ∈ l) → removeAll .iso l v = .ub) ∧ ((∃ x ∈ v.elems, x ∉ l) → retainAll .iso l v = .ub) := by
  constructor
  · rintro ⟨x, h1, h2⟩
    unfold removeAll
    simp only [OM.bind_eq, OM.bind_read]
    refine OM.bind_of_ub ?_
    rw [removeLoop_iso _ _ 0 v (by omega), List.drop_zero, if_pos (List.any_eq_true.mpr ⟨x, h1, by simpa using h2⟩)]
  · rintro ⟨x, h1, h2⟩
    unfold retainAll
    simp only [OM.bind_eq, OM.bind_read]
    refine OM.bind_of_ub ?_
    rw [removeLoop_iso _ _ 0 v (by omega), List.drop_zero, if_pos (List.any_eq_true.mpr ⟨x, h1, by simpa using h2⟩)]

/-- **C26** (negation). Removing an object of another class from a non-empty
vector is undefined: a null pointer is dereferenced. -/
theorem C26_removeObj_wrong [DecidableEq α] (v : Vec α) (h : v.elems ≠ []) : removeObj none v = .ub := by
  unfold removeObj
  simp only [OM.bind_eq, OM.bind_read]
  rw [if_neg h]
  rfl

/-- **C26** (negation). `v.add(v[k])` is undefined whenever the vector is full:
the reference dangles once the elements have moved. -/
theorem C26_add_own_wrong (v : Vec α) (t : List α) (h : Holds v t) (hl : t.length < 2 ^ 30) (hfull : v.cap = t.length) (k : Nat) :
    addOwn k v = .ub := by
  have hs := h.elems
  subst hs
  unfold addOwn
  simp only [OM.bind_eq, OM.bind_read]
  cases v.elems[k]? with
  | none => rfl
  | some e =>
    obtain ⟨c, e1, c1, c2, c3, _⟩ := ensureCapacity_ok v ((v.elems.length : Int) + 1) h.cap h.inc (by omega)
    simp only
    rw [toInt_eq h.len31, chk32_ok (by unfold INT_MIN; omega) (by unfold INT_MAX; omega)]
    simp only [OM.lift_ok, OM.bind_ret]
    rw [OM.bind_of_ret e1]
    simp only [OM.bind_read]
    rw [if_neg (by omega)]
    rfl

/-- **C26**: with room left it appends a copy. -/
theorem C26_add_own_room (v : Vec α) (t : List α) (h : Holds v t) (hl : t.length < 2 ^ 30) (hroom : t.length < v.cap) (k : Nat)
    (e : α) (hk : t[k]? = some e) : ∃ w, addOwn k v = .ret w true ∧ w.elems = t ++ [e] := by
  have hs := h.elems
  subst hs
  unfold addOwn
  simp only [OM.bind_eq, OM.bind_read, hk]
  obtain ⟨c, e1, c1, c2, c3, c4⟩ := ensureCapacity_ok v ((v.elems.length : Int) + 1) h.cap h.inc (by omega)
  rw [toInt_eq h.len31, chk32_ok (by unfold INT_MIN; omega) (by unfold INT_MAX; omega)]
  simp only [OM.lift_ok, OM.bind_ret]
  rw [OM.bind_of_ret e1]
  simp only [OM.bind_read]
  rw [if_pos (c4 (by omega))]
  exact ⟨_, rfl, rfl⟩

example : (⟨[1, 2], 2, 0⟩ : Vec Nat).cap = [1, 2].length ∧ addOwn 0 ⟨[1, 2], 2, 0⟩ = .ub ∧
    addOwn 0 ⟨[1, 2], 3, 0⟩ = .ret ⟨[1, 2, 1], 3, 0⟩ true := by decide +kernel

/-- **C26**. `equals` is equality of the contents. -/
theorem C26_equals [DecidableEq α] (v w : Vec α) (t u : List α) (hv : Holds v t) (hw : Holds w u) :
    equals w v = .ret v (decide (t = u)) := by
  have hs := hv.elems
  have hs' := hw.elems
  subst hs
  subst hs'
  have loop : ∀ (a b : List α), a.length = b.length → equalsLoop a b = decide (a = b) := by
    intro a
    induction a with
    | nil => intro b h; cases b with
      | nil => rfl
      | cons y q => simp at h
    | cons x r ih => intro b h; cases b with
      | nil => simp at h
      | cons y q =>
        rw [equalsLoop]
        by_cases hx : x = y
        · subst hx; rw [if_neg (by simp), ih q (by simpa using h)]; simp
        · rw [if_pos hx]; simp [hx]
  unfold equals
  simp only [OM.bind_eq, OM.bind_read, toInt_eq hv.len31, toInt_eq hw.len31]
  by_cases hl : v.elems.length = w.elems.length
  · rw [if_neg (by omega), loop _ _ hl]; rfl
  · rw [if_pos (by omega)]
    have : v.elems ≠ w.elems := fun h => hl (by rw [h])
    simp [this]

/-- **C26**. `clone` gives an independent vector with the same contents. -/
theorem C26_clone (v : Vec α) (t : List α) (h : Holds v t) : ∃ w, clone v = .ret w () ∧ Holds w t := by
  obtain ⟨w, w1, w2, _⟩ := cloneLoop_ok v.elems ⟨[], 10, 0⟩ [] ⟨rfl, by simp, by unfold INT_MAX; simp, by simp, by simp⟩
    (by have := h.size; simpa using this)
  exact ⟨w, w1, by simpa [h.elems] using w2⟩

/-- **C26**. The copy constructor and the constructor from an initializer list
give the right contents. -/
theorem C26_copy (garbage : Int) (v : Vec α) (l : List α) :
    (∃ w, copy garbage v = .ret w () ∧ w.elems = v.elems) ∧ (∃ w, ofList garbage l = .ret w () ∧ w.elems = l) := by
  constructor
  · obtain ⟨c, hc⟩ := pushAll_ok v.elems ⟨[], 0, garbage⟩
    exact ⟨_, hc, by simp⟩
  · obtain ⟨c, hc⟩ := pushAll_ok l ⟨[], l.length, garbage⟩
    exact ⟨_, hc, by simp⟩

/-- **C26** (negation). The constructor from an initializer list leaves
`capacityIncrement` indeterminate: for some of its values the very next `add` to
the vector `{1}` overflows. -/
theorem C26_garbage_increment_wrong (e : Nat) : ∃ garbage, INT_MIN ≤ garbage ∧ garbage ≤ INT_MAX ∧
    ∃ w, ofList garbage [1] = .ret w () ∧ add e w = .ub :=
  ⟨INT_MAX, by decide, by decide, ⟨[1], 1, INT_MAX⟩, by decide +kernel, by
    unfold add
    simp only [OM.bind_eq, OM.bind_read]
    rw [show chk32 (toInt ([1] : List Nat).length + 1) = .ok 2 by decide +kernel]
    simp only [OM.lift_ok, OM.bind_ret]
    exact OM.bind_of_ub (by decide +kernel)⟩

/-- **C26**. Assignment from another vector copies its contents. -/
theorem C26_assign (v w : Vec α) (t u : List α) (hv : Holds v t) (hw : Holds w u) :
    ∃ r, assign (some w) v = .ret r () ∧ Holds r u := by
  have hs := hw.elems
  subst hs
  obtain ⟨c, c1, c2, c3, c4, _⟩ := ensureCapacity_ok ({ v with elems := [] } : Vec α) (w.elems.length : Int) hv.cap hv.inc
    (by have := hw.size; omega)
  refine ⟨⟨w.elems, c, v.inc⟩, ?_, ⟨rfl, by simp only; omega, c2, hw.size, hv.inc⟩⟩
  unfold assign
  rw [OM.bind_eq, OM.bind_of_ret (show clear v = .ret { v with elems := [] } () from rfl)]
  simp only [toInt_eq hw.len31, OM.bind_eq]
  rw [OM.bind_of_ret c1, pushAll_cap _ _ (by simp only [List.length_nil]; omega)]
  rfl

/-- **C26** (negation). Assigning a vector to itself empties it. -/
theorem C26_self_assign_wrong (v : Vec α) : ∃ r, assign none v = .ret r () ∧ r.elems = [] :=
  ⟨{ v with elems := [] }, by
    unfold assign
    rw [OM.bind_eq, OM.bind_of_ret (show clear v = .ret { v with elems := [] } () from rfl)]
    simp only [OM.bind_eq, OM.bind_read]
    rw [OM.bind_of_ret (v := ()) (s' := { v with elems := [] })]
    · rfl
    · unfold ensureCapacity
      simp only [OM.bind_eq, OM.bind_read]
      rw [if_neg (by
        rw [show toInt ([] : List α).length = 0 from by rw [List.length_nil]; decide]
        omega)]
      rfl, rfl⟩

/-- **C67**. `ensureCapacity(n)` keeps the elements and the increment; the
capacity stays when it is already `n` or more, and otherwise becomes the larger
of `n` and the old capacity plus the increment, or of `n` and twice the old
capacity when no positive increment was chosen. -/
theorem C67_capacity (v : Vec α) (n : Int) (hc : v.cap ≤ 2 ^ 30) (hi : v.inc < 2 ^ 30) (hn : n ≤ 2 ^ 30) (hx : v.cap < 2 ^ 30 ∨ 0 < v.inc) :
    ∃ w, ensureCapacity n v = .ret w () ∧ w.elems = v.elems ∧ w.inc = v.inc ∧
      (w.cap : Int) = if n ≤ v.cap then (v.cap : Int) else max n (if 0 < v.inc then v.cap + v.inc else 2 * v.cap) := by
  unfold ensureCapacity
  have hcm : (v.cap : Int) ≤ INT_MAX := by unfold INT_MAX; omega
  simp only [OM.bind_eq, OM.bind_read, toInt_eq hcm]
  by_cases h : n ≤ v.cap
  · rw [if_neg (show ¬ (n > 0 ∧ n > (v.cap : Int)) by omega), if_pos h]
    exact ⟨v, rfl, rfl, rfl, rfl⟩
  · rw [if_pos (show n > 0 ∧ n > (v.cap : Int) by omega), if_neg h]
    have hg : grown (v.cap : Int) v.inc = .ok (if 0 < v.inc then (v.cap : Int) + v.inc else 2 * v.cap) := by
      unfold grown
      by_cases h1 : v.inc > 0
      · rw [if_pos h1, if_pos h1]
        exact chk32_ok (by unfold INT_MIN; omega) (by unfold INT_MAX; omega)
      · rw [if_neg h1, if_neg h1, Int.mul_comm]
        exact chk32_ok (by unfold INT_MIN; omega) (by unfold INT_MAX; omega)
    rw [hg]
    simp only [OM.lift_ok, OM.bind_ret, reserve, OM.bind_eq, OM.bind_read, OM.write_apply]
    refine ⟨_, rfl, rfl, rfl, ?_⟩
    simp only
    generalize (if 0 < v.inc then (v.cap : Int) + v.inc else 2 * v.cap) = g
    by_cases q : g < n
    · rw [if_pos q, if_pos (show v.cap < n.toNat by omega)]; omega
    · rw [if_neg q, if_pos (show v.cap < g.toNat by omega)]; omega

example : ensureCapacity 5 (⟨[1, 2, 3, 4], 4, 0⟩ : Vec Nat) = .ret ⟨[1, 2, 3, 4], 8, 0⟩ () ∧
    ensureCapacity 5 (⟨[1, 2, 3, 4], 4, 3⟩ : Vec Nat) = .ret ⟨[1, 2, 3, 4], 7, 3⟩ () := ⟨rfl, rfl⟩

end Verif.Vector
