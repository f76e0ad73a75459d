import Verif.ArrayList.Spec
/-!
# Properties of `ArrayList` (C25)
-/
namespace Verif.ArrayList

variable {α : Type}

theorem get_in (v : List α) (i : Int) (h : 0 ≤ i ∧ i < v.length) : get i v = .ret v (v[i.toNat]'(by omega)) := by
  unfold get
  simp only [OM.bind_eq, OM.bind_read]
  rw [if_neg (by simp only [outside, decide_eq_true_eq]; omega), Arr.get_lt h.1 h.2]
  rfl

theorem get_out (v : List α) (i : Int) (h : ¬ (0 ≤ i ∧ i < v.length)) : get i v = .exc v .indexOutOfBounds := by
  unfold get
  simp only [OM.bind_eq, OM.bind_read]
  rw [if_pos (by simp only [outside, decide_eq_true_eq]; omega)]
  rfl

theorem containsLoop_eq [DecidableEq α] (e : α) : ∀ v : List α, containsLoop e v = decide (e ∈ v)
  | [] => by simp [containsLoop]
  | x :: r => by
    rw [containsLoop, containsLoop_eq e r]
    by_cases h : x = e
    · subst h; simp
    · have : ¬ e = x := fun h' => h h'.symm
      simp [h, this]

theorem indexOfLoop_eq [DecidableEq α] (e : α) (v : List α) : ∀ n i, i + n = v.length →
    indexOfLoop e n i v = .ret v (match (v.drop i).findIdx? (fun x => decide (x = e)) with
      | some k => ((i + k : Nat) : Int)
      | none => -1)
  | 0, i, h => by
    rw [List.drop_of_length_le (by omega)]
    rfl
  | n + 1, i, h => by
    rw [indexOfLoop, OM.bind_eq, OM.bind_of_ret (get_in v i (by omega))]
    rw [List.drop_eq_getElem_cons (by omega), List.findIdx?_cons]
    simp only [Int.toNat_natCast]
    by_cases hx : v[i]'(by omega) = e
    · rw [if_pos hx]
      simp [hx]
    · rw [if_neg hx, indexOfLoop_eq e v n (i + 1) (by omega)]
      simp only [hx, decide_false, Bool.false_eq_true, if_false]
      cases (v.drop (i + 1)).findIdx? (fun x => decide (x = e)) with
      | none => rfl
      | some k => simp only [Option.map_some]; congr 2; omega

theorem indexOf_eq [DecidableEq α] (e : α) (v : List α) : indexOf e v = .ret v (firstAt e v) := by
  unfold indexOf
  simp only [OM.bind_eq, OM.bind_read]
  rw [indexOfLoop_eq e v v.length 0 (by omega)]
  unfold firstAt
  rw [List.drop_zero]
  cases v.findIdx? (fun x => decide (x = e)) with
  | none => rfl
  | some k => simp only [Nat.zero_add]

theorem lastIndexOfLoop_eq [DecidableEq α] (e : α) (v : List α) : ∀ n, n ≤ v.length →
    lastIndexOfLoop e n v = .ret v (lastAt e (v.take n))
  | 0, _ => by rfl
  | n + 1, h => by
    rw [lastIndexOfLoop, OM.bind_eq, OM.bind_of_ret (get_in v n (by omega))]
    have ht : v.take (n + 1) = v.take n ++ [v[n]'(by omega)] := by
      rw [List.take_append_getElem (by omega)]
    have hl : (v.take n).length = n := by rw [List.length_take]; omega
    unfold lastAt
    rw [ht, List.reverse_append, List.reverse_singleton, List.singleton_append, List.findIdx?_cons, List.length_append, List.length_singleton, hl]
    simp only [Int.toNat_natCast]
    by_cases hx : v[n]'(by omega) = e
    · rw [if_pos hx]
      simp [hx]
    · rw [if_neg hx, lastIndexOfLoop_eq e v n (by omega)]
      unfold lastAt
      simp only [hx, decide_false, Bool.false_eq_true, if_false]
      rw [hl]
      cases (v.take n).reverse.findIdx? (fun x => decide (x = e)) with
      | none => rfl
      | some k => simp only [Option.map_some]; congr 1; omega

theorem lastIndexOf_eq [DecidableEq α] (e : α) (v : List α) : lastIndexOf e v = .ret v (lastAt e v) := by
  unfold lastIndexOf
  simp only [OM.bind_eq, OM.bind_read]
  rw [lastIndexOfLoop_eq e v v.length (Nat.le_refl _), List.take_length]

theorem erase_in (v : List α) (i : Nat) (h : i < v.length) : erase i v = .ret (v.eraseIdx i) () := by
  unfold erase
  simp only [OM.bind_eq, OM.bind_read]
  rw [if_pos h]; rfl

theorem removeAt_in (v : List α) (i : Int) (h : 0 ≤ i ∧ i < v.length) :
    removeAt i v = .ret (v.eraseIdx i.toNat) (v[i.toNat]'(by omega)) := by
  unfold removeAt
  simp only [OM.bind_eq, OM.bind_read]
  rw [if_neg (by simp only [outside, decide_eq_true_eq]; omega), OM.bind_of_ret (get_in v i h),
    OM.bind_of_ret (erase_in v i.toNat (by omega))]
  rfl

theorem removeAt_out (v : List α) (i : Int) (h : ¬ (0 ≤ i ∧ i < v.length)) : removeAt i v = .exc v .indexOutOfBounds := by
  unfold removeAt
  simp only [OM.bind_eq, OM.bind_read]
  rw [if_pos (by simp only [outside, decide_eq_true_eq]; omega)]
  rfl

theorem erase_findIdx [DecidableEq α] (e : α) (v : List α) (k : Nat) (h : v.findIdx? (fun x => decide (x = e)) = some k) :
    k < v.length ∧ v.eraseIdx k = v.erase e ∧ e ∈ v := by
  induction v generalizing k with
  | nil => simp at h
  | cons x r ih =>
    rw [List.findIdx?_cons] at h
    by_cases hx : x = e
    · simp only [hx, decide_true, if_true, Option.some.injEq] at h
      subst h; subst hx
      simp
    · simp only [hx, decide_false, Bool.false_eq_true, if_false, Option.map_eq_some_iff] at h
      obtain ⟨j, hj, rfl⟩ := h
      obtain ⟨h1, h2, h3⟩ := ih j hj
      refine ⟨by simp; omega, ?_, by simp [h3]⟩
      rw [List.eraseIdx_cons_succ, h2, List.erase_cons_tail (by simp [hx])]

theorem removeElem_eq [DecidableEq α] (e : α) (v : List α) : removeElem e v = .ret (v.erase e) (decide (e ∈ v)) := by
  unfold removeElem
  rw [OM.bind_eq, OM.bind_of_ret (indexOf_eq e v)]
  unfold firstAt
  cases h : v.findIdx? (fun x => decide (x = e)) with
  | none =>
    have hn : e ∉ v := by
      intro he
      have := List.findIdx?_eq_none_iff.mp h e he
      simp at this
    simp only [if_pos]
    rw [List.erase_of_not_mem hn]
    simp [hn]
  | some k =>
    obtain ⟨h1, h2, h3⟩ := erase_findIdx e v k h
    simp only
    rw [if_neg (by omega), OM.bind_eq, OM.bind_of_ret (removeAt_in v k (by omega))]
    simp [h2, h3]

/-- **C25** (one call). Every call the specification allows, from every list,
does and answers what the abstract sequence does. -/
theorem C25_call [DecidableEq α] (op : Op α) (t : List α) (hl : Legal op t) :
    (step op t).Is (spec op t).1 (spec op t).2 := by
  cases op with
  | add e => rfl
  | addAt i e =>
    simp only [Legal] at hl
    simp only [spec]
    rw [if_pos (by omega)]
    simp only [Res.Is, step, addAt, OM.bind_eq]
    unfold OM.bind
    simp only [OM.read_apply]
    rw [if_neg (by
      unfold sizeMinusOne
      by_cases h0 : t.length = 0
      · rw [if_pos h0]; omega
      · rw [if_neg h0]; omega)]
    unfold insert
    simp only [OM.bind_eq, OM.bind_read]
    rw [if_pos (by omega)]
    rfl
  | set i e =>
    simp only [spec]
    by_cases h : 0 ≤ i ∧ i < t.length
    · rw [if_pos h]
      simp only [Res.Is, step, OM.bind_eq]
      refine (OM.bind_of_ret (s' := t.set i.toNat e) (v := e) ?_).trans rfl
      unfold set
      simp only [OM.bind_eq, OM.bind_read]
      rw [if_neg (by simp only [outside, decide_eq_true_eq]; omega)]
      simp only [OM.bind_write, OM.bind_read]
      rw [Arr.get_lt h.1 (by simpa using h.2)]
      simp
    · rw [if_neg h]
      simp only [Res.Is, step, OM.bind_eq]
      refine OM.bind_of_exc ?_
      unfold set
      simp only [OM.bind_eq, OM.bind_read]
      rw [if_pos (by simp only [outside, decide_eq_true_eq]; omega)]
      rfl
  | removeAt i =>
    simp only [spec]
    by_cases h : 0 ≤ i ∧ i < t.length
    · rw [dif_pos h]
      exact (OM.bind_of_ret (removeAt_in t i h)).trans rfl
    · rw [dif_neg h]
      exact OM.bind_of_exc (removeAt_out t i h)
  | removeElem e => exact (OM.bind_of_ret (removeElem_eq e t)).trans rfl
  | clear => rfl
  | removeRange i j =>
    simp only [Legal] at hl
    simp only [spec]
    rw [if_pos hl]
    simp only [Res.Is, step, removeRange, OM.bind_eq]
    unfold OM.bind
    simp only [OM.read_apply]
    rw [if_pos hl]
    rfl
  | get i =>
    simp only [spec]
    by_cases h : 0 ≤ i ∧ i < t.length
    · rw [dif_pos h]
      exact (OM.bind_of_ret (get_in t i h)).trans rfl
    · rw [dif_neg h]
      exact OM.bind_of_exc (get_out t i h)
  | size => rfl
  | isEmpty =>
    simp only [Res.Is, step, spec, isEmpty]
    cases t <;> rfl
  | contains e =>
    simp only [Res.Is, step, spec, contains, OM.bind_eq, ← containsLoop_eq]
    rfl
  | indexOf e => exact (OM.bind_of_ret (indexOf_eq e t)).trans rfl
  | lastIndexOf e => exact (OM.bind_of_ret (lastIndexOf_eq e t)).trans rfl
  | toArray => rfl

/-- **C25** (histories). Any history of calls, starting from any contents, gives
the contents and the answers of the same history on an abstract sequence, the
exceptions included. Missing from the full statement: the calls `Legal` leaves
out, see the negations below. -/
theorem C25_history_partial [DecidableEq α] (ops : List (Op α)) (t : List α) (hl : Along spec Legal ops t) :
    runHist step ops t = .ok ((specHist spec ops t).1, (specHist spec ops t).2) := by
  obtain ⟨s', h1, h2⟩ := runHist_refines step spec (fun s t => s = t) Legal
    (by rintro op s t rfl hl; exact ⟨_, rfl, C25_call op s hl⟩) ops t t rfl hl
  rw [h2, h1]

/-- A history with an exception in the middle. -/
example : Along spec Legal [Op.add 5, .add 7, .addAt 1 6, .removeAt 9, .removeElem 5, .lastIndexOf 7] ([] : List Nat) ∧
    specHist spec [Op.add 5, .add 7, .addAt 1 6, .removeAt 9, .removeElem 5, .lastIndexOf 7] ([] : List Nat) =
      ([6, 7], [.ok (.bool true), .ok (.bool true), .ok .unit, .error .indexOutOfBounds, .ok (.bool true), .ok (.int 1)]) := by
  constructor
  · simp [Along, Legal, spec]
  · rfl

/-- **C25**. The specification's search is what it says: `indexOf` is the
smallest position holding the element, `lastIndexOf` the greatest. -/
theorem C25_search [DecidableEq α] (e : α) (t : List α) :
    (∀ k : Nat, indexOf e t = .ret t (k : Int) ↔ t[k]? = some e ∧ ∀ j, j < k → t[j]? ≠ some e) ∧
    (indexOf e t = .ret t (-1) ↔ e ∉ t) ∧
    (∀ k : Nat, lastIndexOf e t = .ret t (k : Int) ↔ t[k]? = some e ∧ ∀ j, k < j → t[j]? ≠ some e) ∧
    (lastIndexOf e t = .ret t (-1) ↔ e ∉ t) := by
  have first : ∀ (l : List α), (∀ k : Nat, firstAt e l = (k : Int) ↔ l[k]? = some e ∧ ∀ j, j < k → l[j]? ≠ some e) ∧
      (firstAt e l = -1 ↔ e ∉ l) := by
    intro l
    unfold firstAt
    cases h : l.findIdx? (fun x => decide (x = e)) with
    | none =>
      have hn : e ∉ l := by
        intro he
        have := List.findIdx?_eq_none_iff.mp h e he
        simp at this
      refine ⟨fun k => ⟨fun h => by simp only at h; omega, fun h => absurd (List.mem_of_getElem? h.1) hn⟩, by simp [hn]⟩
    | some m =>
      obtain ⟨hm, h1, h2⟩ := List.findIdx?_eq_some_iff_getElem.mp h
      have hme : l[m]? = some e := by rw [List.getElem?_eq_getElem hm]; simpa using h1
      refine ⟨fun k => ⟨fun h => ?_, fun h => ?_⟩, ?_⟩
      · simp only at h
        have : m = k := by omega
        subst this
        refine ⟨hme, fun j hj hc => ?_⟩
        have := h2 j hj
        rw [List.getElem?_eq_getElem (by omega)] at hc
        exact (by simpa using this : ¬ l[j] = e) (Option.some.inj hc)
      · simp only
        rcases Nat.lt_trichotomy m k with hlt | heq | hgt
        · exact absurd hme (h.2 m hlt)
        · omega
        · have := h2 k hgt
          have hk := h.1
          rw [List.getElem?_eq_getElem (by omega)] at hk
          exact absurd (Option.some.inj hk) (by simpa using this)
      · simp only
        constructor
        · intro hh; omega
        · intro hh; exact absurd (List.mem_of_getElem? hme) hh
  have last : ∀ k : Nat, lastAt e t = (k : Int) ↔ k < t.length ∧ firstAt e t.reverse = ((t.length - 1 - k : Nat) : Int) := by
    intro k
    unfold lastAt firstAt
    cases h : t.reverse.findIdx? (fun x => decide (x = e)) with
    | none => simp only; constructor <;> intro hh <;> omega
    | some m =>
      obtain ⟨hm, _, _⟩ := List.findIdx?_eq_some_iff_getElem.mp h
      rw [List.length_reverse] at hm
      simp only
      constructor <;> intro hh <;> omega
  have lastN : lastAt e t = -1 ↔ firstAt e t.reverse = -1 := by
    unfold lastAt firstAt
    cases h : t.reverse.findIdx? (fun x => decide (x = e)) with
    | none => simp
    | some m =>
      obtain ⟨hm, _, _⟩ := List.findIdx?_eq_some_iff_getElem.mp h
      rw [List.length_reverse] at hm
      simp only
      constructor <;> intro hh <;> omega
  rw [indexOf_eq, lastIndexOf_eq]
  simp only [Res.ret.injEq, true_and]
  refine ⟨(first t).1, (first t).2, fun k => ?_, ?_⟩
  · rw [last k, (first t.reverse).1]
    have rev : ∀ i, i < t.length → t.reverse[i]? = t[t.length - 1 - i]? := fun i hi => List.getElem?_reverse hi
    constructor
    · rintro ⟨h1, h2, h3⟩
      rw [rev _ (by omega), show t.length - 1 - (t.length - 1 - k) = k by omega] at h2
      refine ⟨h2, fun j hj hc => ?_⟩
      by_cases hjl : j < t.length
      · refine h3 (t.length - 1 - j) (by omega) ?_
        rw [rev _ (by omega), show t.length - 1 - (t.length - 1 - j) = j by omega]
        exact hc
      · rw [List.getElem?_eq_none (by omega)] at hc; cases hc
    · rintro ⟨h1, h2⟩
      have hk : k < t.length := by
        apply Classical.byContradiction; intro h
        rw [List.getElem?_eq_none (by omega)] at h1; cases h1
      refine ⟨hk, ?_, fun j hj hc => ?_⟩
      · rw [rev _ (by omega), show t.length - 1 - (t.length - 1 - k) = k by omega]; exact h1
      · rw [rev _ (by omega)] at hc
        exact h2 _ (by omega) hc
  · rw [lastN, (first t.reverse).2, List.mem_reverse]

example : indexOf 7 [7, 8, 7] = .ret [7, 8, 7] 0 ∧ lastIndexOf 7 [7, 8, 7] = .ret [7, 8, 7] 2 := by decide

/-- **C25** (negation). `add(size(), e)`, appending by index, changes nothing on
every non-empty list. -/
theorem C25_add_at_size_wrong [DecidableEq α] (e : α) (t : List α) (ht : t ≠ []) :
    addAt t.length e t = .ret t () ∧ (spec (.addAt t.length e) t).1 ≠ t := by
  have h0 : t.length ≠ 0 := fun h => ht (List.eq_nil_of_length_eq_zero h)
  constructor
  · unfold addAt
    simp only [OM.bind_eq, OM.bind_read]
    rw [if_pos (by unfold sizeMinusOne; rw [if_neg h0]; omega)]
    rfl
  · simp only [spec]
    rw [if_pos (by omega)]
    intro h
    have := congrArg List.length h
    simp at this

example : addAt 2 9 [1, 2] = .ret [1, 2] () := by decide

/-- **C25** (negation). Insertion at an index outside a non-empty list returns
normally instead of raising IndexOutOfBoundsException. -/
theorem C25_add_outside_wrong (e : α) (t : List α) (ht : t ≠ []) (i : Int) (hi : i < 0 ∨ t.length < i) :
    addAt i e t = .ret t () := by
  have h0 : t.length ≠ 0 := fun h => ht (List.eq_nil_of_length_eq_zero h)
  unfold addAt
  simp only [OM.bind_eq, OM.bind_read]
  rw [if_pos (by unfold sizeMinusOne; rw [if_neg h0]; omega)]
  rfl

/-- **C25** (negation). On the empty list the bound underflows: insertion at any
positive index is undefined. -/
theorem C25_add_empty_wrong (e : α) (i : Int) (h1 : 0 < i) (h2 : i ≤ INT_MAX) : addAt i e [] = .ub := by
  unfold INT_MAX at h2
  unfold addAt
  simp only [OM.bind_eq, OM.bind_read]
  rw [if_neg (by unfold sizeMinusOne; rw [if_pos (show ([] : List α).length = 0 from rfl)]; omega)]
  unfold insert
  simp only [OM.bind_eq, OM.bind_read]
  rw [if_neg (by simp; omega)]
  rfl

/-- **C25** (negation). `removeRange` does not check: any other range is
undefined. -/
theorem C25_removeRange_wrong (t : List α) (i j : Int) (h : ¬ (0 ≤ i ∧ i ≤ j ∧ j ≤ t.length)) :
    removeRange i j t = .ub := by
  unfold removeRange
  simp only [OM.bind_eq, OM.bind_read]
  rw [if_neg h]
  rfl

example : ¬ (0 ≤ (2 : Int) ∧ (2 : Int) ≤ 5 ∧ (5 : Int) ≤ ([1, 2, 3] : List Nat).length) := by decide

/-- **C25** (negation). A list constructed with an initial capacity is not
empty: it starts with that many default elements. -/
theorem C25_capacity_wrong (dflt : α) (n : Int) (h : 0 < n) :
    ∃ s, ofCapacity dflt n = .ok s ∧ size s = .ret s n ∧ isEmpty s = .ret s false := by
  refine ⟨List.replicate n.toNat dflt, by unfold ofCapacity; rw [if_neg (by omega)], ?_, ?_⟩
  · unfold size
    simp only [OM.bind_eq, OM.bind_read, OM.ret_apply, List.length_replicate]
    rw [Int.toNat_of_nonneg (by omega)]
  · unfold isEmpty
    obtain ⟨k, hk⟩ : ∃ k, n.toNat = k + 1 := ⟨n.toNat - 1, by omega⟩
    rw [hk]
    rfl

/-- **C25**. The constructors from an initializer list or an array hold exactly
its elements, in order. -/
theorem C25_ofList (l : List α) : ofListLoop l [] = .ret l () := by
  have : ∀ (l s : List α), ofListLoop l s = .ret (s ++ l) () := by
    intro l
    induction l with
    | nil => intro s; simp [ofListLoop]
    | cons x r ih =>
      intro s
      rw [ofListLoop, OM.bind_eq, OM.bind_of_ret (show add x s = .ret (s ++ [x]) true from rfl), ih]
      simp
  simpa using this l []

/-- **C25**. `toString` is the elements' texts between brackets, separated by a
comma and a space; strings are quoted unless they start with `[` or `{`. -/
theorem C25_toString (isString : Bool) (text : α → List Byte) (t : List α) :
    toString isString text t = .ret t (91#8 :: joined (t.map fun x =>
      if isString ∧ (text x).head? ≠ some 91#8 ∧ (text x).head? ≠ some 123#8 then 34#8 :: text x ++ [34#8] else text x) ++ [93#8]) := by
  have hq : ∀ x, quote isString (text x) =
      if isString ∧ (text x).head? ≠ some 91#8 ∧ (text x).head? ≠ some 123#8 then 34#8 :: text x ++ [34#8] else text x := by
    intro x
    unfold quote
    cases h : text x with
    | nil => simp
    | cons c r => simp
  have loop : ∀ (l : List α) b, l ≠ [] → toStringLoop isString text l b = b ++ joined (l.map fun x => quote isString (text x)) := by
    intro l
    induction l with
    | nil => intro b h; exact absurd rfl h
    | cons x r ih =>
      intro b _
      cases r with
      | nil => rfl
      | cons y r =>
        rw [toStringLoop, ih _ (by simp)]
        · simp [joined]
        · simp
  unfold toString
  simp only [OM.bind_eq, OM.bind_read]
  by_cases h : t = []
  · subst h; rfl
  · rw [if_neg (fun h' => h (List.eq_nil_of_length_eq_zero h')), loop t _ h]
    simp only [hq]
    rfl

example : toString true (fun x : List Byte => x) [[97#8], [91#8, 93#8]] =
    .ret [[97#8], [91#8, 93#8]] [91#8, 34#8, 97#8, 34#8, 44#8, 32#8, 91#8, 93#8, 93#8] := by decide

end Verif.ArrayList
