import Verif.Arrays.Lemmas
/-!
# Properties of `Arrays` (C22–C24)
-/
namespace Verif.Arrays

variable {α : Type}

/-! ## C22 — sorting -/

def ltInt (x y : Int) : Bool := decide (x < y)

theorem ltInt_strictWeak : StrictWeak ltInt :=
  ⟨fun x => by simp [ltInt], fun x y => by simp only [ltInt, decide_eq_true_eq, decide_eq_false_iff_not]; omega,
   fun x y z => by simp only [ltInt, decide_eq_true_eq]; omega⟩

/-- **C22** (safety). Whatever the element comparison answers, as long as no
element precedes itself, `sort` of an array of at most 2^30 elements terminates,
indexes only inside the array and leaves a permutation of the contents.
Missing from the full statement: longer arrays, see `C22_overflow`. -/
theorem C22_sort_safe_partial (k : Kind) (lt : α → α → Bool) (a : List α) (hirr : ∀ x, lt x x = false)
    (hn : a.length ≤ 2 ^ 30) : ∃ r, sort k lt a a.length = .ok r ∧ r.Perm a := by
  unfold sort
  by_cases h : (a.length : Int) - 1 ≤ 0
  · exact ⟨a, sortRange_trivial k lt a 0 _ h, .refl _⟩
  · obtain ⟨r, h1, h2, _⟩ := sortRange_ok k lt a 0 ((a.length : Int) - 1) hirr (Int.le_refl _) (by omega) (by omega)
      (by unfold INT_MAX; omega)
    exact ⟨r, h1, h2.perm⟩

/-- A comparison that is not an order still sorts safely. -/
example : ∀ x : Nat, (fun x y : Nat => decide ((x + 1) % 3 = y % 3)) x x = false := by
  intro x; simp only [decide_eq_false_iff_not]; omega

/-- **C22** (order). For every strict weak order and every array of at most
2^30 elements, `sort` terminates without indexing outside the array, and leaves
a permutation of the contents in ascending order. -/
theorem C22_sort_partial (k : Kind) (lt : α → α → Bool) (ho : StrictWeak lt) (a : List α) (hn : a.length ≤ 2 ^ 30) :
    ∃ r, sort k lt a a.length = .ok r ∧ r.Perm a ∧ Ascending lt r := by
  unfold sort
  by_cases h : (a.length : Int) - 1 ≤ 0
  · refine ⟨a, sortRange_trivial k lt a 0 _ h, .refl _, ?_⟩
    match a, h with
    | [], _ => exact List.Pairwise.nil
    | [x], _ => exact List.pairwise_singleton _ _
    | _ :: _ :: _, h => simp only [List.length_cons] at h; omega
  · obtain ⟨r, h1, h2, h3⟩ := sortRange_ok k lt a 0 ((a.length : Int) - 1) ho.irrefl (Int.le_refl _) (by omega) (by omega)
      (by unfold INT_MAX; omega)
    refine ⟨r, h1, h2.perm, List.pairwise_iff_getElem.mpr fun i j hi hj hij => ?_⟩
    have := h2.len
    exact h3 ho.asym ho.split j i j _ _ (by omega) (by omega) (Int.le_refl _) (by omega) (List.getElem?_eq_getElem hi)
      (List.getElem?_eq_getElem hj)

example : StrictWeak ltInt ∧ sort .boxed ltInt [3, 1, 2, 3, -5, 0] 6 = .ok [-5, 0, 1, 2, 3, 3] :=
  ⟨ltInt_strictWeak, by decide +kernel⟩

/-- **C22** (ranges). `sort(array, from, to)` orders the positions `from` to
`to`, both included, permutes them and leaves every other position alone. -/
theorem C22_sort_range (k : Kind) (lt : α → α → Bool) (ho : StrictWeak lt) (a : List α) (lo hi : Nat)
    (hlh : lo ≤ hi) (hhi : hi < a.length) (hn : hi < 2 ^ 30) :
    ∃ r, sortRange k lt a lo hi = .ok r ∧ r.length = a.length ∧ r.Perm a ∧
      (∀ p, p < lo ∨ hi < p → r[p]? = a[p]?) ∧
      (∀ p q x y, lo ≤ p → p < q → q ≤ hi → r[p]? = some x → r[q]? = some y → lt y x = false) := by
  by_cases h : lo = hi
  · subst h
    exact ⟨a, sortRange_trivial k lt a lo lo (Int.le_refl _), rfl, .refl _, fun _ _ => rfl, fun p q x y _ _ _ => by omega⟩
  · obtain ⟨r, h1, h2, h3⟩ := sortRange_ok k lt a lo hi ho.irrefl (by omega) (by omega) (by omega) (by unfold INT_MAX; omega)
    exact ⟨r, h1, h2.len, h2.perm, fun p hp => h2.out p (by omega),
      fun p q x y a1 a2 a3 hx hy => h3 ho.asym ho.split q p q x y (by omega) (by omega) (Int.le_refl _) (by omega) hx hy⟩

example : sortRange .raw ltInt [9, 4, 3, 2, 1, 0] 1 3 = .ok [9, 2, 3, 4, 1, 0] := by decide +kernel

/-- **C22** (negation). Sorting a range whose ends sum past `INT_MAX` is
undefined: the middle is computed as `(left + right) / 2`. -/
theorem C22_overflow (k : Kind) (lt : α → α → Bool) (a : List α) (lo hi : Int) (hlh : lo < hi) (hov : INT_MAX < lo + hi) :
    sortRange k lt a lo hi = .ub := by
  have e : segBody k lt ⟨a, [], lo, hi⟩ = .ub := by
    unfold segBody
    rw [if_pos (by simpa using hlh)]
    simp only [Outcome.bind_eq, chk32]
    rw [if_neg (by omega)]; rfl
  have e2 : iter (segBody k lt) (a.length + 2) ⟨a, [], lo, hi⟩ = .ub := by rw [iter, e]
  unfold sortRange
  rw [iter, show sortBody k lt (a, [(lo, hi)]) = .ub by
    unfold sortBody
    simp only [Outcome.bind_eq, e2]; rfl]

example : (1073741824 : Int) < 1073741825 ∧ INT_MAX < 1073741824 + 1073741825 := by decide

/-! ## C23 — searching -/

def geInt (x y : Int) : Bool := decide (y ≤ x)
def eqInt (x y : Int) : Bool := decide (x = y)

theorem geInt_total : TotalOrd geInt eqInt :=
  ⟨fun x y z => by simp only [geInt, decide_eq_true_eq]; omega,
   fun x y => by simp only [geInt, eqInt, decide_eq_true_eq]; omega⟩

/-- **C23** (soundness and safety). On any array, sorted or not, a search of
positions `from` to `to` inside the array terminates without indexing outside
it; the result is -1 or a position of the range that holds the key. -/
theorem C23_sound (k : Kind) (ge eq : α → α → Bool) (a : List α) (key : α) (lo hi : Nat) (hlh : lo ≤ hi)
    (hhi : hi < a.length) (hn : hi < 2 ^ 30) :
    ∃ r, binarySearchByIndex k ge eq a lo hi key = .ok r ∧
      (r = -1 ∨ ∃ p : Nat, r = p ∧ lo ≤ p ∧ p ≤ hi ∧ ∃ x, a[p]? = some x ∧ eq x key = true) := by
  obtain ⟨r, h1, h2⟩ := search_safe k ge eq a key lo hi (by omega) (by omega) (by omega) (by unfold INT_MAX; omega)
  refine ⟨r, h1, ?_⟩
  rcases h2 with h2 | ⟨g1, g2, x, g3, g4⟩
  · exact Or.inl h2
  · exact Or.inr ⟨r.toNat, by omega, by omega, by omega, x, g3, g4⟩

example : binarySearchByIndex .raw geInt eqInt [1, 3, 5, 7] 0 3 5 = .ok 2 ∧
    binarySearchByIndex .raw geInt eqInt [1, 3, 5, 7] 0 3 4 = .ok (-1) := by decide +kernel

/-- **C23**: a key that is not in the searched range is never reported. -/
theorem C23_absent (k : Kind) (ge eq : α → α → Bool) (a : List α) (key : α) (lo hi : Nat) (hlh : lo ≤ hi)
    (hhi : hi < a.length) (hn : hi < 2 ^ 30) (hk : ∀ p x, lo ≤ p → p ≤ hi → a[p]? = some x → eq x key = false) :
    binarySearchByIndex k ge eq a lo hi key = .ok (-1) := by
  obtain ⟨r, h1, h2⟩ := C23_sound k ge eq a key lo hi hlh hhi hn
  rcases h2 with rfl | ⟨p, _, g1, g2, x, g3, g4⟩
  · exact h1
  · rw [hk p x g1 g2 g3] at g4; cases g4

example : ∀ (p : Nat) x, 1 ≤ p → p ≤ 2 → [1, 3, 5, 7][p]? = some x → eqInt x 7 = false := by
  intro p x h1 h2 h3
  have : p = 1 ∨ p = 2 := by omega
  rcases this with rfl | rfl <;> (simp at h3; subst h3; decide)

/-- **C23** (completeness). In a sorted array a present key is found when the
number of positions searched is 4, 8, 16, 32, … Missing from the full
statement: every other number of positions, see `C23_wrong`. -/
theorem C23_found_partial (k : Kind) (ge eq : α → α → Bool) (ho : TotalOrd ge eq) (a : List α) (hs : SortedGe ge a) (key : α)
    (lo hi n : Nat) (hsize : hi + 1 - lo = 2 ^ (n + 2)) (hhi : hi < a.length) (hn : hi < 2 ^ 30)
    (hex : ∃ p x, lo ≤ p ∧ p ≤ hi ∧ a[p]? = some x ∧ eq x key = true) :
    ∃ (p : Nat) (x : α), binarySearchByIndex k ge eq a lo hi key = .ok (p : Int) ∧ lo ≤ p ∧ p ≤ hi ∧ a[p]? = some x ∧ eq x key = true := by
  have hpow : 2 ^ (n + 2) = 4 * 2 ^ n := by rw [Nat.pow_succ, Nat.pow_succ]; omega
  have := Nat.two_pow_pos n
  obtain ⟨r, h1, h2⟩ := search_found k ge eq ho a key lo hi n
    (fun p q hp hq hh _ => List.pairwise_iff_getElem.mp hs p q (by omega) (by omega) hp) (by omega) hhi
    (by unfold INT_MAX; omega)
    (by
      obtain ⟨p, x, g1, g2, g3, g4⟩ := hex
      rw [List.getElem?_eq_getElem (by omega)] at g3
      exact ⟨p, g1, g2, by rw [Option.some.inj g3]; exact g4⟩)
  obtain ⟨r', h1', h2'⟩ := C23_sound k ge eq a key lo hi (by omega) hhi hn
  rw [h1] at h1'
  cases h1'
  rcases h2' with h | ⟨p, rfl, g1, g2, x, g3, g4⟩
  · exact absurd h h2
  · exact ⟨p, x, h1, g1, g2, g3, g4⟩

example : SortedGe geInt [1, 2, 2, 9, 9, 10, 11, 12] ∧ 7 + 1 - 0 = 2 ^ (1 + 2) ∧ eqInt 9 9 = true := by
  refine ⟨?_, rfl, rfl⟩
  unfold SortedGe; decide

/-- **C23** (negation). For every number `n` of elements that is not 4, 8, 16, …
the sorted array `0, 1, …, n-1` contains a key that `binarySearch` does not
find. -/
theorem C23_wrong (k : Kind) (n : Nat) (h1 : 1 ≤ n) (h2 : n ≤ 2 ^ 30) (hn : ∀ e, 2 ≤ e → n ≠ 2 ^ e) :
    ∃ key, key ∈ List.range n ∧ binarySearchByKey k geNat eqNat (List.range n) key n = .ok (-1) := by
  obtain ⟨key, k1, k2, k3⟩ := search_misses k n (n - 1) 0 (by omega) (by unfold INT_MAX; omega) (by
    by_cases a1 : n = 1
    · exact Or.inl (by omega)
    · by_cases a2 : n = 2
      · exact Or.inr (Or.inl (by omega))
      · refine Or.inr (Or.inr fun e he => ?_)
        match e, he with
        | 0, he => omega
        | 1, he => omega
        | e + 2, he => exact hn (e + 2) (by omega) (by omega))
  refine ⟨key, List.mem_range.mpr (by omega), ?_⟩
  unfold binarySearchByKey binarySearchByIndex
  rw [if_neg (by omega)]
  have := k3 ((List.range n).length + 2) (by simp; omega)
  rw [show ((0 + (n - 1) : Nat) : Int) = (n : Int) - 1 by omega] at this
  exact this

example : binarySearchByKey .boxed geInt eqInt [10, 20, 30, 40, 50] 30 5 = .ok (-1) := by decide +kernel
example : ∀ e, 2 ≤ e → 5 ≠ 2 ^ e := by
  intro e he h
  match e, he with
  | 2, _ => cases h
  | e + 3, _ => have := Nat.two_pow_pos e; rw [Nat.pow_succ, Nat.pow_succ, Nat.pow_succ] at h; omega

/-- **C23** (negation). `binarySearch(array, from, to, key)` can return a
position before `from`. -/
theorem C23_from_ignored_wrong : ∃ (a : List Int) (f t key : Int) (r : Int), 0 ≤ f ∧ f ≤ t ∧ t < a.length ∧ SortedGe geInt a ∧
    binarySearch .boxed geInt eqInt a f t key = .ok r ∧ 0 ≤ r ∧ r < f :=
  ⟨[1, 2, 3, 4], 2, 3, 1, 0, by decide, by decide, by decide, by unfold SortedGe; decide, by decide +kernel, by decide, by decide⟩

/-- **C23** (negation). A search whose ends sum past `INT_MAX` is undefined. -/
theorem C23_overflow (k : Kind) (ge eq : α → α → Bool) (a : List α) (key : α) (lo hi : Int) (h0 : 0 ≤ lo) (hlh : lo < hi)
    (hov : INT_MAX < lo + hi) : binarySearchByIndex k ge eq a lo hi key = .ub := by
  unfold binarySearchByIndex
  rw [if_neg (by omega), iter, show searchBody k ge eq a key (lo, hi) = .ub by
    unfold searchBody
    rw [if_pos (by simpa using hlh)]
    simp only [Outcome.bind_eq]
    rw [show halve k ge a key lo hi = .ub by
      unfold halve
      simp only [Outcome.bind_eq, chk32]
      rw [if_neg (by omega)]; rfl]
    rfl]

/-! ## C24 — copying, filling, comparing -/

/-- **C24**. `copyOf(array, n)` is the first `n` elements, padded to length `n`;
for a negative `n` it is empty. -/
theorem C24_copyOf (pad : α) (a : List α) (n : Int) :
    copyOf pad a n = .ok (a.take n.toNat ++ List.replicate (n.toNat - a.length) pad) := by
  unfold copyOf
  simp only [Outcome.bind_eq]
  by_cases h : (a.length : Int) < n
  · rw [if_pos h, pushLoop_ok a _ 0 [] (by omega)]
    simp only [Outcome.bind_ok, List.nil_append, List.drop_zero]
    rw [List.take_of_length_le (by omega), List.take_of_length_le (by omega), show (n - a.length).toNat = n.toNat - a.length by omega]
  · rw [if_neg h, pushLoop_ok a _ 0 [] (by omega)]
    simp only [Outcome.bind_ok, List.nil_append, List.drop_zero]
    rw [show (n - n).toNat = 0 by omega, show n.toNat - a.length = 0 by omega]

example : copyOf 0 [7, 8] 4 = .ok [7, 8, 0, 0] := by decide

/-- **C24**. `copyOfRange(array, from, to)` is exactly the elements at `from`
to `to - 1`, provided `to` is not past the last position. Missing from the full
statement: ranges that reach the end, see `C24_copyOfRange_wrong`. -/
theorem C24_copyOfRange_partial (a : List α) (lo hi : Nat) (h1 : lo ≤ hi) (h2 : hi < a.length) :
    copyOfRange a lo hi = .ok ((a.drop lo).take (hi - lo)) := by
  unfold copyOfRange
  rw [if_neg (by omega), show ((hi : Int) - lo).toNat = hi - lo by omega, show ((lo : Int)).toNat = lo by omega,
    pushLoop_ok a _ lo [] (by omega)]
  rfl

example : copyOfRange [1, 2, 3, 4] 1 3 = .ok [2, 3] := by decide

/-- **C24** (negation). A range that reaches the end of the array comes back
empty, whatever its start. -/
theorem C24_copyOfRange_wrong (a : List α) (lo : Nat) (h : lo < a.length) :
    copyOfRange a lo a.length = .ok [] ∧ (a.drop lo).take (a.length - lo) ≠ [] := by
  constructor
  · unfold copyOfRange; rw [if_pos (by omega)]
  · rw [List.take_of_length_le (by simp)]
    intro h'
    have := congrArg List.length h'
    simp at this; omega

example : copyOfRange [1, 2, 3] 0 3 = .ok [] := by decide

/-- **C24**. `fill(array, v)` sets every element to `v`. -/
theorem C24_fill (a : List α) (v : α) : fill a v = .ok (List.replicate a.length v) := by
  unfold fill fillByIndex
  by_cases h : a.length = 0
  · rw [if_pos (by omega), List.eq_nil_of_length_eq_zero h]; rfl
  · rw [if_neg (by omega)]
    obtain ⟨r, r1, r2, r3⟩ := fillLoop_ok v a.length 0 a (by omega)
    rw [show ((a.length : Int) - 1 - 0 + 1).toNat = a.length by omega, show (0 : Int).toNat = 0 from rfl, r1]
    congr 1
    refine List.ext_getElem? fun p => ?_
    rw [r3, List.getElem?_replicate]
    by_cases hp : p < a.length
    · rw [if_pos (by omega), if_pos hp]
    · rw [if_neg (by omega), if_neg hp, List.getElem?_eq_none (by omega)]

example : fill [1, 2, 3] 9 = .ok [9, 9, 9] := by decide

/-- **C24**. `fillByIndex(array, from, to, v)` sets exactly the positions `from`
to `to`, both included; when the range does not fit the array nothing
changes. -/
theorem C24_fillByIndex (a : List α) (lo hi : Int) (v : α) :
    ∃ r, fillByIndex a lo hi v = .ok r ∧ r.length = a.length ∧
      ∀ p : Nat, r[p]? = if 0 ≤ lo ∧ hi < a.length ∧ lo ≤ p ∧ (p : Int) ≤ hi then some v else a[p]? := by
  unfold fillByIndex
  by_cases h : lo < 0 ∨ hi < 0 ∨ hi < lo ∨ hi > (a.length : Int) - 1
  · rw [if_pos h]
    exact ⟨a, rfl, rfl, fun p => by rw [if_neg (by omega)]⟩
  · rw [if_neg h]
    obtain ⟨r, r1, r2, r3⟩ := fillLoop_ok v (hi - lo + 1).toNat lo.toNat a (by omega)
    refine ⟨r, r1, r2, fun p => ?_⟩
    rw [r3]
    by_cases hp : lo.toNat ≤ p ∧ p < lo.toNat + (hi - lo + 1).toNat
    · rw [if_pos hp, if_pos (by omega)]
    · rw [if_neg hp, if_neg (by omega)]

example : fillByIndex [1, 2, 3, 4] 1 2 9 = .ok [1, 9, 9, 4] := by decide

/-- **C24** (negation). Against the documented half-open range, one position too
many is set, always. -/
theorem C24_fillByIndex_exclusive_wrong (a : List α) (lo hi : Nat) (v x : α) (h1 : lo ≤ hi) (h2 : a[hi]? = some x) (hx : x ≠ v) :
    ∃ r, fillByIndex a lo hi v = .ok r ∧ r[hi]? ≠ a[hi]? := by
  have : hi < a.length := by
    apply Classical.byContradiction; intro h
    rw [List.getElem?_eq_none (by omega)] at h2; cases h2
  obtain ⟨r, r1, _, r3⟩ := C24_fillByIndex a lo hi v
  refine ⟨r, r1, ?_⟩
  rw [r3, if_pos (by omega), h2]
  intro h; exact hx (Option.some.inj h).symm

example : [1, 2, 3][2]? = some 3 ∧ (3 : Nat) ≠ 9 := by decide

/-- **C24**. `equals` is true exactly for arrays with the same elements in the
same order (`ne` is the element type's `!=`). -/
theorem C24_equals (ne : α → α → Bool) (hne : ∀ x y, ne x y = false ↔ x = y) (a b : List α) :
    ∃ r, equals ne a b = .ok r ∧ (r = true ↔ a = b) := by
  unfold equals
  by_cases h : a.length ≠ b.length
  · rw [if_pos h]
    exact ⟨false, rfl, by simp only [Bool.false_eq_true, false_iff]; intro h'; exact h (by rw [h'])⟩
  · rw [if_neg h]
    have hl : a.length = b.length := by omega
    obtain ⟨r, r1, r2⟩ := equalsLoop_ok ne a b hl a.length 0 (by omega)
    refine ⟨r, r1, r2.trans ⟨fun h' => ?_, fun h' p x y _ hx hy => ?_⟩⟩
    · refine List.ext_getElem hl fun i hi hj => (hne _ _).mp (h' i _ _ (Nat.zero_le _) (List.getElem?_eq_getElem hi) (List.getElem?_eq_getElem hj))
    · subst h'
      rw [hx] at hy
      exact (hne _ _).mpr (Option.some.inj hy)

example : equals (fun x y : Nat => decide (x ≠ y)) [1, 2, 3] [1, 2, 3] = .ok true ∧
    equals (fun x y : Nat => decide (x ≠ y)) [1, 2, 3] [1, 2] = .ok false := by decide

/-- **C24**. The hash of an array is the documented polynomial of its elements,
modulo 2^32, under wrapping arithmetic, for `int` elements, `boolean` elements
(1231 for true, 1237 for false) and `long` elements (high half xor low half). -/
theorem C24_hashCode (a : List (BitVec 32)) (b : List Bool) (c : List (BitVec 64)) :
    hashCodeInt .wrap a = .ok (polyHash a) ∧
    hashCodeBool .wrap b = .ok (polyHash (b.map fun e => if e then 1231#32 else 1237#32)) ∧
    hashCodeLong .wrap c = .ok (polyHash (c.map fun (e : BitVec 64) => e.setWidth 32 ^^^ (e >>> 32).setWidth 32)) := by
  refine ⟨?_, ?_, ?_⟩
  · unfold hashCodeInt polyHash
    cases a with
    | nil => rfl
    | cons x l => rw [if_neg (by simp), if_neg (by simp), hashLoop_wrap]
  · unfold hashCodeBool polyHash
    cases b with
    | nil => rfl
    | cons x l => rw [if_neg (by simp), if_neg (by simp), hashLoop_wrap]; rfl
  · unfold hashCodeLong polyHash
    cases c with
    | nil => rfl
    | cons x l =>
      rw [if_neg (by simp), if_neg (by simp), hashLoop_wrap]
      congr 2
      refine List.map_congr_left fun e _ => ?_
      ext i hi
      simp only [BitVec.getElem_setWidth, BitVec.getLsbD_xor, BitVec.getElem_xor, BitVec.getLsbD_sshiftRight, BitVec.getLsbD_ushiftRight]
      rw [decide_eq_false (by omega), if_pos (by omega)]
      simp

example : hashCodeInt .wrap [1, 2] = .ok 994#32 := by decide +kernel

/-- **C24**. Arrays that `equals` reports equal have equal hash codes, in either
reading of signed overflow. -/
theorem C24_equal_hash (m : Sem) (a b : List (BitVec 32)) (h : equals (fun x y => decide (x ≠ y)) a b = .ok true) :
    hashCodeInt m a = hashCodeInt m b := by
  obtain ⟨r, r1, r2⟩ := C24_equals (fun x y : BitVec 32 => decide (x ≠ y)) (by intro x y; simp) a b
  rw [h] at r1
  cases r1
  rw [r2.mp rfl]

/-- **C24** (negation). As ISO C++ the hash of seven zeros is undefined: signed
overflow. -/
theorem C24_hash_overflow : hashCodeInt .strict (List.replicate 7 0) = .ub := by decide +kernel

end Verif.Arrays
