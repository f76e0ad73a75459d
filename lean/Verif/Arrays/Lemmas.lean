import Verif.Arrays.SortLemmas
import Verif.Arrays.Spec
/-! # Searching, copying, filling: lemmas -/
namespace Verif.Arrays

variable {α : Type}

theorem halve_ok (k : Kind) (ge : α → α → Bool) (a : List α) (key : α) (l r : Nat) (hlr : l < r) (hr : r < a.length)
    (hov : 2 * (r : Int) ≤ INT_MAX) :
    halve k ge a key l r = .ok (if ge (a[(l + r) / 2]'(by omega)) key then ((l : Int), (((l + r) / 2 : Nat) : Int))
      else ((((l + r) / 2 + 1 : Nat) : Int), (r : Int))) := by
  have hmid : ((l : Int) + r).tdiv 2 = (((l + r) / 2 : Nat) : Int) := by
    rw [Int.tdiv_eq_ediv_of_nonneg (by omega)]; omega
  unfold halve
  simp only [Outcome.bind_eq, chk32_ok (show INT_MIN ≤ (l : Int) + r by unfold INT_MIN; omega) (by omega), Outcome.bind_ok, hmid,
    rd_ok k (show (l + r) / 2 < a.length by omega)]
  split
  · rfl
  · rfl

/-- `r` is -1 or the position of an element equal to `key`. -/
def Hit (eq : α → α → Bool) (a : List α) (key : α) (lo hi : Int) (r : Int) : Prop :=
  r = -1 ∨ (lo ≤ r ∧ r ≤ hi ∧ ∃ x, a[r.toNat]? = some x ∧ eq x key = true)

theorem lastTwo_ok (k : Kind) (eq : α → α → Bool) (a : List α) (key : α) (l r : Nat) (hl : l < a.length) (hr : r < a.length) :
    lastTwo k eq a key l r = .ok (if eq a[l] key then (l : Int) else if eq a[r] key then (r : Int) else -1) := by
  unfold lastTwo
  simp only [Outcome.bind_eq, rd_ok k hl, rd_ok k hr, Outcome.bind_ok]
  split
  · rfl
  · split <;> rfl

/-- One turn of the search on natural positions. -/
theorem search_step (k : Kind) (ge eq : α → α → Bool) (a : List α) (key : α) (l r : Nat) (hlr : l < r) (hr : r < a.length)
    (hov : 2 * (r : Int) ≤ INT_MAX) :
    ∃ l' r' : Nat, l ≤ l' ∧ l' ≤ r' ∧ r' ≤ r ∧ r' - l' < r - l ∧
      (((ge (a[(l + r) / 2]'(by omega)) key = true) ∧ l' = l ∧ r' = (l + r) / 2) ∨
       ((ge (a[(l + r) / 2]'(by omega)) key = false) ∧ l' = (l + r) / 2 + 1 ∧ r' = r)) ∧
      searchBody k ge eq a key (l, r) =
        (if r' = l' + 1 then (lastTwo k eq a key l' r').bind fun v => .ok (.done v) else .ok (.next ((l' : Int), (r' : Int)))) := by
  cases hg : ge (a[(l + r) / 2]'(by omega)) key
  · refine ⟨(l + r) / 2 + 1, r, by omega, by omega, Nat.le_refl _, by omega, Or.inr ⟨rfl, rfl, rfl⟩, ?_⟩
    unfold searchBody
    rw [if_pos (by simp only; omega)]
    simp only [Outcome.bind_eq, halve_ok k ge a key l r hlr hr hov, Outcome.bind_ok, hg, Bool.false_eq_true, if_false]
    by_cases hc : r = (l + r) / 2 + 1 + 1
    · rw [if_pos hc, if_pos (by omega)]
    · rw [if_neg hc, if_neg (by omega)]
  · refine ⟨l, (l + r) / 2, Nat.le_refl _, by omega, by omega, by omega, Or.inl ⟨rfl, rfl, rfl⟩, ?_⟩
    unfold searchBody
    rw [if_pos (by simp only; omega)]
    simp only [Outcome.bind_eq, halve_ok k ge a key l r hlr hr hov, Outcome.bind_ok, hg, if_true]
    by_cases hc : (l + r) / 2 = l + 1
    · rw [if_pos hc, if_pos (by omega)]
    · rw [if_neg hc, if_neg (by omega)]

theorem search_safe (k : Kind) (ge eq : α → α → Bool) (a : List α) (key : α) (lo hi : Int) (h0 : 0 ≤ lo) (hlh : lo ≤ hi)
    (hhi : hi < a.length) (hov : 2 * hi ≤ INT_MAX) :
    ∃ r, binarySearchByIndex k ge eq a lo hi key = .ok r ∧ Hit eq a key lo hi r := by
  unfold binarySearchByIndex
  rw [if_neg (by omega)]
  apply iter_ok (fun s => lo ≤ s.1 ∧ s.1 ≤ s.2 ∧ s.2 ≤ hi) (Hit eq a key lo hi) (fun s => (s.2 - s.1).toNat)
  · rintro ⟨l, r⟩ ⟨h1, h2, h3⟩
    simp only at h1 h2 h3
    obtain ⟨l, rfl⟩ := Int.eq_ofNat_of_zero_le (show 0 ≤ l by omega)
    obtain ⟨r, rfl⟩ := Int.eq_ofNat_of_zero_le (show 0 ≤ r by omega)
    by_cases hc : l < r
    · obtain ⟨l', r', g1, g2, g3, g4, _, e⟩ := search_step k ge eq a key l r hc (by omega) (by omega)
      rw [e]
      by_cases hd : r' = l' + 1
      · right
        rw [if_pos hd, lastTwo_ok k eq a key l' r' (by omega) (by omega)]
        refine ⟨_, rfl, ?_⟩
        by_cases q1 : eq (a[l']'(by omega)) key = true
        · rw [if_pos q1]
          exact Or.inr ⟨by omega, by omega, a[l']'(by omega), by simp, q1⟩
        · rw [if_neg q1]
          by_cases q2 : eq (a[r']'(by omega)) key = true
          · rw [if_pos q2]
            exact Or.inr ⟨by omega, by omega, a[r']'(by omega), by simp, q2⟩
          · rw [if_neg q2]; exact Or.inl rfl
      · left
        rw [if_neg hd]
        exact ⟨_, rfl, ⟨by simp only; omega, by simp only; omega, by simp only; omega⟩, by simp only; omega⟩
    · right
      refine ⟨-1, ?_, Or.inl rfl⟩
      unfold searchBody; rw [if_neg (by simp only; omega)]
  · exact ⟨Int.le_refl _, hlh, Int.le_refl _⟩
  · simp only; omega

theorem search_found (k : Kind) (ge eq : α → α → Bool) (ho : TotalOrd ge eq) (a : List α) (key : α) (lo hi n : Nat)
    (hs : ∀ p q (hp : p < q) (hq : q ≤ hi) (hh : hi < a.length), lo ≤ p → ge (a[q]'(by omega)) (a[p]'(by omega)) = true)
    (hn : hi + 1 = lo + 4 * 2 ^ n) (hhi : hi < a.length) (hov : 2 * (hi : Int) ≤ INT_MAX)
    (hex : ∃ p, ∃ _ : lo ≤ p, ∃ h : p ≤ hi, eq (a[p]'(by omega)) key = true) :
    ∃ r, binarySearchByIndex k ge eq a lo hi key = .ok r ∧ r ≠ -1 := by
  unfold binarySearchByIndex
  rw [if_neg (by have := Nat.two_pow_pos (n); omega)]
  apply iter_ok (fun s => ∃ (l r m : Nat), s = ((l : Int), (r : Int)) ∧ lo ≤ l ∧ r ≤ hi ∧ r + 1 = l + 4 * 2 ^ m ∧
      ∃ p, ∃ _ : l ≤ p, ∃ _ : p ≤ r, ∃ h : p ≤ hi, eq (a[p]'(by omega)) key = true)
    (fun r => r ≠ -1) (fun s => (s.2 - s.1).toNat)
  · rintro _ ⟨l, r, m, rfl, h1, h2, h3, p, p1, p2, p3, p4⟩
    have hm1 := Nat.two_pow_pos (m)
    obtain ⟨l', r', g1, g2, g3, g4, g5, e⟩ := search_step k ge eq a key l r (by omega) (by omega) (by omega)
    have hex' : ∃ p, ∃ _ : l' ≤ p, ∃ _ : p ≤ r', ∃ h : p ≤ hi, eq (a[p]'(by omega)) key = true := by
      rcases g5 with ⟨q1, rfl, rfl⟩ | ⟨q1, rfl, rfl⟩
      · by_cases hp : p ≤ (l' + r) / 2
        · exact ⟨p, p1, hp, p3, p4⟩
        · refine ⟨(l' + r) / 2, g2, Nat.le_refl _, by omega, (ho.eq_iff _ _).mpr ⟨q1, ?_⟩⟩
          exact ho.trans _ _ _ ((ho.eq_iff _ _).mp p4).2 (hs _ p (by omega) p3 hhi (by omega))
      · by_cases hp : (l + r') / 2 < p
        · exact ⟨p, hp, p2, p3, p4⟩
        · exfalso
          have hpk := ((ho.eq_iff _ _).mp p4).1
          have : ge (a[(l + r') / 2]'(by omega)) key = true := by
            by_cases he : p = (l + r') / 2
            · subst he; exact hpk
            · exact ho.trans _ _ _ (hs p _ (by omega) (by omega) hhi (by omega)) hpk
          rw [q1] at this; cases this
    have hsize : r' + 1 = l' + 2 * 2 ^ m := by
      rcases g5 with ⟨_, rfl, rfl⟩ | ⟨_, rfl, rfl⟩ <;> omega
    rw [e]
    cases m with
    | zero =>
      right
      rw [if_pos (by omega), lastTwo_ok k eq a key l' r' (by omega) (by omega)]
      refine ⟨_, rfl, ?_⟩
      obtain ⟨p, p1, p2, p3, p4⟩ := hex'
      by_cases q1 : eq (a[l']'(by omega)) key = true
      · rw [if_pos q1]; omega
      · rw [if_neg q1]
        have : p = r' := by
          by_cases he : p = l'
          · subst he; exact absurd p4 q1
          · omega
        subst this
        rw [if_pos p4]; omega
    | succ m =>
      left
      have hm := Nat.pow_succ 2 m
      have := Nat.two_pow_pos (m)
      rw [if_neg (by omega)]
      exact ⟨_, rfl, ⟨l', r', m, rfl, by omega, by omega, by omega, hex'⟩, by simp only; omega⟩
  · exact ⟨lo, hi, n, rfl, Nat.le_refl _, Nat.le_refl _, hn, by
      obtain ⟨p, p1, p2, p3⟩ := hex; exact ⟨p, p1, p2, p2, p3⟩⟩
  · simp only; omega

/-! ## Where the search fails -/

def geNat (x y : Nat) : Bool := decide (y ≤ x)
def eqNat (x y : Nat) : Bool := decide (x = y)

theorem bad_split {d : Nat} (h2 : 2 < d) (hbad : ∀ k, d + 1 ≠ 2 ^ k) :
    (∀ k, d / 2 + 1 ≠ 2 ^ k) ∨ (∀ k, d - d / 2 - 1 + 1 ≠ 2 ^ k) := by
  apply Classical.byContradiction
  intro hc
  have h1 : ∃ k, d / 2 + 1 = 2 ^ k := by
    apply Classical.byContradiction; intro h; exact hc (Or.inl fun k hk => h ⟨k, hk⟩)
  have h3 : ∃ k, d - d / 2 - 1 + 1 = 2 ^ k := by
    apply Classical.byContradiction; intro h; exact hc (Or.inr fun k hk => h ⟨k, hk⟩)
  obtain ⟨i, hi⟩ := h1
  obtain ⟨j, hj⟩ := h3
  rcases Nat.mod_two_eq_zero_or_one d with hd | hd
  · -- consecutive powers of two
    have e : 2 ^ i = 2 ^ j + 1 := by omega
    cases j with
    | zero => simp at hj; omega
    | succ j =>
      cases i with
      | zero => have := Nat.two_pow_pos (j + 1); simp at e
      | succ i => rw [Nat.pow_succ, Nat.pow_succ] at e; omega
  · exact hbad (i + 1) (by rw [Nat.pow_succ]; omega)

theorem search_misses (k : Kind) (n : Nat) : ∀ (d l : Nat), l + d < n → 2 * (l + d : Int) ≤ INT_MAX → (d = 0 ∨ d = 1 ∨ ∀ k, d + 1 ≠ 2 ^ k) →
    ∃ key, l ≤ key ∧ key ≤ l + d ∧ ∀ fuel, d < fuel →
      iter (searchBody k geNat eqNat (List.range n) key) fuel ((l : Int), ((l + d : Nat) : Int)) = .ok (-1) := by
  intro d
  induction d using Nat.strongRecOn with
  | ind d ih =>
    intro l hn hov hbad
    have stop : ∀ (key l : Nat) fuel, 0 < fuel → iter (searchBody k geNat eqNat (List.range n) key) fuel ((l : Int), (l : Int)) = .ok (-1) := by
      intro key l fuel hf
      obtain ⟨f, rfl⟩ : ∃ f, fuel = f + 1 := ⟨fuel - 1, by omega⟩
      rw [iter]
      unfold searchBody
      rw [if_neg (by simp)]
    have step : ∀ (key r : Nat) (l : Nat) fuel, l < r → r < n → 2 * (r : Int) ≤ INT_MAX → 0 < fuel →
        ∀ l' r', (key ≤ (l + r) / 2 ∧ l' = l ∧ r' = (l + r) / 2 ∨ (l + r) / 2 < key ∧ l' = (l + r) / 2 + 1 ∧ r' = r) → r' ≠ l' + 1 →
        iter (searchBody k geNat eqNat (List.range n) key) fuel ((l : Int), (r : Int)) =
          iter (searchBody k geNat eqNat (List.range n) key) (fuel - 1) ((l' : Int), (r' : Int)) := by
      intro key r l fuel hlr hr hov hf l' r' hbr hne
      obtain ⟨f, rfl⟩ : ∃ f, fuel = f + 1 := ⟨fuel - 1, by omega⟩
      obtain ⟨l2, r2, _, _, _, _, g5, e⟩ := search_step k geNat eqNat (List.range n) key l r hlr (by simpa using hr) hov
      rw [iter, e]
      have : l2 = l' ∧ r2 = r' := by
        simp only [geNat, List.getElem_range, decide_eq_true_eq, decide_eq_false_iff_not] at g5
        omega
      obtain ⟨rfl, rfl⟩ := this
      rw [if_neg hne]
      rfl
    by_cases h0 : d = 0
    · subst h0
      exact ⟨l, Nat.le_refl _, by omega, fun fuel hf => stop l l fuel hf⟩
    by_cases h1 : d = 1
    · subst h1
      refine ⟨l, Nat.le_refl _, by omega, fun fuel hf => ?_⟩
      rw [step l (l + 1) l fuel (by omega) hn (by push_cast at hov ⊢; omega) (by omega) l l (Or.inl ⟨by omega, rfl, by omega⟩) (by omega)]
      exact stop l l _ (by omega)
    have hbad' : ∀ k, d + 1 ≠ 2 ^ k := by
      rcases hbad with h | h | h
      · exact absurd h h0
      · exact absurd h h1
      · exact h
    by_cases h2 : d = 2
    · subst h2
      refine ⟨l + 2, by omega, by omega, fun fuel hf => ?_⟩
      rw [step (l + 2) (l + 2) l fuel (by omega) hn (by push_cast at hov ⊢; omega) (by omega) (l + 2) (l + 2)
        (Or.inr ⟨by omega, by omega, rfl⟩) (by omega)]
      exact stop _ _ _ (by omega)
    have ne1 : ∀ e, (∀ k, e + 1 ≠ 2 ^ k) → e ≠ 1 := by
      intro e he h; subst h; exact he 1 rfl
    rcases bad_split (by omega) hbad' with hb | hb
    · obtain ⟨key, k1, k2, k3⟩ := ih (d / 2) (by omega) l (by omega) (by omega) (Or.inr (Or.inr hb))
      refine ⟨key, k1, by omega, fun fuel hf => ?_⟩
      have hd1 := ne1 _ hb
      rw [step key (l + d) l fuel (by omega) hn (by push_cast at hov ⊢; omega) (by omega) l (l + d / 2)
        (Or.inl ⟨by omega, rfl, by omega⟩) (by omega)]
      exact k3 _ (by omega)
    · obtain ⟨key, k1, k2, k3⟩ := ih (d - d / 2 - 1) (by omega) (l + d / 2 + 1) (by omega) (by omega) (Or.inr (Or.inr hb))
      refine ⟨key, by omega, by omega, fun fuel hf => ?_⟩
      have hd1 := ne1 _ hb
      rw [step key (l + d) l fuel (by omega) hn (by push_cast at hov ⊢; omega) (by omega) (l + d / 2 + 1) (l + d)
        (Or.inr ⟨by omega, by omega, rfl⟩) (by omega)]
      have := k3 (fuel - 1) (by omega)
      rw [show l + d / 2 + 1 + (d - d / 2 - 1) = l + d by omega] at this
      exact this

/-! ## Copying, filling, comparing -/

theorem pushLoop_ok (a : List α) : ∀ (n i : Nat) (r : List α), i + n ≤ a.length →
    pushLoop a i n r = .ok (r ++ (a.drop i).take n)
  | 0, i, r, _ => by simp [pushLoop]
  | n + 1, i, r, h => by
    have hi : i < a.length := by omega
    simp only [pushLoop, Outcome.bind_eq, Arr.get_nat hi, Outcome.bind_ok]
    rw [pushLoop_ok a n (i + 1) _ (by omega), List.append_assoc, List.singleton_append]
    congr 2
    rw [List.drop_eq_getElem_cons hi, List.take_succ_cons]

theorem fillLoop_ok (v : α) : ∀ (n i : Nat) (a : List α), i + n ≤ a.length →
    ∃ r, fillLoop v i n a = .ok r ∧ r.length = a.length ∧ ∀ p, r[p]? = if i ≤ p ∧ p < i + n then some v else a[p]?
  | 0, i, a, _ => ⟨a, rfl, rfl, fun p => by rw [if_neg (by omega)]⟩
  | n + 1, i, a, h => by
    have hi : i < a.length := by omega
    simp only [fillLoop, Outcome.bind_eq, Arr.set_nat hi, Outcome.bind_ok]
    obtain ⟨r, r1, r2, r3⟩ := fillLoop_ok v n (i + 1) (a.set i v) (by simp; omega)
    refine ⟨r, r1, by simpa using r2, fun p => ?_⟩
    rw [r3, List.getElem?_set]
    by_cases h1 : i + 1 ≤ p ∧ p < i + 1 + n
    · rw [if_pos h1, if_pos (by omega)]
    · rw [if_neg h1]
      by_cases h2 : i = p
      · rw [if_pos h2, if_pos hi, if_pos (by omega)]
      · rw [if_neg h2, if_neg (by omega)]

theorem equalsLoop_ok (ne : α → α → Bool) (a b : List α) (hl : a.length = b.length) : ∀ (n i : Nat), i + n = a.length →
    ∃ r, equalsLoop ne a b i n = .ok r ∧
      (r = true ↔ ∀ (p : Nat) x y, i ≤ p → a[p]? = some x → b[p]? = some y → ne x y = false)
  | 0, i, h => ⟨true, rfl, by
      simp only [true_iff]
      intro p x y h1 h2
      rw [List.getElem?_eq_none (by omega)] at h2; cases h2⟩
  | n + 1, i, h => by
    have hi : i < a.length := by omega
    have hi' : i < b.length := by omega
    simp only [equalsLoop, Outcome.bind_eq, Arr.get_nat hi, Arr.get_nat hi', Outcome.bind_ok]
    cases hne : ne a[i] b[i]
    · rw [if_neg (by simp)]
      obtain ⟨r, r1, r2⟩ := equalsLoop_ok ne a b hl n (i + 1) (by omega)
      refine ⟨r, r1, r2.trans ⟨fun h' p x y h1 hx hy => ?_, fun h' p x y h1 => h' p x y (by omega)⟩⟩
      by_cases hp : p = i
      · subst hp
        rw [List.getElem?_eq_getElem hi] at hx
        rw [List.getElem?_eq_getElem hi'] at hy
        rw [← Option.some.inj hx, ← Option.some.inj hy]; exact hne
      · exact h' p x y (by omega) hx hy
    · rw [if_pos rfl]
      refine ⟨false, rfl, ?_⟩
      simp only [Bool.false_eq_true, false_iff]
      intro h'
      have := h' i _ _ (Nat.le_refl _) (List.getElem?_eq_getElem hi) (List.getElem?_eq_getElem hi')
      rw [hne] at this; cases this

theorem hashLoop_wrap (l : List (BitVec 32)) : ∀ h, hashLoop .wrap h l = .ok (l.foldl (fun h e => 31 * h + e) h) := by
  induction l with
  | nil => intro h; rfl
  | cons e l ih =>
    intro h
    simp only [hashLoop, Outcome.bind_eq, CInt.mul_wrap, CInt.add_wrap, Outcome.bind_ok, ih, List.foldl_cons]

end Verif.Arrays
