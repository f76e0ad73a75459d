import Verif.Arrays.Model
/-! # Correctness of the quick sort: lemmas -/
namespace Verif.Arrays

variable {α : Type}

theorem rd_ok (k : Kind) {a : List α} {n : Nat} (h : n < a.length) : rd k a (n : Int) = .ok a[n] := by
  cases k
  · simp only [rd]; rw [if_pos (by omega)]; exact Arr.get_nat h
  · exact Arr.get_nat h

theorem wr_ok (k : Kind) {a : List α} {n : Nat} {v : α} (h : n < a.length) : wr k a (n : Int) v = .ok (a.set n v) := by
  cases k
  · simp only [wr]; rw [if_pos (by omega)]; exact Arr.set_nat h
  · exact Arr.set_nat h

/-- `a` results from `b` by moving elements inside positions `l..r` only. -/
structure Rearr (l r : Int) (a b : List α) : Prop where
  len : a.length = b.length
  perm : a.Perm b
  out : ∀ p : Nat, ((p : Int) < l ∨ r < (p : Int)) → a[p]? = b[p]?
  ins : ∀ p : Nat, l ≤ (p : Int) → (p : Int) ≤ r → ∃ q : Nat, l ≤ (q : Int) ∧ (q : Int) ≤ r ∧ a[p]? = b[q]?

theorem Rearr.refl (l r : Int) (a : List α) : Rearr l r a a :=
  ⟨rfl, .refl _, fun _ _ => rfl, fun p h1 h2 => ⟨p, h1, h2, rfl⟩⟩

theorem Rearr.trans {l r : Int} {a b c : List α} (h1 : Rearr l r a b) (h2 : Rearr l r b c) : Rearr l r a c := by
  refine ⟨h1.len.trans h2.len, h1.perm.trans h2.perm, fun p hp => (h1.out p hp).trans (h2.out p hp), fun p hl hr => ?_⟩
  obtain ⟨q, q1, q2, q3⟩ := h1.ins p hl hr
  obtain ⟨t, t1, t2, t3⟩ := h2.ins q q1 q2
  exact ⟨t, t1, t2, q3.trans t3⟩

theorem Rearr.mono {l r l' r' : Int} {a b : List α} (h : Rearr l r a b) (hl : l' ≤ l) (hr : r ≤ r') : Rearr l' r' a b := by
  refine ⟨h.len, h.perm, fun p hp => h.out p (by omega), fun p h1 h2 => ?_⟩
  by_cases hc : l ≤ (p : Int) ∧ (p : Int) ≤ r
  · obtain ⟨q, q1, q2, q3⟩ := h.ins p hc.1 hc.2
    exact ⟨q, by omega, by omega, q3⟩
  · exact ⟨p, h1, h2, h.out p (by omega)⟩

/-- The result of a swap, by position. -/
theorem swap_ok (k : Kind) {a : List α} {i j : Nat} (hi : i < a.length) (hj : j < a.length) :
    ∃ b, swap k a i j = .ok b ∧ b.length = a.length ∧ b.Perm a ∧
      (∀ p, b[p]? = if p = j then a[i]? else if p = i then a[j]? else a[p]?) := by
  have e : swap k a i j = .ok ((a.set i a[j]).set j a[i]) := by
    simp only [swap, Outcome.bind_eq, rd_ok k hi, rd_ok k hj, Outcome.bind_ok, wr_ok k hi]
    rw [wr_ok k (by simpa using hj)]
  refine ⟨_, e, by simp, List.set_set_perm hi hj, fun p => ?_⟩
  rw [List.getElem?_set]
  by_cases hpj : j = p
  · subst hpj
    rw [if_pos rfl, if_pos (by simpa using hj), if_pos rfl, List.getElem?_eq_getElem hi]
  · rw [if_neg hpj, if_neg (fun h => hpj h.symm), List.getElem?_set]
    by_cases hpi : i = p
    · subst hpi
      rw [if_pos rfl, if_pos hi, if_pos rfl, List.getElem?_eq_getElem hj]
    · rw [if_neg hpi, if_neg (fun h => hpi h.symm)]

/-- Both orders of the same pair do not hold. -/
def Asym (lt : α → α → Bool) : Prop := ∀ x y, lt x y = true → lt y x = false

/-- Invariant of the partition of positions `left..right` around `key`.
Before the first swap (`fresh`) the pivot itself stops both scans. -/
structure PInv (lt : α → α → Bool) (key : α) (left right : Int) (a₀ : List α) (s : Part α) : Prop where
  re : Rearr left right s.a a₀
  il : left ≤ s.i
  ir : s.i ≤ right + 1
  jl : left - 1 ≤ s.j
  jr : s.j ≤ right
  lo : Asym lt → ∀ (p : Nat) x, left ≤ (p : Int) → (p : Int) < s.i → s.a[p]? = some x → lt key x = false
  hi : Asym lt → ∀ (p : Nat) x, s.j < (p : Int) → (p : Int) ≤ right → s.a[p]? = some x → lt x key = false
  fresh : (s.i = left ∧ s.j = right ∧ ∃ m : Nat, left ≤ (m : Int) ∧ (m : Int) ≤ right ∧ s.a[m]? = some key) ∨
    (left < s.i ∧ s.j < right)

theorem scanUp_ok (k : Kind) (lt : α → α → Bool) (a : List α) (key : α) (i j right : Int) (h0 : 0 ≤ i) (hij : i ≤ j)
    (hr : right < a.length) (hj : j ≤ right)
    (hstop : (∃ m : Nat, i ≤ (m : Int) ∧ (m : Int) ≤ j ∧ a[m]? = some key) ∧ lt key key = false ∨ j < right) :
    ∃ i', iter (scanUpBody k lt a key j) (a.length + 2) i = .ok i' ∧ i ≤ i' ∧ i' ≤ j + 1 ∧
      (∀ (p : Nat) x, i ≤ (p : Int) → (p : Int) < i' → a[p]? = some x → lt x key = true) ∧
      (i' ≤ j → ∀ x, a[i'.toNat]? = some x → lt x key = false) ∧
      (∀ m : Nat, i ≤ (m : Int) → a[m]? = some key → lt key key = false → i' ≤ m) := by
  have := iter_ok (body := scanUpBody k lt a key j)
    (fun n => i ≤ n ∧ n ≤ j + 1 ∧ (n = j + 1 → j < right) ∧
      (∀ (p : Nat) x, i ≤ (p : Int) → (p : Int) < n → a[p]? = some x → lt x key = true))
    (fun n => i ≤ n ∧ n ≤ j + 1 ∧
      (∀ (p : Nat) x, i ≤ (p : Int) → (p : Int) < n → a[p]? = some x → lt x key = true) ∧
      (n ≤ j → ∀ x, a[n.toNat]? = some x → lt x key = false))
    (fun n => (j + 1 - n).toNat) ?_ (a.length + 2) i ⟨Int.le_refl _, by omega, by omega, fun p x h1 h2 => by omega⟩ (by omega)
  · obtain ⟨i', e, h1, h2, h3, h4⟩ := this
    refine ⟨i', e, h1, h2, h3, h4, fun m hm hk hirr => ?_⟩
    apply Classical.byContradiction
    intro hc
    have := h3 m key hm (by omega) hk
    rw [hirr] at this; cases this
  · intro n ⟨h1, h2, h3, h4⟩
    obtain ⟨n, rfl⟩ := Int.eq_ofNat_of_zero_le (show 0 ≤ n by omega)
    have hn : n < a.length := by
      by_cases hc : (n : Int) = j + 1
      · have := h3 hc; omega
      · omega
    unfold scanUpBody
    simp only [Outcome.bind_eq, rd_ok k hn, Outcome.bind_ok]
    by_cases hc : lt a[n] key = true ∧ (n : Int) ≤ j
    · left
      rw [if_pos hc]
      refine ⟨_, rfl, ⟨by omega, by omega, fun he => ?_, fun p x hp1 hp2 hx => ?_⟩, by omega⟩
      · rcases hstop with ⟨⟨m, m1, m2, m3⟩, hirr⟩ | hh
        · exfalso
          by_cases hmn : m = n
          · subst hmn
            have : a[m] = key := by
              have := List.getElem?_eq_getElem hn
              rw [m3] at this; exact (Option.some.inj this).symm
            rw [this, hirr] at hc; exact absurd hc.1 (by simp)
          · have := h4 m key m1 (by omega) m3
            rw [hirr] at this; cases this
        · exact hh
      · by_cases hpn : p = n
        · subst hpn
          rw [List.getElem?_eq_getElem hn] at hx
          rw [← Option.some.inj hx]; exact hc.1
        · exact h4 p x hp1 (by omega) hx
    · right
      rw [if_neg hc]
      refine ⟨_, rfl, h1, h2, h4, fun hnj x hx => ?_⟩
      rw [Int.toNat_natCast, List.getElem?_eq_getElem hn] at hx
      rw [← Option.some.inj hx]
      cases hlt : lt a[n] key
      · rfl
      · exact absurd ⟨hlt, hnj⟩ hc

theorem scanDown_ok (k : Kind) (lt : α → α → Bool) (a : List α) (key : α) (i j left : Int) (hl0 : 0 ≤ left) (hi : left ≤ i)
    (hj : j < a.length) (hij : i ≤ j + 1)
    (hstop : (∃ m : Nat, i ≤ (m : Int) ∧ (m : Int) ≤ j ∧ a[m]? = some key) ∧ lt key key = false ∨ left < i) :
    ∃ j', iter (scanDownBody k lt a key i) (a.length + 2) j = .ok j' ∧ j' ≤ j ∧ i - 1 ≤ j' ∧
      (∀ (p : Nat) x, j' < (p : Int) → (p : Int) ≤ j → a[p]? = some x → lt key x = true) ∧
      (i ≤ j' → ∀ x, a[j'.toNat]? = some x → lt key x = false) ∧
      (∀ m : Nat, (m : Int) ≤ j → a[m]? = some key → lt key key = false → m ≤ j') := by
  have := iter_ok (body := scanDownBody k lt a key i)
    (fun n => n ≤ j ∧ i - 1 ≤ n ∧ (n = i - 1 → left < i) ∧
      (∀ (p : Nat) x, n < (p : Int) → (p : Int) ≤ j → a[p]? = some x → lt key x = true))
    (fun n => n ≤ j ∧ i - 1 ≤ n ∧
      (∀ (p : Nat) x, n < (p : Int) → (p : Int) ≤ j → a[p]? = some x → lt key x = true) ∧
      (i ≤ n → ∀ x, a[n.toNat]? = some x → lt key x = false))
    (fun n => (n - i + 2).toNat) ?_ (a.length + 2) j ⟨Int.le_refl _, by omega, ?_, fun p x h1 h2 => by omega⟩ (by omega)
  · obtain ⟨j', e, h1, h2, h3, h4⟩ := this
    refine ⟨j', e, h1, h2, h3, h4, fun m hm hk hirr => ?_⟩
    apply Classical.byContradiction
    intro hc
    have := h3 m key (by omega) hm hk
    rw [hirr] at this; cases this
  · intro n ⟨h1, h2, h3, h4⟩
    obtain ⟨n, rfl⟩ := Int.eq_ofNat_of_zero_le (show 0 ≤ n by
      by_cases hc : n = i - 1
      · have := h3 hc; omega
      · omega)
    have hn : n < a.length := by omega
    unfold scanDownBody
    simp only [Outcome.bind_eq, rd_ok k hn, Outcome.bind_ok]
    by_cases hc : lt key a[n] = true ∧ (n : Int) ≥ i
    · left
      rw [if_pos hc]
      refine ⟨_, rfl, ⟨by omega, by omega, fun he => ?_, fun p x hp1 hp2 hx => ?_⟩, by omega⟩
      · rcases hstop with ⟨⟨m, m1, m2, m3⟩, hirr⟩ | hh
        · exfalso
          by_cases hmn : m = n
          · subst hmn
            have : a[m] = key := by
              have := List.getElem?_eq_getElem hn
              rw [m3] at this; exact (Option.some.inj this).symm
            rw [this, hirr] at hc; exact absurd hc.1 (by simp)
          · have := h4 m key (by omega) m2 m3
            rw [hirr] at this; cases this
        · exact hh
      · by_cases hpn : p = n
        · subst hpn
          rw [List.getElem?_eq_getElem hn] at hx
          rw [← Option.some.inj hx]; exact hc.1
        · exact h4 p x (by omega) hp2 hx
    · right
      rw [if_neg hc]
      refine ⟨_, rfl, h1, h2, h4, fun hnj x hx => ?_⟩
      rw [Int.toNat_natCast, List.getElem?_eq_getElem hn] at hx
      rw [← Option.some.inj hx]
      cases hlt : lt key a[n]
      · rfl
      · exact absurd ⟨hlt, hnj⟩ hc
  · intro he
    rcases hstop with ⟨⟨m, m1, m2, m3⟩, _⟩ | hh
    · omega
    · exact hh

theorem part_step (k : Kind) (lt : α → α → Bool) (key : α) (left right : Int) (a₀ : List α) (s : Part α)
    (hirr : lt key key = false) (h0 : 0 ≤ left) (hr : right < a₀.length) (h : PInv lt key left right a₀ s) (hij : s.i ≤ s.j) :
    ∃ s', partBody k lt key s = .ok (.next s') ∧ PInv lt key left right a₀ s' ∧
      (s'.j - s'.i + 1).toNat < (s.j - s.i + 1).toNat ∧ left < s'.i ∧ s'.j < right := by
  obtain ⟨a, i, j⟩ := s
  obtain ⟨re, il, ir, jl, jr, lo, hi, fresh⟩ := h
  simp only at re il ir jl jr lo hi fresh hij
  have hlen := re.len
  obtain ⟨i', e1, u1, u2, u3, u4, u5⟩ := scanUp_ok k lt a key i j right (by omega) hij (by omega) jr (by
    rcases fresh with ⟨f1, f2, m, m1, m2, m3⟩ | hf
    · exact Or.inl ⟨⟨m, by omega, by omega, m3⟩, hirr⟩
    · exact Or.inr hf.2)
  obtain ⟨j', e2, d1, d2, d3, d4, d5⟩ := scanDown_ok k lt a key i' j left h0 (by omega) (by omega) (by omega) (by
    rcases fresh with ⟨f1, f2, m, m1, m2, m3⟩ | hf
    · exact Or.inl ⟨⟨m, u5 m (by omega) m3 hirr, by omega, m3⟩, hirr⟩
    · exact Or.inr (by omega))
  have hmeet : i' ≤ j' ∨ (left < i' ∧ j' < right) := by
    rcases fresh with ⟨f1, f2, m, m1, m2, m3⟩ | hf
    · have := u5 m (by omega) m3 hirr
      have := d5 m (by omega) m3 hirr
      omega
    · right; omega
  unfold partBody
  rw [if_pos hij]
  simp only [Outcome.bind_eq, e1, e2, Outcome.bind_ok, swapStep]
  by_cases hc : i' ≤ j'
  · rw [if_pos hc]
    obtain ⟨x, rfl⟩ := Int.eq_ofNat_of_zero_le (show 0 ≤ i' by omega)
    obtain ⟨y, rfl⟩ := Int.eq_ofNat_of_zero_le (show 0 ≤ j' by omega)
    obtain ⟨b, b1, b2, b3, b4⟩ := swap_ok k (a := a) (i := x) (j := y) (by omega) (by omega)
    have hre : Rearr left right b a := by
      refine ⟨b2, b3, fun p hp => ?_, fun p h1 h2 => ?_⟩
      · rw [b4, if_neg (by omega), if_neg (by omega)]
      · rw [b4]
        by_cases hpy : p = y
        · rw [if_pos hpy]; exact ⟨x, by omega, by omega, rfl⟩
        · rw [if_neg hpy]
          by_cases hpx : p = x
          · rw [if_pos hpx]; exact ⟨y, by omega, by omega, rfl⟩
          · rw [if_neg hpx]; exact ⟨p, h1, h2, rfl⟩
    refine ⟨⟨b, (x : Int) + 1, (y : Int) - 1⟩, by simp only [b1, Outcome.bind_ok], ⟨hre.trans re, ?_, ?_, ?_, ?_, ?_, ?_, ?_⟩, ?_, ?_, ?_⟩
    all_goals simp only at *
    · omega
    · omega
    · omega
    · omega
    · intro ha p v h1 h2 hv
      rw [b4] at hv
      by_cases hpx : p = x
      · subst hpx
        have hv' : a[y]? = some v := by
          by_cases hpy : p = y
          · subst hpy; rw [if_pos rfl] at hv; exact hv
          · rw [if_neg hpy, if_pos rfl] at hv; exact hv
        exact d4 hc v hv'
      · rw [if_neg (by omega), if_neg hpx] at hv
        by_cases hpi : (p : Int) < i
        · exact lo ha p v h1 hpi hv
        · exact ha _ _ (u3 p v (by omega) (by omega) hv)
    · intro ha p v h1 h2 hv
      rw [b4] at hv
      by_cases hpy : p = y
      · rw [if_pos hpy] at hv
        exact u4 (by omega) v hv
      · rw [if_neg hpy, if_neg (by omega)] at hv
        by_cases hpj : j < (p : Int)
        · exact hi ha p v hpj h2 hv
        · exact ha _ _ (d3 p v (by omega) (by omega) hv)
    · right; omega
    · omega
    · omega
    · omega
  · rw [if_neg hc]
    refine ⟨⟨a, i', j'⟩, by simp only [Outcome.bind_ok], ⟨re, ?_, ?_, ?_, ?_, ?_, ?_, ?_⟩, ?_, ?_, ?_⟩
    all_goals simp only at *
    · omega
    · omega
    · omega
    · omega
    · intro ha p v h1 h2 hv
      by_cases hpi : (p : Int) < i
      · exact lo ha p v h1 hpi hv
      · exact ha _ _ (u3 p v (by omega) (by omega) hv)
    · intro ha p v h1 h2 hv
      by_cases hpj : j < (p : Int)
      · exact hi ha p v hpj h2 hv
      · exact ha _ _ (d3 p v (by omega) (by omega) hv)
    · right; omega
    · omega
    · omega
    · omega

/-- The whole partition loop. -/
theorem part_ok (k : Kind) (lt : α → α → Bool) (key : α) (left right : Int) (a : List α) (hirr : lt key key = false)
    (h0 : 0 ≤ left) (hlr : left < right) (hr : right < a.length)
    (hm : ∃ m : Nat, left ≤ (m : Int) ∧ (m : Int) ≤ right ∧ a[m]? = some key) :
    ∃ s, iter (partBody k lt key) (a.length + 2) ⟨a, left, right⟩ = .ok s ∧ PInv lt key left right a s ∧ s.j < s.i ∧
      left < s.i ∧ s.j < right := by
  apply iter_ok (fun s => PInv lt key left right a s ∧ (s.j < s.i → left < s.i ∧ s.j < right))
    (fun s => PInv lt key left right a s ∧ s.j < s.i ∧ left < s.i ∧ s.j < right)
    (fun s => (s.j - s.i + 1).toNat)
  · intro s ⟨hI, hx⟩
    by_cases hc : s.i ≤ s.j
    · left
      obtain ⟨s', e, hI', hμ, h1, h2⟩ := part_step k lt key left right a s hirr h0 hr hI hc
      exact ⟨s', e, ⟨hI', fun _ => ⟨h1, h2⟩⟩, hμ⟩
    · right
      exact ⟨s, by unfold partBody; rw [if_neg hc], hI, by omega, hx (by omega)⟩
  · refine ⟨⟨Rearr.refl _ _ _, ?_, ?_, ?_, ?_, ?_, ?_, Or.inl ⟨rfl, rfl, hm⟩⟩, ?_⟩
    all_goals simp only
    · omega
    · omega
    · omega
    · omega
    · intro _ p x h1 h2; omega
    · intro _ p x h1 h2; omega
    · omega
  · simp only; omega

/-! ## The outer loops -/

/-- No element at or after `c` belongs before one in front of `c` (within
positions `lo..hi`). -/
def Cut (lt : α → α → Bool) (lo hi : Int) (a : List α) (c : Int) : Prop :=
  ∀ (p q : Nat) x y, lo ≤ (p : Int) → (p : Int) < c → c ≤ (q : Int) → (q : Int) ≤ hi → a[p]? = some x → a[q]? = some y →
    lt y x = false

/-- Moving elements on one side of a cut keeps it. -/
theorem Cut.rearr {lt : α → α → Bool} {lo hi l r : Int} {a b : List α} {c : Int} (h : Cut lt lo hi b c) (hr : Rearr l r a b)
    (hlo : lo ≤ l) (hhi : r ≤ hi) (hc : c ≤ l ∨ r < c) : Cut lt lo hi a c := by
  intro p q x y h1 h2 h3 h4 hx hy
  have key : ∀ t : Nat, lo ≤ (t : Int) → (t : Int) ≤ hi → ∃ u : Nat, lo ≤ (u : Int) ∧ (u : Int) ≤ hi ∧ ((t : Int) < c ↔ (u : Int) < c) ∧
      a[t]? = b[u]? := by
    intro t t1 t2
    by_cases hin : l ≤ (t : Int) ∧ (t : Int) ≤ r
    · obtain ⟨u, u1, u2, u3⟩ := hr.ins t hin.1 hin.2
      exact ⟨u, by omega, by omega, by omega, u3⟩
    · exact ⟨t, t1, t2, Iff.rfl, hr.out t (by omega)⟩
  obtain ⟨p', p1, p2, p3, p4⟩ := key p h1 (by omega)
  obtain ⟨q', q1, q2, q3, q4⟩ := key q (by omega) h4
  exact h p' q' x y p1 (p3.mp h2) (by omega) q2 (p4 ▸ hx) (q4 ▸ hy)

/-- The segments still to be sorted, leftmost first. -/
def Segs (lo hi : Int) : Int → List (Int × Int) → Prop
  | _, [] => True
  | b, (l, r) :: rest => b < l ∧ lo ≤ l ∧ l < r ∧ r ≤ hi ∧ Segs lo hi r rest

/-- `c` lies strictly inside the segment. -/
def Inside (c : Int) (s : Int × Int) : Prop := s.1 < c ∧ c ≤ s.2

/-- Every position outside the open segments is a cut. -/
def Cuts (lt : α → α → Bool) (lo hi : Int) (a : List α) (st : List (Int × Int)) : Prop :=
  ∀ c : Int, (∀ s ∈ st, ¬ Inside c s) → Cut lt lo hi a c

theorem Segs.mem {lo hi : Int} : ∀ {b : Int} {st : List (Int × Int)}, Segs lo hi b st → ∀ s ∈ st, b < s.1 ∧ lo ≤ s.1 ∧ s.1 < s.2 ∧ s.2 ≤ hi
  | _, [], _, s, hs => by cases hs
  | b, (l, r) :: rest, ⟨h1, h2, h3, h4, h5⟩, s, hs => by
    rcases List.mem_cons.mp hs with rfl | hs
    · exact ⟨h1, h2, h3, h4⟩
    · have := h5.mem s hs
      exact ⟨by omega, this.2⟩

theorem Segs.weaken {lo hi b b' : Int} {st : List (Int × Int)} (h : Segs lo hi b st) (hb : b' ≤ b) : Segs lo hi b' st := by
  cases st with
  | nil => trivial
  | cons s rest => exact ⟨by have := h.1; omega, h.2⟩

/-- Negative transitivity: what makes `lt` the strict part of a total preorder. -/
def NegTrans (lt : α → α → Bool) : Prop := ∀ x y z, lt x y = true → lt x z = true ∨ lt z y = true

/-- Weight of a stack: termination measure. -/
def weight : List (Int × Int) → Nat
  | [] => 0
  | (l, r) :: rest => max (2 * (r - l + 1)).toNat 1 + weight rest

/-- Invariant of `while (left < right)`; `b` bounds the segment from the left,
`w` is the weight available to the segment. -/
structure SInv (lt : α → α → Bool) (lo hi : Int) (a₀ : List α) (W : Nat) (s : Srt α) : Prop where
  re : Rearr lo hi s.a a₀
  seg : s.left < s.right → lo ≤ s.left ∧ s.right ≤ hi ∧ Segs lo hi s.right s.stack
  nseg : ¬ s.left < s.right → Segs lo hi (lo - 1) s.stack
  cut : Asym lt → NegTrans lt → Cuts lt lo hi s.a (if s.left < s.right then (s.left, s.right) :: s.stack else s.stack)
  wt : weight s.stack + 2 * (s.right - s.left + 1).toNat ≤ W
  wt' : s.left < s.right ∨ weight s.stack < W

theorem seg_step (k : Kind) (lt : α → α → Bool) (lo hi : Int) (a₀ : List α) (W : Nat) (s : Srt α) (hirr : ∀ x, lt x x = false)
    (h0 : 0 ≤ lo) (hhi : hi < a₀.length) (hov : 2 * hi ≤ INT_MAX) (h : SInv lt lo hi a₀ W s) (hlr : s.left < s.right) :
    ∃ s', segBody k lt s = .ok (.next s') ∧ SInv lt lo hi a₀ W s' ∧ (s'.right - s'.left).toNat < (s.right - s.left).toNat := by
  obtain ⟨a, st, left, right⟩ := s
  obtain ⟨re, seg, _, cut, wt, _⟩ := h
  simp only at re seg cut wt hlr
  obtain ⟨g1, g2, g3⟩ := seg hlr
  rw [if_pos hlr] at cut
  have hlen := re.len
  obtain ⟨l, rfl⟩ := Int.eq_ofNat_of_zero_le (show 0 ≤ left by omega)
  obtain ⟨r, rfl⟩ := Int.eq_ofNat_of_zero_le (show 0 ≤ right by omega)
  have hmid : ((l : Int) + r).tdiv 2 = (((l + r) / 2 : Nat) : Int) := by
    rw [Int.tdiv_eq_ediv_of_nonneg (by omega)]; omega
  have hml : (l + r) / 2 < a.length := by omega
  obtain ⟨p, e, hp, p1, p2, p3⟩ := part_ok k lt a[(l + r) / 2] l r a (hirr _) (by omega) hlr (by omega)
    ⟨(l + r) / 2, by omega, by omega, List.getElem?_eq_getElem hml⟩
  obtain ⟨b, i, j⟩ := p
  simp only at p1 p2 p3
  have hre := hp.re
  have hil := hp.ir
  have hjl := hp.jl
  simp only at hre hil hjl
  refine ⟨⟨b, if i < (r : Int) then (i, (r : Int)) :: st else st, l, j⟩, ?_, ?_, ?_⟩
  · unfold segBody
    simp only [if_pos hlr]
    simp only [Outcome.bind_eq, chk32_ok (show INT_MIN ≤ (l : Int) + r by unfold INT_MIN; omega) (by omega), Outcome.bind_ok, hmid,
      rd_ok k hml, e]
  · have hst : weight (if i < (r : Int) then (i, (r : Int)) :: st else st) ≤ weight st + 2 * ((r : Int) - i + 1).toNat := by
      split
      · simp only [weight]; omega
      · omega
    have hseg : ∀ b : Int, b < i → Segs lo hi b (if i < (r : Int) then (i, (r : Int)) :: st else st) := by
      intro b hb
      split
      · exact ⟨hb, by omega, by assumption, by omega, g3⟩
      · exact g3.weaken (by omega)
    refine ⟨(hre.mono (by omega) (by omega)).trans re, ?_, ?_, ?_, ?_, ?_⟩
    all_goals simp only
    · exact fun h => ⟨by omega, by omega, hseg j (by omega)⟩
    · exact fun h => hseg (lo - 1) (by omega)
    · intro has hnt c hc
      -- old cuts survive the rearrangement
      by_cases hin : (l : Int) < c ∧ c ≤ r
      · -- a cut made by this partition
        have hji : j < c ∧ c ≤ i := by
          constructor
          · apply Classical.byContradiction
            intro hn
            have hlj : (l : Int) < j := by omega
            rw [if_pos hlj] at hc
            exact hc (l, j) (List.mem_cons_self ..) ⟨hin.1, by omega⟩
          · apply Classical.byContradiction
            intro hn
            have hir : i < (r : Int) := by omega
            have hmem : (i, (r : Int)) ∈ (if (l : Int) < j then ((l : Int), j) :: (if i < (r : Int) then (i, (r : Int)) :: st else st)
                else (if i < (r : Int) then (i, (r : Int)) :: st else st)) := by
              rw [if_pos hir]; split <;> simp
            exact hc _ hmem ⟨by simp only; omega, by simp only; omega⟩
        have hnone : ∀ s ∈ (((l : Int), (r : Int)) :: st), ¬ Inside l s ∧ ¬ Inside (r + 1) s := by
          intro s hs
          rcases List.mem_cons.mp hs with rfl | hs
          · exact ⟨fun h => by have := h.1; simp only at this; omega, fun h => by have := h.2; simp only at this; omega⟩
          · have := g3.mem s hs
            exact ⟨fun h => by have := h.1; omega, fun h => by have := h.1; omega⟩
        have cl := (cut has hnt l (fun s hs => (hnone s hs).1)).rearr hre (by omega) (by omega) (Or.inl (by omega))
        have cr := (cut has hnt ((r : Int) + 1) (fun s hs => (hnone s hs).2)).rearr hre (by omega) (by omega) (Or.inr (by omega))
        intro p q x y h1 h2 h3 h4 hx hy
        by_cases hpl : (p : Int) < l
        · exact cl p q x y h1 hpl (by omega) h4 hx hy
        · by_cases hqr : (r : Int) < q
          · exact cr p q x y h1 (by omega) (by omega) h4 hx hy
          · have k1 := hp.lo has p x (by omega) (by simp only; omega) hx
            have k2 := hp.hi has q y (by simp only; omega) (by omega) hy
            cases hyx : lt y x with
            | false => rfl
            | true =>
              rcases hnt y x a[(l + r) / 2] hyx with h' | h'
              · rw [h'] at k2; cases k2
              · rw [h'] at k1; cases k1
      · refine (cut has hnt c (fun s hs => ?_)).rearr hre (by omega) (by omega) (by omega)
        rcases List.mem_cons.mp hs with rfl | hs
        · exact fun h => hin h
        · apply hc
          split
          · apply List.mem_cons_of_mem
            split
            · exact List.mem_cons_of_mem _ hs
            · exact hs
          · split
            · exact List.mem_cons_of_mem _ hs
            · exact hs
    · omega
    · omega
  · simp only; omega

theorem seg_ok (k : Kind) (lt : α → α → Bool) (lo hi : Int) (a₀ : List α) (W : Nat) (s : Srt α) (hirr : ∀ x, lt x x = false)
    (h0 : 0 ≤ lo) (hhi : hi < a₀.length) (hov : 2 * hi ≤ INT_MAX) (h : SInv lt lo hi a₀ W s) :
    ∃ s', iter (segBody k lt) (s.a.length + 2) s = .ok s' ∧ SInv lt lo hi a₀ W s' ∧ ¬ s'.left < s'.right := by
  apply iter_ok (fun s => SInv lt lo hi a₀ W s) (fun s => SInv lt lo hi a₀ W s ∧ ¬ s.left < s.right)
    (fun s => (s.right - s.left).toNat) ?_ _ _ h ?_
  · intro s hI
    by_cases hc : s.left < s.right
    · exact Or.inl (seg_step k lt lo hi a₀ W s hirr h0 hhi hov hI hc)
    · exact Or.inr ⟨s, by unfold segBody; rw [if_neg hc], hI, hc⟩
  · have hlen := h.re.len
    by_cases hc : s.left < s.right
    · have := h.seg hc; omega
    · omega

/-- Invariant of the outermost loop. -/
structure OInv (lt : α → α → Bool) (lo hi : Int) (a₀ : List α) (s : List α × List (Int × Int)) : Prop where
  re : Rearr lo hi s.1 a₀
  seg : Segs lo hi (lo - 1) s.2
  cut : Asym lt → NegTrans lt → Cuts lt lo hi s.1 s.2

theorem sortRange_ok (k : Kind) (lt : α → α → Bool) (a : List α) (lo hi : Int) (hirr : ∀ x, lt x x = false)
    (h0 : 0 ≤ lo) (hlh : lo < hi) (hhi : hi < a.length) (hov : 2 * hi ≤ INT_MAX) :
    ∃ r, sortRange k lt a lo hi = .ok r ∧ Rearr lo hi r a ∧ (Asym lt → NegTrans lt → ∀ c, Cut lt lo hi r c) := by
  unfold sortRange
  apply iter_ok (fun s => OInv lt lo hi a s) (fun r => Rearr lo hi r a ∧ (Asym lt → NegTrans lt → ∀ c, Cut lt lo hi r c))
    (fun s => weight s.2)
  · rintro ⟨b, st⟩ ⟨re, seg, cut⟩
    cases st with
    | nil => exact Or.inr ⟨b, rfl, re, fun h1 h2 c => cut h1 h2 c (by simp)⟩
    | cons sg rest =>
      obtain ⟨l, r⟩ := sg
      simp only at re seg cut
      obtain ⟨g1, g2, g3, g4, g5⟩ := seg
      left
      obtain ⟨s', e, hI, hn⟩ := seg_ok k lt lo hi a (weight rest + 2 * (r - l + 1).toNat) ⟨b, rest, l, r⟩ hirr h0 hhi hov
        ⟨re, fun _ => ⟨g2, g4, g5⟩, fun h => absurd g3 h, fun h1 h2 => by simp only [if_pos g3]; exact cut h1 h2,
          by simp only; omega, Or.inl g3⟩
      refine ⟨(s'.a, s'.stack), ?_, ⟨hI.re, hI.nseg hn, ?_⟩, ?_⟩
      · unfold sortBody
        simp only [Outcome.bind_eq]
        rw [e]; rfl
      · intro h1 h2
        have := hI.cut h1 h2
        rw [if_neg hn] at this
        exact this
      · have := hI.wt'
        simp only [weight]; omega
  · refine ⟨Rearr.refl _ _ _, ⟨by omega, Int.le_refl _, hlh, Int.le_refl _, trivial⟩, fun h1 h2 c hc => ?_⟩
    intro p q x y k1 k2 k3 k4 hx hy
    exfalso
    exact hc (lo, hi) (List.mem_singleton.mpr rfl) ⟨by simp only; omega, by simp only; omega⟩
  · simp only [weight]; omega

theorem sortRange_trivial (k : Kind) (lt : α → α → Bool) (a : List α) (lo hi : Int) (h : hi ≤ lo) :
    sortRange k lt a lo hi = .ok a := by
  unfold sortRange
  have e : segBody k lt ⟨a, [], lo, hi⟩ = .ok (.done ⟨a, [], lo, hi⟩) := by
    unfold segBody; rw [if_neg (by simp only; omega)]
  have e2 : sortBody k lt (a, [(lo, hi)]) = .ok (.next (a, [])) := by
    unfold sortBody
    simp only [Outcome.bind_eq]
    rw [show iter (segBody k lt) (a.length + 2) ⟨a, [], lo, hi⟩ = .ok ⟨a, [], lo, hi⟩ by rw [iter, e]]
    rfl
  rw [show 2 * a.length + 2 = (2 * a.length + 1) + 1 from rfl, iter, e2]
  rfl

end Verif.Arrays
