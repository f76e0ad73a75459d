import Verif.StringBuilder.Spec
/-! # Lemmas on searching in a `StringBuilder` -/
namespace Verif.StringBuilder

theorem ch_nat {l : List Byte} {i : Nat} (h : i < l.length) : ch l i = .ok l[i] := by
  unfold ch
  rw [if_neg (by omega), Str.at_lt]
  rw [Int.toNat_natCast, List.getElem?_eq_getElem h]

theorem tabRd_some {t : List Int} {i : Nat} {x : Int} (h : t[i]? = some x) : tabRd t i = .ok x := by
  unfold tabRd
  rw [if_neg (by omega), Int.toNat_natCast, h]

theorem tabWr_nat {t : List Int} {i : Nat} {x : Int} (h : i < t.length) : tabWr t i x = .ok (t.set i x) := by
  unfold tabWr
  rw [if_neg (by omega), if_pos (by omega), Int.toNat_natCast]

/-- The shape every table has. -/
def TabOK (t : List Int) (n : Nat) : Prop :=
  t.length = n ∧ t[0]? = some (-1) ∧ ∀ j, 1 ≤ j → j < n → ∃ x : Nat, t[j]? = some (x : Int) ∧ x < j

/-- Invariant of the loop building a table. -/
def NInv (p : List Byte) (m : Nat) (s : NT) : Prop :=
  ∃ pos k : Nat, s.pos = pos ∧ s.k = k ∧ 2 ≤ pos ∧ pos ≤ p.length ∧ k + 2 ≤ pos ∧ TabOK s.tab p.length ∧
    (∀ j, 1 ≤ j → j < m → j < p.length → j < pos → s.tab[j]? = some 0) ∧ (pos < m → k = 0)

theorem TabOK.set {t : List Int} {n pos k : Nat} (h : TabOK t n) (h1 : 1 ≤ pos) (h2 : k < pos) : TabOK (t.set pos (k : Int)) n := by
  obtain ⟨ha, hb, hc⟩ := h
  refine ⟨by simp [ha], ?_, ?_⟩
  · rw [List.getElem?_set_ne (by omega)]; exact hb
  · intro j hj1 hj2
    by_cases e : pos = j
    · subst e
      exact ⟨k, by rw [List.getElem?_set_self (by omega)], h2⟩
    · rw [List.getElem?_set_ne e]; exact hc j hj1 hj2

theorem next_step (p : List Byte) (m : Nat) (hz : ∀ j, 1 ≤ j → j + 1 < m → j < p.length → p[j]? ≠ p[0]?) (s : NT) (hI : NInv p m s) :
    (∃ s', nextBody p s = .ok (.next s') ∧ NInv p m s' ∧ 2 * (p.length - s'.pos.toNat) + s'.k.toNat < 2 * (p.length - s.pos.toNat) + s.k.toNat) ∨
    (∃ r, nextBody p s = .ok (.done r) ∧ (TabOK r p.length ∧ ∀ j, 1 ≤ j → j < m → j < p.length → r[j]? = some 0)) := by
  obtain ⟨tab, posI, kI⟩ := s
  obtain ⟨pos, k, rfl, rfl, h2, hle, hk, hT, hzz, hkm⟩ := hI
  unfold nextBody
  simp only [Outcome.bind_eq]
  by_cases hlt : pos < p.length
  · left
    rw [if_pos (by omega), show (pos : Int) - 1 = ((pos - 1 : Nat) : Int) by omega, ch_nat (by omega), Outcome.bind_ok,
      ch_nat (by omega), Outcome.bind_ok]
    by_cases heq : p[pos - 1] = p[k]
    · have hnm : ¬pos < m := by
        intro hm
        have := hkm hm
        subst this
        apply hz (pos - 1) (by omega) (by omega) (by omega)
        rw [List.getElem?_eq_getElem (by omega), List.getElem?_eq_getElem (by omega), heq]
      rw [if_pos heq, tabWr_nat (by rw [hT.1]; omega), Outcome.bind_ok]
      refine ⟨_, rfl, ⟨pos + 1, k + 1, by simp, by simp, by omega, by omega, by omega, ?_, ?_, by omega⟩, by simp only; omega⟩
      · exact hT.set (k := k + 1) (by omega) (by omega)
      · intro j h1 h3 h4 h5
        rw [List.getElem?_set_ne (by omega)]
        exact hzz j h1 h3 h4 (by omega)
    · rw [if_neg heq]
      by_cases hk0 : k = 0
      · subst hk0
        rw [if_neg (by omega), tabWr_nat (by rw [hT.1]; omega), Outcome.bind_ok]
        refine ⟨_, rfl, ⟨pos + 1, 0, by simp, by simp, by omega, by omega, by omega, ?_, ?_, by omega⟩, by simp only; omega⟩
        · exact hT.set (k := 0) (by omega) (by omega)
        · intro j h1 h3 h4 h5
          by_cases e : pos = j
          · subst e
            rw [List.getElem?_set_self (by rw [hT.1]; omega)]
          · rw [List.getElem?_set_ne e]
            exact hzz j h1 h3 h4 (by omega)
      · rw [if_pos (by omega)]
        obtain ⟨x, hx, hxk⟩ := hT.2.2 k (by omega) (by omega)
        rw [tabRd_some hx, Outcome.bind_ok]
        refine ⟨_, rfl, ⟨pos, x, by simp, by simp, by omega, by omega, by omega, hT, hzz, by omega⟩, by simp only; omega⟩
  · right
    rw [if_neg (by omega)]
    exact ⟨_, rfl, hT, fun j h1 h3 h4 => hzz j h1 h3 h4 (by omega)⟩

theorem nextTable_ok (p : List Byte) (hp : p ≠ []) (m : Nat) (hz : ∀ j, 1 ≤ j → j + 1 < m → j < p.length → p[j]? ≠ p[0]?) :
    ∃ tab, nextTable p = .ok tab ∧ TabOK tab p.length ∧ ∀ j, 1 ≤ j → j < m → j < p.length → tab[j]? = some 0 := by
  have hpos : 0 < p.length := List.length_pos_iff.mpr hp
  unfold nextTable
  simp only [Outcome.bind_eq]
  rw [show (0 : Int) = ((0 : Nat) : Int) from rfl, tabWr_nat (by simpa using hpos), Outcome.bind_ok]
  have hT0 : ∀ j, 1 ≤ j → j < p.length → ((List.replicate p.length ((0 : Nat) : Int)).set 0 (-1))[j]? = some 0 := by
    intro j h1 h2
    rw [List.getElem?_set_ne (by omega), List.getElem?_replicate, if_pos h2]; rfl
  have hT : TabOK ((List.replicate p.length ((0 : Nat) : Int)).set 0 (-1)) p.length := by
    refine ⟨by simp, by rw [List.getElem?_set_self (by simpa using hpos)], ?_⟩
    intro j h1 h2
    exact ⟨0, by rw [hT0 j h1 h2]; rfl, by omega⟩
  by_cases h1 : p.length = 1
  · rw [if_pos h1]
    exact ⟨_, rfl, hT, fun j a _ c => hT0 j a c⟩
  · have hw := tabWr_nat (t := (List.replicate p.length ((0 : Nat) : Int)).set 0 (-1)) (i := 1) (x := ((0 : Nat) : Int)) (by rw [hT.1]; omega)
    rw [if_neg h1, show tabWr _ 1 _ = _ from hw, Outcome.bind_ok]
    have hT1 := hT.set (pos := 1) (k := 0) (by omega) (by omega)
    have hz1 : ∀ j, 1 ≤ j → j < p.length →
        (((List.replicate p.length ((0 : Nat) : Int)).set 0 (-1)).set 1 ((0 : Nat) : Int))[j]? = some 0 := by
      intro j a b
      by_cases e : 1 = j
      · subst e; rw [List.getElem?_set_self (by simp; omega)]; rfl
      · rw [List.getElem?_set_ne e]; exact hT0 j a b
    by_cases h2 : p.length = 2
    · rw [if_pos h2]
      exact ⟨_, rfl, hT1, fun j a _ c => hz1 j a c⟩
    · rw [if_neg h2]
      refine iter_ok (NInv p m) _ _ (next_step p m hz) _ _ ⟨2, 0, rfl, rfl, by omega, by omega, by omega, hT1,
        fun j a _ c _ => hz1 j a c, fun _ => rfl⟩ ?_
      simp only; omega

theorem occurs_iff (p t : List Byte) (k : Nat) :
    OccursAt p t k ↔ k + p.length ≤ t.length ∧ ∀ j, j < p.length → t[k + j]? = p[j]? := by
  unfold OccursAt
  constructor
  · rintro ⟨h1, h2⟩
    refine ⟨h1, fun j hj => ?_⟩
    have := congrArg (fun l => l[j]?) h2
    simp only [List.getElem?_take, if_pos hj, List.getElem?_drop] at this
    exact this
  · rintro ⟨h1, h2⟩
    refine ⟨h1, ?_⟩
    apply List.ext_getElem?
    intro j
    by_cases hj : j < p.length
    · rw [List.getElem?_take, if_pos hj, List.getElem?_drop, h2 j hj]
    · rw [List.getElem?_eq_none (by simp; omega), List.getElem?_eq_none (by omega)]

/-! ## Forward -/

/-- One turn, without assumptions on the texts. -/
theorem match_step (t p : List Byte) (tab : List Int) (hT : TabOK tab t.length) (a q : Nat) (hq : q < p.length) (ha : a ≤ t.length) :
    (t.length ≤ a + q ∧ matchBody t p tab (a, q) = .ok (.done (-1))) ∨
    (∃ (h : a + q < t.length), p[q] = t[a + q] ∧ q + 1 = p.length ∧ matchBody t p tab (a, q) = .ok (.done a)) ∨
    (∃ (h : a + q < t.length), p[q] = t[a + q] ∧ q + 1 < p.length ∧ matchBody t p tab (a, q) = .ok (.next (a, (q + 1 : Nat)))) ∨
    (∃ (h : a + q < t.length), p[q] ≠ t[a + q] ∧
      ((q = 0 ∧ matchBody t p tab (a, q) = .ok (.next ((a + 1 : Nat), (0 : Nat)))) ∨
       (1 ≤ q ∧ ∃ x : Nat, tab[q]? = some (x : Int) ∧ x < q ∧ matchBody t p tab (a, q) = .ok (.next ((a + q : Nat), x))))) := by
  unfold matchBody
  simp only [Outcome.bind_eq]
  by_cases h : a + q < t.length
  · right
    rw [if_pos (by omega), ch_nat hq, Outcome.bind_ok, show (a : Int) + q = ((a + q : Nat) : Int) by omega, ch_nat h, Outcome.bind_ok]
    by_cases heq : p[q] = t[a + q]
    · rw [if_pos heq]
      by_cases hl : q + 1 = p.length
      · left
        rw [if_pos (by omega)]
        exact ⟨h, heq, hl, rfl⟩
      · right; left
        rw [if_neg (by omega)]
        exact ⟨h, heq, by omega, rfl⟩
    · right; right
      rw [if_neg heq]
      refine ⟨h, heq, ?_⟩
      by_cases h0 : q = 0
      · subst h0
        left
        rw [tabRd_some hT.2.1, Outcome.bind_ok, if_neg (by omega)]
        exact ⟨rfl, rfl⟩
      · right
        obtain ⟨x, hx, hxq⟩ := hT.2.2 q (by omega) (by omega)
        rw [tabRd_some hx, Outcome.bind_ok, if_pos (by omega)]
        exact ⟨by omega, x, hx, hxq, rfl⟩
  · left
    rw [if_neg (by omega)]
    exact ⟨by omega, rfl⟩

theorem measure_lt {N M a a' q q' : Nat} (ha : a < a') (ha' : a' ≤ N) (hq : q ≤ M) :
    (N - a') * (M + 1) + (M - q') < (N - a) * (M + 1) + (M - q) := by
  have : (N - a') * (M + 1) + (M + 1) ≤ (N - a) * (M + 1) := by
    rw [← Nat.succ_mul]; exact Nat.mul_le_mul_right _ (by omega)
  omega

theorem measure_init {N M a : Nat} (ha : a ≤ N) : (N - a) * (M + 1) + (M - 0) < (N + 1) * (M + 1) + 1 := by
  have : (N - a) * (M + 1) ≤ N * (M + 1) := Nat.mul_le_mul_right _ (by omega)
  rw [Nat.add_mul]; omega

/-- Every forward search ends, inside both texts, with -1 or a position between the start and the end. -/
theorem matches_safe (t p : List Byte) (hp : p ≠ []) (tab : List Int) (hT : TabOK tab t.length) (a : Nat) (ha : a ≤ t.length) :
    ∃ r, iter (matchBody t p tab) ((t.length + 1) * (p.length + 1) + 1) (a, (0 : Nat)) = .ok r ∧
      (r = -1 ∨ ∃ k : Nat, r = k ∧ a ≤ k ∧ k + p.length ≤ t.length) := by
  have hpos : 0 < p.length := List.length_pos_iff.mpr hp
  refine iter_ok (fun s => ∃ b q : Nat, s = (((b : Nat) : Int), ((q : Nat) : Int)) ∧ q < p.length ∧ b ≤ t.length ∧ a ≤ b) _
    (fun s => (t.length - s.1.toNat) * (p.length + 1) + (p.length - s.2.toNat)) ?_ _ _ ⟨a, 0, rfl, hpos, ha, Nat.le_refl _⟩ ?_
  · rintro s ⟨b, q, rfl, hq, hb, hab⟩
    rcases match_step t p tab hT b q hq hb with ⟨h, e⟩ | ⟨h, _, h2, e⟩ | ⟨h, _, h2, e⟩ | ⟨h, _, ⟨h2, e⟩ | ⟨h2, x, _, hx, e⟩⟩
    · exact .inr ⟨_, e, .inl rfl⟩
    · exact .inr ⟨_, e, .inr ⟨b, rfl, hab, by omega⟩⟩
    · refine .inl ⟨_, e, ⟨b, q + 1, rfl, h2, hb, hab⟩, ?_⟩
      simp only [Int.toNat_natCast]; omega
    · refine .inl ⟨_, e, ⟨b + 1, 0, rfl, hpos, by omega, by omega⟩, ?_⟩
      simp only [Int.toNat_natCast]
      exact measure_lt (by omega) (by omega) (by omega)
    · refine .inl ⟨_, e, ⟨b + q, x, rfl, by omega, by omega, by omega⟩, ?_⟩
      simp only [Int.toNat_natCast]
      exact measure_lt (by omega) (by omega) (by omega)
  · simp only [Int.toNat_natCast]
    exact measure_init ha

/-- Exactness when the table entries used are 0 and the first character of the pattern does not come back in its inner part. -/
theorem matches_exact (t p : List Byte) (hp : p ≠ []) (tab : List Int) (hT : TabOK tab t.length)
    (hz : ∀ j, 1 ≤ j → j < p.length → j < t.length → tab[j]? = some 0)
    (hh : ∀ j, 1 ≤ j → j + 1 < p.length → p[j]? ≠ p[0]?) (a : Nat) (ha : a ≤ t.length) :
    ∃ r, iter (matchBody t p tab) ((t.length + 1) * (p.length + 1) + 1) (a, (0 : Nat)) = .ok r ∧ IsFirst p t a r := by
  have hpos : 0 < p.length := List.length_pos_iff.mpr hp
  refine iter_ok (fun s => ∃ b q : Nat, s = (((b : Nat) : Int), ((q : Nat) : Int)) ∧ q < p.length ∧ b ≤ t.length ∧ a ≤ b ∧
      (∀ j, j < q → t[b + j]? = p[j]?) ∧ (∀ k, a ≤ k → k < b → ¬OccursAt p t k)) _
    (fun s => (t.length - s.1.toNat) * (p.length + 1) + (p.length - s.2.toNat)) ?_ _ _
    ⟨a, 0, rfl, hpos, ha, Nat.le_refl _, fun j hj => by omega, fun k _ _ => by omega⟩ ?_
  · rintro s ⟨b, q, rfl, hq, hb, hab, hm, hno⟩
    rcases match_step t p tab hT b q hq hb with ⟨h, e⟩ | ⟨h, heq, h2, e⟩ | ⟨h, heq, h2, e⟩ | ⟨h, hne, ⟨h2, e⟩ | ⟨h2, x, hx, hxq, e⟩⟩
    · refine .inr ⟨_, e, .inr ⟨rfl, fun j hj ho => ?_⟩⟩
      by_cases hjb : j < b
      · exact hno j hj hjb ho
      · have := ((occurs_iff p t j).mp ho).1
        omega
    · refine .inr ⟨_, e, .inl ⟨b, rfl, hab, ?_, hno⟩⟩
      rw [occurs_iff]
      refine ⟨by omega, fun j hj => ?_⟩
      by_cases hjq : j < q
      · exact hm j hjq
      · have : j = q := by omega
        subst this
        rw [List.getElem?_eq_getElem h, List.getElem?_eq_getElem hq, heq]
    · refine .inl ⟨_, e, ⟨b, q + 1, rfl, h2, hb, hab, fun j hj => ?_, hno⟩, ?_⟩
      · by_cases hjq : j < q
        · exact hm j hjq
        · have : j = q := by omega
          subst this
          rw [List.getElem?_eq_getElem h, List.getElem?_eq_getElem hq, heq]
      · simp only [Int.toNat_natCast]; omega
    · subst h2
      refine .inl ⟨_, e, ⟨b + 1, 0, rfl, hpos, by omega, by omega, fun j hj => by omega, fun k hk1 hk2 ho => ?_⟩, ?_⟩
      · by_cases hkb : k < b
        · exact hno k hk1 hkb ho
        · have : k = b := by omega
          subst this
          have := ((occurs_iff p t k).mp ho).2 0 hpos
          rw [List.getElem?_eq_getElem h, List.getElem?_eq_getElem hpos] at this
          exact hne (Option.some.inj this).symm
      · simp only [Int.toNat_natCast]
        exact measure_lt (by omega) (by omega) (by omega)
    · have hx0 : x = 0 := by
        have := hz q h2 hq (by omega)
        rw [hx] at this
        have := Option.some.inj this
        omega
      subst hx0
      refine .inl ⟨_, e, ⟨b + q, 0, rfl, hpos, by omega, by omega, fun j hj => by omega, fun k hk1 hk2 ho => ?_⟩, ?_⟩
      · by_cases hkb : k < b
        · exact hno k hk1 hkb ho
        · have ho' := (occurs_iff p t k).mp ho
          by_cases hkb' : k = b
          · subst hkb'
            have := ho'.2 q hq
            rw [List.getElem?_eq_getElem h, List.getElem?_eq_getElem hq] at this
            exact hne (Option.some.inj this).symm
          · have h1 := ho'.2 0 hpos
            have h2 := hm (k - b) (by omega)
            rw [show b + (k - b) = k + 0 by omega, h1] at h2
            exact hh (k - b) (by omega) (by omega) h2.symm
      · simp only [Int.toNat_natCast]
        exact measure_lt (by omega) (by omega) (by omega)
  · simp only [Int.toNat_natCast]
    exact measure_init ha

/-! ## Backward -/

/-- `s[i]` where position `s.length` reads the terminator. -/
def charZ (s : List Byte) (i : Nat) : Byte := (s[i]?).getD 0

theorem ch_z {l : List Byte} {i : Nat} (h : i ≤ l.length) : ch l i = .ok (charZ l i) := by
  unfold ch charZ
  rw [if_neg (by omega), Int.toNat_natCast]
  unfold Str.at
  by_cases hi : i < l.length
  · rw [List.getElem?_eq_getElem hi]; rfl
  · rw [List.getElem?_eq_none (by omega)]
    simp only
    rw [if_pos (by omega)]; rfl

/-- One turn of the backward search at end position `a` with `q` characters compared. -/
theorem rev_step (t p : List Byte) (tab : List Int) (hT : TabOK tab p.length) (a : Int) (q : Nat) (hq : q < p.length)
    (ha : a ≤ t.length) :
    (a - q < 0 ∧ revBody t p tab (a, q) = .ok (.done (-1))) ∨
    (0 ≤ a - q ∧ p[p.length - 1 - q] = charZ t (a - q).toNat ∧ q + 1 = p.length ∧ revBody t p tab (a, q) = .ok (.done (a - p.length + 1))) ∨
    (0 ≤ a - q ∧ p[p.length - 1 - q] = charZ t (a - q).toNat ∧ q + 1 < p.length ∧ revBody t p tab (a, q) = .ok (.next (a, (q + 1 : Nat)))) ∨
    (0 ≤ a - q ∧ p[p.length - 1 - q] ≠ charZ t (a - q).toNat ∧
      ((q = 0 ∧ revBody t p tab (a, q) = .ok (.next (a - 1, (0 : Nat)))) ∨
       (1 ≤ q ∧ ∃ x : Nat, tab[q]? = some (x : Int) ∧ x < q ∧ revBody t p tab (a, q) = .ok (.next (a - q, x))))) := by
  unfold revBody
  simp only [Outcome.bind_eq]
  by_cases h : 0 ≤ a - q
  · right
    have hc : ch t (a - q) = .ok (charZ t (a - q).toNat) := by
      have := ch_z (l := t) (i := (a - q).toNat) (by omega)
      rw [show (((a - q).toNat : Nat) : Int) = a - q by omega] at this
      exact this
    rw [if_pos (by omega), show (p.length : Int) - q - 1 = ((p.length - 1 - q : Nat) : Int) by omega, ch_nat (by omega), Outcome.bind_ok,
      hc, Outcome.bind_ok]
    by_cases heq : p[p.length - 1 - q] = charZ t (a - q).toNat
    · rw [if_pos heq]
      by_cases hl : q + 1 = p.length
      · left
        rw [if_pos (by omega)]
        exact ⟨h, heq, hl, rfl⟩
      · right; left
        rw [if_neg (by omega)]
        exact ⟨h, heq, by omega, rfl⟩
    · right; right
      rw [if_neg heq]
      refine ⟨h, heq, ?_⟩
      by_cases h0 : q = 0
      · subst h0
        left
        rw [tabRd_some hT.2.1, Outcome.bind_ok, if_neg (by omega)]
        exact ⟨rfl, rfl⟩
      · right
        obtain ⟨x, hx, hxq⟩ := hT.2.2 q (by omega) (by omega)
        rw [tabRd_some hx, Outcome.bind_ok, if_pos (by omega)]
        exact ⟨by omega, x, hx, hxq, rfl⟩
  · left
    rw [if_neg (by omega)]
    exact ⟨by omega, rfl⟩

theorem measure_rev {N M a' a q q' : Nat} (ha : a' < a) (hq : q ≤ M) :
    a' * (M + 1) + (M - q') < a * (M + 1) + (M - q) := by
  have : a' * (M + 1) + (M + 1) ≤ a * (M + 1) := by
    rw [← Nat.succ_mul]; exact Nat.mul_le_mul_right _ (by omega)
  omega

theorem measure_rev_init {N M : Nat} : (N + 1) * (M + 1) + (M - 0) < (N + 2) * (M + 1) + 1 := by
  rw [show N + 2 = (N + 1) + 1 by omega, Nat.add_mul (N + 1) 1]; omega

/-- Every backward search starting inside the text ends, inside both texts. -/
theorem rev_safe (t p : List Byte) (hp : p ≠ []) (tab : List Int) (hT : TabOK tab p.length) (a : Nat) (ha : a ≤ t.length) :
    ∃ r, iter (revBody t p tab) ((a + 2) * (p.length + 1) + 1) (a, (0 : Nat)) = .ok r ∧
      (r = -1 ∨ (0 ≤ r ∧ r + p.length ≤ t.length + 1)) := by
  have hpos : 0 < p.length := List.length_pos_iff.mpr hp
  refine iter_ok (fun s => ∃ (b : Int) (q : Nat), s = (b, ((q : Nat) : Int)) ∧ q < p.length ∧ b ≤ t.length ∧ -1 ≤ b) _
    (fun s => (s.1 + 1).toNat * (p.length + 1) + (p.length - s.2.toNat)) ?_ _ _ ⟨a, 0, rfl, hpos, by omega, by omega⟩ ?_
  · rintro s ⟨b, q, rfl, hq, hb, hb1⟩
    rcases rev_step t p tab hT b q hq hb with ⟨h, e⟩ | ⟨h, _, h2, e⟩ | ⟨h, _, h2, e⟩ | ⟨h, _, ⟨h2, e⟩ | ⟨h2, x, _, hx, e⟩⟩
    · exact .inr ⟨_, e, .inl rfl⟩
    · exact .inr ⟨_, e, .inr ⟨by omega, by omega⟩⟩
    · refine .inl ⟨_, e, ⟨b, q + 1, rfl, h2, hb, hb1⟩, ?_⟩
      simp only [Int.toNat_natCast]; omega
    · refine .inl ⟨_, e, ⟨b - 1, 0, rfl, hpos, by omega, by omega⟩, ?_⟩
      simp only [Int.toNat_natCast]
      exact measure_rev (N := 0) (by omega) (by omega)
    · refine .inl ⟨_, e, ⟨b - q, x, rfl, by omega, by omega, by omega⟩, ?_⟩
      simp only [Int.toNat_natCast]
      exact measure_rev (N := 0) (by omega) (by omega)
  · simp only [Int.toNat_natCast]
    rw [show ((a : Int) + 1).toNat = a + 1 by omega]
    exact measure_rev_init

/-- `p` matches `t` ending at position `e`, the terminator included. -/
def EndsAt (p t : List Byte) (e : Int) : Prop :=
  (p.length : Int) ≤ e + 1 ∧ ∀ j, (h : j < p.length) → p[p.length - 1 - j]'(by omega) = charZ t (e - j).toNat

/-- Exactness of the backward search, in terms of ends of matches. -/
theorem rev_exact (t p : List Byte) (hp : p ≠ []) (tab : List Int) (hT : TabOK tab p.length)
    (hz : ∀ j, 1 ≤ j → j < p.length → tab[j]? = some 0)
    (hh : ∀ j, (h : j + 1 < p.length) → 1 ≤ j → p[p.length - 1 - j]'(by omega) ≠ p[p.length - 1]'(by omega)) (a : Nat) (ha : a ≤ t.length) :
    ∃ r, iter (revBody t p tab) ((a + 2) * (p.length + 1) + 1) (a, (0 : Nat)) = .ok r ∧
      ((∃ e : Int, r = e - p.length + 1 ∧ e ≤ a ∧ EndsAt p t e ∧ ∀ e', e < e' → e' ≤ a → ¬EndsAt p t e') ∨
       (r = -1 ∧ ∀ e : Int, e ≤ a → ¬EndsAt p t e)) := by
  have hpos : 0 < p.length := List.length_pos_iff.mpr hp
  refine iter_ok (fun s => ∃ (b : Int) (q : Nat), s = (b, ((q : Nat) : Int)) ∧ q < p.length ∧ b ≤ a ∧ -1 ≤ b ∧
      (∀ j, (h : j < q) → (j : Int) ≤ b ∧ p[p.length - 1 - j]'(by omega) = charZ t (b - j).toNat) ∧
      (∀ e : Int, b < e → e ≤ a → ¬EndsAt p t e)) _
    (fun s => (s.1 + 1).toNat * (p.length + 1) + (p.length - s.2.toNat)) ?_ _ _
    ⟨a, 0, rfl, hpos, by omega, by omega, fun j h => absurd h (by omega), fun e h1 h2 => by omega⟩ ?_
  · rintro s ⟨b, q, rfl, hq, hb, hb1, hm, hno⟩
    rcases rev_step t p tab hT b q hq (by omega) with ⟨h, e⟩ | ⟨h, heq, h2, e⟩ | ⟨h, heq, h2, e⟩ | ⟨h, hne, ⟨h2, e⟩ | ⟨h2, x, hx, hxq, e⟩⟩
    · refine .inr ⟨_, e, .inr ⟨rfl, fun e he ho => ?_⟩⟩
      by_cases hbe : b < e
      · exact hno e hbe he ho
      · have := ho.1
        omega
    · refine .inr ⟨_, e, .inl ⟨b, rfl, hb, ⟨by omega, fun j hj => ?_⟩, hno⟩⟩
      by_cases hjq : j < q
      · exact (hm j hjq).2
      · have : j = q := by omega
        subst this
        exact heq
    · refine .inl ⟨_, e, ⟨b, q + 1, rfl, h2, hb, hb1, fun j hj => ?_, hno⟩, ?_⟩
      · by_cases hjq : j < q
        · exact hm j hjq
        · have : j = q := by omega
          subst this
          exact ⟨by omega, heq⟩
      · simp only [Int.toNat_natCast]; omega
    · subst h2
      refine .inl ⟨_, e, ⟨b - 1, 0, rfl, hpos, by omega, by omega, fun j hj => absurd hj (by omega), fun e he1 he2 ho => ?_⟩, ?_⟩
      · by_cases hbe : b < e
        · exact hno e hbe he2 ho
        · have : e = b := by omega
          subst this
          exact hne (ho.2 0 hpos)
      · simp only [Int.toNat_natCast]
        exact measure_rev (N := 0) (by omega) (by omega)
    · have hx0 : x = 0 := by
        have := hz q h2 hq
        rw [hx] at this
        have := Option.some.inj this
        omega
      subst hx0
      refine .inl ⟨_, e, ⟨b - q, 0, rfl, hpos, by omega, by omega, fun j hj => absurd hj (by omega), fun e he1 he2 ho => ?_⟩, ?_⟩
      · by_cases hbe : b < e
        · exact hno e hbe he2 ho
        · by_cases hbe' : e = b
          · subst hbe'
            exact hne (ho.2 q hq)
          · have h1 := ho.2 0 hpos
            obtain ⟨j, hj⟩ : ∃ j : Nat, e = b - j := ⟨(b - e).toNat, by omega⟩
            subst hj
            have h2 := (hm j (by omega)).2
            have h3 : p[p.length - 1]'(by omega) = charZ t (b - j).toNat := by
              have := h1
              simp only [Nat.sub_zero] at this
              rw [this]; congr 1; omega
            exact hh j (by omega) (by omega) (h2.trans h3.symm)
      · simp only [Int.toNat_natCast]
        exact measure_rev (N := 0) (by omega) (by omega)
  · simp only [Int.toNat_natCast]
    rw [show ((a : Int) + 1).toNat = a + 1 by omega]
    exact measure_rev_init

/-- For a pattern without NUL, matches by end are occurrences. -/
theorem endsAt_iff (p t : List Byte) (hp : p ≠ []) (h0 : 0 ∉ p) (k : Nat) : EndsAt p t (k + p.length - 1) ↔ OccursAt p t k := by
  have hpos : 0 < p.length := List.length_pos_iff.mpr hp
  rw [occurs_iff]
  constructor
  · rintro ⟨h1, h2⟩
    have hall : ∀ j, j < p.length → t[k + j]? = p[j]? := by
      intro j hj
      have := h2 (p.length - 1 - j) (by omega)
      rw [show ((k : Int) + p.length - 1 - ((p.length - 1 - j : Nat) : Int)).toNat = k + j by omega] at this
      rw [List.getElem?_eq_getElem hj]
      simp only [show p.length - 1 - (p.length - 1 - j) = j by omega] at this
      unfold charZ at this
      cases hc : t[k + j]? with
      | some c => rw [hc] at this; simp at this; rw [this]
      | none =>
        rw [hc] at this
        simp at this
        have hmem := List.getElem_mem hj
        rw [this] at hmem
        exact absurd hmem h0
    refine ⟨?_, hall⟩
    have := hall (p.length - 1) (by omega)
    rw [List.getElem?_eq_getElem (by omega : p.length - 1 < p.length)] at this
    have := (List.getElem?_eq_some_iff.mp this).1
    omega
  · rintro ⟨h1, h2⟩
    refine ⟨by omega, fun j hj => ?_⟩
    have := h2 (p.length - 1 - j) (by omega)
    rw [List.getElem?_eq_getElem (by omega : p.length - 1 - j < p.length)] at this
    rw [show ((k : Int) + p.length - 1 - (j : Int)).toNat = k + (p.length - 1 - j) by omega]
    unfold charZ
    rw [this]; rfl

end Verif.StringBuilder
