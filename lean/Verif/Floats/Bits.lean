import Verif.Floats.Lemmas
/-!
# What `doubleToRawLongBits` returns
-/
namespace Verif.Floats

/-- Exponent and fraction of the number `v` of units of `2 ^ -(p + 1)`, packed; a zero comes
out as one. -/
def enc (f : Fmt) (v : Nat) : Nat :=
  if v = 0 then f.bias * 2 ^ f.p
  else (v.log2 + f.bias - (f.p + 1)) * 2 ^ f.p + (v * 2 ^ f.p / 2 ^ v.log2 - 2 ^ f.p)

theorem even_of_mul {a b : Nat} (h : 0 < b) : a * 2 ^ b % 2 = 0 := by
  obtain ⟨c, rfl⟩ : ∃ c, b = c + 1 := ⟨b - 1, by omega⟩
  rw [Nat.pow_succ, ← Nat.mul_assoc, Nat.mul_mod_left]

/-- The significand: `p + 1` digits. -/
theorem sig_range {v p : Nat} (hv : v ≠ 0) :
    2 ^ p ≤ v * 2 ^ p / 2 ^ v.log2 ∧ v * 2 ^ p / 2 ^ v.log2 < 2 ^ (p + 1) := by
  have hL := Nat.two_pow_pos v.log2
  have h1 := Nat.log2_self_le hv
  have h2 := Nat.lt_log2_self (n := v)
  constructor
  · rw [Nat.le_div_iff_mul_le hL, Nat.mul_comm v]
    exact Nat.mul_le_mul_left _ h1
  · rw [Nat.div_lt_iff_lt_mul hL]
    have : v * 2 ^ p < 2 ^ (v.log2 + 1) * 2 ^ p := Nat.mul_lt_mul_of_pos_right h2 (Nat.two_pow_pos p)
    calc v * 2 ^ p < 2 ^ (v.log2 + 1) * 2 ^ p := this
      _ = 2 ^ (p + 1) * 2 ^ v.log2 := by rw [← Nat.pow_add, ← Nat.pow_add]; congr 1; omega

/-- Its digits are those of `v`, from the second on, and zeros. -/
theorem sig_digit {v p c : Nat} (hc : c < p) :
    v * 2 ^ p / 2 ^ v.log2 / 2 ^ (p - 1 - c) % 2 =
      if c < v.log2 then v / 2 ^ (v.log2 - 1 - c) % 2 else 0 := by
  rw [Nat.div_div_eq_div_mul, ← Nat.pow_add]
  by_cases h : c < v.log2
  · rw [if_pos h]
    have e : 2 ^ (v.log2 + (p - 1 - c)) = 2 ^ (v.log2 - 1 - c) * 2 ^ p := by
      rw [← Nat.pow_add]; congr 1; omega
    rw [e, Nat.mul_div_mul_right _ _ (Nat.two_pow_pos p)]
  · rw [if_neg h]
    have e : 2 ^ p = 2 ^ (c + 1 - v.log2) * 2 ^ (v.log2 + (p - 1 - c)) := by
      rw [← Nat.pow_add]; congr 1; omega
    calc v * 2 ^ p / 2 ^ (v.log2 + (p - 1 - c)) % 2
        = v * (2 ^ (c + 1 - v.log2) * 2 ^ (v.log2 + (p - 1 - c))) / 2 ^ (v.log2 + (p - 1 - c)) % 2 := by
          rw [← e]
      _ = v * 2 ^ (c + 1 - v.log2) % 2 := by
          rw [← Nat.mul_assoc, Nat.mul_div_cancel _ (Nat.two_pow_pos _)]
      _ = 0 := even_of_mul (by omega)

theorem bitChar_congr {a b : Nat} (h : a % 2 = b % 2) : bitChar a = bitChar b := by
  unfold bitChar; rw [h]

/-- Packing an exponent and a significand. -/
theorem pack_top {p E M d : Nat} (h1 : 2 ^ p ≤ M) (h2 : M < 2 ^ (p + 1)) :
    (E * 2 ^ p + (M - 2 ^ p)) / 2 ^ (p + d) = E / 2 ^ d := by
  have hP := Nat.two_pow_pos p
  rw [Nat.pow_add, ← Nat.div_div_eq_div_mul]
  congr 1
  rw [Nat.add_comm, Nat.add_mul_div_right _ _ hP, Nat.div_eq_of_lt (by rw [Nat.pow_succ] at h2; omega),
    Nat.zero_add]

theorem pack_low {p E M c : Nat} (h1 : 2 ^ p ≤ M) (hE : 1 ≤ E) (hc : c < p) :
    (E * 2 ^ p + (M - 2 ^ p)) / 2 ^ (p - 1 - c) % 2 = M / 2 ^ (p - 1 - c) % 2 := by
  have e : E * 2 ^ p + (M - 2 ^ p) = M + 2 ^ (p - 1 - c) * ((E - 1) * 2 ^ (c + 1)) := by
    obtain ⟨e, rfl⟩ : ∃ e, E = e + 1 := ⟨E - 1, by omega⟩
    have h : 2 ^ (p - 1 - c) * (e * 2 ^ (c + 1)) = e * 2 ^ p := by
      rw [Nat.mul_left_comm, ← Nat.pow_add]; congr 2; omega
    rw [Nat.add_sub_cancel, h, Nat.add_mul]
    omega
  rw [e, Nat.add_mul_div_left _ _ (Nat.two_pow_pos _)]
  have := even_of_mul (a := E - 1) (b := c + 1) (by omega)
  omega

/-- The end of `digits`: exponent `E` and significand `M` go into the text. -/
theorem tail_ok {f : Fmt} (F : f.Fits) {z : Nat} {g : Nat → Option Char} {s n t i E M : Nat}
    {X : Nat → Char} {r : Nat → Option Char} (hn : 1 ≤ n) (hz : s + 1 + n ≤ z)
    (hX : ∀ t, t < s + n → g (at_ s t) = some (X t)) (hi : i = at_ s t ∨ (t = s ∧ i = s))
    (ht : t ≤ s + n) (hE1 : 1 ≤ E) (hE : E < 2 ^ f.w) (hM1 : 2 ^ f.p ≤ M) (hM2 : M < 2 ^ (f.p + 1))
    (hr : ∀ j, 1 ≤ j → j ≤ f.last → r j = some '0')
    (h1 : ∀ c, c < f.p → t + c < s + n → X (t + c) = bitChar (M / 2 ^ (f.p - 1 - c)))
    (h2 : ∀ c, c < f.p → s + n ≤ t + c → bitChar (M / 2 ^ (f.p - 1 - c)) = '0') :
    ∃ r', ((expLoop 64 (E : Int) f.w ⟨f.last + 2, r⟩).bind fun res =>
        mantLoop ⟨z, g⟩ (s + 1 + n) s f.p (f.w + 1) i res) = .ok ⟨f.last + 2, r'⟩ ∧
      r' 0 = r 0 ∧ r' (f.last + 1) = r (f.last + 1) ∧
      ∀ j, 1 ≤ j → j ≤ f.last →
        r' j = some (bitChar ((E * 2 ^ f.p + (M - 2 ^ f.p)) / 2 ^ (f.last - j))) := by
  have hl : f.last = f.p + f.w := rfl
  have hlen : len E < 64 := by
    have := len_le hE
    have := F.hw'
    omega
  have hE' : E < 2 ^ (f.w + 1) := by rw [Nat.pow_succ]; omega
  have ew : (f.w : Int) = ((f.w + 1 : Nat) : Int) - 1 := by omega
  rw [ew, expLoop_ok 64 E (f.w + 1) r hlen hE' (by omega)]
  obtain ⟨r1, e1, a1, a2, a3⟩ := intLoop_ok (z := f.last + 2) 64 E (f.w + 1) r hlen hE' (by omega)
  rw [e1, Outcome.bind_ok]
  obtain ⟨r2, e2, b1, b2, b3⟩ := mantLoop_ok (y := f.last + 2) hn hz hX f.p (f.w + 1) i t r1 hi ht
    (by omega)
  refine ⟨r2, e2, ?_, ?_, ?_⟩
  · rw [b1 0 (by omega), a3 0 (by omega) (by simpa using hE)]
  · rw [b1 _ (by omega), a1 _ (by omega)]
  · intro j hj1 hj2
    by_cases hjw : j ≤ f.w
    · have e3 : f.last - j = f.p + (f.w - j) := by omega
      rw [b1 j (by omega), e3, pack_top hM1 hM2]
      have e4 : f.w + 1 - 1 - j = f.w - j := by omega
      by_cases hb : 2 ^ (f.w - j) ≤ E
      · rw [a2 j (by omega) (by rw [e4]; exact hb), e4]
      · rw [a3 j (by omega) (by rw [e4]; omega), hr j hj1 hj2, Nat.div_eq_of_lt (by omega)]
        rfl
    · obtain ⟨c, rfl⟩ : ∃ c, j = f.w + 1 + c := ⟨j - (f.w + 1), by omega⟩
      have hc : c < f.p := by omega
      have e3 : f.last - (f.w + 1 + c) = f.p - 1 - c := by omega
      rw [e3, bitChar_congr (pack_low hM1 hE1 hc)]
      by_cases hlt : t + c < s + n
      · rw [b2 c hc hlt, h1 c hc hlt]
      · rw [b3 c hc (by omega), a1 _ (by omega), hr _ (by omega) hj2, h2 c hc (by omega)]

theorem digits_ok {f : Fmt} (F : f.Fits) {k : Nat} (hk : k ≠ 0) (hlt : k < 2 ^ 30 * 2 ^ f.unit)
    {gi gf go r : Nat → Option Char} (hgi : ∀ j, j < f.p + 1 → gi j = some '0')
    (hgf : ∀ j, j < f.p + 1 → gf j = some '0') (hgf' : gf (f.p + 1) = some '\x00')
    (hr : ∀ j, 1 ≤ j → j ≤ f.last → r j = some '0') :
    ∃ r', digits f k ⟨f.ints, gi⟩ ⟨f.p + 2, gf⟩ ⟨f.form, go⟩ ⟨f.last + 2, r⟩ =
        .ok ⟨f.last + 2, r'⟩ ∧
      r' 0 = r 0 ∧ r' (f.last + 1) = r (f.last + 1) ∧
      ∀ j, 1 ≤ j → j ≤ f.last → r' j = some (bitChar (enc f (seen f k) / 2 ^ (f.last - j))) := by
  have hP := Nat.two_pow_pos f.unit
  have hN : k / 2 ^ f.unit < 2 ^ 30 := by rw [Nat.div_lt_iff_lt_mul hP]; exact hlt
  have hVN := seen_int F k
  unfold digits
  have hfl : floorInt f k = .ok (k / 2 ^ f.unit) := by
    unfold floorInt; rw [if_pos (by omega)]
  rw [hfl, Outcome.bind_ok]
  generalize k / 2 ^ f.unit = N at hN hVN
  generalize hV : seen f k = V at hVN
  -- the number of digits of the integer part
  have hlenN : len N ≤ 30 := len_le hN
  obtain ⟨s, hs, hs1, hs2, hs3⟩ : ∃ s, (if N = 0 then Outcome.ok 1 else sizeLoop 64 N 0) = .ok s ∧
      1 ≤ s ∧ s ≤ 30 ∧ ((N = 0 ∧ s = 1) ∨ (N ≠ 0 ∧ 2 ^ (s - 1) ≤ N ∧ N < 2 ^ s)) := by
    by_cases h : N = 0
    · exact ⟨1, by rw [if_pos h], Nat.le_refl _, by omega, .inl ⟨h, rfl⟩⟩
    · refine ⟨len N, ?_, ?_, hlenN, .inr ⟨h, pow_le_of_len h, lt_len N⟩⟩
      · rw [if_neg h, sizeLoop_ok 64 N 0 (by omega), Nat.zero_add]
      · unfold len; rw [if_neg h]; omega
  rw [hs, Outcome.bind_ok]
  have hNs : N < 2 ^ s := by
    rcases hs3 with ⟨h, h'⟩ | ⟨_, _, h⟩
    · rw [h, h']; decide
    · exact h
  -- the digits before the point
  obtain ⟨g1, e1, a1, a2, a3⟩ := intLoop_ok (z := f.ints) 64 N s gi (by omega) hNs
    (by have := F.ints; omega)
  rw [e1, Outcome.bind_ok]
  let X : Nat → Char := fun t => bitChar (V / 2 ^ (s + f.p - t))
  have hX1 : ∀ t, t < s → g1 t = some (X t) := by
    intro t ht
    have e : V / 2 ^ (s + f.p - t) = N / 2 ^ (s - 1 - t) := by
      rw [← hVN, Nat.div_div_eq_div_mul, ← Nat.pow_add]; congr 2; omega
    show g1 t = some (bitChar (V / 2 ^ (s + f.p - t)))
    rw [e]
    rcases hs3 with ⟨h, h'⟩ | ⟨_, h, _⟩
    · rw [h, Nat.zero_div, a3 t ht (by rw [h]; exact Nat.two_pow_pos _), hgi t (by omega)]
      rfl
    · refine a2 t ht (Nat.le_trans ?_ h)
      exact Nat.pow_le_pow_right (by decide) (by omega)
  -- the digits after it
  obtain ⟨c, n, e2, n1, n2, b1, b2, b3⟩ := frac_ok F hk hlt hgf
  rw [hV] at b1
  rw [e2, Outcome.bind_ok]
  have hX2 : ∀ j, j ≤ f.p → c j = some (X (s + j)) := by
    intro j hj
    show c j = some (bitChar (V / 2 ^ (s + f.p - (s + j))))
    have e : s + f.p - (s + j) = f.p - j := by omega
    rw [b1 j hj, e]
  have hX0 : ∀ t, s + n ≤ t → t ≤ s + f.p → X t = '0' := by
    intro t h1 h2
    obtain ⟨j, rfl⟩ : ∃ j, t = s + j := ⟨t - s, by omega⟩
    have := hX2 j (by omega)
    rw [b2 j (by omega) (by omega)] at this
    exact (Option.some.inj this).symm
  -- the form with the point
  have hform := F.form
  obtain ⟨g2, e3, c1, c2⟩ := copyLoop_ok (a := f.ints) (b := f.form) (src := g1) (s := 0) s go
    (by have := F.ints; omega) (by omega) (fun j hj => ⟨_, hX1 j hj⟩)
  rw [e3, Outcome.bind_ok, wr_nat _ (by omega), Outcome.bind_ok]
  obtain ⟨g3, e4, d1, d2⟩ := copyLoop_ok (a := f.p + 2) (b := f.form) (src := c) (s := s + 1) (n + 1)
    (put g2 s '.') (by omega) (by omega) (fun j hj => by
      by_cases h : j ≤ f.p
      · exact ⟨_, hX2 j h⟩
      · have : j = f.p + 1 := by omega
        rw [this, b3]; exact ⟨_, hgf'⟩)
  show ∃ r', ((copyLoop ⟨f.p + 2, c⟩ (s + 1) (n + 1) ⟨f.form, put g2 s '.'⟩).bind fun form =>
    (findOne form (s + 1 + n + 1) 0).bind fun one =>
      let e : Int := (if N = 0 then (s : Int) - one else (s : Int) - one - 1) + f.bias
      (expLoop 64 e f.w ⟨f.last + 2, r⟩).bind fun res =>
        mantLoop form (s + 1 + n) s f.p (f.w + 1) (one + 1) res) = _ ∧ _
  rw [e4, Outcome.bind_ok]
  have f1 : ∀ j, j < s → g3 j = some (X j) := by
    intro j hj
    rw [d2 j (by omega), put_ne _ _ (by omega)]
    have := c1 j hj
    rw [Nat.zero_add] at this
    rw [this, hX1 j hj]
  have f2 : g3 s = some '.' := by rw [d2 s (by omega), put_same]
  have f3 : ∀ j, j < n → g3 (s + 1 + j) = some (X (s + j)) := by
    intro j hj
    rw [d1 j (by omega), hX2 j (by omega)]
  have f4 : ∃ ch, g3 (s + 1 + n) = some ch ∧ ch ≠ '1' := by
    rw [d1 n (by omega)]
    by_cases h : n ≤ f.p
    · exact ⟨'0', b2 n (Nat.le_refl _) (by omega), by decide⟩
    · have : n = f.p + 1 := by omega
      rw [this, b3]
      exact ⟨_, hgf', by decide⟩
  have hX : ∀ t, t < s + n → g3 (at_ s t) = some (X t) := by
    intro t ht
    unfold at_
    by_cases h : t < s
    · rw [if_pos h]; exact f1 t h
    · rw [if_neg h]
      have e : t + 1 = s + 1 + (t - s) := by omega
      have e' : s + (t - s) = t := by omega
      rw [e, f3 (t - s) (by omega), e']
  have hVlt : V < 2 ^ (s + f.p + 1) := by
    have hp := Nat.two_pow_pos (f.p + 1)
    rw [← hVN, Nat.div_lt_iff_lt_mul hp, ← Nat.pow_add] at hNs
    exact hNs
  have hb := F.hb
  have hw := F.hw
  by_cases hV0 : V = 0
  · -- nothing but zeros
    have hXz : ∀ t, X t = '0' := by
      intro t
      show bitChar (V / _) = '0'
      rw [hV0, Nat.zero_div]; rfl
    have hN0 : N = 0 := by rw [← hVN, hV0, Nat.zero_div]
    have hs' : s = 1 := by
      rcases hs3 with ⟨_, h⟩ | ⟨h, _⟩
      · exact h
      · exact absurd hN0 h
    rw [findOne_miss (s + 1 + n + 1) 0 (by omega) (by
      intro j _ hj
      by_cases h1 : j < s
      · exact ⟨_, f1 j h1, by rw [hXz]; decide⟩
      · by_cases h2 : j = s
        · rw [h2]; exact ⟨_, f2, by decide⟩
        · by_cases h3 : j = s + 1 + n
          · rw [h3]; exact f4
          · have e : j = s + 1 + (j - s - 1) := by omega
            rw [e]
            exact ⟨_, f3 _ (by omega), by rw [hXz]; decide⟩), Outcome.bind_ok]
    have he : (if N = 0 then (s : Int) - ((1 : Nat) : Int) else (s : Int) - ((1 : Nat) : Int) - 1) + f.bias
        = ((f.bias : Nat) : Int) := by
      rw [if_pos hN0, hs']; omega
    simp only [he]
    have hd : ∀ cc, cc < f.p → bitChar (2 ^ f.p / 2 ^ (f.p - 1 - cc)) = '0' := by
      intro cc hcc
      have e : 2 ^ f.p = 1 * 2 ^ (cc + 1) * 2 ^ (f.p - 1 - cc) := by
        rw [Nat.one_mul, ← Nat.pow_add]; congr 1; omega
      rw [e, Nat.mul_div_cancel _ (Nat.two_pow_pos _)]
      exact bitChar_zero (even_of_mul (by omega))
    obtain ⟨r', e5, q1, q2, q3⟩ := tail_ok F (z := f.form) (g := g3) (s := s) (n := n) (t := 1)
      (i := 1 + 1) (E := f.bias) (M := 2 ^ f.p) (X := X) (r := r) n1 (by omega) hX
      (.inl (by unfold at_; rw [if_neg (by omega)])) (by omega) (by omega) (by omega)
      (Nat.le_refl _) (Nat.pow_lt_pow_right (by decide) (by omega)) hr
      (fun cc hcc _ => by rw [hXz, hd cc hcc]) (fun cc hcc _ => hd cc hcc)
    refine ⟨r', e5, q1, q2, ?_⟩
    intro j h1 h2
    rw [q3 j h1 h2]
    unfold enc
    rw [if_pos hV0, Nat.sub_self, Nat.add_zero]
  · -- the highest digit
    have hL1 := Nat.log2_self_le hV0
    have hL2 := Nat.lt_log2_self (n := V)
    have hLs : V.log2 ≤ s + f.p := by
      have := (Nat.log2_lt hV0).2 hVlt
      omega
    have hXone : X (s + f.p - V.log2) = '1' := by
      show bitChar (V / 2 ^ (s + f.p - (s + f.p - V.log2))) = '1'
      have e : s + f.p - (s + f.p - V.log2) = V.log2 := by omega
      rw [e]
      apply bitChar_one
      have : V / 2 ^ V.log2 = 1 := by
        apply Nat.div_eq_of_lt_le
        · omega
        · rw [Nat.pow_succ] at hL2; omega
      rw [this]
    have hXzero : ∀ t, t < s + f.p - V.log2 → X t = '0' := by
      intro t ht
      show bitChar (V / 2 ^ (s + f.p - t)) = '0'
      rw [Nat.div_eq_of_lt]
      · rfl
      · exact Nat.lt_of_lt_of_le hL2 (Nat.pow_le_pow_right (by decide) (by omega))
    have ht0 : s + f.p - V.log2 < s + n := by
      rcases Nat.lt_or_ge (s + f.p - V.log2) (s + n) with h | h
      · exact h
      · have := hX0 _ h (by omega)
        rw [hXone] at this
        exact absurd this (by decide)
    generalize ht : s + f.p - V.log2 = t at hXone hXzero ht0
    rw [findOne_hit (s + 1 + n + 1) 0 (at_ s t) (Nat.zero_le _) (by unfold at_; split <;> omega)
      (by omega) (by
        intro j _ hj
        unfold at_ at hj
        by_cases h1 : j < s
        · refine ⟨_, f1 j h1, ?_⟩
          rw [hXzero j (by split at hj <;> omega)]; decide
        · by_cases h2 : j = s
          · rw [h2]; exact ⟨_, f2, by decide⟩
          · have hts : ¬ t < s := by intro h; rw [if_pos h] at hj; omega
            rw [if_neg hts] at hj
            have e : j = s + 1 + (j - s - 1) := by omega
            rw [e]
            refine ⟨_, f3 _ (by omega), ?_⟩
            rw [hXzero _ (by omega)]; decide) (by rw [hX t ht0, hXone]), Outcome.bind_ok]
    have hst : (N = 0 ∧ s = 1 ∧ V.log2 ≤ f.p) ∨ (N ≠ 0 ∧ V.log2 = s + f.p) := by
      rcases hs3 with ⟨h, h'⟩ | ⟨h, h', _⟩
      · refine .inl ⟨h, h', ?_⟩
        have : V < 2 ^ (f.p + 1) := by
          rw [h] at hVN
          exact (Nat.div_eq_zero_iff_lt (Nat.two_pow_pos _)).1 hVN
        have := (Nat.log2_lt hV0).2 this
        omega
      · refine .inr ⟨h, ?_⟩
        have h3 : 2 ^ (s + f.p) ≤ V := by
          rw [← hVN, Nat.le_div_iff_mul_le (Nat.two_pow_pos _), ← Nat.pow_add] at h'
          have e : s - 1 + (f.p + 1) = s + f.p := by omega
          rw [e] at h'
          exact h'
        have := (Nat.le_log2 hV0).2 h3
        omega
    have he : (if N = 0 then (s : Int) - ((at_ s t : Nat) : Int)
        else (s : Int) - ((at_ s t : Nat) : Int) - 1) + f.bias
        = ((V.log2 + f.bias - (f.p + 1) : Nat) : Int) := by
      rcases hst with ⟨h, h', h2⟩ | ⟨h, h2⟩
      · rw [if_pos h]
        unfold at_
        rw [if_neg (by omega)]
        omega
      · rw [if_neg h]
        unfold at_
        rw [if_pos (by omega)]
        omega
    simp only [he]
    have hsig := sig_range (p := f.p) hV0
    obtain ⟨r', e5, q1, q2, q3⟩ := tail_ok F (z := f.form) (g := g3) (s := s) (n := n) (t := t + 1)
      (i := at_ s t + 1) (E := V.log2 + f.bias - (f.p + 1)) (M := V * 2 ^ f.p / 2 ^ V.log2) (X := X)
      (r := r) n1 (by omega) hX
      (by
        unfold at_
        by_cases h2 : t < s
        · rw [if_pos h2]
          by_cases h3 : t + 1 < s
          · rw [if_pos h3]; exact .inl rfl
          · exact .inr (by omega)
        · rw [if_neg h2, if_neg (by omega)]; exact .inl rfl)
      (by omega) (by omega) (by omega) hsig.1 hsig.2 hr
      (fun cc hcc hlt => by
        show bitChar (V / 2 ^ (s + f.p - (t + 1 + cc))) = _
        apply bitChar_congr
        rw [sig_digit hcc, if_pos (by omega)]
        have e : s + f.p - (t + 1 + cc) = V.log2 - 1 - cc := by omega
        rw [e])
      (fun cc hcc hge => by
        apply bitChar_zero
        rw [sig_digit hcc]
        by_cases h : cc < V.log2
        · rw [if_pos h]
          have h3 := hX0 (t + 1 + cc) hge (by omega)
          have e : s + f.p - (t + 1 + cc) = V.log2 - 1 - cc := by omega
          have h4 : bitChar (V / 2 ^ (V.log2 - 1 - cc)) = '0' := by rw [← e]; exact h3
          unfold bitChar at h4
          by_cases h5 : V / 2 ^ (V.log2 - 1 - cc) % 2 = 1
          · rw [if_pos h5] at h4; exact absurd h4 (by decide)
          · have h6 := Nat.mod_lt (V / 2 ^ (V.log2 - 1 - cc)) (y := 2) (by decide)
            generalize V / 2 ^ (V.log2 - 1 - cc) % 2 = q at h5 h6
            omega
        · rw [if_neg h])
    refine ⟨r', e5, q1, q2, ?_⟩
    intro j h1 h2
    rw [q3 j h1 h2]
    unfold enc
    rw [if_neg hV0]

/-! ### The text and the number -/

theorem enc_lt {f : Fmt} (F : f.Fits) {k : Nat} (hlt : k < 2 ^ 30 * 2 ^ f.unit) :
    enc f (seen f k) < 2 ^ f.last := by
  have hw := F.hw
  have hP := Nat.two_pow_pos f.p
  have e : 2 ^ f.last = 2 ^ f.w * 2 ^ f.p := by
    rw [← Nat.pow_add]; congr 1; unfold Fmt.last; omega
  unfold enc
  by_cases h : seen f k = 0
  · rw [if_pos h, e]
    exact Nat.mul_lt_mul_of_pos_right (by omega) hP
  · rw [if_neg h, e]
    have h1 := sig_range (p := f.p) h
    have h2 : (seen f k).log2 ≤ f.p + 30 := by
      have h3 : seen f k < 2 ^ (f.p + 1 + 30) := by
        have := seen_int F k
        have h4 : k / 2 ^ f.unit < 2 ^ 30 := by
          rw [Nat.div_lt_iff_lt_mul (Nat.two_pow_pos _)]; exact hlt
        rw [← this, Nat.div_lt_iff_lt_mul (Nat.two_pow_pos _)] at h4
        rw [Nat.pow_add, Nat.mul_comm]
        exact h4
      have := (Nat.log2_lt h).2 h3
      omega
    have h3 : (seen f k).log2 + f.bias - (f.p + 1) + 1 ≤ 2 ^ f.w := by omega
    have h4 := Nat.mul_le_mul_right (2 ^ f.p) h3
    rw [Nat.add_mul, Nat.one_mul] at h4
    have h5 : 2 ^ (f.p + 1) = 2 ^ f.p * 2 := Nat.pow_succ ..
    omega

/-- A text of digits of `B` is summed to `B`. -/
theorem sumLoop_ok {t : List Char} {B : Nat} : ∀ (n i : Nat) (temp sum : Int),
    (∀ j, j < n → t[i + j]? = some (bitChar (B / 2 ^ (n - 1 - j)))) →
    sumLoop t n i temp sum = .ok (sum + ((B % 2 ^ n : Nat) : Int))
  | 0, i, temp, sum, _ => by
    unfold sumLoop; rw [Nat.pow_zero, Nat.mod_one]; simp
  | n + 1, i, temp, sum, h => by
    unfold sumLoop charAt
    have h0 := h 0 (by omega)
    rw [Nat.add_zero, Nat.sub_zero, Nat.add_sub_cancel] at h0
    rw [h0]
    show sumLoop t n (i + 1) _ _ = _
    rw [sumLoop_ok (B := B) n (i + 1) _ _ (fun j hj => by
      have := h (j + 1) (by omega)
      have e1 : i + 1 + j = i + (j + 1) := by omega
      have e2 : n - 1 - j = n + 1 - 1 - (j + 1) := by omega
      rw [e1, e2, this])]
    congr 1
    have hm : B % 2 ^ (n + 1) = B % 2 ^ n + 2 ^ n * (B / 2 ^ n % 2) := by
      rw [Nat.pow_succ, Nat.mod_mul]
    rw [hm]
    have hcast : ((B % 2 ^ n + 2 ^ n * (B / 2 ^ n % 2) : Nat) : Int) =
        ((B % 2 ^ n : Nat) : Int) + (2 : Int) ^ n * ((B / 2 ^ n % 2 : Nat) : Int) := by
      rw [Int.natCast_add, Int.natCast_mul, Int.natCast_pow]
      rfl
    rw [hcast]
    unfold bitChar
    by_cases hb : B / 2 ^ n % 2 = 1
    · rw [if_pos hb, hb]
      simp only [if_true, if_neg (show ¬ ('1' : Char) = '0' by decide)]
      simp only [Int.one_mul]
      omega
    · rw [if_neg hb]
      have hb0 : B / 2 ^ n % 2 = 0 := by
        have := Nat.mod_lt (B / 2 ^ n) (y := 2) (by decide)
        generalize B / 2 ^ n % 2 = q at hb this
        omega
      rw [hb0]
      simp only [if_true, Int.zero_mul]
      omega

/-- The text and what comes of it, once the last block holds the digits of `B`. -/
theorem text_sum {f : Fmt} (F : f.Fits) {r : Nat → Option Char} {B : Nat} {neg : Bool}
    (h0 : r 0 = some (if neg then '1' else '0')) (hB : B < 2 ^ f.last)
    (hd : ∀ j, 1 ≤ j → j ≤ f.last → r j = some (bitChar (B / 2 ^ (f.last - j))))
    (hz : r (f.last + 1) = some '\x00') :
    (((Mem.cstr ⟨f.last + 2, r⟩ 0 (f.last + 2)).bind fun t =>
      (sumLoop t f.last 1 0 0).bind fun sum =>
      (charAt t 0).bind fun c => .ok (if c = '1' then -1 * sum else sum)) : Outcome Int) =
      .ok (if neg then -(B : Int) else B) := by
  have hsign : ∃ c, r 0 = some c ∧ c ≠ '\x00' := by
    refine ⟨_, h0, ?_⟩
    cases neg <;> decide
  obtain ⟨t, e, hl, ht⟩ := cstr_ok (n := f.last + 2) (g := r) (f.last + 1) 0 (by omega)
    (fun j _ hj => by
      by_cases h : j = 0
      · rw [h]; exact hsign
      · refine ⟨_, hd j (by omega) (by omega), ?_⟩
        rcases bitChar_cases (B / 2 ^ (f.last - j)) with h | h <;> rw [h] <;> decide)
    (by rw [Nat.zero_add]; exact hz)
  rw [e, Outcome.bind_ok]
  have hlast : f.last = f.p + f.w := rfl
  have := F.hp
  rw [sumLoop_ok (B := B) f.last 1 0 0 (fun j hj => by
    rw [ht (1 + j) (by omega), Nat.zero_add, hd (1 + j) (by omega) (by omega)]
    congr 4
    omega)]
  rw [Outcome.bind_ok]
  unfold charAt
  have h1 := ht 0 (by omega)
  rw [Nat.zero_add, h0] at h1
  rw [h1]
  show Outcome.ok _ = _
  rw [Nat.mod_eq_of_lt hB]
  congr 1
  cases neg
  · simp
  · simp

/-- The blocks as `binText` prepares them. -/
theorem binText_eq {f : Fmt} (F : f.Fits) (x : Flt) :
    ∃ gi gf go r, (∀ j, j < f.p + 1 → gi j = some '0') ∧ (∀ j, j < f.p + 1 → gf j = some '0') ∧
      gf (f.p + 1) = some '\x00' ∧ (∀ j, j ≤ f.last → r j = some '0') ∧
      r (f.last + 1) = some '\x00' ∧
      binText f x = ((match x with
        | .nan => Mem.strcpy ⟨f.last + 2, r⟩ 0 ('0' :: List.replicate f.last '1')
        | .inf neg => Mem.strcpy ⟨f.last + 2, r⟩ 0
            ((if neg then '1' else '0') :: (List.replicate f.w '1' ++ List.replicate f.p '0'))
        | .fin neg k =>
          (Mem.wr ⟨f.last + 2, r⟩ 0 (if neg ∧ k ≠ 0 then '1' else '0')).bind fun res =>
            if k = 0 then .ok res
            else digits f k ⟨f.ints, gi⟩ ⟨f.p + 2, gf⟩ ⟨f.form, go⟩ res).bind fun res =>
          res.cstr 0 (f.last + 2)) := by
  have h1 := F.ints
  have h2 := F.form
  refine ⟨put (fun j => if j < f.p + 1 then some '0' else none) (f.ints - 1) '\x00',
    put (fun j => if j < f.p + 1 then some '0' else none) (f.p + 1) '\x00',
    put (fun j => if j < f.last + 1 then some '0' else none) (f.form - 1) '\x00',
    put (fun j => if j < f.last + 1 then some '0' else none) (f.last + 1) '\x00',
    ?_, ?_, put_same _ _ _, ?_, put_same _ _ _, ?_⟩
  · intro j hj
    rw [put_ne _ _ (by omega)]
    exact if_pos hj
  · intro j hj
    rw [put_ne _ _ (by omega)]
    exact if_pos hj
  · intro j hj
    rw [put_ne _ _ (by omega)]
    exact if_pos (by omega)
  · unfold binText malloc
    rw [fill_ok _ (by omega), Outcome.bind_ok, fill_ok _ (by omega), Outcome.bind_ok,
      fill_ok _ (by omega), Outcome.bind_ok, fill_ok _ (by omega), Outcome.bind_ok,
      wr_nat _ (by omega), Outcome.bind_ok, wr_nat _ (by omega), Outcome.bind_ok,
      wr_nat _ (by omega), Outcome.bind_ok, wr_nat _ (by omega), Outcome.bind_ok]
    cases x <;> rfl

/-- The bits of a finite value other than zero, below 2^30 in magnitude. -/
theorem rawBits_fin {f : Fmt} (F : f.Fits) {neg : Bool} {k : Nat} (hk : k ≠ 0)
    (hlt : k < 2 ^ 30 * 2 ^ f.unit) :
    rawBits f (.fin neg k) =
      .ok (if neg then -(enc f (seen f k) : Int) else (enc f (seen f k) : Int)) := by
  obtain ⟨gi, gf, go, r, h1, h2, h3, h4, h5, e⟩ := binText_eq F (.fin neg k)
  unfold rawBits
  rw [e]
  have ew := wr_nat (n := f.last + 2) (g := r) (i := 0) (if neg ∧ k ≠ 0 then '1' else '0') (by omega)
  simp only
  rw [show ((0 : Int)) = ((0 : Nat) : Int) from rfl, ew, Outcome.bind_ok, if_neg hk]
  obtain ⟨r', e2, q1, q2, q3⟩ := digits_ok F hk hlt (go := go) (r := put r 0 (if neg ∧ k ≠ 0 then '1' else '0'))
    h1 h2 h3 (fun j a b => by rw [put_ne _ _ (by omega)]; exact h4 j b)
  rw [e2, Outcome.bind_ok]
  refine text_sum F (neg := neg) ?_ (enc_lt F hlt) q3 ?_
  · rw [q1, put_same]
    congr 1
    cases neg <;> simp [hk]
  · rw [q2, put_ne _ _ (by omega), h5]

/-- Zero, of either sign. -/
theorem rawBits_zero {f : Fmt} (F : f.Fits) (neg : Bool) : rawBits f (.fin neg 0) = .ok 0 := by
  obtain ⟨gi, gf, go, r, h1, h2, h3, h4, h5, e⟩ := binText_eq F (.fin neg 0)
  unfold rawBits
  rw [e]
  have ew := wr_nat (n := f.last + 2) (g := r) (i := 0) (if neg ∧ (0 : Nat) ≠ 0 then '1' else '0')
    (by omega)
  simp only
  rw [show ((0 : Int)) = ((0 : Nat) : Int) from rfl, ew, Outcome.bind_ok, if_pos trivial, Outcome.bind_ok]
  have := text_sum F (r := put r 0 (if neg ∧ (0 : Nat) ≠ 0 then '1' else '0')) (B := 0) (neg := false)
    (by rw [put_same]; cases neg <;> rfl) (Nat.two_pow_pos _)
    (fun j a b => by rw [put_ne _ _ (by omega), h4 j b, Nat.zero_div]; rfl)
    (by rw [put_ne _ _ (by omega), h5])
  exact this

/-- The number of a text `('0' or '1') ++ ones ++ zeros`. -/
theorem rawBits_text {f : Fmt} (F : f.Fits) {r : Nat → Option Char} (neg : Bool) (a b : Nat)
    (hab : a + b = f.last) :
    (((Mem.strcpy ⟨f.last + 2, r⟩ 0 ((if neg then '1' else '0') ::
        (List.replicate a '1' ++ List.replicate b '0'))).bind fun res =>
      (res.cstr 0 (f.last + 2)).bind fun t =>
      (sumLoop t f.last 1 0 0).bind fun sum =>
      (charAt t 0).bind fun c => .ok (if c = '1' then -1 * sum else sum)) : Outcome Int) =
      .ok (if neg then -(((2 ^ a - 1) * 2 ^ b : Nat) : Int) else (((2 ^ a - 1) * 2 ^ b : Nat) : Int)) := by
  obtain ⟨g, e, h1, h2, h3⟩ := strcpy_ok (n := f.last + 2) ((if neg then '1' else '0') ::
    (List.replicate a '1' ++ List.replicate b '0')) r 0 (by simp; omega)
  rw [e, Outcome.bind_ok]
  have hA := Nat.two_pow_pos a
  have hB := Nat.two_pow_pos b
  have hlen : ((if neg then '1' else '0') :: (List.replicate a '1' ++ List.replicate b '0')).length =
      f.last + 1 := by simp; omega
  refine text_sum F (neg := neg) ?_ ?_ ?_ ?_
  · have := h2 0 (by simp)
    rw [Nat.zero_add] at this
    rw [this]
    rfl
  · rw [← hab, Nat.pow_add]
    exact Nat.mul_lt_mul_of_pos_right (by omega) hB
  · intro j hj1 hj2
    have := h2 j (by rw [hlen]; omega)
    rw [Nat.zero_add] at this
    rw [this]
    obtain ⟨i, rfl⟩ : ∃ i, j = i + 1 := ⟨j - 1, by omega⟩
    rw [List.getElem?_cons_succ]
    by_cases hi : i < a
    · rw [List.getElem?_append_left (by simpa using hi), List.getElem?_replicate, if_pos hi]
      congr 1
      symm
      apply bitChar_one
      have e1 : f.last - (i + 1) = b + (a - 1 - i) := by omega
      rw [e1, Nat.pow_add, ← Nat.div_div_eq_div_mul, Nat.mul_div_cancel _ hB]
      -- ones
      have e2 : 2 ^ a - 1 = (2 ^ (a - 1 - i) - 1) + 2 ^ (a - 1 - i) * (2 ^ (i + 1) - 1) := by
        have hx : 2 ^ a = 2 ^ (a - 1 - i) * 2 ^ (i + 1) := by
          rw [← Nat.pow_add]; congr 1; omega
        have hy := Nat.two_pow_pos (a - 1 - i)
        have hz := Nat.two_pow_pos (i + 1)
        rw [Nat.mul_sub, Nat.mul_one, hx]
        have := Nat.le_mul_of_pos_right (2 ^ (a - 1 - i)) hz
        omega
      rw [e2, Nat.add_mul_div_left _ _ (Nat.two_pow_pos _),
        Nat.div_eq_of_lt (by have := Nat.two_pow_pos (a - 1 - i); omega), Nat.zero_add, Nat.pow_succ]
      have := Nat.two_pow_pos i
      omega
    · rw [List.getElem?_append_right (by simpa using hi), List.getElem?_replicate,
        if_pos (by simp; omega)]
      congr 1
      symm
      apply bitChar_zero
      have e1 : 2 ^ b = 2 ^ (b - (f.last - (i + 1))) * 2 ^ (f.last - (i + 1)) := by
        rw [← Nat.pow_add]; congr 1; omega
      rw [e1, ← Nat.mul_assoc, Nat.mul_div_cancel _ (Nat.two_pow_pos _)]
      exact even_of_mul (by omega)
  · have h4 := h3
    rw [Nat.zero_add, hlen] at h4
    exact h4

theorem rawBits_inf {f : Fmt} (F : f.Fits) (neg : Bool) :
    rawBits f (.inf neg) =
      .ok (if neg then -(((2 ^ f.w - 1) * 2 ^ f.p : Nat) : Int)
        else (((2 ^ f.w - 1) * 2 ^ f.p : Nat) : Int)) := by
  obtain ⟨gi, gf, go, r, h1, h2, h3, h4, h5, e⟩ := binText_eq F (.inf neg)
  unfold rawBits
  rw [e]
  have := rawBits_text F (r := r) neg f.w f.p (by unfold Fmt.last; omega)
  rw [← this]
  simp only
  cases Mem.strcpy _ _ _ <;> rfl

theorem rawBits_nan {f : Fmt} (F : f.Fits) : rawBits f .nan = .ok ((2 ^ f.last - 1 : Nat) : Int) := by
  obtain ⟨gi, gf, go, r, h1, h2, h3, h4, h5, e⟩ := binText_eq F .nan
  unfold rawBits
  rw [e]
  have := rawBits_text F (r := r) false f.last 0 rfl
  simp only [List.replicate_zero, List.append_nil, Nat.pow_zero, Nat.mul_one] at this
  rw [if_neg (by decide), if_neg (by decide)] at this
  rw [← this]
  simp only
  cases Mem.strcpy _ _ _ <;> rfl

/-- From 2^30 on the conversion to `int` is undefined. -/
theorem rawBits_big {f : Fmt} (F : f.Fits) (neg : Bool) {k : Nat} (h : 2 ^ 30 * 2 ^ f.unit ≤ k) :
    rawBits f (.fin neg k) = .ub := by
  have hP := Nat.two_pow_pos f.unit
  have hk : k ≠ 0 := by
    have := Nat.mul_pos (show 0 < 2 ^ 30 by decide) hP
    omega
  obtain ⟨gi, gf, go, r, h1, h2, h3, h4, h5, e⟩ := binText_eq F (.fin neg k)
  unfold rawBits
  rw [e]
  have ew := wr_nat (n := f.last + 2) (g := r) (i := 0) (if neg ∧ k ≠ 0 then '1' else '0') (by omega)
  simp only
  rw [show ((0 : Int)) = ((0 : Nat) : Int) from rfl, ew, Outcome.bind_ok, if_neg hk]
  have hdig : ∀ res, digits f k ⟨f.ints, gi⟩ ⟨f.p + 2, gf⟩ ⟨f.form, go⟩ res = .ub := by
    intro res
    unfold digits
    by_cases hN : k / 2 ^ f.unit < 2 ^ 31
    · have hfl : floorInt f k = .ok (k / 2 ^ f.unit) := by unfold floorInt; rw [if_pos hN]
      rw [hfl, Outcome.bind_ok]
      have hN1 : k / 2 ^ f.unit ≠ 0 := by
        have : 2 ^ 30 ≤ k / 2 ^ f.unit := by rw [Nat.le_div_iff_mul_le hP]; exact h
        omega
      have hl := len_le hN
      rw [if_neg hN1, sizeLoop_ok 64 _ 0 (by omega), Outcome.bind_ok, Nat.zero_add]
      obtain ⟨g', e2, _⟩ := intLoop_ok (z := f.ints) 64 (k / 2 ^ f.unit) (len (k / 2 ^ f.unit)) gi
        (by omega) (lt_len _) (by have := F.ints; omega)
      rw [e2, Outcome.bind_ok]
      have hfr : fracLoop f (f.p + 1) k 0 ⟨f.p + 2, gf⟩ = .ub := by
        unfold fracLoop
        rw [if_neg hk]
        have : ¬ 2 * k / 2 ^ f.unit < 2 ^ 31 := by
          rw [Nat.div_lt_iff_lt_mul hP]; omega
        unfold floorInt
        rw [if_neg this]
        rfl
      rw [hfr]
      rfl
    · have hfl : floorInt f k = .ub := by unfold floorInt; rw [if_neg hN]
      rw [hfl]
      rfl
  rw [hdig]
  rfl

end Verif.Floats
