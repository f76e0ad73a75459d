import Verif.FloatText.Short
/-!
# Decimals that survive, floats that do not
-/
namespace Verif.FloatText
open Verif.Floats

/-- Half a place is the largest error. -/
theorem nearest_error {f : Fmt} {a b : Nat} (hb : 0 < b) :
    2 * (a * 2 ^ f.unit) ≤ (2 * divEven (a * 2 ^ f.unit) (b * 2 ^ place f a b) + 1) * (b * 2 ^ place f a b) ∧
    2 * divEven (a * 2 ^ f.unit) (b * 2 ^ place f a b) * (b * 2 ^ place f a b)
      ≤ 2 * (a * 2 ^ f.unit) + b * 2 ^ place f a b :=
  divEven_range (Nat.mul_pos hb (Nat.two_pow_pos _))

theorem survive_num {a b N T U P k e : Nat} (hb : 0 < b) (hN : N < P) (hT : T < U)
    (hr : a * T = N * b) (he : e = 1 ∨ P * (b * e) ≤ a * U)
    (h1 : 2 * (a * U) ≤ 2 * (k * b) + b * e) (h2 : 2 * (k * b) ≤ 2 * (a * U) + b * e)
    (he0 : 0 < e) :
    2 * (k * T) < (2 * N + 1) * U ∧ 2 * N * U < 2 * (k * T) + U := by
  -- the error is below half a unit of the text
  have hsmall : b * e * T < b * U := by
    rcases he with rfl | he
    · rw [Nat.mul_one]; exact Nat.mul_lt_mul_of_pos_left hT hb
    · have h3 : P * (b * e) * T ≤ a * U * T := Nat.mul_le_mul_right _ he
      have e1 : a * U * T = N * (b * U) := by rw [Nat.mul_right_comm, hr, Nat.mul_assoc]
      rcases Nat.lt_or_ge (b * e * T) (b * U) with h | h
      · exact h
      · exfalso
        have h4 : P * (b * U) ≤ P * (b * e * T) := Nat.mul_le_mul_left _ h
        have e2 : P * (b * e * T) = P * (b * e) * T := by rw [Nat.mul_assoc P]
        have hU : 0 < b * U := Nat.mul_pos hb (by omega)
        have h5 : N * (b * U) < P * (b * U) := Nat.mul_lt_mul_of_pos_right hN hU
        omega
  have h3 : 2 * (a * U) * T ≤ (2 * (k * b) + b * e) * T := Nat.mul_le_mul_right _ h1
  have h4 : 2 * (k * b) * T ≤ (2 * (a * U) + b * e) * T := Nat.mul_le_mul_right _ h2
  have e1 : 2 * (a * U) * T = b * (2 * N * U) := by
    have : 2 * (a * U) * T = 2 * U * (a * T) := by grind
    rw [this, hr]; grind
  have e2 : (2 * (k * b) + b * e) * T = b * (2 * (k * T)) + b * e * T := by grind
  have e3 : 2 * (k * b) * T = b * (2 * (k * T)) := by grind
  have e4 : (2 * (a * U) + b * e) * T = b * (2 * N * U) + b * e * T := by rw [Nat.add_mul, e1]
  rw [e1, e2] at h3
  rw [e3, e4] at h4
  refine ⟨?_, ?_⟩
  · refine Nat.lt_of_mul_lt_mul_left (a := b) ?_
    have : b * ((2 * N + 1) * U) = b * (2 * N * U) + b * U := by grind
    omega
  · refine Nat.lt_of_mul_lt_mul_left (a := b) ?_
    have : b * (2 * (k * T) + U) = b * (2 * (k * T)) + b * U := by grind
    omega

/-- A decimal with 15 places below `2 ^ 52` of them is printed again. -/
theorem survive64 {neg : Bool} {a b N : Nat} (hb : 0 < b) (hN : N < 2 ^ 52) (hr : a * 10 ^ 15 = N * b) :
    ∃ k, nearest f64 neg a b = .fin neg k ∧ divEven (k * 10 ^ 15) (2 ^ f64.unit) = N := by
  obtain ⟨h1, h2⟩ := nearest_error (f := f64) (a := a) hb
  have hp := place_le (f := f64) (a := a) hb
  have hdef : nearest f64 neg a b =
      if largest f64 < divEven (a * 2 ^ f64.unit) (b * 2 ^ place f64 a b) * 2 ^ place f64 a b then .inf neg
      else .fin neg (divEven (a * 2 ^ f64.unit) (b * 2 ^ place f64 a b) * 2 ^ place f64 a b) := rfl
  rw [f64_p] at hp
  have hU : 10 ^ 15 * 2 ^ 1000 < 2 ^ f64.unit := by rw [f64_unit]; decide +kernel
  have hT : 10 ^ 15 < 2 ^ f64.unit := Nat.lt_of_le_of_lt (Nat.le_mul_of_pos_right _ (Nat.two_pow_pos _)) hU
  have hl : 2 ^ 53 * 2 ^ f64.unit ≤ largest f64 := by rw [f64_unit]; decide +kernel
  generalize place f64 a b = e at *
  generalize divEven (a * 2 ^ f64.unit) (b * 2 ^ e) = q at *
  generalize 2 ^ f64.unit = U at *
  have hP : 2 ^ 52 ≤ 2 ^ 53 := by decide
  generalize 2 ^ 52 = P at *
  generalize 2 ^ 53 = Q at *
  have e1 : q * (b * 2 ^ e) = q * 2 ^ e * b := by grind
  rw [Nat.add_mul, Nat.one_mul, Nat.mul_assoc 2 q, e1] at h1
  rw [Nat.mul_assoc 2 q, e1] at h2
  have he : (2 : Nat) ^ e = 1 ∨ P * (b * 2 ^ e) ≤ a * U := by
    by_cases h : e = 0
    · left; rw [h]
    · exact .inr (hp h)
  obtain ⟨h3, h4⟩ := survive_num hb hN hT hr he h1 h2 (Nat.two_pow_pos _)
  refine ⟨q * 2 ^ e, ?_, divEven_eq h3 h4⟩
  have h5 : 2 * N * U ≤ 2 * (Q * U) - 2 * U := by
    rw [← Nat.mul_sub, ← Nat.sub_one_mul, Nat.mul_assoc]
    exact Nat.mul_le_mul_left _ (Nat.mul_le_mul_right _ (by omega))
  have h6 : 1 * U ≤ Q * U := Nat.mul_le_mul_right _ (by omega)
  have h7 : q * 2 ^ e ≤ q * 2 ^ e * 10 ^ 15 := Nat.le_mul_of_pos_right _ (by decide)
  rw [Nat.add_mul, Nat.one_mul] at h3
  rw [hdef, if_neg (by omega)]

/-! ### Whole numbers -/

theorem whole_value {f : Fmt} (F : f.Fits) (neg : Bool) {n : Nat} (h : n ≤ 2 ^ (f.p + 1))
    (hu : f.p ≤ f.unit) (hl : n * 2 ^ f.unit ≤ largest f) : IsValue f (.fin neg (n * 2 ^ f.unit)) := by
  have hw : 4 ≤ 2 ^ f.w := by have := F.hw; omega
  have hp := F.hp
  have key : ∀ q e, q ≤ 2 ^ (f.p + 1) → (e = 0 ∨ 2 ^ f.p ≤ q) → n * 2 ^ f.unit = q * 2 ^ e →
      IsValue f (.fin neg (n * 2 ^ f.unit)) := by
    intro q e h1 h2 h3
    rw [h3] at hl ⊢
    obtain ⟨b, _, h4, h5⟩ := bits_of neg (by omega) h1 h2 hw hl
    exact ⟨b, h4, h5⟩
  by_cases h0 : n = 0
  · exact key 0 0 (by omega) (.inl rfl) (by rw [h0, Nat.zero_mul, Nat.zero_mul])
  · have h1 := Nat.log2_self_le h0
    have h2 : n < 2 ^ (n.log2 + 1) := Nat.lt_log2_self
    by_cases hlog : n.log2 ≤ f.p
    · obtain ⟨d, hd⟩ : ∃ d, n.log2 + d = f.p := ⟨f.p - n.log2, by omega⟩
      refine key (n * 2 ^ d) (f.unit - d) ?_ (.inr ?_) ?_
      · have : n * 2 ^ d ≤ 2 ^ (n.log2 + 1) * 2 ^ d := Nat.mul_le_mul_right _ (Nat.le_of_lt h2)
        rw [← Nat.pow_add, show n.log2 + 1 + d = f.p + 1 by omega] at this
        exact this
      · have : 2 ^ n.log2 * 2 ^ d ≤ n * 2 ^ d := Nat.mul_le_mul_right _ h1
        rw [← Nat.pow_add, hd] at this
        exact this
      · rw [Nat.mul_assoc, ← Nat.pow_add, show d + (f.unit - d) = f.unit by omega]
    · have : 2 ^ (f.p + 1) ≤ 2 ^ n.log2 := Nat.pow_le_pow_right (by decide) (by omega)
      exact key n f.unit h (.inr (by rw [Nat.pow_succ] at this; omega)) rfl

theorem whole_value32 (neg : Bool) {n : Nat} (h : n ≤ 2 ^ 24) : IsValue f32 (.fin neg (n * 2 ^ f32.unit)) :=
  whole_value f32_fits neg h (by decide) (Nat.le_trans (Nat.mul_le_mul_right _ h) (by decide +kernel))

theorem zero_value {f : Fmt} (F : f.Fits) (neg : Bool) : IsValue f (.fin neg 0) := by
  have h0 := two_w_ge F
  have hp := F.hp
  obtain ⟨b, _, h1, h2⟩ := bits_mag (f := f) (e := 0) (m := 0) (ev := True) neg (by omega) (by omega)
    (Nat.two_pow_pos _) (fun _ => rfl)
  exact ⟨b, h1, h2⟩

theorem multiple_num {k c A B C T U : Nat} (hk : k = A * c) (hT : T = B * C) (hU : U = A * B) :
    k * T = c * C * U := by
  subst hk hT hU
  grind

theorem fixed_multiple {neg : Bool} {k : Nat} (hk : IsValue f64 (.fin neg k)) (h : 2 ^ 1059 ∣ k) :
    nearest f64 neg (divEven (k * 10 ^ 15) (2 ^ f64.unit)) (10 ^ 15) = .fin neg k := by
  obtain ⟨c, hc⟩ := h
  exact fixed_exact f64_fits (c := c * 5 ^ 15) hk
    (multiple_num (A := 2 ^ 1059) (B := 2 ^ 15) hc (by decide) (by rw [f64_unit, ← Nat.pow_add]))

/-- Rounding cannot reach a whole number that is not the nearest. -/
theorem not_nearest {f : Fmt} (F : f.Fits) (neg : Bool) {N n : Nat} (hu : f.p ≤ f.unit)
    (hl : 2 ^ (f.p + 1) * 2 ^ f.unit ≤ largest f) (hn : n < 2 ^ (f.p + 1)) (hne : N ≠ n) :
    nearest f neg N 1 ≠ .fin neg (n * 2 ^ f.unit) := by
  intro h
  have hw : 4 ≤ 2 ^ f.w := by have := F.hw; omega
  have hp := F.hp
  have hr := nearest_rounded (f := f) (by omega) hw neg (a := N) (b := 1) (by decide)
  rw [h] at hr
  unfold Rounded at hr
  split at hr
  · cases hr
  · obtain ⟨k, hk, _, hbest⟩ := hr
    injection hk with _ hk
    have hU := Nat.two_pow_pos f.unit
    rw [← hk] at hbest
    unfold gap at hbest
    rcases Nat.lt_or_ge (2 ^ (f.p + 1)) N with hN | hN
    · have hv := whole_value F neg (n := 2 ^ (f.p + 1)) (Nat.le_refl _) hu hl
      have := (hbest neg _ hv).1
      rw [Nat.mul_one, Nat.mul_one] at this
      have h1 : 2 ^ (f.p + 1) * 2 ^ f.unit < N * 2 ^ f.unit := Nat.mul_lt_mul_of_pos_right hN hU
      have h2 : n * 2 ^ f.unit < 2 ^ (f.p + 1) * 2 ^ f.unit := Nat.mul_lt_mul_of_pos_right hn hU
      omega
    · have hv := whole_value F neg (n := N) hN hu
        (Nat.le_trans (Nat.mul_le_mul_right _ hN) hl)
      have := (hbest neg _ hv).1
      rw [Nat.mul_one, Nat.mul_one] at this
      have h3 : N * 2 ^ f.unit = n * 2 ^ f.unit := by omega
      exact hne (Nat.eq_of_mul_eq_mul_right hU h3)

theorem short_six {f : Fmt} {k : Nat} (neg : Bool) (hk : k ≠ 0) :
    ∃ n x, Denotes (shortText f (.fin neg k)) neg n x ∧ SixDigits f k n x := by
  obtain ⟨x, v, y, u, ht, h5, h6, hu, hc, h1, h2⟩ := shortText_six (f := f) neg hk
  obtain ⟨n, j, hd, hv, hj⟩ := sixText_denotes neg x h6
  rw [ht]
  refine ⟨n, _, hd, ?_⟩
  have hD := scaleDen_pos f (5 - y)
  have hr := divEven_range (a := scaleNum k (5 - y)) hD
  rw [← hu] at hr
  have hnear : 2 * ((u * scaleDen f (5 - y) : Nat) - (scaleNum k (5 - y) : Int)).natAbs ≤ scaleDen f (5 - y) := by
    obtain ⟨h3, h4⟩ := hr
    rw [Nat.add_mul, Nat.one_mul, Nat.mul_assoc] at h3
    rw [Nat.mul_assoc] at h4
    generalize u * scaleDen f (5 - y) = z at *
    omega
  have hab : (y ≤ 5 ∧ scaleNum k (5 - y) = k * 10 ^ (5 - y).toNat ∧ scaleDen f (5 - y) = 2 ^ f.unit) ∨
      (5 < y ∧ scaleNum k (5 - y) = k ∧ scaleDen f (5 - y) = 2 ^ f.unit * 10 ^ (y - 5).toNat) := by
    unfold scaleNum scaleDen
    by_cases h : y ≤ 5
    · rw [if_pos (by omega), if_pos (by omega)]; exact .inl ⟨h, rfl, rfl⟩
    · rw [if_neg (by omega), if_neg (by omega)]
      exact .inr ⟨by omega, rfl, by rw [show -(5 - y) = y - 5 by omega]⟩
  rcases hc with ⟨rfl, rfl⟩ | ⟨rfl, rfl, rfl⟩
  · exact ⟨x, _, _, v, j, hab, h1, h2, hnear, hv, rfl⟩
  · refine ⟨y, _, _, 10 ^ 6, j + 1, hab, h1, h2, hnear, ?_, by omega⟩
    rw [Nat.pow_succ 10 j, ← Nat.mul_assoc, ← hv]

/-- Whole numbers of seven digits or more that do not end in 0 are not read back. -/
theorem float_lost {neg : Bool} {n : Nat} (h1 : 10 ^ 6 ≤ n) (h2 : n < 2 ^ 24) (h3 : n % 10 ≠ 0) :
    ∃ d, readNum (shortText f32 (.fin neg (n * 2 ^ f32.unit))) = some d ∧
      numValue f32 d ≠ .fin neg (n * 2 ^ f32.unit) := by
  have hU := Nat.two_pow_pos f32.unit
  obtain ⟨n', x, hd, y, a, b, m, j, hab, ha1, ha2, hm, hmn, hx⟩ :=
    short_six (f := f32) (k := n * 2 ^ f32.unit) neg (Nat.ne_of_gt (Nat.mul_pos (by omega) hU))
  refine ⟨_, readNum_ok hd, ?_⟩
  rcases hab with ⟨hy, rfl, rfl⟩ | ⟨hy, rfl, rfl⟩
  · exfalso
    have h4 : 10 ^ 6 * 2 ^ f32.unit ≤ n * 2 ^ f32.unit := Nat.mul_le_mul_right _ h1
    have h5 : n * 2 ^ f32.unit ≤ n * 2 ^ f32.unit * 10 ^ (5 - y).toNat :=
      Nat.le_mul_of_pos_right _ (Nat.pow_pos (by decide))
    exact absurd (Nat.le_trans h4 h5) (Nat.not_le.2 ha2)
  · have hr : Ratio n' x (n' * 10 ^ x.toNat) 1 := .inl ⟨by omega, rfl, rfl⟩
    rw [(numValue_dec hr).1]
    refine not_nearest f32_fits neg (by decide) (by decide +kernel) h2 ?_
    intro h
    apply h3
    obtain ⟨c, hc⟩ : ∃ c, x.toNat = c + 1 := ⟨x.toNat - 1, by omega⟩
    rw [← h, hc, Nat.pow_succ, ← Nat.mul_assoc, Nat.mul_mod_left]

theorem lost (x : Flt) (hl : ∃ d, readNum (shortText f32 x) = some d ∧ numValue f32 d ≠ x) :
    ∃ o, parseFloat (toText (ofFloat x)) = .ok o ∧ o.val ≠ x := by
  obtain ⟨d, hd, hne⟩ := hl
  refine ⟨ofFloat (numValue f32 d), ?_, hne⟩
  unfold parseFloat toText ofFloat
  simp only
  rw [hd]

theorem kept {x y : Flt} {d : Num} (h : readNum (shortText f32 x) = some d) (h1 : numValue f32 d = y)
    (h2 : y = x) : ∃ o, parseFloat (toText (ofFloat x)) = .ok o ∧ o.val = x := by
  refine ⟨ofFloat y, ?_, h2⟩
  unfold parseFloat toText ofFloat
  simp only
  rw [h]
  simp only
  rw [h1]

theorem float_kept {n : Nat} (neg : Bool) (hn : n < 10 ^ 6) (h0 : n ≠ 0) :
    ∃ o, parseFloat (toText (ofFloat (.fin neg (n * 2 ^ f32.unit)))) = .ok o ∧
      o.val = .fin neg (n * 2 ^ f32.unit) := by
  have hr : Ratio n 0 n 1 := .inl ⟨by decide, (Nat.mul_one n).symm, rfl⟩
  have h24 : n ≤ 2 ^ 24 := by omega
  have hv := whole_value32 neg h24
  have ht := shortText_whole (f := f32) neg hn h0
  have hd := readNum_ok (decimal_denotes neg n)
  rw [← ht] at hd
  exact kept hd (numValue_dec hr).1 (nearest_exact f32_fits neg (by decide) hv (Nat.mul_one _).symm)

end Verif.FloatText
