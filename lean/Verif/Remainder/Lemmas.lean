import Verif.Remainder.Model
import Verif.Remainder.Spec
import Verif.FloatText.Nearest
/-!
# The steps of `IEEERemainder` that do not round
-/
namespace Verif.Remainder
open Verif.Floats Verif.FloatText

variable {f : Fmt}

theorem norm (f : Fmt) (e : Nat) : ∀ m, m < 2 ^ (f.p + 1) → ∃ q e', e' ≤ e ∧ q < 2 ^ (f.p + 1) ∧ (e' = 0 ∨ 2 ^ f.p ≤ q) ∧ q * 2 ^ e' = m * 2 ^ e := by
  induction e with
  | zero => exact fun m hm => ⟨m, 0, Nat.le_refl _, hm, .inl rfl, rfl⟩
  | succ e ih =>
    intro m hm
    by_cases h : 2 ^ f.p ≤ m
    · exact ⟨m, e + 1, Nat.le_refl _, hm, .inr h, rfl⟩
    · obtain ⟨q, e', h1, h2, h3, h4⟩ := ih (m * 2) (by rw [Nat.pow_succ]; omega)
      exact ⟨q, e', by omega, h2, h3, by rw [h4, Nat.pow_succ, Nat.mul_assoc, Nat.mul_comm 2]⟩

theorem isValue_scaled (F : f.Fits) (neg : Bool) {m e : Nat} (hm : m < 2 ^ (f.p + 1)) (he : e ≤ 2 ^ f.w - 3) : IsValue f (.fin neg (m * 2 ^ e)) := by
  obtain ⟨q, e', h1, h2, h3, h4⟩ := norm f e m hm
  have hw := F.hw
  have hp := F.hp
  have hl : q * 2 ^ e' ≤ largest f := by
    unfold largest
    exact Nat.mul_le_mul (by omega) (Nat.pow_le_pow_right (by decide) (by omega))
  obtain ⟨b, _, hb1, hb2⟩ := bits_of neg (by omega) (by omega) h3 (by omega) hl
  exact ⟨b, hb1, by rw [hb2, h4]⟩

theorem nearest_scaled (F : f.Fits) (neg : Bool) {a b m e : Nat} (hb : 0 < b) (hm : m < 2 ^ (f.p + 1)) (he : e ≤ 2 ^ f.w - 3)
    (h : a * 2 ^ f.unit = m * 2 ^ e * b) : nearest f neg a b = .fin neg (m * 2 ^ e) :=
  nearest_exact F neg hb (isValue_scaled F neg hm he) h

theorem unit_le (F : f.Fits) : f.p ≤ f.unit ∧ f.unit + 1 ≤ 2 ^ f.w - 3 := by
  have h1 := two_w F
  have h2 := F.hb
  have h3 : f.unit = f.bias - 1 + f.p := rfl
  omega

/-- How far the rounded quotient is off. -/
theorem divEven_near (a b : Nat) (hb : 0 < b) : 2 * (divEven a b * b) ≤ 2 * a + b ∧ 2 * a ≤ 2 * (divEven a b * b) + b := by
  have h1 := Nat.div_add_mod a b
  have h2 := Nat.mod_lt a hb
  have h3 : a / b * b = b * (a / b) := Nat.mul_comm _ _
  have h4 : (a / b + 1) * b = a / b * b + b := by rw [Nat.add_mul, Nat.one_mul]
  unfold divEven
  split
  · omega
  · split
    · omega
    · split <;> omega

/-- The rounded quotient of small numbers lies on the right side of every half. -/
theorem quot_near (F : f.Fits) (neg : Bool) {a b e h : Nat} (ha : a < 2 ^ f.p) (hb : b < 2 ^ f.p) (hb0 : 0 < b)
    (h1 : 2 * h * b < 2 * a + b) (h2 : 2 * a < (2 * h + 1) * b) :
    ∃ R, nearest f neg (a * 2 ^ e) (b * 2 ^ e) = .fin neg R ∧ 2 * R < (2 * h + 1) * 2 ^ f.unit ∧ 2 * h * 2 ^ f.unit < 2 * R + 2 ^ f.unit := by
  obtain ⟨hu1, hu2⟩ := unit_le F
  have hU : 2 ^ f.p ≤ 2 ^ f.unit := Nat.pow_le_pow_right (by decide) hu1
  have he := Nat.two_pow_pos e
  have hB : 0 < b * 2 ^ e := Nat.mul_pos hb0 he
  generalize hE : place f (a * 2 ^ e) (b * 2 ^ e) = E
  have hdef : nearest f neg (a * 2 ^ e) (b * 2 ^ e) =
      if largest f < divEven (a * 2 ^ e * 2 ^ f.unit) (b * 2 ^ e * 2 ^ E) * 2 ^ E then .inf neg
      else .fin neg (divEven (a * 2 ^ e * 2 ^ f.unit) (b * 2 ^ e * 2 ^ E) * 2 ^ E) := by rw [← hE]; rfl
  have hn := divEven_near (a * 2 ^ e * 2 ^ f.unit) (b * 2 ^ e * 2 ^ E) (Nat.mul_pos hB (Nat.two_pow_pos _))
  generalize divEven (a * 2 ^ e * 2 ^ f.unit) (b * 2 ^ e * 2 ^ E) = D at hdef hn
  -- without the scale
  have hn1 : 2 * (D * 2 ^ E * b) ≤ 2 * (a * 2 ^ f.unit) + b * 2 ^ E := by
    have : 2 ^ e * (2 * (D * 2 ^ E * b)) ≤ 2 ^ e * (2 * (a * 2 ^ f.unit) + b * 2 ^ E) := by
      have e1 : 2 ^ e * (2 * (D * 2 ^ E * b)) = 2 * (D * (b * 2 ^ e * 2 ^ E)) := by grind
      have e2 : 2 ^ e * (2 * (a * 2 ^ f.unit) + b * 2 ^ E) = 2 * (a * 2 ^ e * 2 ^ f.unit) + b * 2 ^ e * 2 ^ E := by grind
      rw [e1, e2]; exact hn.1
    exact Nat.le_of_mul_le_mul_left this he
  have hn2 : 2 * (a * 2 ^ f.unit) ≤ 2 * (D * 2 ^ E * b) + b * 2 ^ E := by
    have : 2 ^ e * (2 * (a * 2 ^ f.unit)) ≤ 2 ^ e * (2 * (D * 2 ^ E * b) + b * 2 ^ E) := by
      have e1 : 2 ^ e * (2 * (D * 2 ^ E * b) + b * 2 ^ E) = 2 * (D * (b * 2 ^ e * 2 ^ E)) + b * 2 ^ e * 2 ^ E := by grind
      have e2 : 2 ^ e * (2 * (a * 2 ^ f.unit)) = 2 * (a * 2 ^ e * 2 ^ f.unit) := by grind
      rw [e1, e2]; exact hn.2
    exact Nat.le_of_mul_le_mul_left this he
  -- the error is below a unit of the quotient's denominator
  have herr : b * 2 ^ E < 2 ^ f.unit := by
    by_cases h0 : E = 0
    · rw [h0, Nat.pow_zero, Nat.mul_one]; omega
    · have hle := place_le (f := f) (a := a * 2 ^ e) hB (by rw [hE]; exact h0)
      rw [hE] at hle
      have h3 : 2 ^ e * (2 ^ f.p * (b * 2 ^ E)) ≤ 2 ^ e * (a * 2 ^ f.unit) := by
        have e1 : 2 ^ e * (2 ^ f.p * (b * 2 ^ E)) = 2 ^ f.p * (b * 2 ^ e * 2 ^ E) := by grind
        have e2 : 2 ^ e * (a * 2 ^ f.unit) = a * 2 ^ e * 2 ^ f.unit := by grind
        rw [e1, e2]; exact hle
      have h4 := Nat.le_of_mul_le_mul_left h3 he
      have h5 : a * 2 ^ f.unit < 2 ^ f.p * 2 ^ f.unit := Nat.mul_lt_mul_of_pos_right ha (Nat.two_pow_pos _)
      exact Nat.lt_of_mul_lt_mul_left (Nat.lt_of_le_of_lt h4 h5)
  generalize hR : D * 2 ^ E = R at hdef hn1 hn2
  generalize hUU : 2 ^ f.unit = U at *
  have k1 : 2 * R < (2 * h + 1) * U := by
    have h3 : (2 * a + 1) * U ≤ (2 * h + 1) * b * U := Nat.mul_le_mul_right _ h2
    have h4 : (2 * a + 1) * U = 2 * (a * U) + U := by rw [Nat.add_mul, Nat.one_mul, Nat.mul_assoc]
    have h5 : b * (2 * R) < b * ((2 * h + 1) * U) := by
      have e1 : b * (2 * R) = 2 * (R * b) := by grind
      have e2 : b * ((2 * h + 1) * U) = (2 * h + 1) * b * U := by grind
      omega
    exact Nat.lt_of_mul_lt_mul_left h5
  have k2 : 2 * h * U < 2 * R + U := by
    have h3 : (2 * h * b + 1) * U ≤ (2 * a + b) * U := Nat.mul_le_mul_right _ h1
    have h4 : (2 * h * b + 1) * U = 2 * h * b * U + U := by rw [Nat.add_mul, Nat.one_mul]
    have h6 : (2 * a + b) * U = 2 * (a * U) + b * U := by rw [Nat.add_mul, Nat.mul_assoc]
    have h5 : b * (2 * h * U) < b * (2 * R + U) := by
      have e1 : b * (2 * h * U) = 2 * h * b * U := by grind
      have e2 : b * (2 * R + U) = 2 * (R * b) + b * U := by grind
      omega
    exact Nat.lt_of_mul_lt_mul_left h5
  refine ⟨R, ?_, k1, k2⟩
  rw [hdef, if_neg]
  -- not beyond the largest
  have hh : h ≤ a := by
    by_cases hha : h ≤ a
    · exact hha
    · have : (a + 1) * b ≤ h * b := Nat.mul_le_mul_right _ (by omega)
      have h7 : (a + 1) * b = a * b + b := by rw [Nat.add_mul, Nat.one_mul]
      have h8 : a ≤ a * b := Nat.le_mul_of_pos_right _ hb0
      have h9 : 2 * h * b = 2 * (h * b) := Nat.mul_assoc ..
      omega
  have h10 : (2 * h + 1) * U ≤ 2 ^ (f.p + 1) * U := Nat.mul_le_mul_right _ (by rw [Nat.pow_succ]; omega)
  have h11 : 2 ^ (f.p + 1) * U ≤ 2 ^ f.p * 2 ^ (2 ^ f.w - 3) := by
    rw [← hUU, ← Nat.pow_add, ← Nat.pow_add]
    exact Nat.pow_le_pow_right (by decide) (by omega)
  have h12 : 2 ^ f.p * 2 ^ (2 ^ f.w - 3) ≤ largest f := by
    unfold largest
    refine Nat.mul_le_mul_right _ ?_
    have := Nat.two_pow_pos f.p
    rw [Nat.pow_succ]
    omega
  omega

/-- The whole number that the code takes. -/
theorem quot_round (F : f.Fits) (neg : Bool) {a b e h : Nat} (ha : a < 2 ^ f.p) (hb : b < 2 ^ f.p) (hb0 : 0 < b)
    (h1 : 2 * h * b ≤ 2 * a + b) (h2 : 2 * a < (2 * h + 1) * b) :
    roundF f (nearest f neg (a * 2 ^ e) (b * 2 ^ e)) = .fin neg (h * 2 ^ f.unit) := by
  have hUp := Nat.two_pow_pos f.unit
  have key : ∀ R, 2 * R < (2 * h + 1) * 2 ^ f.unit → 2 * h * 2 ^ f.unit ≤ 2 * R + 2 ^ f.unit → roundF f (.fin neg R) = .fin neg (h * 2 ^ f.unit) := by
    intro R k1 k2
    unfold roundF
    dsimp only
    have : (2 * R + 2 ^ f.unit) / (2 * 2 ^ f.unit) = h := by
      have e1 : (2 * h + 1) * 2 ^ f.unit = 2 * h * 2 ^ f.unit + 2 ^ f.unit := by rw [Nat.add_mul, Nat.one_mul]
      have e2 : h * (2 * 2 ^ f.unit) = 2 * h * 2 ^ f.unit := by grind
      have e3 : (h + 1) * (2 * 2 ^ f.unit) = 2 * h * 2 ^ f.unit + 2 * 2 ^ f.unit := by grind
      apply Nat.le_antisymm
      · refine Nat.le_of_lt_succ ((Nat.div_lt_iff_lt_mul (by omega)).2 ?_)
        show 2 * R + 2 ^ f.unit < (h + 1) * (2 * 2 ^ f.unit)
        omega
      · exact (Nat.le_div_iff_mul_le (by omega)).2 (by omega)
    rw [this]
  by_cases ht : 2 * h * b = 2 * a + b
  · obtain ⟨hu1, hu2⟩ := unit_le F
    have hp := F.hp
    have h0 : 0 < h := by
      rcases Nat.eq_zero_or_pos h with h0 | h0
      · rw [h0] at ht; omega
      · exact h0
    have hha : h ≤ a + 1 := by
      by_cases hh : h ≤ a + 1
      · exact hh
      · have : (a + 2) * b ≤ h * b := Nat.mul_le_mul_right _ (by omega)
        have h7 : (a + 2) * b = a * b + 2 * b := by rw [Nat.add_mul]
        have h8 : a ≤ a * b := Nat.le_mul_of_pos_right _ hb0
        have h9 : 2 * h * b = 2 * (h * b) := Nat.mul_assoc ..
        omega
    have hexp : 2 ^ f.unit = 2 ^ (f.unit - 1) * 2 := by rw [← Nat.pow_succ]; congr 1; omega
    have hq := nearest_scaled F neg (a := a * 2 ^ e) (b := b * 2 ^ e) (m := 2 * h - 1) (e := f.unit - 1)
      (Nat.mul_pos hb0 (Nat.two_pow_pos _)) (by rw [Nat.pow_succ]; omega) (by omega) (by
        have h3 : (2 * h - 1) * b + b = 2 * h * b := by
          have : 2 * h = (2 * h - 1) + 1 := by omega
          conv => rhs; rw [this, Nat.add_mul, Nat.one_mul]
        have h4 : 2 * a = (2 * h - 1) * b := by omega
        rw [hexp]
        have e1 : a * 2 ^ e * (2 ^ (f.unit - 1) * 2) = 2 * a * (2 ^ e * 2 ^ (f.unit - 1)) := by grind
        rw [e1, h4]
        grind)
    rw [hq]
    apply key
    · have e1 : 2 * ((2 * h - 1) * 2 ^ (f.unit - 1)) = (2 * h - 1) * 2 ^ f.unit := by rw [hexp]; grind
      rw [e1]
      exact Nat.mul_lt_mul_of_pos_right (by omega) hUp
    · have e1 : 2 * ((2 * h - 1) * 2 ^ (f.unit - 1)) = (2 * h - 1) * 2 ^ f.unit := by rw [hexp]; grind
      have e2 : 2 * h = (2 * h - 1) + 1 := by omega
      have e3 : 2 * h * 2 ^ f.unit = (2 * h - 1) * 2 ^ f.unit + 2 ^ f.unit := by
        conv => lhs; rw [e2, Nat.add_mul, Nat.one_mul]
      omega
  · obtain ⟨R, hR, k1, k2⟩ := quot_near F neg (e := e) ha hb hb0 (by omega) h2
    rw [hR]
    exact key R k1 (Nat.le_of_lt k2)

/-- The remainder that the code computes. -/
theorem remainder_scaled (F : f.Fits) (s t : Bool) {a b e h : Nat} (ha : a < 2 ^ f.p) (hb : b < 2 ^ f.p) (hb0 : 0 < b) (he : e ≤ 2 ^ f.w - 3)
    (h1 : 2 * h * b ≤ 2 * a + b) (h2 : 2 * a < (2 * h + 1) * b) :
    ieeeRemainder f (.fin s (a * 2 ^ e)) (.fin t (b * 2 ^ e)) =
      if a = h * b then .fin false 0 else .fin (decide ((if s then (h * b : Int) else a) < (if s then (a : Int) else h * b))) (((a : Int) - h * b).natAbs * 2 ^ e) := by
  have hep := Nat.two_pow_pos e
  have hUp := Nat.two_pow_pos f.unit
  have hhb : 2 * h * b = 2 * (h * b) := Nat.mul_assoc ..
  have hhb1 : (2 * h + 1) * b = 2 * (h * b) + b := by rw [Nat.add_mul, Nat.one_mul, hhb]
  have hpw : 2 ^ (f.p + 1) = 2 ^ f.p * 2 := Nat.pow_succ ..
  have hdiv : divF f (.fin s (a * 2 ^ e)) (.fin t (b * 2 ^ e)) = nearest f (s != t) (a * 2 ^ e) (b * 2 ^ e) := by
    unfold divF
    dsimp only
    rw [if_neg]
    exact Nat.ne_of_gt (Nat.mul_pos hb0 hep)
  have hmul : mulF f (.fin (s != t) (h * 2 ^ f.unit)) (.fin t (b * 2 ^ e)) = .fin s (h * b * 2 ^ e) := by
    unfold mulF
    dsimp only
    have hs : ((s != t) != t) = s := by cases s <;> cases t <;> rfl
    rw [hs]
    exact nearest_scaled F s (Nat.mul_pos hUp hUp) (by omega) he (by grind)
  unfold ieeeRemainder
  rw [hdiv, quot_round F _ ha hb hb0 h1 h2, hmul]
  unfold subF
  dsimp only
  by_cases hz : a = h * b
  · rw [if_pos hz, ← hz, if_pos (by omega)]
    cases s <;> rfl
  · rw [if_neg hz]
    have hne : a * 2 ^ e ≠ h * b * 2 ^ e := fun h => hz (Nat.eq_of_mul_eq_mul_right hep h)
    have hlt : ∀ x y : Nat, x * 2 ^ e < y * 2 ^ e ↔ x < y := fun x y => Nat.mul_lt_mul_right hep
    have habs : ((a * 2 ^ e : Nat) - (h * b * 2 ^ e : Nat) : Int).natAbs = ((a : Int) - h * b).natAbs * 2 ^ e := by
      have : ((a * 2 ^ e : Nat) - (h * b * 2 ^ e : Nat) : Int) = ((a : Int) - h * b) * (2 ^ e : Nat) := by
        push_cast
        rw [Int.sub_mul]
      rw [this, Int.natAbs_mul, Int.natAbs_natCast]
    have hcast : ((h * b : Nat) : Int) = (h : Int) * b := by push_cast; rfl
    have hsmall : ((a : Int) - h * b).natAbs < 2 ^ (f.p + 1) := by omega
    have hlt1 := hlt a (h * b)
    have hlt2 := hlt (h * b) a
    cases s with
    | false =>
      simp only [Bool.false_eq_true, if_false]
      rw [if_neg (by omega), habs]
      rw [nearest_scaled F _ hUp hsmall he rfl]
      congr 1
      rw [decide_eq_decide]
      omega
    | true =>
      simp only [if_true]
      rw [if_neg (by omega)]
      have habs' : (-((a * 2 ^ e : Nat) : Int) - -((h * b * 2 ^ e : Nat) : Int)).natAbs = ((a : Int) - h * b).natAbs * 2 ^ e := by
        rw [← habs]
        omega
      rw [habs', nearest_scaled F _ hUp hsmall he rfl]
      congr 1
      rw [decide_eq_decide]
      omega

end Verif.Remainder
