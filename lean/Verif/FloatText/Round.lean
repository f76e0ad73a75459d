import Verif.FloatText.Nearest
/-!
# Texts read back
-/
namespace Verif.FloatText
open Verif.Floats

theorem f64_unit : f64.unit = 1074 := rfl
theorem f64_p : f64.p = 52 := rfl
theorem f64_w : f64.w = 11 := rfl
theorem f32_unit : f32.unit = 149 := rfl

theorem value_le {f : Fmt} {neg : Bool} {k : Nat} (h : IsValue f (.fin neg k)) :
    ∃ e m, e < 2 ^ f.w - 1 ∧ m < 2 ^ f.p ∧ k = mag f e m := by
  rcases value_cases h with h' | ⟨_, h'⟩ | ⟨_, e, m, he, hm, h'⟩
  · cases h'
  · cases h'
  · injection h' with _ h'
    exact ⟨e, m, he, hm, h'⟩

theorem value64_lt {neg : Bool} {k : Nat} (h : IsValue f64 (.fin neg k)) : k < 2 ^ 1024 * 2 ^ f64.unit := by
  obtain ⟨e, m, he, hm, rfl⟩ := value_le h
  have h1 := mag_lt_pow (f := f64) (e := e) hm
  refine Nat.lt_of_lt_of_le h1 ?_
  rw [← Nat.pow_add]
  refine Nat.pow_le_pow_right (by decide) ?_
  rw [f64_w] at he
  rw [f64_p, f64_unit]
  omega

theorem whole_le {k c t U : Nat} (hU : 0 < U) (ht : 0 < t) (hk : k < c * U) :
    divEven (k * t) U / t ≤ c := by
  have h1 : divEven (k * t) U ≤ c * t := by
    refine divEven_le hU ?_
    have h2 : k * t < c * U * t := Nat.mul_lt_mul_of_pos_right hk ht
    have h4 : (2 * (c * t) + 1) * U = 2 * (c * U * t) + U := by grind
    rw [h4]
    omega
  exact Nat.div_le_of_le_mul (by rw [Nat.mul_comm t c]; exact h1)

theorem text64_short {neg : Bool} {k : Nat} (h : IsValue f64 (.fin neg k)) :
    (fixedText f64 15 (.fin neg k)).length ≤ 326 := by
  refine fixedText_length f64 (m := 309) neg k ?_ (by decide)
  exact Nat.lt_of_le_of_lt (whole_le (Nat.two_pow_pos _) (by decide) (value64_lt h)) (by decide +kernel)

/-- The text of every `double` fits. -/
theorem doubleText_ok {x : Flt} (h : IsValue f64 x) : doubleText x = .ok (fixedText f64 15 x) := by
  have hc : (cEq x (.fin false 0) && cLt x (.fin false 0)) = false := by
    cases x with
    | nan => rfl
    | inf neg => cases neg <;> rfl
    | fin neg k =>
      simp only [cEq, cLt, Bool.and_eq_false_iff, decide_eq_false_iff_not, beq_eq_false_iff_ne]
      omega
  have hl : (fixedText f64 15 x).length < 1079 := by
    cases x with
    | nan => decide
    | inf neg => cases neg <;> decide
    | fin neg k => have := text64_short h; omega
  unfold doubleText
  rw [hc, if_neg (by decide)]
  unfold sprintf
  rw [if_pos hl]

theorem ofDouble_ok {x : Flt} (h : IsValue f64 x) : ofDouble x = .ok ⟨x, fixedText f64 15 x⟩ := by
  unfold ofDouble
  rw [doubleText_ok h]
  rfl

theorem isValue_nan {f : Fmt} (F : f.Fits) : IsValue f .nan := by
  refine ⟨(2 ^ f.w - 1) * 2 ^ f.p + 1, ?_, ?_⟩
  · have hw := two_w_ge F
    have hp := F.hp
    have h1 : 2 ≤ 2 ^ f.p := by
      have := Nat.pow_le_pow_right (n := 2) (by decide) (show 1 ≤ f.p by omega)
      omega
    have : (2 ^ f.w - 1 + 1) * 2 ^ f.p ≤ 2 ^ (f.p + f.w) := by
      rw [Nat.sub_add_cancel (Nat.two_pow_pos _), ← Nat.pow_add, Nat.add_comm]; exact Nat.le_refl _
    rw [Nat.add_mul, Nat.one_mul] at this
    rw [Nat.pow_succ]
    omega
  · have hw := two_w_ge F
    have hp := F.hp
    have h1 : 2 ≤ 2 ^ f.p := by
      have := Nat.pow_le_pow_right (n := 2) (by decide) (show 1 ≤ f.p by omega)
      omega
    rw [ieee_pos (by have := Nat.two_pow_pos f.w; omega) (by omega), if_pos rfl]
    simp

theorem isValue_inf {f : Fmt} (F : f.Fits) (neg : Bool) : IsValue f (.inf neg) := by
  have hp := F.hp
  have hw := two_w_ge F
  have h2 := Nat.two_pow_pos f.w
  have hb : (2 ^ f.w - 1) * 2 ^ f.p < 2 ^ f.last := by
    have : f.last = f.w + f.p := Nat.add_comm ..
    rw [this, Nat.pow_add]
    exact Nat.mul_lt_mul_of_pos_right (by omega) (Nat.two_pow_pos _)
  have e2 : 2 ^ (f.p + f.w + 1) = 2 ^ f.last * 2 := Nat.pow_succ ..
  have hi := ieee_pos (f := f) (e := 2 ^ f.w - 1) (m := 0) (by omega) (Nat.two_pow_pos _)
  rw [if_pos rfl, Nat.add_zero] at hi
  cases neg
  · exact ⟨_, by omega, hi⟩
  · exact ⟨(2 ^ f.w - 1) * 2 ^ f.p + 2 ^ f.last, by omega, by rw [ieee_opp hb, hi]; rfl⟩

theorem numValue_dec {f : Fmt} {neg : Bool} {n a b : Nat} {x : Int} (h : Ratio n x a b) :
    numValue f (.dec neg n x) = nearest f neg a b ∧ 0 < b := by
  simp only [numValue]
  rcases h with ⟨h1, rfl, rfl⟩ | ⟨h1, rfl, rfl⟩
  · rw [if_pos h1]; exact ⟨rfl, by decide⟩
  · rw [if_neg (by omega)]; exact ⟨rfl, Nat.pow_pos (by decide)⟩

theorem parse_rounded {f : Fmt} (F : f.Fits) {t : List Char} {neg : Bool} {n a b : Nat} {x : Int}
    (h : Denotes t neg n x) (hr : Ratio n x a b) :
    readNum t = some (.dec neg n x) ∧ Rounded f neg a b (numValue f (.dec neg n x)) := by
  obtain ⟨h1, hb⟩ := numValue_dec (f := f) (neg := neg) hr
  have hw : 4 ≤ 2 ^ f.w := by have := F.hw; omega
  have hp := F.hp
  rw [h1]
  exact ⟨readNum_ok h, nearest_rounded (by omega) hw neg hb⟩

theorem rounded_value {f : Fmt} (F : f.Fits) {neg : Bool} {a b : Nat} {x : Flt} (h : Rounded f neg a b x) :
    IsValue f x := by
  unfold Rounded at h
  split at h
  · rw [h]; exact isValue_inf F neg
  · obtain ⟨k, _, h, _⟩ := h; exact h

/-- Twice the distance from a value to its text is at most one place. -/
theorem text_near (f : Fmt) (n k : Nat) :
    2 * ((divEven (k * 10 ^ n) (2 ^ f.unit) * 2 ^ f.unit : Nat) - (k * 10 ^ n : Nat) : Int).natAbs
      ≤ 2 ^ f.unit := by
  obtain ⟨h1, h2⟩ := divEven_range (a := k * 10 ^ n) (Nat.two_pow_pos f.unit)
  rw [Nat.add_mul, Nat.one_mul, Nat.mul_assoc] at h1
  rw [Nat.mul_assoc] at h2
  generalize divEven (k * 10 ^ n) (2 ^ f.unit) * 2 ^ f.unit = x at *
  generalize k * 10 ^ n = y at *
  generalize 2 ^ f.unit = z at *
  omega

theorem parse_fixed {f : Fmt} {n : Nat} (hn : n ≠ 0) (neg : Bool) (k : Nat) :
    readNum (fixedText f n (.fin neg k)) = some (.dec neg (divEven (k * 10 ^ n) (2 ^ f.unit)) (-(n : Int))) ∧
    numValue f (.dec neg (divEven (k * 10 ^ n) (2 ^ f.unit)) (-(n : Int)))
      = nearest f neg (divEven (k * 10 ^ n) (2 ^ f.unit)) (10 ^ n) := by
  refine ⟨readNum_ok (fixedText_denotes f neg k), ?_⟩
  refine (numValue_dec (.inr ⟨by omega, rfl, ?_⟩)).1
  rw [Int.neg_neg]; rfl

/-- A value whose text is exact is read back. -/
theorem fixed_exact {f : Fmt} (F : f.Fits) {n : Nat} {neg : Bool} {k c : Nat}
    (hk : IsValue f (.fin neg k)) (h : k * 10 ^ n = c * 2 ^ f.unit) :
    nearest f neg (divEven (k * 10 ^ n) (2 ^ f.unit)) (10 ^ n) = .fin neg k := by
  refine nearest_exact F neg (Nat.pow_pos (by decide)) hk ?_
  rw [h, divEven_exact (Nat.two_pow_pos _)]

theorem fixed_large {neg : Bool} {k : Nat} (hk : IsValue f64 (.fin neg k)) (h : 2 ^ 1077 ≤ k) :
    nearest f64 neg (divEven (k * 10 ^ 15) (2 ^ f64.unit)) (10 ^ 15) = .fin neg k := by
  obtain ⟨e, m, he, hm, hmag⟩ := value_le hk
  have hlt := mag_lt_pow (f := f64) (e := e) hm
  rw [← hmag, f64_p] at hlt
  have he1 : 1026 ≤ e := by
    have := (Nat.pow_lt_pow_iff_right (a := 2) (by decide)).1 (Nat.lt_of_le_of_lt h hlt)
    omega
  rw [f64_w] at he
  unfold mag at hmag
  rw [if_neg (by omega), f64_p] at hmag
  rw [f64_p] at hm
  by_cases hm0 : m = 0
  · obtain ⟨c, hc⟩ : ∃ c, e - 1 = 1022 + c := ⟨e - 1 - 1022, by omega⟩
    refine fixed_exact f64_fits (c := 2 ^ c * 10 ^ 15) hk ?_
    rw [hmag, hm0, hc, f64_unit, Nat.add_zero, Nat.pow_add 2 1022, ← Nat.mul_assoc, ← Nat.pow_add]
    exact (Nat.mul_assoc _ _ _).trans (Nat.mul_comm _ _)
  · have hnear := text_near f64 15 k
    rw [hmag]
    rw [hmag] at hnear
    generalize hs : 2 ^ 52 + m = s at *
    have hs1 : 2 ^ 52 < s := by omega
    have hs2 : s < 2 ^ 53 := by omega
    have hB : 2 ^ 1074 < 10 ^ 15 * 2 ^ (e - 1) := by
      have h1 : 10 ^ 15 * 2 ^ 1025 ≤ 10 ^ 15 * 2 ^ (e - 1) :=
        Nat.mul_le_mul_left _ (Nat.pow_le_pow_right (by decide) (by omega))
      exact Nat.lt_of_lt_of_le (by decide +kernel) h1
    have e1 : s * 2 ^ (e - 1) * 10 ^ 15 = s * (10 ^ 15 * 2 ^ (e - 1)) := by grind
    rw [e1, f64_unit] at hnear
    refine nearest_close neg (by decide) hs2 ?_ ?_ (.inr (.inl hs1)) ?_
    · rw [f64_unit, Nat.add_mul, Nat.one_mul, Nat.mul_assoc 2 s, e1]
      generalize s * (10 ^ 15 * 2 ^ (e - 1)) = y at *
      generalize 10 ^ 15 * 2 ^ (e - 1) = z at *
      generalize divEven y (2 ^ 1074) * 2 ^ 1074 = x at *
      generalize 2 ^ 1074 = w at *
      omega
    · rw [f64_unit, Nat.mul_assoc 2 s, e1]
      generalize s * (10 ^ 15 * 2 ^ (e - 1)) = y at *
      generalize 10 ^ 15 * 2 ^ (e - 1) = z at *
      generalize divEven y (2 ^ 1074) * 2 ^ 1074 = x at *
      generalize 2 ^ 1074 = w at *
      omega
    · unfold largest
      exact Nat.mul_le_mul (Nat.le_sub_one_of_lt hs2)
        (Nat.pow_le_pow_right (by decide) (by rw [f64_w]; omega))

theorem fixed_tiny {f : Fmt} {n k : Nat} (h : 2 * (k * 10 ^ n) < 2 ^ f.unit) :
    divEven (k * 10 ^ n) (2 ^ f.unit) = 0 :=
  Nat.le_zero.1 (divEven_le (Nat.two_pow_pos _) (by omega))

theorem nearest_zero {f : Fmt} (neg : Bool) {b : Nat} (hb : 0 < b) : nearest f neg 0 b = .fin neg 0 := by
  have := nearest_close (f := f) neg (a := 0) (s := 0) (e := 0) hb (Nat.two_pow_pos _)
    (by rw [Nat.zero_mul]; omega) (by rw [Nat.mul_zero, Nat.zero_mul]; omega) (.inl rfl) (by omega)
  rw [this, Nat.zero_mul]

/-! ### `%g` of whole numbers below a million -/

theorem decLoop_padded (fuel v : Nat) (h : v < 2 ^ fuel) (hf : fuel ≠ 0) :
    padded (decLoop fuel v).length v = decLoop fuel v := by
  induction fuel generalizing v with
  | zero => exact absurd rfl hf
  | succ fuel ih =>
    unfold decLoop
    split
    · rfl
    · rename_i hv
      have hlt : v / 10 < 2 ^ fuel := by rw [Nat.pow_succ] at h; omega
      have hf0 : fuel ≠ 0 := by rintro rfl; rw [Nat.pow_zero] at hlt; omega
      have := ih (v / 10) hlt hf0
      rw [List.length_append, List.length_singleton]
      show padded (decLoop fuel (v / 10)).length (v / 10) ++ [digit v] = _
      rw [this]

theorem decimal_padded (v : Nat) : padded (decimal v).length v = decimal v :=
  decLoop_padded _ _ Nat.lt_log2_self (Nat.succ_ne_zero _)

theorem padded_zeros (m j n : Nat) : padded (m + j) (n * 10 ^ j) = padded m n ++ List.replicate j '0' := by
  induction j with
  | zero => rw [Nat.pow_zero, Nat.mul_one, List.replicate_zero, List.append_nil]; rfl
  | succ j ih =>
    have e1 : n * 10 ^ (j + 1) = n * 10 ^ j * 10 := by rw [Nat.pow_succ, Nat.mul_assoc]
    show padded (m + j) (n * 10 ^ (j + 1) / 10) ++ [digit (n * 10 ^ (j + 1))] = _
    have e2 : digit (n * 10 ^ j * 10) = '0' := by
      unfold digit
      rw [Nat.mul_mod_left]
    rw [e1, Nat.mul_div_cancel _ (by decide), ih, e2, List.replicate_succ', List.append_assoc]

theorem dropZeros_replicate (j : Nat) : dropZeros (List.replicate j '0') = [] := by
  unfold dropZeros
  rw [List.reverse_replicate]
  have : (List.replicate j '0').dropWhile (· = '0') = [] := by
    induction j with
    | zero => rfl
    | succ j ih => rw [List.replicate_succ, List.dropWhile_cons_of_pos (by decide), ih]
  rw [this]
  rfl

theorem shortText_whole {f : Fmt} {n : Nat} (neg : Bool) (hn : n < 10 ^ 6) (h0 : n ≠ 0) :
    shortText f (.fin neg (n * 2 ^ f.unit)) = signText neg ++ decimal n := by
  have hU := Nat.two_pow_pos f.unit
  obtain ⟨h1, h2, h3, h4⟩ := decimal_ok n
  have hlen := h4 6 (by decide) hn
  have hpos : 0 < (decimal n).length := List.length_pos_iff.2 h2
  have hpad := decimal_padded n
  have hex : exponent10 f (n * 2 ^ f.unit) = ((decimal n).length : Int) - 1 := by
    unfold exponent10
    rw [if_pos (Nat.le_mul_of_pos_left _ (by omega)), Nat.mul_div_cancel _ hU]
  obtain ⟨j, hj⟩ : ∃ j, (decimal n).length + j = 6 := ⟨6 - (decimal n).length, by omega⟩
  have hpm := padded_val (decimal n).length n
  rw [hpad, h3] at hpm
  have hlt : n < 10 ^ (decimal n).length := by
    exact Nat.lt_of_le_of_lt (Nat.le_of_eq hpm) (Nat.mod_lt n (Nat.pow_pos (by decide)))
  have hv : n * 10 ^ j < 10 ^ 6 := by
    rw [← hj, Nat.pow_add]
    exact Nat.mul_lt_mul_of_pos_right hlt (Nat.pow_pos (by decide))
  have hsc : scaled f (n * 2 ^ f.unit) (5 - (((decimal n).length : Int) - 1)) = n * 10 ^ j := by
    unfold scaled
    have e1 : 5 - (((decimal n).length : Int) - 1) = (j : Int) := by omega
    rw [e1, if_pos (by omega), Int.toNat_natCast, Nat.mul_right_comm, divEven_exact hU]
  have hp6 : padded 6 (n * 10 ^ j) = decimal n ++ List.replicate j '0' := by
    rw [← hj, padded_zeros, hpad]
  have hne : ¬ n * 2 ^ f.unit = 0 := Nat.ne_of_gt (Nat.mul_pos (by omega) hU)
  simp only [shortText]
  have hne6 : ¬ n * 10 ^ j = 10 ^ 6 := Nat.ne_of_lt hv
  rw [if_neg hne, hex, hsc, if_neg hne6, if_neg hne6, hp6]
  rw [if_neg (show ¬ (((decimal n).length : Int) - 1 < -4 ∨ 6 ≤ ((decimal n).length : Int) - 1) by omega),
    if_pos (show (0 : Int) ≤ ((decimal n).length : Int) - 1 by omega)]
  have e2 : (((decimal n).length : Int) - 1).toNat + 1 = (decimal n).length := by omega
  rw [e2, List.take_left', List.drop_left', dropZeros_replicate]
  · show signText neg ++ (decimal n ++ []) = _
    rw [List.append_nil]
  · rfl
  · rfl

theorem decimal_denotes (neg : Bool) (n : Nat) : Denotes (signText neg ++ decimal n) neg n 0 := by
  obtain ⟨h1, h2, h3, _⟩ := decimal_ok n
  refine ⟨signText neg, decimal n, [], [], [], 0, ?_, h1, h2, digits_nil, .inr ⟨rfl, rfl⟩,
    .inl ⟨rfl, rfl⟩, ?_, ?_, rfl⟩
  · cases neg
    · exact .inr ⟨.inl rfl, rfl⟩
    · exact .inl ⟨rfl, rfl⟩
  · simp
  · rw [List.append_nil, h3]

end Verif.FloatText
